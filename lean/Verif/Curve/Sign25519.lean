import Verif.Curve.Points25519
import Verif.Real.Prims

/-!
# Ed25519 signatures verify

The base point has order `ℓ` (by evaluating `ℓ·B`), so `s·B - k·A` is `r·B` when
`s = r + k·a mod ℓ`.
-/

namespace Pasta.Curve.E25519

open Pasta.Real (powMod fit)
open Pasta.Real.Ed (p d)
open Pasta.Real

def baseX : ℕ := 15112221349535400772501151409588531511454012693041857206046113283949847762202
def baseY : ℕ := 46316835694926478169428394003475163141307993866256225615783033603165251855960

theorem base_on : OnEd ((d : ℕ) : F) (baseX : F) (baseY : F) := by
  have h : Ed.add (Ed.mul baseX baseX) (Ed.add 1 (Ed.mul (Ed.mul d (Ed.mul baseX baseX))
      (Ed.mul baseY baseY))) = Ed.mul baseY baseY := by decide +kernel
  have h := congrArg (Nat.cast (R := F)) h
  simp only [cast_add, cast_mul, Nat.cast_one] at h
  unfold OnEd
  linear_combination -h

/-- The base point. -/
def B : G := ⟨_, _, base_on⟩

theorem rep_base : Rep Ed.base B where
  ltx := by decide +kernel
  lty := by decide +kernel
  ltz := by decide +kernel
  ltt := by decide +kernel
  x := by
    rw [show Ed.base.x = baseX by decide +kernel, show Ed.base.z = 1 by decide +kernel,
      Nat.cast_one, mul_one]
    rfl
  y := by
    rw [show Ed.base.y = baseY by decide +kernel, show Ed.base.z = 1 by decide +kernel,
      Nat.cast_one, mul_one]
    rfl
  t := by
    rw [show Ed.base.t = Ed.mul baseX baseY by decide +kernel,
      show Ed.base.z = 1 by decide +kernel, Nat.cast_one, mul_one, cast_mul]
    rfl
  z := by
    rw [show Ed.base.z = 1 by decide +kernel, Nat.cast_one]
    exact one_ne_zero

/-- A point is known by the coordinates that the code computes. -/
theorem eq_of_rep {P : Ed.Pt} {g h : G} (hg : Rep P g) (hh : Rep P h) : g = h := by
  apply EdPt.ext
  · exact mul_right_cancel₀ hg.z (hg.x.symm.trans hh.x)
  · exact mul_right_cancel₀ hg.z (hg.y.symm.trans hh.y)

theorem order_base : ed25519Order • B = 0 := by
  have h := rep_smul rep_base ed25519Order
  have hx : (Ed.base.smul ed25519Order).x = 0 := by decide +kernel
  have hyz : (Ed.base.smul ed25519Order).y = (Ed.base.smul ed25519Order).z := by decide +kernel
  apply EdPt.ext
  · have h1 := h.x
    rw [hx, Nat.cast_zero] at h1
    exact (mul_eq_zero.1 h1.symm).resolve_right h.z
  · have h1 := h.y
    rw [hyz] at h1
    exact mul_right_cancel₀ h.z (h1.symm.trans (one_mul _).symm)

theorem smul_mod (n : ℕ) : (n % ed25519Order) • B = n • B := by
  conv_rhs => rw [← Nat.div_add_mod n ed25519Order, add_nsmul, mul_comm, mul_nsmul', order_base,
    nsmul_zero, zero_add]

theorem publicBytes_eq (seed : BytesN 32) :
    Ed.publicBytes seed = enc ((Ed.expand seed).1 • B) := encode_rep (rep_smul rep_base _)

theorem edKey_of {b : BytesN 32} (h : edOk b = true) :
    edKey b = some ⟨b, h⟩ := by
  unfold edKey
  rw [dif_pos h]

theorem edPublic_val (seed : BytesN 32) :
    (prims.edPublic seed : EdKey).1 = enc ((Ed.expand seed).1 • B) := by
  obtain ⟨P, hP, _⟩ := decode_enc ((Ed.expand seed).1 • B)
  have h : edOk (Ed.publicBytes seed) = true := by
    unfold edOk
    rw [publicBytes_eq, hP, Option.isSome_some]
  show ((edKey (Ed.publicBytes seed)).getD edDefault).1 = _
  rw [edKey_of h]
  exact publicBytes_eq seed

/-- The equation that verification checks. -/
theorem sign_eq (r k a : ℕ) :
    ((r + k * a) % ed25519Order) • B + k • -(a • B) = r • B := by
  rw [smul_mod, add_nsmul, mul_comm, mul_nsmul, smul_neg]
  exact add_neg_cancel_right _ _

theorem order_lt : ed25519Order < 256 ^ 32 := by decide
theorem order_pos : 0 < ed25519Order := by decide

theorem verifyWith_signWith (a : ℕ) (pre pk m : Bytes) {A : Ed.Pt} (rA : Rep A (a • B)) :
    Ed.verifyWith A pk m (Ed.signWith a pre pk m).1 = true := by
  unfold Ed.signWith
  simp only
  generalize leNat (sha512 (pre ++ m)).1 % ed25519Order = r
  have hR := encode_rep (rep_smul rep_base r)
  rw [hR]
  have lR : (enc (r • B)).1.length = 32 := (enc _).2
  generalize hk : leNat (sha512 ((enc (r • B)).1 ++ pk ++ m)).1 % ed25519Order = k
  have ls : (leBytes 32 ((r + k * a) % ed25519Order)).length = 32 := leBytes_length _ _
  rw [fit_of_length (by rw [List.length_append, lR, ls])]
  have hs : (r + k * a) % ed25519Order < ed25519Order := Nat.mod_lt _ order_pos
  have hrep := rep_add (rep_smul rep_base ((r + k * a) % ed25519Order)) (rep_smul (rep_neg rA) k)
  rw [sign_eq] at hrep
  unfold Ed.verifyWith
  simp only [List.take_left' lR, List.drop_left' lR, leNat_leBytes,
    Nat.mod_eq_of_lt (hs.trans order_lt), hk, encode_rep hrep]
  rw [if_neg (Nat.not_le.2 hs)]
  exact beq_self_eq_true _

theorem verify_some {pk m sig : Bytes} {A : Ed.Pt} (h : Ed.decode pk = some A) :
    Ed.verify pk m sig = Ed.verifyWith A pk m sig := by
  unfold Ed.verify
  rw [h, Option.any_some]

theorem verify_sign (seed : BytesN 32) (m : Bytes) :
    Ed.verify (Ed.publicBytes seed).1 m (Ed.sign seed m).1 = true := by
  unfold Ed.sign
  obtain ⟨A, hA, rA⟩ := decode_enc ((Ed.expand seed).1 • B)
  have hpk := publicBytes_eq seed
  generalize Ed.publicBytes seed = pk at hpk ⊢
  generalize (Ed.expand seed).1 = a at *
  subst hpk
  rw [verify_some hA]
  exact verifyWith_signWith _ _ _ _ rA

end Pasta.Curve.E25519
