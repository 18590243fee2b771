import Verif.Curve.Ladder25519

/-!
# The laws of `Prims.Laws` about Ed25519 and X25519, for the real algorithms
-/

namespace Pasta.Curve.E25519

open Pasta.Real (prims fit)
open Pasta.Real.Ed (p d)
open Pasta.Real

theorem honest_base : Honest B := ⟨order_base⟩

theorem edBytes_of_parse (b : BytesN 32) (k : prims.EdPoint) (h : prims.edParse b = some k) :
    prims.edBytes k = b := by
  have : ∀ k : EdKey, edKey b = some k → k.1 = b := by
    intro k h
    unfold edKey at h
    split at h
    · cases h; rfl
    · cases h
  exact this k h

theorem edParse_bytes (k : prims.EdPoint) : prims.edParse (prims.edBytes k) = some k := by
  have : ∀ k : EdKey, edKey k.1 = some k := fun k => edKey_of k.2
  exact this k

theorem edVerify_sign (seed : BytesN 32) (m : Bytes) :
    prims.edVerify (prims.edPublic seed) m (prims.edSign seed m) = true := by
  have : ∀ k : EdKey, k.1 = Ed.publicBytes seed → Ed.verify k.1.1 m (Ed.sign seed m).1 = true := by
    intro k h
    rw [h]
    exact verify_sign seed m
  exact this _ ((edPublic_val seed).trans (publicBytes_eq seed).symm)

theorem montMulBase_eq (e : ℕ) : prims.montMulBase e = montEnc (mont (e • B)) :=
  toMontgomery_rep (rep_smul rep_base e)

theorem edToMontgomery_eq (seed : BytesN 32) :
    prims.edToMontgomery (prims.edPublic seed) = montEnc (mont ((Ed.expand seed).1 • B)) := by
  have : ∀ k : EdKey, k.1 = enc ((Ed.expand seed).1 • B) →
      ((Ed.decode k.1.1).getD Ed.zero).toMontgomery = montEnc (mont ((Ed.expand seed).1 • B)) := by
    intro k h
    obtain ⟨P, hP, r⟩ := decode_enc ((Ed.expand seed).1 • B)
    rw [h, hP, Option.getD_some]
    exact toMontgomery_rep r
  exact this _ (edPublic_val seed)

theorem edScalar_eq (seed : BytesN 32) : prims.edScalar seed = (Ed.expand seed).1 % ed25519Order :=
  rfl

theorem montMul_eq {n : ℕ} (hn : n < 2 ^ 255) (m : ℕ) :
    prims.montMul n (montEnc (mont (m • B))) = montEnc (mont ((n * m) • B)) := by
  rw [mul_comm, mul_nsmul]
  exact ladder_spec (m • B) hn

theorem order_lt255 : ed25519Order < 2 ^ 255 := by decide

theorem mod_lt255 (e : ℕ) : e % ed25519Order < 2 ^ 255 :=
  (Nat.mod_lt _ order_pos).trans order_lt255

theorem smul_congr {a b : ℕ} (h : a % ed25519Order = b % ed25519Order) : a • B = b • B := by
  rw [← smul_mod a, h, smul_mod]

theorem x25519_comm (seed : BytesN 32) (e : ℕ) (he : e < 2 ^ 255) :
    prims.montMul e (prims.edToMontgomery (prims.edPublic seed)) =
      prims.montMul (prims.edScalar seed) (prims.montMulBase e) := by
  rw [edToMontgomery_eq, montMulBase_eq, edScalar_eq, montMul_eq he, montMul_eq (mod_lt255 _)]
  congr 2
  apply smul_congr
  rw [mul_comm, Nat.mod_mul_mod]

theorem montMulBase_mod (e : ℕ) : prims.montMulBase (e % ed25519Order) = prims.montMulBase e := by
  rw [montMulBase_eq, montMulBase_eq, smul_mod]

theorem montMul_mod (e : ℕ) (seed : BytesN 32) (he : e < 2 ^ 255) :
    prims.montMul (e % ed25519Order) (prims.edToMontgomery (prims.edPublic seed)) =
      prims.montMul e (prims.edToMontgomery (prims.edPublic seed)) := by
  rw [edToMontgomery_eq, montMul_eq he, montMul_eq (mod_lt255 _)]
  congr 2
  apply smul_congr
  rw [Nat.mod_mul_mod]

theorem montMul_mod_base (e e' : ℕ) (he : e < 2 ^ 255) :
    prims.montMul (e % ed25519Order) (prims.montMulBase e') =
      prims.montMul e (prims.montMulBase e') := by
  rw [montMulBase_eq, montMul_eq he, montMul_eq (mod_lt255 _)]
  congr 2
  apply smul_congr
  rw [Nat.mod_mul_mod]

end Pasta.Curve.E25519
