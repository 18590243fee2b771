import Verif.Curve.Order25519
import Verif.Lemmas.Pke

/-!
# Which scalars of Curve25519 have the same public key

In the Edwards form, two clamped scalars have the same multiple of the base point only if they are
equal. In the Montgomery form, which forgets the sign of a point, also if they sum to eight times the
order of the base point.
-/

namespace Pasta.Curve.E25519

open Pasta.Real (prims fit)
open Pasta.Real.Ed (p d)
open Pasta.Real

/-- The Montgomery coordinate determines a point of odd order up to its sign. -/
theorem mont_inj {g h : G} (hg : Honest g) (hh : Honest h) (e : mont g = mont h) :
    g = h ∨ g = -h := by
  have eq_y : g.y = h.y := by
    have ng : (1 : F) + g.y ≠ 0 := fun e => hg.y_ne_neg (by linear_combination e)
    have nh : (1 : F) + h.y ≠ 0 := fun e => hh.y_ne_neg (by linear_combination e)
    unfold mont at e
    by_cases h1 : (1 : F) - g.y = 0
    · by_cases h2 : (1 : F) - h.y = 0
      · linear_combination h2 - h1
      · rw [h1, div_zero, eq_comm, div_eq_zero_iff] at e
        exact absurd e (not_or.2 ⟨nh, h2⟩)
    · by_cases h2 : (1 : F) - h.y = 0
      · rw [h2, div_zero, div_eq_zero_iff] at e
        exact absurd e (not_or.2 ⟨ng, h1⟩)
      · rw [div_eq_div_iff h1 h2] at e
        have := two_ne
        have e : (2 : F) * (g.y - h.y) = 0 := by linear_combination e
        exact sub_eq_zero.1 ((mul_eq_zero.1 e).resolve_left this)
  have cg := curve_uv g
  have ch := curve_uv h
  rw [eq_y, ch] at cg
  have hx := mul_left_cancel₀ (v_ne h) cg
  rcases sq_eq hx with h1 | h1
  · exact .inl (EdPt.ext h1.symm eq_y)
  · refine .inr (EdPt.ext ?_ eq_y)
    show g.x = -h.x
    rw [h1, neg_neg]

theorem mont_neg (g : G) : mont (-g) = mont g := rfl

theorem montEnc_inj {u w : F} (h : montEnc u = montEnc w) : u = w := by
  have h := congrArg (fun b => leNat b.1 % 2 ^ 255 % p) h
  simp only [montEnc_nat] at h
  exact ZMod.val_injective _ h

/-- Two scalars have the same Montgomery public key exactly when they or their sum vanish modulo
the order. -/
theorem montMulBase_eq_iff (a b : ℕ) : prims.montMulBase a = prims.montMulBase b ↔
    a % ed25519Order = b % ed25519Order ∨ (a + b) % ed25519Order = 0 := by
  rw [montMulBase_eq, montMulBase_eq]
  have h0 : (a + b) % ed25519Order = 0 ↔ a • B = -(b • B) := by
    rw [eq_neg_iff_add_eq_zero, ← add_nsmul, ← addOrderOf_dvd_iff_nsmul_eq_zero, addOrder,
      Nat.dvd_iff_mod_eq_zero]
  have h1 : a % ed25519Order = b % ed25519Order ↔ a • B = b • B := by
    rw [nsmul_eq_nsmul_iff_modEq, addOrder]; rfl
  rw [h0, h1]
  constructor
  · intro e
    exact mont_inj (honest_base.smul a) (honest_base.smul b) (montEnc_inj e)
  · rintro (e | e)
    · rw [e]
    · rw [e, mont_neg]

theorem coprime_order {n : ℕ} (h : ed25519Order ∣ 8 * n) : ed25519Order ∣ n :=
  (Nat.Coprime.dvd_mul_left (by decide +kernel)).1 h

theorem clamped (k : BytesN 32) : ∃ n, Spec.decodeScalar25519 k = 8 * n ∧ 2 ^ 251 ≤ n ∧ n < 2 ^ 252 := by
  refine ⟨2 ^ 251 + leNat k.1 % 2 ^ 254 / 8, ?_, ?_, ?_⟩
  · unfold Spec.decodeScalar25519; omega
  · omega
  · omega

/-- Clamped scalars are determined by their residue. -/
theorem clamped_mod (j k : BytesN 32) : Spec.decodeScalar25519 j % ed25519Order =
    Spec.decodeScalar25519 k % ed25519Order ↔
      Spec.decodeScalar25519 j = Spec.decodeScalar25519 k := by
  refine ⟨fun h => ?_, fun h => by rw [h]⟩
  obtain ⟨m, hm, m1, m2⟩ := clamped j
  obtain ⟨n, hn, n1, n2⟩ := clamped k
  rw [hm, hn] at h ⊢
  have key : ∀ m n : ℕ, m ≤ n → n < 2 ^ 252 → 8 * m % ed25519Order = 8 * n % ed25519Order → m = n := by
    intro m n hle hlt h
    have hd := (Nat.modEq_iff_dvd' (Nat.mul_le_mul_left 8 hle)).1 h
    rw [← Nat.mul_sub] at hd
    have hd := coprime_order hd
    have : (2 : ℕ) ^ 252 < ed25519Order := by decide +kernel
    have := Nat.eq_zero_of_dvd_of_lt hd (by omega)
    omega
  rcases Nat.le_total m n with hl | hl
  · rw [key m n hl n2 h]
  · rw [key n m hl m2 h.symm]

/-- Clamped scalars whose sum vanishes modulo the order sum to eight times the order. -/
theorem clamped_add (j k : BytesN 32) :
    (Spec.decodeScalar25519 j + Spec.decodeScalar25519 k) % ed25519Order = 0 ↔
      Spec.decodeScalar25519 j + Spec.decodeScalar25519 k = 8 * ed25519Order := by
  refine ⟨fun h => ?_, fun h => by rw [h, Nat.mul_mod_left]⟩
  obtain ⟨m, hm, m1, m2⟩ := clamped j
  obtain ⟨n, hn, n1, n2⟩ := clamped k
  rw [hm, hn, ← Nat.mul_add] at h ⊢
  obtain ⟨c, hc⟩ := coprime_order (Nat.dvd_of_mod_eq_zero h)
  have lo : (2 : ℕ) ^ 252 < ed25519Order := by decide +kernel
  rw [hc]
  have : c = 1 := by
    rcases c with _ | _ | c
    · omega
    · rfl
    · exfalso
      have : ed25519Order * 2 ≤ ed25519Order * (c + 1 + 1) := Nat.mul_le_mul_left _ (by omega)
      omega
  rw [this, Nat.mul_one]

theorem expand_eq (seed : BytesN 32) :
    (Ed.expand seed).1 = Spec.decodeScalar25519 (prims.edSecretHalf seed) :=
  leNat_clampInteger _

/-- Seeds have the same Ed25519 public key exactly when they have the same scalar. -/
theorem edPublic_eq_iff (s t : BytesN 32) : prims.edPublic s = prims.edPublic t ↔
    Spec.decodeScalar25519 (prims.edSecretHalf s) =
      Spec.decodeScalar25519 (prims.edSecretHalf t) := by
  rw [← clamped_mod, ← expand_eq, ← expand_eq]
  have h1 : (Ed.expand s).1 % ed25519Order = (Ed.expand t).1 % ed25519Order ↔
      (Ed.expand s).1 • B = (Ed.expand t).1 • B := by
    rw [nsmul_eq_nsmul_iff_modEq, addOrder]; rfl
  rw [h1]
  have key : ∀ a b : EdKey, a.1 = enc ((Ed.expand s).1 • B) → b.1 = enc ((Ed.expand t).1 • B) →
      (a = b ↔ (Ed.expand s).1 • B = (Ed.expand t).1 • B) := by
    intro a b ha hb
    rw [Subtype.ext_iff, ha, hb]
    exact ⟨enc_inj, fun e => by rw [e]⟩
  exact key _ _ (edPublic_val s) (edPublic_val t)

/-- Seeds have the same X25519 public key exactly when their scalars are equal or opposite. -/
theorem edToMontgomery_eq_iff (s t : BytesN 32) :
    prims.edToMontgomery (prims.edPublic s) = prims.edToMontgomery (prims.edPublic t) ↔
    Spec.decodeScalar25519 (prims.edSecretHalf s) =
      Spec.decodeScalar25519 (prims.edSecretHalf t) ∨
    Spec.decodeScalar25519 (prims.edSecretHalf s) +
      Spec.decodeScalar25519 (prims.edSecretHalf t) = 8 * ed25519Order := by
  rw [edToMontgomery_eq, edToMontgomery_eq, ← montMulBase_eq, ← montMulBase_eq, montMulBase_eq_iff,
    expand_eq, expand_eq, clamped_mod, clamped_add]

/-- Ephemeral keys of the sealing operation. -/
theorem ephemeral_eq_iff (j k : BytesN 32) :
    prims.montMulBase (scalarModOrder (clampInteger j)) =
      prims.montMulBase (scalarModOrder (clampInteger k)) ↔
    Spec.decodeScalar25519 j = Spec.decodeScalar25519 k ∨
      Spec.decodeScalar25519 j + Spec.decodeScalar25519 k = 8 * ed25519Order := by
  rw [montMulBase_eq_iff, scalar_eq, scalar_eq, Nat.mod_mod, Nat.mod_mod, ← Nat.add_mod,
    clamped_mod, clamped_add]

/-- The neutral element as an X25519 key is zero, and so is every multiple. -/
theorem montEnc_zero : montEnc (mont 0) = ⟨List.replicate 32 0, by rfl⟩ := by
  have : mont (0 : G) = 0 := by simp [mont]
  rw [this]
  unfold montEnc
  rw [ZMod.val_zero]
  decide +kernel

theorem montMul_zero {n : ℕ} (hn : n < 2 ^ 255) :
    prims.montMul n (montEnc (mont 0)) = montEnc (mont 0) := by
  have := ladder_spec (0 : G) hn
  rw [nsmul_zero] at this
  exact this

theorem edToMontgomery_zero (k : EdKey) (hk : k.1 = weak) :
    prims.edToMontgomery k = montEnc (mont 0) := by
  obtain ⟨P, hP, r⟩ := decode_enc 0
  rw [enc_zero] at hP
  show ((Ed.decode k.1.1).getD Ed.zero).toMontgomery = _
  rw [hk, hP, Option.getD_some]
  exact toMontgomery_rep r

end Pasta.Curve.E25519
