import Verif.Curve.Mont25519
import Mathlib.GroupTheory.OrderOfElement
import Mathlib.GroupTheory.SpecificGroups.Cyclic

/-!
# Curve25519 has exactly `8ℓ` points

There are points of order `ℓ` (the base point) and 8, and at most `2p < 16ℓ` points. So the order of
a point divides 8 or is divisible by `ℓ`, and there are eight points of the first kind. For Ed25519: a
signature that verifies for two messages under a key of the second kind shows a collision of the
challenge hash.
-/

namespace Pasta.Curve.E25519

open Pasta.Real (prims fit)
open Pasta.Real.Ed (p d)
open Pasta.Real

def t8x : ℕ := 14399317868200118260347934320527232580618823971194345261214217575416788799818
def t8y : ℕ := 55188659117513257062467267217118295137698188065244968500265048394206261417927

theorem t8_on : OnEd ((d : ℕ) : F) (t8x : F) (t8y : F) := by
  have h : Ed.add (Ed.sub 0 (Ed.mul t8x t8x)) (Ed.mul t8y t8y) =
      Ed.add 1 (Ed.mul d (Ed.mul (Ed.mul t8x t8x) (Ed.mul t8y t8y))) := by decide +kernel
  have h := congrArg (Nat.cast (R := F)) h
  simp only [cast_add, cast_mul, cast_sub _ (mul_lt _ _).le] at h
  unfold OnEd
  push_cast at h
  linear_combination h

/-- A point of order 8 -/
def T8 : G := ⟨_, _, t8_on⟩

def t8 : Ed.Pt := ⟨t8x, t8y, 1, Ed.mul t8x t8y⟩

theorem rep_t8 : Rep t8 T8 := by
  refine ⟨by decide +kernel, by decide +kernel, one_lt_p, mul_lt _ _, ?_, ?_, ?_, ?_⟩
  · show ((t8x : ℕ) : F) = t8x * ((1 : ℕ) : F)
    rw [Nat.cast_one, mul_one]
  · show ((t8y : ℕ) : F) = t8y * ((1 : ℕ) : F)
    rw [Nat.cast_one, mul_one]
  · show ((Ed.mul t8x t8y : ℕ) : F) = t8x * t8y * ((1 : ℕ) : F)
    rw [cast_mul, Nat.cast_one, mul_one]
  · show ((1 : ℕ) : F) ≠ 0
    rw [Nat.cast_one]; exact one_ne_zero

theorem t8_eight : 8 • T8 = 0 := by
  have h := rep_smul rep_t8 8
  have hx : (t8.smul 8).x = 0 := by decide +kernel
  have hyz : (t8.smul 8).y = (t8.smul 8).z := by decide +kernel
  apply EdPt.ext
  · have h1 := h.x
    rw [hx, Nat.cast_zero] at h1
    exact (mul_eq_zero.1 h1.symm).resolve_right h.z
  · have h1 := h.y
    rw [hyz] at h1
    exact mul_right_cancel₀ h.z (h1.symm.trans (one_mul _).symm)

/-- The y coordinates of the multiples, as computed. -/
theorem t8_y (j : ℕ) : (j • T8).y.val = Ed.mul (t8.smul j).y (Ed.inv (t8.smul j).z) :=
  (affine_y (rep_smul rep_t8 j)).symm

theorem t8_four : 4 • T8 ≠ 0 := by
  intro h
  have h1 := t8_y 4
  rw [h] at h1
  have h2 : (0 : G).y.val = 1 := by
    show (1 : F).val = 1
    rw [← Nat.cast_one, ZMod.val_natCast_of_lt one_lt_p]
  rw [h2] at h1
  revert h1
  decide +kernel

theorem t8_order : addOrderOf T8 = 8 := by
  have : addOrderOf T8 = 2 ^ (2 + 1) :=
    addOrderOf_eq_prime_pow (p := 2) (n := 2) t8_four t8_eight
  exact this

theorem code_inj : Function.Injective (fun g : G => (g.y, g.x.val % 2 == 1)) := by
  intro g h e
  simp only [Prod.mk.injEq] at e
  obtain ⟨e1, e2⟩ := e
  have e2 : g.x.val % 2 = h.x.val % 2 := by
    rcases Nat.mod_two_eq_zero_or_one g.x.val with h1 | h1 <;>
      rcases Nat.mod_two_eq_zero_or_one h.x.val with h2 | h2 <;> simp [h1, h2] at e2 ⊢
  apply enc_inj
  unfold enc
  rw [e1, e2]

instance : NeZero p := ⟨p_pos.ne'⟩
instance : Finite G := Finite.of_injective _ code_inj

theorem card_le : Nat.card G ≤ 2 * p := by
  have h := Nat.card_le_card_of_injective _ code_inj
  rw [Nat.card_prod, Nat.card_zmod, Nat.card_eq_fintype_card (α := Bool),
    Fintype.card_bool, mul_comm] at h
  exact h

/-- A generator -/
def gen : G := T8 + B

theorem gen_order : addOrderOf gen = 8 * ed25519Order := by
  unfold gen
  rw [AddCommute.addOrderOf_add_eq_mul_addOrderOf_of_coprime (AddCommute.all _ _), t8_order, addOrder]
  rw [t8_order, addOrder]
  decide +kernel

theorem card : Nat.card G = 8 * ed25519Order := by
  have h1 : 8 * ed25519Order ∣ Nat.card G := gen_order ▸ addOrderOf_dvd_natCard gen
  obtain ⟨c, hc⟩ := h1
  have h2 := card_le
  have h3 : 0 < Nat.card G := Nat.card_pos
  have h4 : 2 * p < 8 * ed25519Order * 2 := by decide +kernel
  rcases c with _ | _ | c
  · omega
  · rw [hc, zero_add, mul_one]
  · exfalso
    have : 8 * ed25519Order * 2 ≤ 8 * ed25519Order * (c + 1 + 1) := Nat.mul_le_mul_left _ (by omega)
    omega

/-- The order of a point divides 8 or is a multiple of `ℓ`. -/
theorem order_cases (g : G) : 8 • g = 0 ∨ ed25519Order ∣ addOrderOf g := by
  have h : addOrderOf g ∣ 8 * ed25519Order := card ▸ addOrderOf_dvd_natCard g
  rcases (Nat.coprime_or_dvd_of_prime prime_ed25519Order (addOrderOf g)) with hc | hd
  · left
    exact addOrderOf_dvd_iff_nsmul_eq_zero.1 (hc.symm.dvd_of_dvd_mul_right h)
  · exact .inr hd

/-- The points whose order divides 8. -/
theorem small_order (g : G) (h : 8 • g = 0) : ∃ j < 8, g = j • T8 := by
  have hz : g ∈ AddSubgroup.zmultiples gen := by
    have : AddSubgroup.zmultiples gen = ⊤ := by
      apply AddSubgroup.eq_top_of_card_eq
      rw [Nat.card_zmultiples, gen_order, card]
    rw [this]
    exact AddSubgroup.mem_top g
  classical
  rw [mem_zmultiples_iff_mem_range_addOrderOf] at hz
  simp only [Finset.mem_image, Finset.mem_range] at hz
  obtain ⟨n, hn, rfl⟩ := hz
  rw [← mul_nsmul', ← addOrderOf_dvd_iff_nsmul_eq_zero, gen_order] at h
  have hd : ed25519Order ∣ n := Nat.dvd_of_mul_dvd_mul_left (by decide) h
  obtain ⟨m, rfl⟩ := hd
  have e : (ed25519Order * m) • gen = (ed25519Order * m) • T8 := by
    unfold gen
    rw [nsmul_add, mul_comm, mul_nsmul', mul_nsmul' B, order_base, nsmul_zero, add_zero]
  refine ⟨ed25519Order * m % 8, Nat.mod_lt _ (by decide), ?_⟩
  rw [e]
  conv_rhs => rw [← t8_order]
  exact (mod_addOrderOf_nsmul T8 _).symm

/-- The y coordinates of the points whose order divides 8 -/
def smallY : List ℕ := [1, t8y, 0, p - t8y, p - 1]

theorem small_y_iff (g : G) : 8 • g = 0 ↔ g.y.val ∈ smallY := by
  have ys : ∀ j < 8, (j • T8).y.val ∈ smallY := by
    intro j hj
    rw [t8_y]
    revert j
    decide +kernel
  constructor
  · intro h
    obtain ⟨j, hj, rfl⟩ := small_order g h
    exact ys j hj
  · intro h
    have hit : ∀ y ∈ smallY, ∃ j < 8, Ed.mul (t8.smul j).y (Ed.inv (t8.smul j).z) = y := by
      decide +kernel
    obtain ⟨j, _, hj⟩ := hit _ h
    rw [← t8_y] at hj
    have eq_y : (j • T8).y = g.y := ZMod.val_injective _ hj
    have cg := curve_uv g
    have ch := curve_uv (j • T8)
    rw [eq_y, cg] at ch
    have hx := mul_left_cancel₀ (v_ne g) ch
    have h8 : 8 • (j • T8) = 0 := by rw [smul_comm, t8_eight, nsmul_zero]
    rcases sq_eq hx with h1 | h1
    · rw [show g = j • T8 from EdPt.ext h1 eq_y.symm, h8]
    · rw [show g = -(j • T8) from EdPt.ext h1 eq_y.symm, smul_neg, h8, neg_zero]

/-- The y coordinate of a decoded point. -/
theorem decode_y {s : Bytes} {P : Ed.Pt} {g : G} (h : Ed.decode s = some P) (r : Rep P g) :
    g.y.val = leNat s % 2 ^ 255 % p := by
  have hyz : P.y = leNat s % 2 ^ 255 % p ∧ P.z = 1 := by
    unfold Ed.decode at h
    simp only at h
    generalize leNat s % 2 ^ 255 % p = y at h
    generalize leNat s / 2 ^ 255 % 2 = sign at h
    unfold Ed.decompress at h
    simp only at h
    generalize Ed.root _ _ _ = o at h
    cases o with
    | none => cases h
    | some r =>
      unfold Ed.withSign at h
      simp only [Option.some.injEq] at h
      rw [← h]
      exact ⟨rfl, rfl⟩
  have h1 := r.y
  rw [hyz.1, hyz.2, Nat.cast_one, mul_one] at h1
  rw [← h1, ZMod.val_natCast_of_lt (Nat.mod_lt _ p_pos)]

/-- Under a key that is not of small order, a signature that verifies for two messages shows that
their challenges are equal. -/
theorem two_messages {pk m m' sig : Bytes} {A : Ed.Pt} {g : G} (hA : Ed.decode pk = some A)
    (rA : Rep A g) (hg : 8 • g ≠ 0) (h : Ed.verify pk m sig = true) (h' : Ed.verify pk m' sig = true) :
    challenge (sig.take 32) pk m = challenge (sig.take 32) pk m' := by
  rw [verify_iff hA rA] at h h'
  have e := enc_inj (Subtype.ext (h.2.trans h'.2.symm))
  have e := add_left_cancel e
  rw [smul_neg, smul_neg, neg_inj, nsmul_eq_nsmul_iff_modEq] at e
  have e := e.of_dvd ((order_cases g).resolve_left hg)
  exact Nat.ModEq.eq_of_lt_of_lt e (Nat.mod_lt _ order_pos) (Nat.mod_lt _ order_pos)

end Pasta.Curve.E25519
