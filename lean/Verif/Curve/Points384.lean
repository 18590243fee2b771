import Verif.Curve.Field384
import Mathlib.AlgebraicGeometry.EllipticCurve.Affine.Point
import Mathlib.Tactic.FieldSimp

/-!
# The point arithmetic of `Real.P384` computes in the group of the curve

The group is Mathlib's group of the points of a Weierstrass curve.
-/

namespace Pasta.Curve.E384

open Pasta.Real (powMod)
open Pasta.Real.P384 (p b)
open Pasta.Real

/-- The curve P-384: `y² = x³ - 3x + b`. -/
def W : WeierstrassCurve.Affine F := { a₁ := 0, a₂ := 0, a₃ := 0, a₄ := -3, a₆ := ((b : ℕ) : F) }

/-- The group of points. -/
abbrev G := W.Point

theorem onCurve {x y : F} : W.Equation x y ↔ y ^ 2 = x ^ 3 - 3 * x + b := by
  rw [WeierstrassCurve.Affine.equation_iff]
  simp only [W]
  constructor <;> intro h <;> linear_combination h

theorem negY (x y : F) : W.negY x y = -y := by
  simp only [WeierstrassCurve.Affine.negY, W]; ring

theorem on {x y : F} (h : W.Nonsingular x y) : y ^ 2 = x ^ 3 - 3 * x + b := onCurve.1 h.1

theorem disc_ne : W.Δ ≠ 0 := by
  have h : P384.add (P384.mul 4 (P384.mul 27 (p - 1))) (P384.mul 27 (P384.mul b b)) ≠ 0 := by
    decide +kernel
  intro e
  apply h
  apply (eq_zero_iff (add_lt _ _)).1
  rw [cast_add, cast_mul, cast_mul, cast_mul, cast_mul, Nat.cast_sub one_lt_p.le, ZMod.natCast_self]
  simp only [WeierstrassCurve.Δ, WeierstrassCurve.b₂, WeierstrassCurve.b₄, WeierstrassCurve.b₆,
    WeierstrassCurve.b₈, W] at e
  have h2 := two_ne
  have h16 : (-16 : F) ≠ 0 := by
    rw [show (-16 : F) = -(2 ^ 4) by norm_num]
    exact neg_ne_zero.2 (pow_ne_zero _ h2)
  apply (mul_eq_zero.1 (_ : (-16 : F) * _ = 0)).resolve_left h16
  push_cast
  linear_combination e

theorem nonsingular {x y : F} (h : y ^ 2 = x ^ 3 - 3 * x + b) : W.Nonsingular x y :=
  (WeierstrassCurve.Affine.equation_iff_nonsingular_of_Δ_ne_zero disc_ne).1 (onCurve.2 h)

/-- Jacobian coordinates of a point. -/
def Coords (P : P384.Pt) : G → Prop
  | .zero => P.z = 0
  | .some x y _ => (P.z : F) ≠ 0 ∧ (P.x : F) = x * P.z ^ 2 ∧ (P.y : F) = y * P.z ^ 3

structure Rep (P : P384.Pt) (g : G) : Prop where
  ltx : P.x < p
  lty : P.y < p
  ltz : P.z < p
  coords : Coords P g

theorem rep_zero : Rep P384.zero 0 := ⟨one_lt_p, one_lt_p, p_pos, rfl⟩

theorem dblCore_lt (P : P384.Pt) : P.dblCore.x < p ∧ P.dblCore.y < p ∧ P.dblCore.z < p :=
  ⟨sub_lt _ _, sub_lt _ _, mul_lt _ _⟩

theorem rep_dbl {P : P384.Pt} {g : G} (h : Rep P g) : Rep P.dbl (g + g) := by
  unfold P384.Pt.dbl
  rcases g with _ | ⟨x, y, hn⟩
  · have hz : P.z = 0 := h.coords
    rw [if_pos (.inl hz)]
    exact rep_zero
  · obtain ⟨hz, hx, hy⟩ : (P.z : F) ≠ 0 ∧ (P.x : F) = x * P.z ^ 2 ∧ (P.y : F) = y * P.z ^ 3 := h.coords
    have hz0 : P.z ≠ 0 := fun e => hz (by rw [e, Nat.cast_zero])
    have h2 := two_ne
    by_cases h0 : P.y = 0
    · rw [if_pos (.inr h0)]
      have : y = 0 := by
        rw [h0, Nat.cast_zero] at hy
        exact (mul_eq_zero.1 hy.symm).resolve_right (pow_ne_zero _ hz)
      rw [WeierstrassCurve.Affine.Point.add_self_of_Y_eq (by rw [negY, this, neg_zero])]
      exact rep_zero
    · rw [if_neg (by rintro (e | e); exacts [hz0 e, h0 e])]
      have hy0 : y ≠ 0 := by
        intro e
        rw [e, zero_mul, eq_zero_iff h.lty] at hy
        exact h0 hy
      have hne : y ≠ W.negY x y := by
        rw [negY]
        intro e
        exact mul_ne_zero h2 hy0 (by linear_combination e)
      rw [WeierstrassCurve.Affine.Point.add_self_of_Y_ne hne]
      obtain ⟨l1, l2, l3⟩ := dblCore_lt P
      refine ⟨l1, l2, l3, ?_⟩
      have e3 : (P.dblCore.z : F) = 2 * (y * P.z ^ 4) := by
        simp only [P384.Pt.dblCore, cast_mul, hy]; push_cast; ring
      have e1 : (P.dblCore.x : F) = (9 * (x ^ 2 - 1) ^ 2 - 8 * x * y ^ 2) * P.z ^ 8 := by
        simp only [P384.Pt.dblCore, cast_mul, cast_add, cast_sub _ (mul_lt _ _).le, hx, hy]
        push_cast; ring
      have e2 : (P.dblCore.y : F) = (3 * (x ^ 2 - 1) * (4 * x * y ^ 2 -
          (9 * (x ^ 2 - 1) ^ 2 - 8 * x * y ^ 2)) - 8 * y ^ 4) * P.z ^ 12 := by
        simp only [P384.Pt.dblCore, cast_mul, cast_add, cast_sub _ (mul_lt _ _).le,
          cast_sub _ (sub_lt _ _).le, hx, hy]
        push_cast; ring
      have sl : W.slope x x y y = 3 * (x ^ 2 - 1) / (2 * y) := by
        rw [WeierstrassCurve.Affine.slope_of_Y_ne rfl hne, negY]
        simp only [W]
        rw [show y - -y = 2 * y by ring,
          show 3 * x ^ 2 + 2 * 0 * x + -3 - 0 * y = 3 * (x ^ 2 - 1) by ring]
      refine ⟨?_, ?_, ?_⟩
      · rw [e3]
        exact mul_ne_zero h2 (mul_ne_zero hy0 (pow_ne_zero _ hz))
      · rw [e1, e3, sl]
        simp only [WeierstrassCurve.Affine.addX, W]
        field_simp
        ring
      · rw [e2, e3, sl]
        simp only [WeierstrassCurve.Affine.addY, WeierstrassCurve.Affine.negAddY,
          WeierstrassCurve.Affine.addX, WeierstrassCurve.Affine.negY, W]
        field_simp
        ring

theorem rep_add {P Q : P384.Pt} {g h : G} (hP : Rep P g) (hQ : Rep Q h) : Rep (P.add Q) (g + h) := by
  unfold P384.Pt.add
  rcases g with _ | ⟨x, y, hn⟩
  · have hz : P.z = 0 := hP.coords
    rw [if_pos hz]
    exact hQ
  obtain ⟨hz, hx, hy⟩ : (P.z : F) ≠ 0 ∧ (P.x : F) = x * P.z ^ 2 ∧ (P.y : F) = y * P.z ^ 3 := hP.coords
  have hz0 : P.z ≠ 0 := fun e => hz (by rw [e, Nat.cast_zero])
  rw [if_neg hz0]
  rcases h with _ | ⟨x', y', hn'⟩
  · have hz : Q.z = 0 := hQ.coords
    rw [if_pos hz]
    exact hP
  obtain ⟨hz', hx', hy'⟩ : (Q.z : F) ≠ 0 ∧ (Q.x : F) = x' * Q.z ^ 2 ∧ (Q.y : F) = y' * Q.z ^ 3 :=
    hQ.coords
  have hz0' : Q.z ≠ 0 := fun e => hz' (by rw [e, Nat.cast_zero])
  rw [if_neg hz0']
  unfold P384.Pt.addBoth
  simp only
  generalize hu1 : P384.mul P.x (P384.mul Q.z Q.z) = u1
  generalize hu2 : P384.mul Q.x (P384.mul P.z P.z) = u2
  generalize hs1 : P384.mul P.y (P384.mul (P384.mul Q.z Q.z) Q.z) = s1
  generalize hs2 : P384.mul Q.y (P384.mul (P384.mul P.z P.z) P.z) = s2
  have lu1 : u1 < p := by rw [← hu1]; exact mul_lt _ _
  have lu2 : u2 < p := by rw [← hu2]; exact mul_lt _ _
  have ls1 : s1 < p := by rw [← hs1]; exact mul_lt _ _
  have ls2 : s2 < p := by rw [← hs2]; exact mul_lt _ _
  have cu1 : (u1 : F) = x * (P.z * Q.z) ^ 2 := by rw [← hu1, cast_mul, cast_mul, hx]; ring
  have cu2 : (u2 : F) = x' * (P.z * Q.z) ^ 2 := by rw [← hu2, cast_mul, cast_mul, hx']; ring
  have cs1 : (s1 : F) = y * (P.z * Q.z) ^ 3 := by rw [← hs1, cast_mul, cast_mul, cast_mul, hy]; ring
  have cs2 : (s2 : F) = y' * (P.z * Q.z) ^ 3 := by rw [← hs2, cast_mul, cast_mul, cast_mul, hy']; ring
  have hzz : (P.z * Q.z : F) ≠ 0 := mul_ne_zero hz hz'
  by_cases hu : u1 = u2
  · rw [if_pos hu]
    have hxx : x = x' := by
      rw [hu, cu2] at cu1
      exact (mul_right_cancel₀ (pow_ne_zero _ hzz) cu1).symm
    subst hxx
    by_cases hs : s1 = s2
    · rw [if_pos hs]
      have hyy : y = y' := by
        rw [hs, cs2] at cs1
        exact (mul_right_cancel₀ (pow_ne_zero _ hzz) cs1).symm
      subst hyy
      exact rep_dbl hP
    · rw [if_neg hs]
      have hyy : y = W.negY x y' := by
        rw [negY]
        rcases sq_eq_sq_iff_eq_or_eq_neg.1 ((on hn).trans (on hn').symm) with e | e
        · exfalso
          apply hs
          apply eq_of_cast ls1 ls2
          rw [cs1, cs2, e]
        · exact e
      rw [WeierstrassCurve.Affine.Point.add_of_Y_eq rfl hyy]
      exact rep_zero
  · rw [if_neg hu]
    have hxx : x ≠ x' := by
      intro e
      apply hu
      apply eq_of_cast lu1 lu2
      rw [cu1, cu2, e]
    rw [WeierstrassCurve.Affine.Point.add_of_X_ne hxx]
    refine ⟨sub_lt _ _, sub_lt _ _, mul_lt _ _, ?_⟩
    have hd : x' - x ≠ 0 := sub_ne_zero.2 hxx.symm
    have hd' : x - x' ≠ 0 := sub_ne_zero.2 hxx
    have e3 : ((P.addCore Q u1 u2 s1 s2).z : F) = (x' - x) * (P.z * Q.z) ^ 3 := by
      simp only [P384.Pt.addCore, cast_mul, cast_sub _ lu1.le, cu1, cu2]; ring
    have e1 : ((P.addCore Q u1 u2 s1 s2).x : F) =
        ((y' - y) ^ 2 - (x' - x) ^ 3 - 2 * x * (x' - x) ^ 2) * (P.z * Q.z) ^ 6 := by
      simp only [P384.Pt.addCore, cast_mul, cast_sub _ lu1.le, cast_sub _ ls1.le,
        cast_sub _ (mul_lt _ _).le, cu1, cu2, cs1, cs2]
      push_cast
      ring
    have e2 : ((P.addCore Q u1 u2 s1 s2).y : F) =
        ((y' - y) * (x * (x' - x) ^ 2 - ((y' - y) ^ 2 - (x' - x) ^ 3 - 2 * x * (x' - x) ^ 2)) -
          y * (x' - x) ^ 3) * (P.z * Q.z) ^ 9 := by
      simp only [P384.Pt.addCore, cast_mul, cast_sub _ lu1.le, cast_sub _ ls1.le,
        cast_sub _ (mul_lt _ _).le, cast_sub _ (sub_lt _ _).le, cu1, cu2, cs1, cs2]
      push_cast
      ring
    have sl : W.slope x x' y y' = (y' - y) / (x' - x) := by
      rw [WeierstrassCurve.Affine.slope_of_X_ne hxx, ← neg_sub y' y, ← neg_sub x' x, neg_div_neg_eq]
    refine ⟨?_, ?_, ?_⟩
    · rw [e3]
      exact mul_ne_zero hd (pow_ne_zero _ hzz)
    · rw [e1, e3, sl]
      simp only [WeierstrassCurve.Affine.addX, W]
      generalize hD : x' - x = D at *
      obtain rfl : x' = x + D := by linear_combination hD
      field_simp
      ring
    · rw [e2, e3, sl]
      simp only [WeierstrassCurve.Affine.addY, WeierstrassCurve.Affine.negAddY,
        WeierstrassCurve.Affine.addX, WeierstrassCurve.Affine.negY, W]
      generalize hD : x' - x = D at *
      obtain rfl : x' = x + D := by linear_combination hD
      field_simp
      ring

theorem rep_smul {P : P384.Pt} {g : G} (hP : Rep P g) (n : ℕ) : Rep (P.smul n) (n • g) := by
  rw [P384.smul_loop]
  have := binLoop_spec (add := P384.Pt.add) (dbl := P384.Pt.dbl) (fun Q i => Rep Q (i • g))
    (by intro r q i j hr hq; rw [add_nsmul]; exact rep_add hr hq)
    (by intro q j hq; rw [two_mul, add_nsmul]; exact rep_dbl hq)
    (n.log2 + 1) P384.zero P n 0 1 (lt_pow_log2 n) (by rw [zero_nsmul]; exact rep_zero)
    (by rwa [one_nsmul])
  simpa using this

end Pasta.Curve.E384
