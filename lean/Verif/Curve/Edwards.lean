import Mathlib.Algebra.Field.Basic
import Mathlib.Algebra.Group.Even
import Mathlib.Tactic.FieldSimp
import Mathlib.Tactic.LinearCombination
import Mathlib.Tactic.Ring

/-!
# The group of a complete twisted Edwards curve

`-x² + y² = 1 + d x² y²` over a field where `-1` is a square and `d` is not: the addition formulas
have no exceptional cases, and make the points a commutative group. (The polynomial identities are
certificates: the difference of both sides as a combination of the curve equations.)
-/

namespace Pasta.Curve

variable {K : Type*} [Field K]

/-- The curve equation. -/
def OnEd (d x y : K) : Prop := -x ^ 2 + y ^ 2 = 1 + d * x ^ 2 * y ^ 2

/-- The conditions under which the addition formulas are complete. -/
structure EdComplete (d : K) : Prop where
  sqrt_neg_one : ∃ i : K, i * i = -1
  nonsquare : ¬ IsSquare d
  two : (2 : K) ≠ 0

section

variable {d : K}

theorem ed_ne (hd : EdComplete d) {x1 y1 x2 y2 : K} (h1 : OnEd d x1 y1) (h2 : OnEd d x2 y2) (e : K)
    (he : e = 1 ∨ e = -1) : d * x1 * x2 * y1 * y2 ≠ e := by
  intro h
  obtain ⟨i, hi⟩ := hd.sqrt_neg_one
  unfold OnEd at h1 h2
  have he2 : e * e = 1 := by rcases he with rfl | rfl <;> ring
  have hne : e ≠ 0 := by rintro rfl; simp at he2
  have hx1 : x1 ≠ 0 := by rintro rfl; simp at h; exact hne h.symm
  have hy1 : y1 ≠ 0 := by rintro rfl; simp at h; exact hne h.symm
  have hx2 : x2 ≠ 0 := by rintro rfl; simp at h; exact hne h.symm
  have key : ∀ s : K, s * s = 1 → i * x2 + s * y2 = 0 := by
    intro s hs
    by_contra hz
    apply hd.nonsquare
    have h3 : (i * x1 + s * e * y1) ^ 2 = d * (x1 * y1) ^ 2 * (i * x2 + s * y2) ^ 2 := by
      subst h
      linear_combination (x1 ^ 2 - d * (x1 * y1) ^ 2 * x2 ^ 2) * hi
        + (y1 ^ 2 * (d * x1 * x2 * y1 * y2) ^ 2 - d * (x1 * y1) ^ 2 * y2 ^ 2) * hs
        + h1 + (y1 ^ 2 - 1) * he2 - d * x1 ^ 2 * y1 ^ 2 * h2
    refine ⟨(i * x1 + s * e * y1) / (x1 * y1 * (i * x2 + s * y2)), ?_⟩
    have : x1 * y1 * (i * x2 + s * y2) ≠ 0 := mul_ne_zero (mul_ne_zero hx1 hy1) hz
    field_simp
    linear_combination -h3
  have k1 := key 1 (by ring)
  have k2 := key (-1) (by ring)
  have hix : (2 * i) * x2 = 0 := by linear_combination k1 + k2
  have hi0 : i ≠ 0 := by rintro rfl; simp at hi
  rcases mul_eq_zero.1 hix with h | h
  · rcases mul_eq_zero.1 h with h | h
    · exact hd.two h
    · exact hi0 h
  · exact hx2 h

theorem ed_plus (hd : EdComplete d) {x1 y1 x2 y2 : K} (h1 : OnEd d x1 y1) (h2 : OnEd d x2 y2) :
    1 + d * x1 * x2 * y1 * y2 ≠ 0 := fun h =>
  ed_ne hd h1 h2 (-1) (.inr rfl) (by linear_combination h)

theorem ed_minus (hd : EdComplete d) {x1 y1 x2 y2 : K} (h1 : OnEd d x1 y1) (h2 : OnEd d x2 y2) :
    1 - d * x1 * x2 * y1 * y2 ≠ 0 := fun h =>
  ed_ne hd h1 h2 1 (.inl rfl) (by linear_combination -h)

/-- The coordinates of a sum. -/
def edAddX (d x1 y1 x2 y2 : K) : K := (x1 * y2 + x2 * y1) / (1 + d * x1 * x2 * y1 * y2)
def edAddY (d x1 y1 x2 y2 : K) : K := (y1 * y2 + x1 * x2) / (1 - d * x1 * x2 * y1 * y2)

theorem onEd_add (hd : EdComplete d) {x1 y1 x2 y2 : K} (h1 : OnEd d x1 y1) (h2 : OnEd d x2 y2) :
    OnEd d (edAddX d x1 y1 x2 y2) (edAddY d x1 y1 x2 y2) := by
  have ha := ed_plus hd h1 h2
  have hb := ed_minus hd h1 h2
  unfold OnEd edAddX edAddY at *
  rw [div_pow, div_pow, ← sub_eq_zero]
  have : (-(x1 * y2 + x2 * y1) ^ 2 * (1 - d * x1 * x2 * y1 * y2) ^ 2 +
      (y1 * y2 + x1 * x2) ^ 2 * (1 + d * x1 * x2 * y1 * y2) ^ 2 -
      (1 + d * x1 * x2 * y1 * y2) ^ 2 * (1 - d * x1 * x2 * y1 * y2) ^ 2 -
      d * (x1 * y2 + x2 * y1) ^ 2 * (y1 * y2 + x1 * x2) ^ 2) = 0 := by
    linear_combination
      (x1^2*y1^2*x2^4*y2^4*d^3 - x1^2*x2^4*y2^4*d^2 - x1^2*x2^4*y2^2*d + x1^2*x2^2*y2^4*d +
      y1^2*x2^4*y2^4*d^2 + y1^2*x2^4*y2^2*d - y1^2*x2^2*y2^4*d - x2^4*y2^4*d^2 - 2*x2^4*y2^4*d -
      2*x2^4*y2^2 + x2^4 + 2*x2^2*y2^4 - 2*x2^2*y2^2*d - 4*x2^2*y2^2 + y2^4) * h1 +
      (x1^4*x2^2*y2^2*d + 2*x1^2*x2^2*y2^2*d + 2*x1^2*x2^2*y2^2 - x1^2*x2^2 + x1^2*y2^2 +
      y1^4*x2^2*y2^2*d - 2*y1^2*x2^2*y2^2*d - 2*y1^2*x2^2*y2^2 + y1^2*x2^2 - y1^2*y2^2 +
      x2^2*y2^2*d + 2*x2^2*y2^2 - x2^2 + y2^2 + 1) * h2
  generalize ha' : 1 + d * x1 * x2 * y1 * y2 = a at *
  generalize hb' : 1 - d * x1 * x2 * y1 * y2 = b at *
  field_simp
  linear_combination this

theorem edAdd_assoc_x (hd : EdComplete d) {x1 y1 x2 y2 x3 y3 : K} (h1 : OnEd d x1 y1)
    (h2 : OnEd d x2 y2) (h3 : OnEd d x3 y3) :
    edAddX d (edAddX d x1 y1 x2 y2) (edAddY d x1 y1 x2 y2) x3 y3 =
      edAddX d x1 y1 (edAddX d x2 y2 x3 y3) (edAddY d x2 y2 x3 y3) := by
  have ha := ed_plus hd h1 h2
  have hb := ed_minus hd h1 h2
  have hc := ed_plus hd h2 h3
  have hf := ed_minus hd h2 h3
  have hl := ed_plus hd (onEd_add hd h1 h2) h3
  have hr := ed_plus hd h1 (onEd_add hd h2 h3)
  unfold OnEd edAddX edAddY at *
  rw [div_eq_div_iff hl hr]
  have : ((x1 * y2 + x2 * y1) * (1 - d * x1 * x2 * y1 * y2) * y3 +
        x3 * (y1 * y2 + x1 * x2) * (1 + d * x1 * x2 * y1 * y2)) *
      ((1 + d * x2 * x3 * y2 * y3) * (1 - d * x2 * x3 * y2 * y3) +
        d * x1 * (x2 * y3 + x3 * y2) * y1 * (y2 * y3 + x2 * x3)) -
      (x1 * (y2 * y3 + x2 * x3) * (1 + d * x2 * x3 * y2 * y3) +
        (x2 * y3 + x3 * y2) * (1 - d * x2 * x3 * y2 * y3) * y1) *
      ((1 + d * x1 * x2 * y1 * y2) * (1 - d * x1 * x2 * y1 * y2) +
        d * (x1 * y2 + x2 * y1) * (y1 * y2 + x1 * x2) * x3 * y3) = 0 := by
    linear_combination
      (-x1*x2^4*y2^3*x3^2*y3*d^2 - x1*x2^4*y2*x3^2*y3*d - x1*x2^3*y2^4*x3*y3^2*d^2 -
      x1*x2^3*y2^2*x3^3*d - x1*x2^3*y2^2*x3*d + x1*x2^2*y2^3*y3^3*d - x1*x2^2*y2^3*y3*d +
      x1*x2*y2^4*x3*y3^2*d + y1*x2^4*y2^3*x3*y3^2*d^2 + y1*x2^4*y2*x3*y3^2*d +
      y1*x2^3*y2^4*x3^2*y3*d^2 + y1*x2^3*y2^2*y3^3*d - y1*x2^3*y2^2*y3*d - y1*x2^2*y2^3*x3^3*d -
      y1*x2^2*y2^3*x3*d - y1*x2*y2^4*x3^2*y3*d) * h1 +
      (x1^3*x2^2*y2*x3^2*y3*d + x1^3*x2*y2^2*x3*y3^2*d + x1^3*x2*x3^3*y3^2*d + x1^3*x2*x3^3 -
      x1^3*x2*x3*y3^2 + x1^3*x2*x3 + x1^3*y2*x3^2*y3^3*d + x1^3*y2*x3^2*y3 - x1^3*y2*y3^3 +
      x1^3*y2*y3 + x1^2*y1*x2^2*y2*x3^3*y3^2*d^2 - x1^2*y1*x2^2*y2*x3*y3^2*d -
      x1^2*y1*x2*y2^2*x3^2*y3^3*d^2 - x1^2*y1*x2*y2^2*x3^2*y3*d + x1^2*y1*x2*x3^2*y3^3*d +
      x1^2*y1*x2*x3^2*y3 - x1^2*y1*x2*y3^3 + x1^2*y1*x2*y3 + x1^2*y1*y2*x3^3*y3^2*d +
      x1^2*y1*y2*x3^3 - x1^2*y1*y2*x3*y3^2 + x1^2*y1*y2*x3 - x1*y1^2*x2^2*y2*x3^2*y3^3*d^2 -
      x1*y1^2*x2^2*y2*x3^2*y3*d + x1*y1^2*x2*y2^2*x3^3*y3^2*d^2 - x1*y1^2*x2*y2^2*x3*y3^2*d -
      x1*y1^2*x2*x3^3*y3^2*d - x1*y1^2*x2*x3^3 + x1*y1^2*x2*x3*y3^2 - x1*y1^2*x2*x3 -
      x1*y1^2*y2*x3^2*y3^3*d - x1*y1^2*y2*x3^2*y3 + x1*y1^2*y2*y3^3 - x1*y1^2*y2*y3 +
      x1*x2^2*y2*x3^2*y3*d + x1*x2*y2^2*x3*y3^2*d + x1*x2*x3^3*y3^2*d + x1*x2*x3^3 - x1*x2*x3*y3^2
      + x1*x2*x3 + x1*y2*x3^2*y3^3*d + x1*y2*x3^2*y3 - x1*y2*y3^3 + x1*y2*y3 +
      y1^3*x2^2*y2*x3*y3^2*d + y1^3*x2*y2^2*x3^2*y3*d - y1^3*x2*x3^2*y3^3*d - y1^3*x2*x3^2*y3 +
      y1^3*x2*y3^3 - y1^3*x2*y3 - y1^3*y2*x3^3*y3^2*d - y1^3*y2*x3^3 + y1^3*y2*x3*y3^2 -
      y1^3*y2*x3 - y1*x2^2*y2*x3*y3^2*d - y1*x2*y2^2*x3^2*y3*d + y1*x2*x3^2*y3^3*d + y1*x2*x3^2*y3
      - y1*x2*y3^3 + y1*x2*y3 + y1*y2*x3^3*y3^2*d + y1*y2*x3^3 - y1*y2*x3*y3^2 + y1*y2*x3) * h2 +
      (-x1^3*x2^3*x3 - x1^3*x2^2*y2*y3 + x1^3*x2*y2^2*x3 - x1^3*x2*x3 + x1^3*y2^3*y3 - x1^3*y2*y3 -
      x1^2*y1*x2^3*y3 - x1^2*y1*x2^2*y2*x3*d - x1^2*y1*x2^2*y2*x3 + x1^2*y1*x2*y2^2*y3*d +
      x1^2*y1*x2*y2^2*y3 - x1^2*y1*x2*y3 + x1^2*y1*y2^3*x3 - x1^2*y1*y2*x3 + x1*y1^2*x2^3*x3 +
      x1*y1^2*x2^2*y2*y3*d + x1*y1^2*x2^2*y2*y3 - x1*y1^2*x2*y2^2*x3*d - x1*y1^2*x2*y2^2*x3 +
      x1*y1^2*x2*x3 - x1*y1^2*y2^3*y3 + x1*y1^2*y2*y3 - x1*x2^3*x3 - x1*x2^2*y2*y3 + x1*x2*y2^2*x3
      - x1*x2*x3 + x1*y2^3*y3 - x1*y2*y3 + y1^3*x2^3*y3 + y1^3*x2^2*y2*x3 - y1^3*x2*y2^2*y3 +
      y1^3*x2*y3 - y1^3*y2^3*x3 + y1^3*y2*x3 - y1*x2^3*y3 - y1*x2^2*y2*x3 + y1*x2*y2^2*y3 -
      y1*x2*y3 + y1*y2^3*x3 - y1*y2*x3) * h3
  clear hl hr h1 h2 h3
  generalize 1 + d * x1 * x2 * y1 * y2 = a at *
  generalize 1 - d * x1 * x2 * y1 * y2 = b at *
  generalize 1 + d * x2 * x3 * y2 * y3 = c at *
  generalize 1 - d * x2 * x3 * y2 * y3 = f at *
  field_simp
  linear_combination this

theorem edAdd_assoc_y (hd : EdComplete d) {x1 y1 x2 y2 x3 y3 : K} (h1 : OnEd d x1 y1)
    (h2 : OnEd d x2 y2) (h3 : OnEd d x3 y3) :
    edAddY d (edAddX d x1 y1 x2 y2) (edAddY d x1 y1 x2 y2) x3 y3 =
      edAddY d x1 y1 (edAddX d x2 y2 x3 y3) (edAddY d x2 y2 x3 y3) := by
  have ha := ed_plus hd h1 h2
  have hb := ed_minus hd h1 h2
  have hc := ed_plus hd h2 h3
  have hf := ed_minus hd h2 h3
  have hl := ed_minus hd (onEd_add hd h1 h2) h3
  have hr := ed_minus hd h1 (onEd_add hd h2 h3)
  unfold OnEd edAddX edAddY at *
  rw [div_eq_div_iff hl hr]
  have : ((y1 * y2 + x1 * x2) * (1 + d * x1 * x2 * y1 * y2) * y3 +
        (x1 * y2 + x2 * y1) * (1 - d * x1 * x2 * y1 * y2) * x3) *
      ((1 + d * x2 * x3 * y2 * y3) * (1 - d * x2 * x3 * y2 * y3) -
        d * x1 * (x2 * y3 + x3 * y2) * y1 * (y2 * y3 + x2 * x3)) -
      (y1 * (y2 * y3 + x2 * x3) * (1 + d * x2 * x3 * y2 * y3) +
        x1 * (x2 * y3 + x3 * y2) * (1 - d * x2 * x3 * y2 * y3)) *
      ((1 + d * x1 * x2 * y1 * y2) * (1 - d * x1 * x2 * y1 * y2) -
        d * (x1 * y2 + x2 * y1) * (y1 * y2 + x1 * x2) * x3 * y3) = 0 := by
    linear_combination
      (x1*x2^4*y2^3*x3*y3^2*d^2 + x1*x2^4*y2*x3*y3^2*d + x1*x2^3*y2^4*x3^2*y3*d^2 +
      x1*x2^3*y2^2*y3^3*d - x1*x2^3*y2^2*y3*d - x1*x2^2*y2^3*x3^3*d - x1*x2^2*y2^3*x3*d -
      x1*x2*y2^4*x3^2*y3*d - y1*x2^4*y2^3*x3^2*y3*d^2 - y1*x2^4*y2*x3^2*y3*d -
      y1*x2^3*y2^4*x3*y3^2*d^2 - y1*x2^3*y2^2*x3^3*d - y1*x2^3*y2^2*x3*d + y1*x2^2*y2^3*y3^3*d -
      y1*x2^2*y2^3*y3*d + y1*x2*y2^4*x3*y3^2*d) * h1 +
      (-x1^3*x2^2*y2*x3*y3^2*d - x1^3*x2*y2^2*x3^2*y3*d + x1^3*x2*x3^2*y3^3*d + x1^3*x2*x3^2*y3 -
      x1^3*x2*y3^3 + x1^3*x2*y3 + x1^3*y2*x3^3*y3^2*d + x1^3*y2*x3^3 - x1^3*y2*x3*y3^2 +
      x1^3*y2*x3 + x1^2*y1*x2^2*y2*x3^2*y3^3*d^2 + x1^2*y1*x2^2*y2*x3^2*y3*d -
      x1^2*y1*x2*y2^2*x3^3*y3^2*d^2 + x1^2*y1*x2*y2^2*x3*y3^2*d + x1^2*y1*x2*x3^3*y3^2*d +
      x1^2*y1*x2*x3^3 - x1^2*y1*x2*x3*y3^2 + x1^2*y1*x2*x3 + x1^2*y1*y2*x3^2*y3^3*d +
      x1^2*y1*y2*x3^2*y3 - x1^2*y1*y2*y3^3 + x1^2*y1*y2*y3 - x1*y1^2*x2^2*y2*x3^3*y3^2*d^2 +
      x1*y1^2*x2^2*y2*x3*y3^2*d + x1*y1^2*x2*y2^2*x3^2*y3^3*d^2 + x1*y1^2*x2*y2^2*x3^2*y3*d -
      x1*y1^2*x2*x3^2*y3^3*d - x1*y1^2*x2*x3^2*y3 + x1*y1^2*x2*y3^3 - x1*y1^2*x2*y3 -
      x1*y1^2*y2*x3^3*y3^2*d - x1*y1^2*y2*x3^3 + x1*y1^2*y2*x3*y3^2 - x1*y1^2*y2*x3 -
      x1*x2^2*y2*x3*y3^2*d - x1*x2*y2^2*x3^2*y3*d + x1*x2*x3^2*y3^3*d + x1*x2*x3^2*y3 - x1*x2*y3^3
      + x1*x2*y3 + x1*y2*x3^3*y3^2*d + x1*y2*x3^3 - x1*y2*x3*y3^2 + x1*y2*x3 -
      y1^3*x2^2*y2*x3^2*y3*d - y1^3*x2*y2^2*x3*y3^2*d - y1^3*x2*x3^3*y3^2*d - y1^3*x2*x3^3 +
      y1^3*x2*x3*y3^2 - y1^3*x2*x3 - y1^3*y2*x3^2*y3^3*d - y1^3*y2*x3^2*y3 + y1^3*y2*y3^3 -
      y1^3*y2*y3 + y1*x2^2*y2*x3^2*y3*d + y1*x2*y2^2*x3*y3^2*d + y1*x2*x3^3*y3^2*d + y1*x2*x3^3 -
      y1*x2*x3*y3^2 + y1*x2*x3 + y1*y2*x3^2*y3^3*d + y1*y2*x3^2*y3 - y1*y2*y3^3 + y1*y2*y3) * h2 +
      (-x1^3*x2^3*y3 - x1^3*x2^2*y2*x3 + x1^3*x2*y2^2*y3 - x1^3*x2*y3 + x1^3*y2^3*x3 - x1^3*y2*x3 -
      x1^2*y1*x2^3*x3 - x1^2*y1*x2^2*y2*y3*d - x1^2*y1*x2^2*y2*y3 + x1^2*y1*x2*y2^2*x3*d +
      x1^2*y1*x2*y2^2*x3 - x1^2*y1*x2*x3 + x1^2*y1*y2^3*y3 - x1^2*y1*y2*y3 + x1*y1^2*x2^3*y3 +
      x1*y1^2*x2^2*y2*x3*d + x1*y1^2*x2^2*y2*x3 - x1*y1^2*x2*y2^2*y3*d - x1*y1^2*x2*y2^2*y3 +
      x1*y1^2*x2*y3 - x1*y1^2*y2^3*x3 + x1*y1^2*y2*x3 - x1*x2^3*y3 - x1*x2^2*y2*x3 + x1*x2*y2^2*y3
      - x1*x2*y3 + x1*y2^3*x3 - x1*y2*x3 + y1^3*x2^3*x3 + y1^3*x2^2*y2*y3 - y1^3*x2*y2^2*x3 +
      y1^3*x2*x3 - y1^3*y2^3*y3 + y1^3*y2*y3 - y1*x2^3*x3 - y1*x2^2*y2*y3 + y1*x2*y2^2*x3 -
      y1*x2*x3 + y1*y2^3*y3 - y1*y2*y3) * h3
  clear hl hr h1 h2 h3
  generalize 1 + d * x1 * x2 * y1 * y2 = a at *
  generalize 1 - d * x1 * x2 * y1 * y2 = b at *
  generalize 1 + d * x2 * x3 * y2 * y3 = c at *
  generalize 1 - d * x2 * x3 * y2 * y3 = f at *
  field_simp
  linear_combination this

end

/-- A point of the curve. -/
@[ext] structure EdPt (d : K) where
  x : K
  y : K
  on : OnEd d x y

namespace EdPt

variable {d : K}

instance : Zero (EdPt d) := ⟨⟨0, 1, by simp [OnEd]⟩⟩
instance : Neg (EdPt d) := ⟨fun a => ⟨-a.x, a.y, by have := a.on; simp only [OnEd] at *; simpa using this⟩⟩
@[simp] theorem zero_x : (0 : EdPt d).x = 0 := rfl
@[simp] theorem zero_y : (0 : EdPt d).y = 1 := rfl
@[simp] theorem neg_x (a : EdPt d) : (-a).x = -a.x := rfl
@[simp] theorem neg_y (a : EdPt d) : (-a).y = a.y := rfl

variable [hd : Fact (EdComplete d)]

instance : Add (EdPt d) := ⟨fun a b => ⟨_, _, onEd_add hd.out a.on b.on⟩⟩

theorem add_x (a b : EdPt d) :
    (a + b).x = (a.x * b.y + b.x * a.y) / (1 + d * a.x * b.x * a.y * b.y) := rfl
theorem add_y (a b : EdPt d) :
    (a + b).y = (a.y * b.y + a.x * b.x) / (1 - d * a.x * b.x * a.y * b.y) := rfl

protected theorem add_comm (a b : EdPt d) : a + b = b + a := by
  ext
  · rw [add_x, add_x]; congr 1 <;> ring
  · rw [add_y, add_y]; congr 1 <;> ring

protected theorem zero_add (a : EdPt d) : 0 + a = a := by
  ext
  · rw [add_x]; simp
  · rw [add_y]; simp

protected theorem neg_add_cancel (a : EdPt d) : -a + a = 0 := by
  ext
  · rw [add_x]; simp only [neg_x, neg_y, zero_x]; rw [div_eq_zero_iff]; left; ring
  · rw [add_y]
    have h := a.on
    have hm := ed_minus hd.out (-a).on a.on
    simp only [neg_x, neg_y, zero_y] at *
    rw [div_eq_one_iff_eq hm]
    unfold OnEd at h
    linear_combination h

protected theorem add_assoc (a b c : EdPt d) : a + b + c = a + (b + c) :=
  EdPt.ext (edAdd_assoc_x hd.out a.on b.on c.on) (edAdd_assoc_y hd.out a.on b.on c.on)

instance : AddCommGroup (EdPt d) where
  add_assoc := EdPt.add_assoc
  zero_add := EdPt.zero_add
  add_zero a := by rw [EdPt.add_comm, EdPt.zero_add]
  neg_add_cancel := EdPt.neg_add_cancel
  add_comm := EdPt.add_comm
  nsmul := nsmulRec
  zsmul := zsmulRec

end EdPt
end Pasta.Curve
