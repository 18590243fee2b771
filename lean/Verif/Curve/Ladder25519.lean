import Verif.Curve.Sign25519

/-!
# The Montgomery ladder computes scalar multiples

The coordinate `u = (1 + y) / (1 - y)` of a multiple of any point of the curve. (The ladder works on
`u` alone; `Sees X Z g` relates its projective coordinates to a point of the Edwards curve.)
-/

namespace Pasta.Curve.E25519

open Pasta.Real (powMod fit)
open Pasta.Real.Ed (p d)
open Pasta.Real

/-- The Montgomery coordinate of a point (0 for the neutral element). -/
def mont (g : G) : F := (1 + g.y) / (1 - g.y)

/-- `X : Z` are projective Montgomery coordinates of `g`. -/
def Sees (X Z : F) (g : G) : Prop := ∃ c : F, c ≠ 0 ∧ X = c * (1 + g.y) ∧ Z = c * (1 - g.y)

theorem d_eq : (121666 : F) * d = -121665 := by
  have h : Ed.add (Ed.mul 121666 d) 121665 = 0 := by decide +kernel
  have h := congrArg (Nat.cast (R := F)) h
  rw [cast_add, cast_mul] at h
  push_cast at h
  linear_combination h

theorem c121666_ne : (121666 : F) ≠ 0 := by
  intro h
  have h : ((121666 : ℕ) : F) = ((0 : ℕ) : F) := by push_cast; exact h
  have := eq_of_cast (by decide +kernel) p_pos h
  omega

/-- Doubling. -/
theorem sees_dbl {X Z : F} {g : G} (h : Sees X Z g) :
    Sees ((X + Z) * (X + Z) * ((X - Z) * (X - Z)))
      (((X + Z) * (X + Z) - (X - Z) * (X - Z)) * ((X + Z) * (X + Z) +
        121665 * ((X + Z) * (X + Z) - (X - Z) * (X - Z)))) (g + g) := by
  obtain ⟨c, hc, hX, hZ⟩ := h
  have hm := ed_minus complete g.on g.on
  have hv := v_ne g
  have hd := d_eq
  have h6 := c121666_ne
  have h2 := two_ne
  have huv := curve_uv g
  have h1 := g.on
  unfold OnEd at h1
  have e1 : (g + g).y * (1 - d * g.x * g.x * g.y * g.y) = g.y * g.y + g.x * g.x := by
    rw [EdPt.add_y, div_mul_cancel₀ _ hm]
  refine ⟨8 * c ^ 4 * (121666 * (d * g.y ^ 2 + 1)) * (1 - d * g.x * g.x * g.y * g.y), ?_, ?_, ?_⟩
  · refine mul_ne_zero (mul_ne_zero (mul_ne_zero ?_ (pow_ne_zero _ hc)) (mul_ne_zero h6 hv)) hm
    rw [show (8 : F) = 2 ^ 3 by norm_num]
    exact pow_ne_zero _ h2
  · rw [hX, hZ]
    linear_combination (-(8 * c ^ 4 * (121666 * (d * g.y ^ 2 + 1)))) * e1 +
      (-(8 * c ^ 4 * (121666 * (d * g.y ^ 2 + 1)))) * h1 + 16 * c ^ 4 * 121666 * huv -
      16 * c ^ 4 * g.y ^ 2 * hd
  · rw [hX, hZ]
    linear_combination (8 * c ^ 4 * (121666 * (d * g.y ^ 2 + 1))) * e1 -
      (8 * c ^ 4 * (121666 * (d * g.y ^ 2 + 1))) * h1 - 16 * c ^ 4 * (1 - g.y ^ 2) * g.y ^ 2 * hd

/-- Differential addition. -/
theorem diff_add (g h : G) : (1 + (g + h).y) * (1 + (h - g).y) * (h.y - g.y) ^ 2 =
    (1 - (g + h).y) * (1 - (h - g).y) * (h.y + g.y) ^ 2 := by
  have hp := ed_plus complete g.on h.on
  have hm := ed_minus complete g.on h.on
  have h1 := g.on
  have h2 := h.on
  have e1 : (g + h).y * (1 - d * g.x * h.x * g.y * h.y) = g.y * h.y + g.x * h.x := by
    rw [EdPt.add_y, div_mul_cancel₀ _ hm]
  have e2 : (h - g).y * (1 + d * g.x * h.x * g.y * h.y) = g.y * h.y - g.x * h.x := by
    rw [sub_eq_add_neg, EdPt.add_y, EdPt.neg_x, EdPt.neg_y,
      show (1 - d * h.x * -g.x * h.y * g.y : F) = 1 + d * g.x * h.x * g.y * h.y by ring,
      div_mul_cancel₀ _ hp]
    ring
  unfold OnEd at h1 h2
  apply mul_right_cancel₀ (mul_ne_zero hm hp)
  generalize (g + h).y = s at *
  generalize (h - g).y = t at *
  generalize g.x = x1 at *
  generalize g.y = y1 at *
  generalize h.x = x2 at *
  generalize h.y = y2 at *
  have f1 : (1 + s) * (1 - d * x1 * x2 * y1 * y2) =
      1 - d * x1 * x2 * y1 * y2 + y1 * y2 + x1 * x2 := by linear_combination e1
  have f2 : (1 + t) * (1 + d * x1 * x2 * y1 * y2) =
      1 + d * x1 * x2 * y1 * y2 + y1 * y2 - x1 * x2 := by linear_combination e2
  have f3 : (1 - s) * (1 - d * x1 * x2 * y1 * y2) =
      1 - d * x1 * x2 * y1 * y2 - y1 * y2 - x1 * x2 := by linear_combination -e1
  have f4 : (1 - t) * (1 + d * x1 * x2 * y1 * y2) =
      1 + d * x1 * x2 * y1 * y2 - y1 * y2 + x1 * x2 := by linear_combination -e2
  calc _ = ((1 + s) * (1 - d * x1 * x2 * y1 * y2)) * ((1 + t) * (1 + d * x1 * x2 * y1 * y2)) *
        (y2 - y1) ^ 2 := by ring
    _ = ((1 - s) * (1 - d * x1 * x2 * y1 * y2)) * ((1 - t) * (1 + d * x1 * x2 * y1 * y2)) *
        (y2 + y1) ^ 2 := by
      rw [f1, f2, f3, f4]
      linear_combination (-4 * y1 * x2 ^ 2 * y2 ^ 3 * d - 4 * y1 * x2 ^ 2 * y2) * h1 +
        (-4 * y1 ^ 3 * y2 + 4 * y1 * y2) * h2
    _ = _ := by ring

/-- Points of odd order, apart from the neutral element. -/
structure Honest (g : G) : Prop where
  order : ed25519Order • g = 0

theorem Honest.smul {g : G} (h : Honest g) (n : ℕ) : Honest (n • g) :=
  ⟨by rw [smul_comm, h.order, smul_zero]⟩

theorem order_odd : ed25519Order % 2 = 1 := by decide

theorem Honest.eq_zero {g : G} (h : Honest g) (h2 : g + g = 0) : g = 0 := by
  have h1 := h.order
  rw [← two_nsmul] at h2
  rw [← Nat.div_add_mod ed25519Order 2, order_odd, add_nsmul, mul_nsmul, one_nsmul, h2,
    nsmul_zero, zero_add] at h1
  exact h1

theorem one_add_d_ne : (1 : F) + d ≠ 0 := by
  intro h
  have := d_eq
  have h1 : (1 : F) = 0 := by linear_combination (121666 : F) * h - this
  exact one_ne_zero h1

/-- A point of odd order does not have `y = -1`. -/
theorem Honest.y_ne_neg {g : G} (h : Honest g) : g.y ≠ -1 := by
  intro hy
  have hon := g.on
  unfold OnEd at hon
  rw [hy] at hon
  have hx : g.x = 0 := by
    have : (1 + (d : F)) * g.x ^ 2 = 0 := by linear_combination -hon
    exact pow_eq_zero_iff (two_ne_zero) |>.1 ((mul_eq_zero.1 this).resolve_left one_add_d_ne)
  have h2 : g + g = 0 := by
    apply EdPt.ext
    · rw [EdPt.add_x, hx]; simp
    · rw [EdPt.add_y, hx, hy]; simp
  have := h.eq_zero h2
  rw [this, EdPt.zero_y] at hy
  exact two_ne (by linear_combination hy)

/-- A point of odd order does not have `y = 0`. -/
theorem Honest.y_ne_zero {g : G} (h : Honest g) : g.y ≠ 0 := by
  intro hy
  have hon := g.on
  unfold OnEd at hon
  rw [hy] at hon
  have h2 := h.smul 2
  apply h2.y_ne_neg
  rw [two_nsmul, EdPt.add_y, hy]
  simp only [mul_zero, sub_zero, div_one, zero_add]
  linear_combination -hon

theorem y_one {g : G} (hy : g.y = 1) : g = 0 := by
  have hon := g.on
  unfold OnEd at hon
  rw [hy] at hon
  have hx : g.x = 0 := by
    have : (1 + (d : F)) * g.x ^ 2 = 0 := by linear_combination -hon
    exact pow_eq_zero_iff (two_ne_zero) |>.1 ((mul_eq_zero.1 this).resolve_left one_add_d_ne)
  exact EdPt.ext hx hy

/-- Two points with `y = 0` differ by 0 or by the point of order two. -/
theorem y_zero_sub {g h : G} (hg : g.y = 0) (hh : h.y = 0) :
    (1 - (h - g).y) * (1 + (h - g).y) = 0 := by
  have h1 := g.on
  have h2 := h.on
  unfold OnEd at h1 h2
  rw [hg] at h1
  rw [hh] at h2
  have e : (h - g).y = -(g.x * h.x) := by
    rw [sub_eq_add_neg, EdPt.add_y, EdPt.neg_x, EdPt.neg_y, hg, hh]
    simp only [mul_zero, sub_zero, div_one]
    ring
  rw [e]
  linear_combination g.x ^ 2 * h2 - h1

theorem sees_add {X2 Z2 X3 Z3 : F} {g h : G} (hg : Sees X2 Z2 g) (hh : Sees X3 Z3 h)
    (n2 : 1 - (h - g).y ≠ 0) (n3 : 1 + (h - g).y ≠ 0) :
    Sees (((X3 - Z3) * (X2 + Z2) + (X3 + Z3) * (X2 - Z2)) *
        ((X3 - Z3) * (X2 + Z2) + (X3 + Z3) * (X2 - Z2)))
      (mont (h - g) * (((X3 - Z3) * (X2 + Z2) - (X3 + Z3) * (X2 - Z2)) *
        ((X3 - Z3) * (X2 + Z2) - (X3 + Z3) * (X2 - Z2)))) (g + h) := by
  obtain ⟨c, hc, hX, hZ⟩ := hg
  obtain ⟨c', hc', hX', hZ'⟩ := hh
  have key := diff_add g h
  have h2 := two_ne
  have h16 : (16 : F) ≠ 0 := by
    rw [show (16 : F) = 2 ^ 4 by norm_num]
    exact pow_ne_zero _ h2
  have both : ¬ (h.y + g.y = 0 ∧ h.y - g.y = 0) := by
    rintro ⟨e1, e2⟩
    have eh : h.y = 0 := (mul_eq_zero.1 (show (2 : F) * h.y = 0 by linear_combination e1 + e2)).resolve_left h2
    have eg : g.y = 0 := by linear_combination e1 - eh
    exact mul_ne_zero n2 n3 (y_zero_sub eg eh)
  by_cases n1 : 1 + (g + h).y = 0
  · have ns : 1 - (g + h).y ≠ 0 := fun e => h2 (by linear_combination n1 + e)
    have n5 : h.y + g.y = 0 := by
      rw [n1] at key
      have : (1 - (g + h).y) * (1 - (h - g).y) * (h.y + g.y) ^ 2 = 0 := by linear_combination -key
      exact pow_eq_zero_iff (two_ne_zero) |>.1
        ((mul_eq_zero.1 this).resolve_left (mul_ne_zero ns n2))
    have n6 : h.y - g.y ≠ 0 := fun e => both ⟨n5, e⟩
    refine ⟨mont (h - g) * (16 * (c * c') ^ 2 * (h.y - g.y) ^ 2) / (1 - (g + h).y), ?_, ?_, ?_⟩
    · exact div_ne_zero (mul_ne_zero (div_ne_zero n3 n2) (mul_ne_zero (mul_ne_zero h16
        (pow_ne_zero _ (mul_ne_zero hc hc'))) (pow_ne_zero _ n6))) ns
    · rw [n1, mul_zero, hX, hZ, hX', hZ']
      linear_combination (16 * (c * c') ^ 2 * (h.y + g.y)) * n5
    · rw [div_mul_cancel₀ _ ns, hX, hZ, hX', hZ']; ring
  · have n5 : h.y + g.y ≠ 0 := by
      intro e
      rw [e] at key
      have : (1 + (g + h).y) * (1 + (h - g).y) * (h.y - g.y) ^ 2 = 0 := by linear_combination key
      exact both ⟨e, pow_eq_zero_iff (two_ne_zero) |>.1
        ((mul_eq_zero.1 this).resolve_left (mul_ne_zero n1 n3))⟩
    refine ⟨16 * (c * c') ^ 2 * (h.y + g.y) ^ 2 / (1 + (g + h).y), ?_, ?_, ?_⟩
    · exact div_ne_zero (mul_ne_zero (mul_ne_zero h16 (pow_ne_zero _ (mul_ne_zero hc hc')))
        (pow_ne_zero _ n5)) n1
    · rw [div_mul_cancel₀ _ n1, hX, hZ, hX', hZ']; ring
    · rw [hX, hZ, hX', hZ', mont]
      generalize (g + h).y = s at *
      generalize (h - g).y = t at *
      field_simp
      linear_combination 16 * key

/-- The invariant of the ladder: the points `m•g` and `(m + 1)•g`. -/
structure LadInv (s : Ed.Lad) (g h : G) : Prop where
  l2 : s.z2 < p
  l3 : s.z3 < p
  one : Sees s.x2 s.z2 g
  two : Sees s.x3 s.z3 h

theorem ladInv_step {s : Ed.Lad} {g h q : G} (hs : LadInv s g h) (x1 : ℕ) (hx : (x1 : F) = mont q)
    (hq : h - g = q ∨ h - g = -q) (n1 : 1 - q.y ≠ 0) (n2 : 1 + q.y ≠ 0) : LadInv (s.step x1) (g + g) (g + h) where
  l2 := mul_lt _ _
  l3 := mul_lt _ _
  one := by
    have := sees_dbl hs.one
    simp only [Ed.Lad.step, cast_mul, cast_add, cast_sub _ hs.l2.le, cast_sub _ (mul_lt _ _).le]
    push_cast
    exact this
  two := by
    have hm : mont (h - g) = mont q := by
      rcases hq with e | e <;> rw [e]
      simp only [mont, EdPt.neg_y]
    have hy : (h - g).y = q.y := by
      rcases hq with e | e <;> rw [e]
      exact EdPt.neg_y _
    have := sees_add hs.one hs.two (hy ▸ n1) (hy ▸ n2)
    rw [hm, ← hx] at this
    simp only [Ed.Lad.step, cast_mul, cast_add, cast_sub _ hs.l2.le, cast_sub _ hs.l3.le,
      cast_sub _ (mul_lt _ _).le]
    exact this

theorem ladInv_loop (x1 n : ℕ) {q : G} (hx : (x1 : F) = mont q) (n1 : 1 - q.y ≠ 0)
    (n2 : 1 + q.y ≠ 0) (i : ℕ) : ∀ s : Ed.Lad, LadInv s ((n / 2 ^ i) • q) ((n / 2 ^ i + 1) • q) →
      LadInv (Ed.Lad.loop x1 n i s) (n • q) ((n + 1) • q) := by
  induction i with
  | zero => intro s hs; simpa [Ed.Lad.loop] using hs
  | succ i ih =>
    intro s hs
    unfold Ed.Lad.loop
    apply ih
    have hm : n / 2 ^ i = 2 * (n / 2 ^ (i + 1)) + n / 2 ^ i % 2 := by
      rw [Nat.pow_succ, ← Nat.div_div_eq_div_mul]
      omega
    generalize n / 2 ^ (i + 1) = m at hs hm
    rcases Nat.mod_two_eq_zero_or_one (n / 2 ^ i) with hb | hb
    · rw [hb] at hm ⊢
      rw [hm]
      simp only [Ed.Lad.swap, Nat.zero_ne_one, if_false]
      have := ladInv_step hs x1 hx (.inl (by rw [add_nsmul, one_nsmul]; abel)) n1 n2
      convert this using 1
      · rw [← add_nsmul]; congr 1; ring
      · rw [← add_nsmul]; congr 1; ring
    · rw [hb] at hm ⊢
      rw [hm]
      simp only [Ed.Lad.swap, if_true]
      have hs' : LadInv ⟨s.x3, s.z3, s.x2, s.z2⟩ ((m + 1) • q) (m • q) :=
        ⟨hs.l3, hs.l2, hs.two, hs.one⟩
      have := ladInv_step hs' x1 hx (.inr (by rw [add_nsmul, one_nsmul]; abel)) n1 n2
      refine ⟨this.l3, this.l2, ?_, ?_⟩
      · convert this.two using 1
        rw [← add_nsmul]; congr 1; ring
      · convert this.one using 1
        rw [← add_nsmul]; congr 1; ring

/-- At `u = 0` the ladder stays among `0` and infinity. -/
structure LadZero (s : Ed.Lad) : Prop where
  l2 : s.z2 < p
  l3 : s.z3 < p
  one : (s.x2 : F) * s.z2 = 0
  two : (s.x3 : F) * s.z3 = 0

theorem ladZero_loop (n i : ℕ) : ∀ s, LadZero s → LadZero (Ed.Lad.loop 0 n i s) := by
  have swap : ∀ s b, LadZero s → LadZero (Ed.Lad.swap s b) := by
    intro s b h
    unfold Ed.Lad.swap
    split
    · exact ⟨h.l3, h.l2, h.two, h.one⟩
    · exact h
  have step : ∀ s, LadZero s → LadZero (Ed.Lad.step 0 s) := by
    intro s h
    refine ⟨mul_lt _ _, mul_lt _ _, ?_, ?_⟩
    · have := h.one
      simp only [Ed.Lad.step, cast_mul, cast_add, cast_sub _ h.l2.le, cast_sub _ (mul_lt _ _).le]
      linear_combination (4 * ((s.x2 : F) + s.z2) ^ 2 * (s.x2 - s.z2) ^ 2 *
        ((s.x2 + s.z2) ^ 2 + ((121665 : ℕ) : F) * (4 * s.x2 * s.z2))) * this
    · simp only [Ed.Lad.step, cast_mul, Nat.cast_zero, zero_mul, mul_zero]
  induction i with
  | zero => intro s h; exact h
  | succ i ih =>
    intro s h
    unfold Ed.Lad.loop
    exact ih _ (swap _ _ (step _ (swap _ _ h)))

theorem sees_mont {X Z : F} {g : G} (h : Sees X Z g) : X * Z⁻¹ = mont g := by
  obtain ⟨c, hc, hX, hZ⟩ := h
  rw [hX, hZ, mont]
  by_cases hz : (1 : F) - g.y = 0
  · rw [hz]; simp
  · field_simp

/-- The encoding of a Montgomery coordinate. -/
def montEnc (u : F) : BytesN 32 := fit 32 (leBytes 32 u.val)

theorem montEnc_nat (u : F) : leNat (montEnc u).1 % 2 ^ 255 % p = u.val := by
  have h1 : u.val < p := ZMod.val_lt _
  have h2 : u.val < 2 ^ 255 := h1.trans p_lt
  unfold montEnc
  rw [fit_of_length (leBytes_length _ _), leNat_leBytes,
    Nat.mod_eq_of_lt (h2.trans (by decide)), Nat.mod_eq_of_lt h2, Nat.mod_eq_of_lt h1]

theorem toMontgomery_rep {P : Ed.Pt} {g : G} (h : Rep P g) : P.toMontgomery = montEnc (mont g) := by
  unfold Ed.Pt.toMontgomery montEnc
  congr 2
  apply eq_of_cast (mul_lt _ _) (ZMod.val_lt _)
  rw [cast_mul, cast_add, cast_inv, cast_sub _ h.lty.le, ZMod.natCast_zmod_val, h.y]
  apply sees_mont
  exact ⟨P.z, h.z, by ring, by ring⟩

/-- The points with coordinate 0. -/
theorem mont_eq_zero {q : G} : mont q = 0 ↔ q.y = 1 ∨ q.y = -1 := by
  unfold mont
  rw [div_eq_zero_iff]
  constructor
  · rintro (h | h)
    · exact .inr (by linear_combination h)
    · exact .inl (by linear_combination -h)
  · rintro (h | h) <;> rw [h]
    · exact .inr (sub_self _)
    · exact .inl (add_neg_cancel _)

/-- The point with `y = -1` has order two. -/
theorem y_neg_one {q : G} (hy : q.y = -1) : q + q = 0 := by
  have hon := q.on
  unfold OnEd at hon
  rw [hy] at hon
  have hx : q.x = 0 := by
    have : (1 + (d : F)) * q.x ^ 2 = 0 := by linear_combination -hon
    exact pow_eq_zero_iff (two_ne_zero) |>.1 ((mul_eq_zero.1 this).resolve_left one_add_d_ne)
  apply EdPt.ext
  · rw [EdPt.add_x, hx]; simp
  · rw [EdPt.add_y, hx, hy]; simp

theorem mont_zero_smul {q : G} (h : mont q = 0) (n : ℕ) : mont (n • q) = 0 := by
  rcases mont_eq_zero.1 h with hy | hy
  · rw [y_one hy, nsmul_zero]; simp [mont]
  · have h2 := y_neg_one hy
    rw [← Nat.div_add_mod n 2, add_nsmul, mul_nsmul, two_nsmul, h2, nsmul_zero, zero_add]
    rcases Nat.mod_two_eq_zero_or_one n with e | e <;> rw [e]
    · simp [mont]
    · rw [one_nsmul, h]

/-- The ladder on the coordinate of any point of the curve. -/
theorem ladder_spec (q : G) {n : ℕ} (hn : n < 2 ^ 255) :
    Ed.ladder n (montEnc (mont q)).1 = montEnc (mont (n • q)) := by
  unfold Ed.ladder
  simp only [montEnc_nat]
  unfold montEnc
  congr 2
  apply eq_of_cast (mul_lt _ _) (ZMod.val_lt _)
  rw [cast_mul, cast_inv, ZMod.natCast_zmod_val]
  have hx : (((mont q).val : ℕ) : F) = mont q := ZMod.natCast_zmod_val _
  by_cases hq : mont q = 0
  · rw [mont_zero_smul hq]
    have hz := ladZero_loop n 255 ⟨1, 0, 0, 1⟩
      ⟨p_pos, one_lt_p, by simp, by simp⟩
    rw [hq, ZMod.val_zero]
    rcases mul_eq_zero.1 hz.one with e | e <;> rw [e] <;> simp
  · apply sees_mont
    have n1 : 1 - q.y ≠ 0 := fun e => hq (mont_eq_zero.2 (.inl (by linear_combination -e)))
    have n2 : 1 + q.y ≠ 0 := fun e => hq (mont_eq_zero.2 (.inr (by linear_combination e)))
    refine (ladInv_loop _ n hx n1 n2 255 _ ?_).one
    rw [Nat.div_eq_of_lt hn, zero_nsmul, zero_add, one_nsmul]
    refine ⟨p_pos, one_lt_p, ⟨2⁻¹, inv_ne_zero two_ne, ?_, ?_⟩, ⟨(1 - q.y)⁻¹, inv_ne_zero n1, ?_, ?_⟩⟩
    · have := two_ne
      simp only [Nat.cast_one, EdPt.zero_y]
      field_simp
      norm_num
    · simp
    · simp only
      rw [hx, mont, div_eq_mul_inv, mul_comm]
    · simp only
      rw [inv_mul_cancel₀ n1, Nat.cast_one]

end Pasta.Curve.E25519
