import Mathlib.Algebra.BigOperators.Field
import Verif.Lemmas.Plug

/-!
# Random tags

Used for C88 and C89. Tags are given by a random function of key and message. Someone who sees one
tag under a random key, and otherwise tags under keys of their choice, guesses another tag under that
key only by chance.
-/

namespace Pasta.Plug

open C82 (count count_eq count_prod count_prod')

variable {K X Z Y : Type} [DecidableEq K] [DecidableEq X] [Fintype K] [Fintype X] [Fintype Z] [Fintype Y]

omit [DecidableEq K] [Fintype K] in
/-- One guess, chosen from one value of a random function. -/
theorem count_guess (x0 : X) (x : Z → X) (z : Z → Z) :
    count (fun r : X → Z => x (r x0) ≠ x0 ∧ r (x (r x0)) = z (r x0)) * Fintype.card Z ≤
      Fintype.card (X → Z) := by
  classical
  rw [← count_fst (β := Z), ← Finset.card_univ]
  unfold count
  refine Finset.card_le_card_of_injOn (fun p => Function.update p.1 (x (p.1 x0)) p.2)
    (fun _ _ => Finset.mem_coe.2 (Finset.mem_univ _)) ?_
  rintro ⟨r, e⟩ hr ⟨r', e'⟩ hr' h
  have hr : x (r x0) ≠ x0 ∧ r (x (r x0)) = z (r x0) := by simpa using hr
  have hr' : x (r' x0) ≠ x0 ∧ r' (x (r' x0)) = z (r' x0) := by simpa using hr'
  have h : Function.update r (x (r x0)) e = Function.update r' (x (r' x0)) e' := h
  have e0 : r x0 = r' x0 := by
    have := congrFun h x0
    rwa [Function.update_of_ne hr.1.symm, Function.update_of_ne hr'.1.symm] at this
  rw [← e0] at h hr'
  have ee : e = e' := by
    have := congrFun h (x (r x0))
    rwa [Function.update_self, Function.update_self] at this
  have er : r = r' := by
    funext a
    by_cases ha : a = x (r x0)
    · rw [ha, hr.2, hr'.2]
    · have := congrFun h a
      rwa [Function.update_of_ne ha, Function.update_of_ne ha] at this
  rw [er, ee]

omit [DecidableEq K] [Fintype K] in
/-- Several guesses. -/
theorem count_guesses (x0 : X) (n : Nat) (guesses : Z → List (X × Z)) (hn : ∀ z, (guesses z).length ≤ n) :
    count (fun r : X → Z => ∃ p ∈ guesses (r x0), p.1 ≠ x0 ∧ r p.1 = p.2) * Fintype.card Z ≤
      n * Fintype.card (X → Z) := by
  classical
  -- the `i`-th guess, or something harmless
  let x : Nat → Z → X := fun i z => ((guesses z)[i]?.map Prod.fst).getD x0
  let w : Nat → Z → Z := fun i z => ((guesses z)[i]?.map Prod.snd).getD z
  have h1 : count (fun r : X → Z => ∃ p ∈ guesses (r x0), p.1 ≠ x0 ∧ r p.1 = p.2) ≤
      ∑ i ∈ Finset.range n, count (fun r : X → Z => x i (r x0) ≠ x0 ∧ r (x i (r x0)) = w i (r x0)) := by
    unfold count
    refine le_trans (Finset.card_le_card ?_) Finset.card_biUnion_le
    intro r hr
    simp only [Finset.mem_filter, Finset.mem_univ, true_and] at hr
    obtain ⟨p, hp, h2, h3⟩ := hr
    obtain ⟨i, hi, he⟩ := List.mem_iff_getElem.1 hp
    refine Finset.mem_biUnion.2 ⟨i, Finset.mem_range.2 (Nat.lt_of_lt_of_le hi (hn _)), ?_⟩
    simp only [Finset.mem_filter, Finset.mem_univ, true_and]
    have hx : x i (r x0) = p.1 := by simp only [x, List.getElem?_eq_getElem hi, he]; rfl
    have hw : w i (r x0) = p.2 := by simp only [w, List.getElem?_eq_getElem hi, he]; rfl
    rw [hx, hw]
    exact ⟨h2, h3⟩
  calc _ ≤ (∑ i ∈ Finset.range n,
        count (fun r : X → Z => x i (r x0) ≠ x0 ∧ r (x i (r x0)) = w i (r x0))) * Fintype.card Z :=
      Nat.mul_le_mul_right _ h1
    _ = ∑ i ∈ Finset.range n,
        count (fun r : X → Z => x i (r x0) ≠ x0 ∧ r (x i (r x0)) = w i (r x0)) * Fintype.card Z :=
      Finset.sum_mul _ _ _
    _ ≤ ∑ _i ∈ Finset.range n, Fintype.card (X → Z) :=
      Finset.sum_le_sum fun i _ => count_guess x0 (x i) (w i)
    _ = _ := by rw [Finset.sum_const, Finset.card_range, Nat.nsmul_eq_mul]

omit [DecidableEq X] [Fintype K] [Fintype X] [Fintype Z] [Fintype Y] in
/-- The tags under one key are drawn apart; that changes nothing. -/
theorem row_bijective : Function.Bijective fun z : Y × K × (K → X → Z) × (X → Z) =>
    ((z.1, z.2.1, Function.update z.2.2.1 z.2.1 z.2.2.2), z.2.2.1 z.2.1) := by
  refine Function.bijective_iff_has_inverse.2 ⟨fun w =>
    (w.1.1, w.1.2.1, Function.update w.1.2.2 w.1.2.1 w.2, w.1.2.2 w.1.2.1), ?_, ?_⟩
  · rintro ⟨y, k, T, row⟩
    simp
  · rintro ⟨⟨y, k, T⟩, row⟩
    simp

/-- The whole. -/
theorem forged (n : Nat) (x0 : Y → X) (touched : Y → Z → (K → X → Z) → List K)
    (guesses : Y → Z → (K → X → Z) → List (X × Z)) (ht : ∀ y z T, (touched y z T).length ≤ n)
    (hg : ∀ y z T, (guesses y z T).length ≤ n) (bad : Y × K × (K → X → Z) → Prop)
    (h : ∀ y ak T row, ak ∉ touched y (row (x0 y)) T → bad (y, ak, Function.update T ak row) →
      ∃ p ∈ guesses y (row (x0 y)) T, p.1 ≠ x0 y ∧ row p.1 = p.2)
    (hK : 0 < Fintype.card K) (hZ : 0 < Fintype.card Z) :
    (count bad : ℚ) / Fintype.card (Y × K × (K → X → Z)) ≤ n / Fintype.card K + n / Fintype.card Z := by
  classical
  obtain ⟨k1⟩ := Fintype.card_pos_iff.1 hK
  obtain ⟨z1⟩ := Fintype.card_pos_iff.1 hZ
  have e := count_bij (row_bijective (K := K) (X := X) (Z := Z) (Y := Y))
    (A := fun z => bad (z.1, z.2.1, Function.update z.2.2.1 z.2.1 z.2.2.2))
    (B := fun w => bad w.1) fun _ => Iff.rfl
  rw [count_fst bad] at e
  have hb : count bad * Fintype.card (X → Z) * Fintype.card Z ≤
      n * Fintype.card (Y × (K → X → Z) × (X → Z)) * Fintype.card Z +
        n * Fintype.card (Y × K × (K → X → Z)) * Fintype.card (X → Z) := by
    rw [← e]
    refine le_trans (Nat.mul_le_mul_right _ (le_trans (count_mono
      (B := fun z : Y × K × (K → X → Z) × (X → Z) => z.2.1 ∈ touched z.1 (z.2.2.2 (x0 z.1)) z.2.2.1 ∨
        ∃ p ∈ guesses z.1 (z.2.2.2 (x0 z.1)) z.2.2.1, p.1 ≠ x0 z.1 ∧ z.2.2.2 p.1 = p.2) ?_)
      (count_or _ _))) ?_
    · intro z hz
      by_cases ht' : z.2.1 ∈ touched z.1 (z.2.2.2 (x0 z.1)) z.2.2.1
      · exact .inl ht'
      · exact .inr (h _ _ _ _ ht' hz)
    rw [Nat.add_mul]
    refine Nat.add_le_add (Nat.mul_le_mul_right _ ?_) ?_
    · let re : Y × K × (K → X → Z) × (X → Z) ≃ (Y × (K → X → Z) × (X → Z)) × K :=
        { toFun := fun z => ((z.1, z.2.2), z.2.1)
          invFun := fun z => (z.1.1, z.2, z.1.2)
          left_inv := fun _ => rfl
          right_inv := fun _ => rfl }
      have hk := count_touched (fun k : K => k) 1 n (fun k => by
          unfold count
          refine Finset.card_le_one.2 fun x hx y hy => ?_
          simp only [Finset.mem_filter, Finset.mem_univ, true_and] at hx hy
          rw [hx, hy])
        (α := Y × (K → X → Z) × (X → Z)) (fun z => touched z.1 (z.2.2 (x0 z.1)) z.2.1) fun z => ht _ _ _
      rw [Nat.mul_one, ← count_bij re.bijective (fun _ => Iff.rfl)] at hk
      exact hk
    · let re : Y × K × (K → X → Z) × (X → Z) ≃ (Y × K × (K → X → Z)) × (X → Z) :=
        { toFun := fun z => ((z.1, z.2.1, z.2.2.1), z.2.2.2)
          invFun := fun z => (z.1.1, z.1.2.1, z.1.2.2, z.2)
          left_inv := fun _ => rfl
          right_inv := fun _ => rfl }
      have e2 := count_bij re.bijective
        (A := fun z : Y × K × (K → X → Z) × (X → Z) =>
          ∃ p ∈ guesses z.1 (z.2.2.2 (x0 z.1)) z.2.2.1, p.1 ≠ x0 z.1 ∧ z.2.2.2 p.1 = p.2)
        (B := fun w : (Y × K × (K → X → Z)) × (X → Z) =>
          ∃ p ∈ guesses w.1.1 (w.2 (x0 w.1.1)) w.1.2.2, p.1 ≠ x0 w.1.1 ∧ w.2 p.1 = p.2) (fun _ => Iff.rfl)
      rw [e2, count_prod, Finset.sum_mul]
      refine le_trans (Finset.sum_le_card_nsmul _ _ (n * Fintype.card (X → Z)) fun w _ => ?_) ?_
      · exact count_guesses (x0 w.1) n (fun z => guesses w.1 z w.2.2) fun z => hg _ _ _
      · rw [Finset.card_univ, Nat.nsmul_eq_mul]
        exact Nat.le_of_eq (by ring)
  have : Nonempty Z := ⟨z1⟩
  have hR : (0 : ℚ) < Fintype.card (X → Z) := by exact_mod_cast Fintype.card_pos
  have hT : (0 : ℚ) < Fintype.card (K → X → Z) := by exact_mod_cast Fintype.card_pos
  have hK' : (0 : ℚ) < Fintype.card K := by exact_mod_cast hK
  have hZ' : (0 : ℚ) < Fintype.card Z := by exact_mod_cast hZ
  have hb' : (count bad : ℚ) * Fintype.card (X → Z) * Fintype.card Z ≤
      n * (Fintype.card Y * (Fintype.card (K → X → Z) * Fintype.card (X → Z))) * Fintype.card Z +
        n * (Fintype.card Y * (Fintype.card K * Fintype.card (K → X → Z))) * Fintype.card (X → Z) := by
    have := Nat.cast_le (α := ℚ).2 hb
    simpa only [Fintype.card_prod, Nat.cast_mul, Nat.cast_add] using this
  rw [Fintype.card_prod, Fintype.card_prod, Nat.cast_mul, Nat.cast_mul]
  by_cases hY : Fintype.card Y = 0
  · rw [hY, Nat.cast_zero, zero_mul, div_zero]
    positivity
  · have hY' : (0 : ℚ) < Fintype.card Y := by exact_mod_cast Nat.pos_of_ne_zero hY
    rw [div_add_div _ _ hK'.ne' hZ'.ne', div_le_div_iff₀ (by positivity) (by positivity)]
    refine le_of_mul_le_mul_right ?_ hR
    have := mul_le_mul_of_nonneg_left hb' hK'.le
    calc _ = (Fintype.card K : ℚ) * (count bad * Fintype.card (X → Z) * Fintype.card Z) := by ring
      _ ≤ _ := this
      _ = _ := by ring

end Pasta.Plug
