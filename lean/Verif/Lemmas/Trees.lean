import Mathlib.Data.Fintype.BigOperators
import Mathlib.Data.Fintype.Pi
import Mathlib.Algebra.BigOperators.Ring.Finset
import Mathlib.Algebra.Order.BigOperators.Group.Finset
import Mathlib.Tactic.Ring

/-!
# Guessing values of a random function

Someone may ask for values of a function and guess values at points not asked for, deciding from the
answers. The share of functions for which a guess is right is at most the number of guesses divided
by the number of values. By induction on the strategy.
-/

namespace Pasta

/-- A strategy: ask for a value, or guess one and be told whether it is right. -/
inductive Guess (X T : Type) where
  | stop
  | look (x : X) (next : T → Guess X T)
  | guess (x : X) (t : T) (next : Bool → Guess X T)

namespace Guess

variable {X T : Type} [DecidableEq X] [DecidableEq T] [Fintype T]

/-- Some guess is right at a point not asked for before. -/
def Wins (f : X → T) : Finset X → Guess X T → Prop
  | _, .stop => False
  | seen, .look x next => Wins f (insert x seen) (next (f x))
  | seen, .guess x t next => (x ∉ seen ∧ f x = t) ∨ Wins f seen (next (decide (f x = t)))

/-- The points that can come up. -/
def points : Guess X T → Finset X
  | .stop => ∅
  | .look x next => insert x (Finset.univ.biUnion fun t => points (next t))
  | .guess x _ next => insert x (points (next true) ∪ points (next false))

/-- No branch has more than `q` guesses. -/
def AtMost : Nat → Guess X T → Prop
  | _, .stop => True
  | q, .look _ next => ∀ t, AtMost q (next t)
  | q, .guess _ _ next => ∃ p, q = p + 1 ∧ ∀ b, AtMost p (next b)

/-- A function on the finite set `D`, continued by `d`. -/
def ext (d : X → T) (D : Finset X) (g : D → T) : X → T := fun x => if h : x ∈ D then g ⟨x, h⟩ else d x

/-- The functions on `D` with prescribed values on `S`. -/
def agreeing (D : Finset X) (S : Finset X) (known : X → T) : Finset (D → T) :=
  Finset.univ.filter fun g => ∀ x : D, x.1 ∈ S → g x = known x.1

theorem card_agreeing (D S : Finset X) (known : X → T) (hS : S ⊆ D) :
    (agreeing D S known).card * Fintype.card T ^ S.card = Fintype.card T ^ D.card := by
  have e : agreeing D S known = Fintype.piFinset fun x : D =>
      if x.1 ∈ S then {known x.1} else Finset.univ := by
    ext g
    simp only [agreeing, Finset.mem_filter, Finset.mem_univ, true_and, Fintype.mem_piFinset]
    constructor
    · intro h x
      by_cases hx : x.1 ∈ S
      · rw [if_pos hx, h x hx]; simp
      · rw [if_neg hx]; simp
    · intro h x hx
      have := h x
      rw [if_pos hx] at this
      simpa using this
  rw [e, Fintype.card_piFinset]
  have e2 : ∀ x : D, (if x.1 ∈ S then ({known x.1} : Finset T) else Finset.univ).card =
      if x.1 ∈ S then 1 else Fintype.card T := by
    intro x; split <;> simp
  simp only [e2]
  rw [Finset.prod_ite]
  simp only [Finset.prod_const_one, one_mul, Finset.prod_const]
  rw [← pow_add]
  congr 1
  have h1 : (Finset.univ.filter fun x : D => x.1 ∈ S).card = S.card := by
    rw [← Finset.card_map (Function.Embedding.subtype (· ∈ D))]
    congr 1
    ext x
    simp only [Finset.mem_map, Finset.mem_filter, Finset.mem_univ, true_and,
      Function.Embedding.subtype_apply, Subtype.exists, exists_and_left, exists_prop, exists_eq_right_right]
    exact ⟨fun h => h.1, fun h => ⟨h, hS h⟩⟩
  have h2 := Finset.card_filter_add_card_filter_not (s := (Finset.univ : Finset D))
    (fun x : D => x.1 ∈ S)
  rw [Finset.card_univ, Fintype.card_coe, h1] at h2
  omega

theorem agreeing_insert (D S : Finset X) (known : X → T) (x : X) (hx : x ∉ S) (hD : x ∈ D) (t : T) :
    agreeing D (insert x S) (Function.update known x t) =
      (agreeing D S known).filter fun g => g ⟨x, hD⟩ = t := by
  ext g
  simp only [agreeing, Finset.mem_filter, Finset.mem_univ, true_and, Finset.mem_insert]
  constructor
  · intro h
    refine ⟨fun y hy => ?_, ?_⟩
    · rw [h y (.inr hy), Function.update_of_ne]
      rintro rfl; exact hx hy
    · rw [h ⟨x, hD⟩ (.inl rfl)]; simp
  · rintro ⟨h1, h2⟩ y (hy | hy)
    · have : y = ⟨x, hD⟩ := Subtype.ext hy
      rw [this, h2]; simp
    · rw [h1 y hy, Function.update_of_ne]
      rintro rfl; exact hx hy

open Classical in
/-- Of the functions with the values known so far, those for which the strategy wins. -/
theorem card_wins (d : X → T) (D : Finset X) (s : Guess X T) : ∀ (q : Nat) (S : Finset X) (known : X → T),
    s.AtMost q → S ⊆ D → s.points ⊆ D →
    ((agreeing D S known).filter fun g => s.Wins (ext d D g) S).card * Fintype.card T ^ (S.card + 1) ≤
      q * Fintype.card T ^ D.card := by
  induction s with
  | stop =>
    intro q S known _ _ _
    have e : ((agreeing D S known).filter fun g => stop.Wins (ext d D g) S) = ∅ :=
      Finset.filter_eq_empty_iff.2 fun _ _ h => h
    rw [e, Finset.card_empty, Nat.zero_mul]
    exact Nat.zero_le _
  | look x next ih =>
    intro q S known hq hS hp
    have hxD : x ∈ D := hp (by simp [points])
    have hn : ∀ t, (next t).points ⊆ D := fun t y hy => hp (by
      simp only [points, Finset.mem_insert, Finset.mem_biUnion, Finset.mem_univ, true_and]
      exact .inr ⟨t, hy⟩)
    have hev : ∀ g : D → T, ext d D g x = g ⟨x, hxD⟩ := fun g => dif_pos hxD
    by_cases hx : x ∈ S
    · have e : ((agreeing D S known).filter fun g => (look x next).Wins (ext d D g) S) =
          ((agreeing D S known).filter fun g => (next (known x)).Wins (ext d D g) S) := by
        apply Finset.filter_congr
        intro g hg
        have : g ⟨x, hxD⟩ = known x := (Finset.mem_filter.1 hg).2 ⟨x, hxD⟩ hx
        simp only [Wins, hev, this, Finset.insert_eq_of_mem hx]
      rw [e]
      exact ih _ q S known (hq _) hS (hn _)
    · have e : ((agreeing D S known).filter fun g => (look x next).Wins (ext d D g) S) =
          Finset.univ.biUnion fun t => ((agreeing D (insert x S) (Function.update known x t)).filter
            fun g => (next t).Wins (ext d D g) (insert x S)) := by
        ext g
        simp only [Finset.mem_biUnion, Finset.mem_univ, true_and,
          agreeing_insert D S known x hx hxD, Wins]
        simp only [Finset.mem_filter, hev]
        constructor
        · rintro ⟨h1, h2⟩
          exact ⟨_, ⟨h1, rfl⟩, h2⟩
        · rintro ⟨t, ⟨h1, h2⟩, h3⟩
          subst h2
          exact ⟨h1, h3⟩
      have hT : 0 < Fintype.card T := Fintype.card_pos_iff.2 ⟨d x⟩
      have hb : ((agreeing D S known).filter fun g => (look x next).Wins (ext d D g) S).card *
          Fintype.card T ^ ((insert x S).card + 1) ≤
          ∑ _t : T, q * Fintype.card T ^ D.card := by
        rw [e]
        refine le_trans (Nat.mul_le_mul_right _ Finset.card_biUnion_le) ?_
        rw [Finset.sum_mul]
        exact Finset.sum_le_sum fun t _ => ih t q (insert x S) _ (hq t)
          (Finset.insert_subset hxD hS) (hn t)
      rw [Finset.card_insert_of_notMem hx, Finset.sum_const, Finset.card_univ, Nat.nsmul_eq_mul] at hb
      refine Nat.le_of_mul_le_mul_left (le_trans (le_of_eq ?_) hb) hT
      ring
  | guess x t next ih =>
    intro q S known hq hS hp
    obtain ⟨p, rfl, hq⟩ := hq
    have hxD : x ∈ D := hp (by simp [points])
    have hn : ∀ b, (next b).points ⊆ D := fun b y hy => hp (by
      simp only [points, Finset.mem_insert, Finset.mem_union]
      cases b
      · exact .inr (.inr hy)
      · exact .inr (.inl hy))
    have hev : ∀ g : D → T, ext d D g x = g ⟨x, hxD⟩ := fun g => dif_pos hxD
    by_cases hx : x ∈ S
    · have e : ((agreeing D S known).filter fun g => (guess x t next).Wins (ext d D g) S) =
          ((agreeing D S known).filter fun g =>
            (next (decide (known x = t))).Wins (ext d D g) S) := by
        apply Finset.filter_congr
        intro g hg
        have : g ⟨x, hxD⟩ = known x := (Finset.mem_filter.1 hg).2 ⟨x, hxD⟩ hx
        simp only [Wins, hev, this, hx, not_true_eq_false, false_and, false_or]
      rw [e]
      refine le_trans (ih _ p S known (hq _) hS (hn _)) (Nat.mul_le_mul_right _ (by omega))
    · have hsub : ((agreeing D S known).filter fun g => (guess x t next).Wins (ext d D g) S) ⊆
          agreeing D (insert x S) (Function.update known x t) ∪
            ((agreeing D S known).filter fun g => (next false).Wins (ext d D g) S) := by
        intro g hg
        obtain ⟨h1, h2⟩ := Finset.mem_filter.1 hg
        rw [Finset.mem_union, agreeing_insert D S known x hx hxD, Finset.mem_filter, Finset.mem_filter]
        by_cases ht : g ⟨x, hxD⟩ = t
        · exact .inl ⟨h1, ht⟩
        · simp only [Wins, hev, ht, and_false, false_or, decide_false] at h2
          exact .inr ⟨h1, h2⟩
      have hc := card_agreeing D (insert x S) (Function.update known x t) (Finset.insert_subset hxD hS)
      rw [Finset.card_insert_of_notMem hx] at hc
      have h3 := ih false p S known (hq _) hS (hn _)
      calc _ ≤ ((agreeing D (insert x S) (Function.update known x t)).card +
            ((agreeing D S known).filter fun g => (next false).Wins (ext d D g) S).card) *
              Fintype.card T ^ (S.card + 1) :=
            Nat.mul_le_mul_right _ (le_trans (Finset.card_le_card hsub) (Finset.card_union_le _ _))
        _ ≤ _ := by rw [add_mul, hc, add_mul, one_mul, add_comm]; exact Nat.add_le_add_right h3 _

/-- Of all functions on `D`, those for which the strategy wins. -/
theorem card_wins_all (d : X → T) (D : Finset X) (s : Guess X T) (q : Nat) (hq : s.AtMost q)
    (hp : s.points ⊆ D) [DecidablePred fun g : D → T => s.Wins (ext d D g) ∅] :
    (Finset.univ.filter fun g : D → T => s.Wins (ext d D g) ∅).card * Fintype.card T ≤
      q * Fintype.card (D → T) := by
  have h := card_wins d D s q ∅ d hq (Finset.empty_subset _) hp
  have e : agreeing D ∅ d = Finset.univ := by
    ext g; simp [agreeing]
  rw [e, Finset.card_empty, zero_add, pow_one] at h
  rw [Fintype.card_fun, Fintype.card_coe]
  convert h

end Guess
end Pasta
