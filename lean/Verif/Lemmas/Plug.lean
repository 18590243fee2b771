import Mathlib.Data.Fintype.Pi
import Mathlib.Data.Fintype.BigOperators
import Mathlib.Logic.Equiv.Basic
import Mathlib.Tactic.Linarith
import Mathlib.Tactic.Positivity
import Mathlib.Tactic.FieldSimp
import Mathlib.Algebra.Order.Field.Rat
import Verif.Props.Distinguish

/-!
# Fixing some values of random functions

Used for C88, C89 and C97. A function `f` and a family `c` are random. The values of `f` at two places, and the
member of `c` under the key that the first of them gives, are drawn apart; that changes nothing.
-/

namespace Pasta.Plug

open C82 (count count_eq count_prod count_prod')

variable {I T K S E : Type} [DecidableEq I] [DecidableEq K]

/-- Everything drawn: function, family, what is seen of the member that is set, the second value, the
first value, the member before it is set. -/
abbrev Drawn (I T K S E : Type) := (I → T) × (K → S) × E × T × T × S

variable (x1 x2 : I) (kOf : T → K) (fix : T → S → E → S) (out : T → S → E)

/-- The function and the family with the drawn values in place. -/
def plug (z : Drawn I T K S E) : (I → T) × (K → S) :=
  let (f, c, e, t2, t1, s) := z
  (Function.update (Function.update f x1 t1) x2 t2, Function.update c (kOf t1) (fix t1 s e))

/-- The old values. -/
def rest (z : Drawn I T K S E) : T × T × S × E :=
  let (f, c, _, _, t1, s) := z
  (f x1, Function.update f x1 t1 x2, c (kOf t1), out t1 s)

theorem plug_bijective (h1 : ∀ t s e, out t (fix t s e) = e)
    (h2 : ∀ t s e, fix t (fix t s e) (out t s) = s) :
    Function.Bijective fun z : Drawn I T K S E => (plug x1 x2 kOf fix z, rest x1 x2 kOf out z) := by
  constructor
  · rintro ⟨f, c, e, t2, t1, s⟩ ⟨f', c', e', t2', t1', s'⟩ h
    simp only [plug, rest, Prod.mk.injEq] at h
    obtain ⟨⟨hf, hc⟩, ho1, ho2, ho3, ho4⟩ := h
    have e2 : t2 = t2' := by
      have := congrFun hf x2
      simpa using this
    have ef1 : Function.update f x1 t1 = Function.update f' x1 t1' := by
      funext x
      by_cases hx2 : x = x2
      · rw [hx2]; exact ho2
      · have := congrFun hf x
        rwa [Function.update_of_ne hx2, Function.update_of_ne hx2] at this
    have e1 : t1 = t1' := by
      have := congrFun ef1 x1
      simpa using this
    have ef : f = f' := by
      funext x
      by_cases hx1 : x = x1
      · rw [hx1]; exact ho1
      · have := congrFun ef1 x
        rwa [Function.update_of_ne hx1, Function.update_of_ne hx1] at this
    subst e1 e2 ef
    have es : fix t1 s e = fix t1 s' e' := by
      have := congrFun hc (kOf t1)
      simpa using this
    have ec : c = c' := by
      funext x
      by_cases hk : x = kOf t1
      · rw [hk]; exact ho3
      · have := congrFun hc x
        rwa [Function.update_of_ne hk, Function.update_of_ne hk] at this
    have ee : e = e' := by rw [← h1 t1 s e, es, h1]
    have ess : s = s' := by rw [← h2 t1 s e, es, ho4, h2]
    rw [ec, ee, ess]
  · rintro ⟨⟨f2, c1⟩, o1, o2, o3, o4⟩
    let f1 := Function.update f2 x2 o2
    let t1 := f1 x1
    refine ⟨(Function.update f1 x1 o1, Function.update c1 (kOf t1) o3, out t1 (c1 (kOf t1)), f2 x2, t1,
      fix t1 (c1 (kOf t1)) o4), ?_⟩
    have hf1 : Function.update (Function.update f1 x1 o1) x1 t1 = f1 := by
      rw [Function.update_idem]
      exact Function.update_eq_self _ _
    have hf2 : Function.update f1 x2 (f2 x2) = f2 := by
      show Function.update (Function.update f2 x2 o2) x2 (f2 x2) = f2
      rw [Function.update_idem]
      exact Function.update_eq_self _ _
    simp only [plug, rest, Prod.mk.injEq]
    refine ⟨⟨by rw [hf1, hf2], ?_⟩, by simp, ?_, by simp, ?_⟩
    · rw [Function.update_idem, h2]
      exact Function.update_eq_self _ _
    · rw [hf1]; simp [f1]
    · rw [h1]

variable [Fintype I] [Fintype T] [Fintype K] [Fintype S] [Fintype E]

theorem mem_count {α : Type} [Fintype α] {A : α → Prop} {x : α} [DecidablePred A] :
    x ∈ Finset.univ.filter A ↔ A x := by simp

theorem count_bij {α β : Type} [Fintype α] [Fintype β] {g : α → β} (hg : Function.Bijective g)
    {A : α → Prop} {B : β → Prop} (h : ∀ x, A x ↔ B (g x)) : count A = count B := by
  classical
  unfold count
  refine Finset.card_bij (fun x _ => g x) (fun x hx => ?_) (fun a _ b _ e => hg.1 e) fun y hy => ?_
  · exact mem_count.2 ((h x).1 (mem_count.1 hx))
  · obtain ⟨x, rfl⟩ := hg.2 y
    exact ⟨x, mem_count.2 ((h x).2 (mem_count.1 hy)), rfl⟩

theorem count_mono {α : Type} [Fintype α] {A B : α → Prop} (h : ∀ x, A x → B x) :
    count A ≤ count B := by
  classical
  unfold count
  exact Finset.card_le_card fun x hx => mem_count.2 (h x (mem_count.1 hx))

theorem count_or {α : Type} [Fintype α] (A B : α → Prop) :
    count (fun x => A x ∨ B x) ≤ count A + count B := by
  classical
  unfold count
  refine le_trans (Finset.card_le_card (t := Finset.univ.filter A ∪ Finset.univ.filter B)
    fun x hx => ?_) (le_trans (Finset.card_union_le _ _) (by rw [count_eq, count_eq]))
  have hx' : A x ∨ B x := by simpa using hx
  rw [Finset.mem_union, mem_count, mem_count]
  exact hx'

theorem count_fst {α β : Type} [Fintype α] [Fintype β] (A : α → Prop) :
    count (fun x : α × β => A x.1) = count A * Fintype.card β := by
  rw [count_prod']
  show ∑ _ : β, count (fun a : α => A a) = _
  rw [Finset.sum_const, Finset.card_univ, Nat.nsmul_eq_mul, Nat.mul_comm]

/-- Nothing changes. -/
theorem count_plug (h1 : ∀ t s e, out t (fix t s e) = e)
    (h2 : ∀ t s e, fix t (fix t s e) (out t s) = s) (A : (I → T) × (K → S) → Prop) :
    count (fun z : Drawn I T K S E => A (plug x1 x2 kOf fix z)) =
      count A * Fintype.card (T × T × S × E) := by
  rw [count_bij (plug_bijective (S := S) (E := E) x1 x2 kOf fix out h1 h2)
    (B := fun y : ((I → T) × (K → S)) × (T × T × S × E) => A y.1) fun _ => Iff.rfl, count_fst A]

omit [DecidableEq K] [Fintype K] in
/-- The key given by the first value is hardly ever one of few. -/
theorem count_touched (M n : Nat) (hM : ∀ k, count (fun t : T => kOf t = k) ≤ M) {α : Type}
    [Fintype α] (touched : α → List K) (hn : ∀ a, (touched a).length ≤ n) :
    count (fun y : α × T => kOf y.2 ∈ touched y.1) ≤ n * M * Fintype.card α := by
  rw [count_prod]
  refine le_trans (Finset.sum_le_card_nsmul _ _ (n * M) fun a _ => ?_) (by
    rw [Finset.card_univ, Nat.nsmul_eq_mul, Nat.mul_comm])
  have : ∀ l : List K, count (fun t : T => kOf t ∈ l) ≤ l.length * M := by
    intro l
    induction l with
    | nil => simp [count]
    | cons k l ih =>
      refine le_trans (count_mono (B := fun t => kOf t = k ∨ kOf t ∈ l) fun t ht => ?_) ?_
      · exact List.mem_cons.1 ht
      · refine le_trans (count_or _ _) ?_
        rw [List.length_cons, Nat.add_mul, Nat.one_mul]
        have := hM k
        omega
  exact le_trans (this (touched a)) (Nat.mul_le_mul_right _ (hn a))

/-- The arithmetic of `close`. -/
theorem ratio {a b W bad n M N T S E Ω Y Z : Nat} (h1 : a * Z ≤ b * Z + W) (h2 : b * Z ≤ a * Z + W)
    (hW : W ≤ (bad * T + n * M * Y) * S) (hY : Y = Ω * (E * T)) (hZ : Z = T * (T * (S * E)))
    (hN : M * N = T) (hΩ : 0 < Ω) (hT : 0 < T) (hS : 0 < S) (hE : 0 < E) (hM : 0 < M) (hN0 : 0 < N) :
    |(a : ℚ) / Ω - b / Ω| ≤ bad / Y + n / N := by
  have hZ0 : 0 < Z := by rw [hZ]; positivity
  have key : |(a : ℚ) - b| * Z ≤ W := by
    have e1 : (a : ℚ) * Z ≤ b * Z + W := by exact_mod_cast h1
    have e2 : (b : ℚ) * Z ≤ a * Z + W := by exact_mod_cast h2
    rw [← abs_of_pos (show (0 : ℚ) < Z by exact_mod_cast hZ0), ← abs_mul, abs_le]
    constructor <;> nlinarith
  have hWq : (W : ℚ) ≤ (bad * T + n * M * Y) * S := by exact_mod_cast hW
  have hΩq : (0 : ℚ) < Ω := by exact_mod_cast hΩ
  have hTq : (0 : ℚ) < T := by exact_mod_cast hT
  have hSq : (0 : ℚ) < S := by exact_mod_cast hS
  have hEq : (0 : ℚ) < E := by exact_mod_cast hE
  have hMq : (0 : ℚ) < M := by exact_mod_cast hM
  have hNq : (0 : ℚ) < N := by exact_mod_cast hN0
  have hZq : (0 : ℚ) < Z := by exact_mod_cast hZ0
  have hYe : (Y : ℚ) = Ω * (E * T) := by exact_mod_cast hY
  have hZe : (Z : ℚ) = T * (T * (S * E)) := by exact_mod_cast hZ
  have hNe : (M : ℚ) * N = T := by exact_mod_cast hN
  rw [← sub_div, abs_div, abs_of_pos hΩq, div_le_iff₀ hΩq]
  have e3 : |(a : ℚ) - b| ≤ (bad * T + n * M * Y) * S / Z := by
    rw [le_div_iff₀ hZq]; exact le_trans key hWq
  refine le_trans e3 (le_of_eq ?_)
  rw [hYe, hZe, ← hNe]
  field_simp

/-- Two ways to use the drawn values, in places of their own: as long as nothing bad happens both look
like a third one that does not use the first value and the member of the family; then they can be told
apart only when something bad happens or the key is met by chance. -/
theorem close_sides (x1 x2 : Side → I) (M N n : Nat) (fixes : Side → T → S → E → S) (outs : Side → T → S → E)
    (h1 : ∀ a t s e, outs a t (fixes a t s e) = e)
    (h2 : ∀ a t s e, fixes a t (fixes a t s e) (outs a t s) = s)
    (hM : ∀ k, count (fun t : T => kOf t = k) ≤ M) (hN : M * N = Fintype.card T) (hM0 : 0 < M) (hN0 : 0 < N)
    (hS : 0 < Fintype.card S) (hE : 0 < Fintype.card E) (real : Side → (I → T) × (K → S) → Prop)
    (ideal bad : (I → T) × (K → S) × E × T → Prop) (touched : (I → T) × (K → S) × E × T → List K)
    (hn : ∀ y, (touched y).length ≤ n)
    (h : ∀ a f c e t2 t1 s, ¬ bad (f, c, e, t2) → kOf t1 ∉ touched (f, c, e, t2) →
      (real a (plug (x1 a) (x2 a) kOf (fixes a) (f, c, e, t2, t1, s)) ↔ ideal (f, c, e, t2))) :
    |(count (real .left) : ℚ) / Fintype.card ((I → T) × (K → S)) -
        count (real .right) / Fintype.card ((I → T) × (K → S))| ≤
      count bad / Fintype.card ((I → T) × (K → S) × E × T) + n / N := by
  classical
  -- regroup: what the third game sees, then the first value and the member
  let Y := (I → T) × (K → S) × E × T
  let wrong : Drawn I T K S E → Prop := fun z =>
    bad (z.1, z.2.1, z.2.2.1, z.2.2.2.1) ∨ kOf z.2.2.2.2.1 ∈ touched (z.1, z.2.1, z.2.2.1, z.2.2.2.1)
  let re : Drawn I T K S E ≃ (Y × T) × S :=
    { toFun := fun z => (((z.1, z.2.1, z.2.2.1, z.2.2.2.1), z.2.2.2.2.1), z.2.2.2.2.2)
      invFun := fun y => (y.1.1.1, y.1.1.2.1, y.1.1.2.2.1, y.1.1.2.2.2, y.1.2, y.2)
      left_inv := fun _ => rfl
      right_inv := fun _ => rfl }
  have hw : count wrong ≤ (count bad * Fintype.card T + n * M * Fintype.card Y) * Fintype.card S := by
    have e1 : count wrong = count fun y : (Y × T) × S => bad y.1.1 ∨ kOf y.1.2 ∈ touched y.1.1 :=
      count_bij re.bijective fun _ => Iff.rfl
    rw [e1, count_fst (fun y : Y × T => bad y.1 ∨ kOf y.2 ∈ touched y.1)]
    refine Nat.mul_le_mul_right _ (le_trans (count_or _ _) (Nat.add_le_add ?_ ?_))
    · rw [count_fst]
    · exact count_touched kOf M n hM touched hn
  let both : Side → Nat := fun a => count fun z : Drawn I T K S E =>
    real a (plug (x1 a) (x2 a) kOf (fixes a) z)
  have hb : ∀ a, both a = count (real a) * Fintype.card (T × T × S × E) := fun a =>
    count_plug (x1 a) (x2 a) kOf (fixes a) (outs a) (h1 a) (h2 a) (real a)
  have hle : ∀ a b, both a ≤ both b + count wrong := by
    intro a b
    refine le_trans (count_mono (B := fun z => real b (plug (x1 b) (x2 b) kOf (fixes b) z) ∨ wrong z)
      fun z hz => ?_) (count_or _ _)
    by_cases hz' : wrong z
    · exact .inr hz'
    · left
      obtain ⟨f, c, e, t2, t1, s⟩ := z
      simp only [wrong, not_or] at hz'
      exact (h b f c e t2 t1 s hz'.1 hz'.2).2 ((h a f c e t2 t1 s hz'.1 hz'.2).1 hz)
  have hT : 0 < Fintype.card T := by rw [← hN]; positivity
  have hΩ : 0 < Fintype.card ((I → T) × (K → S)) := by
    obtain ⟨t⟩ := Fintype.card_pos_iff.1 hT
    obtain ⟨s⟩ := Fintype.card_pos_iff.1 hS
    exact Fintype.card_pos_iff.2 ⟨(fun _ => t, fun _ => s)⟩
  have hY : Fintype.card Y = Fintype.card ((I → T) × (K → S)) * (Fintype.card E * Fintype.card T) := by
    simp only [Y, Fintype.card_prod, Nat.mul_assoc]
  have hZ : Fintype.card (T × T × S × E) =
      Fintype.card T * (Fintype.card T * (Fintype.card S * Fintype.card E)) := by
    simp only [Fintype.card_prod]
  exact ratio (hb .left ▸ hb .right ▸ hle .left .right) (hb .left ▸ hb .right ▸ hle .right .left) hw hY
    hZ hN hΩ hT hS hE hM0 hN0

/-- The same with both in the same places. -/
theorem close (M N n : Nat) (fixes : Side → T → S → E → S) (outs : Side → T → S → E)
    (h1 : ∀ a t s e, outs a t (fixes a t s e) = e)
    (h2 : ∀ a t s e, fixes a t (fixes a t s e) (outs a t s) = s)
    (hM : ∀ k, count (fun t : T => kOf t = k) ≤ M) (hN : M * N = Fintype.card T) (hM0 : 0 < M) (hN0 : 0 < N)
    (hS : 0 < Fintype.card S) (hE : 0 < Fintype.card E) (real : Side → (I → T) × (K → S) → Prop)
    (ideal bad : (I → T) × (K → S) × E × T → Prop) (touched : (I → T) × (K → S) × E × T → List K)
    (hn : ∀ y, (touched y).length ≤ n)
    (h : ∀ a f c e t2 t1 s, ¬ bad (f, c, e, t2) → kOf t1 ∉ touched (f, c, e, t2) →
      (real a (plug x1 x2 kOf (fixes a) (f, c, e, t2, t1, s)) ↔ ideal (f, c, e, t2))) :
    |(count (real .left) : ℚ) / Fintype.card ((I → T) × (K → S)) -
        count (real .right) / Fintype.card ((I → T) × (K → S))| ≤
      count bad / Fintype.card ((I → T) × (K → S) × E × T) + n / N :=
  close_sides kOf (fun _ => x1) (fun _ => x2) M N n fixes outs h1 h2 hM hN hM0 hN0 hS hE real ideal bad
    touched hn h

end Pasta.Plug
