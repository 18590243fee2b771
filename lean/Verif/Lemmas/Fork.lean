import Mathlib.Algebra.Order.Chebyshev
import Mathlib.Algebra.BigOperators.Field
import Mathlib.Tactic.Ring
import Verif.Lemmas.RandomTags

/-!
# Forking

Used for C90. Someone asks for values of a random function, each place chosen from the values so far, and
in the end reaches some goal at one of these places. If the values from that place on are drawn again, the
goal is often reached once more, at the same place and with another value.
-/

namespace Pasta.Fork

open C82 (count count_eq count_prod count_prod')
open Plug (count_bij count_mono count_or count_fst)

/-! ### Drawing something again -/

section resample

variable {Y F : Type} [Fintype Y] [Fintype F]

open Classical in
theorem count_sum {α : Type} [Fintype α] (A : α → Prop) : count A = ∑ x : α, if A x then 1 else 0 := by
  rw [← count_eq, Finset.card_filter]

open Classical in
/-- `fork` keeps a part of `y` and takes the rest from `b`; `swap` is what is left over. -/
theorem resample (fork : Y → F → Y) (swap : Y → F → F)
    (hb : Function.Bijective fun z : Y × F => (fork z.1 z.2, swap z.1 z.2))
    (hf : ∀ y a b, fork (fork y a) b = fork y b) (A : Y → Prop) :
    Fintype.card F * count A ^ 2 ≤
      Fintype.card Y * count (fun z : Y × F => A z.1 ∧ A (fork z.1 z.2)) := by
  obtain ⟨u, hu⟩ : ∃ u : Y → Nat, ∀ y, u y = count fun b => A (fork y b) := ⟨_, fun _ => rfl⟩
  have hfork : ∀ y b, u (fork y b) = u y := fun y b => by
    rw [hu, hu]
    congr 1
    funext b'
    rw [hf]
  have h1 : count (fun z : Y × F => A z.1 ∧ A (fork z.1 z.2)) = ∑ y, if A y then u y else 0 := by
    rw [count_prod]
    refine Finset.sum_congr rfl fun y _ => ?_
    by_cases hA : A y
    · rw [if_pos hA, hu]
      congr 1
      funext b
      exact propext ⟨fun h => h.2, fun h => ⟨hA, h⟩⟩
    · rw [if_neg hA, count_sum]
      exact Finset.sum_eq_zero fun b _ => if_neg fun h => hA h.1
  have h2 : ∑ y, u y = count A * Fintype.card F := by
    simp only [hu]
    rw [← count_fst (β := F), ← count_prod (fun z : Y × F => A (fork z.1 z.2))]
    exact count_bij hb fun _ => Iff.rfl
  have h3 : ∑ y, u y ^ 2 = Fintype.card F * ∑ y, if A y then u y else 0 := by
    calc ∑ y, u y ^ 2 = ∑ y, ∑ b, (if A (fork y b) then u (fork y b) else 0) := by
          refine Finset.sum_congr rfl fun y _ => ?_
          rw [pow_two]
          refine (congrArg (· * u y) ((hu y).trans (count_sum _))).trans ?_
          show (∑ b, _) * u y = _
          rw [Finset.sum_mul]
          refine Finset.sum_congr rfl fun b _ => ?_
          rw [hfork, ite_mul, one_mul, zero_mul]
      _ = ∑ z : Y × F, (if A (fork z.1 z.2) then u (fork z.1 z.2) else 0) :=
          (Fintype.sum_prod_type' fun y b => if A (fork y b) then u (fork y b) else 0).symm
      _ = ∑ z : Y × F, (if A z.1 then u z.1 else 0) :=
          Function.Bijective.sum_comp hb fun z => if A z.1 then u z.1 else 0
      _ = ∑ y, ∑ _b : F, (if A y then u y else 0) :=
          Fintype.sum_prod_type' fun y _ => if A y then u y else 0
      _ = _ := by
          rw [Finset.mul_sum]
          refine Finset.sum_congr rfl fun y _ => ?_
          rw [Finset.sum_const, Finset.card_univ, smul_eq_mul]
  have h4 : (∑ y, u y) ^ 2 ≤ Fintype.card Y * ∑ y, u y ^ 2 := by
    rw [← Finset.card_univ]
    exact sq_sum_le_card_mul_sum_sq
  rw [h2, h3, ← h1] at h4
  by_cases hF : Fintype.card F = 0
  · rw [hF, zero_mul]
    exact Nat.zero_le _
  · refine Nat.le_of_mul_le_mul_left ?_ (Nat.pos_of_ne_zero hF)
    calc _ = (count A * Fintype.card F) ^ 2 := by ring
      _ ≤ _ := h4
      _ = _ := by ring

end resample

/-! ### The values from one place on -/

section fork

variable {T Q H : Type} [DecidableEq Q]

/-- The values at the places of `l`, and others elsewhere. -/
def graft (l : List Q) (h h' : Q → H) : Q → H := fun x => if x ∈ l then h x else h' x

variable (tr : T → (Q → H) → List Q)

/-- The places asked for depend on the values at the places before only. -/
def Adaptive : Prop := ∀ t h h' j, (∀ x ∈ (tr t h).take j, h' x = h x) →
  (tr t h').take (j + 1) = (tr t h).take (j + 1)

variable {tr}

omit [DecidableEq Q] in
theorem Adaptive.take (ha : Adaptive tr) {t : T} {h h' : Q → H} {j : Nat}
    (e : ∀ x ∈ (tr t h).take j, h' x = h x) : (tr t h').take j = (tr t h).take j := by
  have := congrArg (List.take j) (ha t h h' j e)
  rwa [List.take_take, List.take_take, Nat.min_eq_left (Nat.le_succ j)] at this

theorem graft_mem {l : List Q} {h h' : Q → H} {x : Q} (hx : x ∈ l) : graft l h h' x = h x := if_pos hx

theorem graft_not {l : List Q} {h h' : Q → H} {x : Q} (hx : x ∉ l) : graft l h h' x = h' x := if_neg hx

theorem Adaptive.take_graft (ha : Adaptive tr) (t : T) (h h' : Q → H) (j : Nat) :
    (tr t (graft ((tr t h).take j) h h')).take j = (tr t h).take j :=
  ha.take fun _ hx => graft_mem hx

theorem graft_bijective (ha : Adaptive tr) (j : Nat) :
    Function.Bijective fun z : (T × (Q → H)) × (Q → H) =>
      (((z.1.1, graft ((tr z.1.1 z.1.2).take j) z.1.2 z.2) : T × (Q → H)),
        graft ((tr z.1.1 z.1.2).take j) z.2 z.1.2) := by
  refine Function.Involutive.bijective ?_
  rintro ⟨⟨t, h⟩, h'⟩
  simp only [ha.take_graft]
  have : ∀ a b : Q → H, graft ((tr t h).take j) (graft ((tr t h).take j) a b)
      (graft ((tr t h).take j) b a) = a := by
    intro a b
    funext x
    by_cases hx : x ∈ (tr t h).take j
    · rw [graft_mem hx, graft_mem hx]
    · rw [graft_not hx, graft_not hx]
  rw [this, this]

theorem graft_graft (ha : Adaptive tr) (j : Nat) (t : T) (h a b : Q → H) :
    graft ((tr t (graft ((tr t h).take j) h a)).take j) (graft ((tr t h).take j) h a) b =
      graft ((tr t h).take j) h b := by
  rw [ha.take_graft]
  funext x
  by_cases hx : x ∈ (tr t h).take j
  · rw [graft_mem hx, graft_mem hx, graft_mem hx]
  · rw [graft_not hx, graft_not hx]

variable [Fintype T] [Fintype Q] [Fintype H]

/-- A value is drawn anew. -/
theorem count_value {C : Type} (x : Q) (c : H → C) (d : C) :
    count (fun h : Q → H => c (h x) = d) * Fintype.card H =
      count (fun b : H => c b = d) * Fintype.card (Q → H) := by
  rw [← count_fst (β := H), ← count_fst (β := Q → H)]
  refine count_bij (g := fun z : (Q → H) × H => (z.1 x, Function.update z.1 x z.2)) ?_ fun _ => Iff.rfl
  refine Function.bijective_iff_has_inverse.2
    ⟨fun w => (Function.update w.2 x w.1, w.2 x), ?_, ?_⟩
  · rintro ⟨h, e⟩
    simp
  · rintro ⟨e, h⟩
    simp

/-- Where the goal is reached. -/
def place (tr : T → (Q → H) → List Q) (goal : T → (Q → H) → Q) (t : T) (h : Q → H) : Nat :=
  (tr t h).idxOf (goal t h)

/-- The values before that place are kept. -/
def again (tr : T → (Q → H) → List Q) (goal : T → (Q → H) → Q) (t : T) (h h' : Q → H) : Q → H :=
  graft ((tr t h).take (place tr goal t h)) h h'

omit [Fintype T] [Fintype Q] [Fintype H] in
theorem same_goal (ha : Adaptive tr) {goal : T → (Q → H) → Q} {t : T} {h h' : Q → H}
    (hg : ∀ h, goal t h ∈ tr t h)
    (hp : place tr goal t (again tr goal t h h') = place tr goal t h) :
    goal t (again tr goal t h h') = goal t h := by
  have h1 := ha t h (again tr goal t h h') (place tr goal t h) fun _ hx => graft_mem hx
  have h2 := congrArg (fun l => l[place tr goal t h]?) h1
  simp only [List.getElem?_take_of_lt (Nat.lt_succ_self _)] at h2
  have h3 : (tr t h)[place tr goal t h]? = some (goal t h) := List.getElem?_idxOf (hg h)
  have h4 : (tr t (again tr goal t h h'))[place tr goal t h]? = some (goal t (again tr goal t h h')) := by
    rw [← hp]
    exact List.getElem?_idxOf (hg _)
  rw [h3, h4] at h2
  exact Option.some.inj h2

omit [Fintype T] [Fintype Q] [Fintype H] in
theorem again_goal {goal : T → (Q → H) → Q} {t : T} {h h' : Q → H} :
    again tr goal t h h' (goal t h) = h' (goal t h) := by
  refine graft_not fun hm => ?_
  obtain ⟨i, hi, he⟩ := List.mem_iff_getElem.1 hm
  rw [List.getElem_take] at he
  rw [List.length_take] at hi
  have hi1 : i < place tr goal t h := by omega
  have h2 := List.not_of_lt_findIdx (xs := tr t h) (p := (· == goal t h)) hi1
  rw [he, beq_self_eq_true] at h2
  exact Bool.noConfusion h2

/-- The whole: `A` is the event that the goal is reached, `q` bounds the number of places, `D` the
number of values that count as the same. -/
theorem forking (ha : Adaptive tr) (goal : T → (Q → H) → Q) (hg : ∀ t h, goal t h ∈ tr t h) (q : Nat)
    (hq : ∀ t h, (tr t h).length ≤ q) {C : Type} (c : H → C) (D : Nat)
    (hD : ∀ d, count (fun b : H => c b = d) ≤ D) (A : T → (Q → H) → Prop) :
    Fintype.card (Q → H) * count (fun y : T × (Q → H) => A y.1 y.2) ^ 2 * Fintype.card H ≤
      q * Fintype.card (T × (Q → H)) *
        (count (fun z : (T × (Q → H)) × (Q → H) => A z.1.1 z.1.2 ∧
            A z.1.1 (again tr goal z.1.1 z.1.2 z.2) ∧
            goal z.1.1 (again tr goal z.1.1 z.1.2 z.2) = goal z.1.1 z.1.2 ∧
            c (again tr goal z.1.1 z.1.2 z.2 (goal z.1.1 z.1.2)) ≠ c (z.1.2 (goal z.1.1 z.1.2))) *
          Fintype.card H +
        count (fun y : T × (Q → H) => A y.1 y.2) * (D * Fintype.card (Q → H))) := by
  classical
  let Aj : Nat → T × (Q → H) → Prop := fun j y => A y.1 y.2 ∧ place tr goal y.1 y.2 = j
  have hlt : ∀ t h, place tr goal t h < q := fun t h =>
    Nat.lt_of_lt_of_le (List.idxOf_lt_length_of_mem (hg t h)) (hq t h)
  -- the pairs at one place
  let pj : Nat → (T × (Q → H)) × (Q → H) → Prop := fun j z => Aj j z.1 ∧
    Aj j (z.1.1, graft ((tr z.1.1 z.1.2).take j) z.1.2 z.2)
  have hj : ∀ j, Fintype.card (Q → H) * count (Aj j) ^ 2 ≤ Fintype.card (T × (Q → H)) * count (pj j) :=
    fun j => resample (fun y b => ((y.1, graft ((tr y.1 y.2).take j) y.2 b) : T × (Q → H)))
      (fun y b => graft ((tr y.1 y.2).take j) b y.2) (graft_bijective ha j)
      (fun y a b => Prod.ext rfl (graft_graft ha j y.1 y.2 a b)) (Aj j)
  have hA : count (fun y : T × (Q → H) => A y.1 y.2) = ∑ j ∈ Finset.range q, count (Aj j) := by
    simp only [count_sum]
    rw [Finset.sum_comm]
    refine Finset.sum_congr rfl fun y _ => ?_
    by_cases h : A y.1 y.2
    · rw [if_pos h, Finset.sum_eq_single (place tr goal y.1 y.2)]
      · exact (if_pos ⟨h, rfl⟩).symm
      · exact fun j _ hne => if_neg fun h' => hne h'.2.symm
      · exact fun h' => absurd (Finset.mem_range.2 (hlt _ _)) h'
    · rw [if_neg h]
      exact (Finset.sum_eq_zero fun j _ => if_neg fun h' => h h'.1).symm
  let all : (T × (Q → H)) × (Q → H) → Prop := fun z => A z.1.1 z.1.2 ∧
    A z.1.1 (again tr goal z.1.1 z.1.2 z.2) ∧
    goal z.1.1 (again tr goal z.1.1 z.1.2 z.2) = goal z.1.1 z.1.2
  have hall : ∑ j ∈ Finset.range q, count (pj j) ≤ count all := by
    simp only [count_sum]
    rw [Finset.sum_comm]
    refine Finset.sum_le_sum fun z _ => ?_
    rw [Finset.sum_eq_single (place tr goal z.1.1 z.1.2)]
    · by_cases h : pj (place tr goal z.1.1 z.1.2) z
      · have hz : all z := ⟨h.1.1, h.2.1, same_goal ha (hg _) h.2.2⟩
        rw [if_pos h, if_pos hz]
      · rw [if_neg h]
        exact Nat.zero_le _
    · exact fun j _ hne => if_neg fun h' => hne h'.1.2.symm
    · exact fun h' => absurd (Finset.mem_range.2 (hlt _ _)) h'
  have hsq : count (fun y : T × (Q → H) => A y.1 y.2) ^ 2 ≤ q * ∑ j ∈ Finset.range q, count (Aj j) ^ 2 := by
    rw [hA]
    have := sq_sum_le_card_mul_sum_sq (s := Finset.range q) (f := fun j => count (Aj j))
    rwa [Finset.card_range] at this
  have hmain : Fintype.card (Q → H) * count (fun y : T × (Q → H) => A y.1 y.2) ^ 2 ≤
      q * (Fintype.card (T × (Q → H)) * count all) := by
    calc _ ≤ Fintype.card (Q → H) * (q * ∑ j ∈ Finset.range q, count (Aj j) ^ 2) :=
          Nat.mul_le_mul_left _ hsq
      _ = q * ∑ j ∈ Finset.range q, Fintype.card (Q → H) * count (Aj j) ^ 2 := by
          rw [← Finset.mul_sum]; ring
      _ ≤ q * ∑ j ∈ Finset.range q, Fintype.card (T × (Q → H)) * count (pj j) :=
          Nat.mul_le_mul_left _ (Finset.sum_le_sum fun j _ => hj j)
      _ = q * (Fintype.card (T × (Q → H)) * ∑ j ∈ Finset.range q, count (pj j)) := by
          rw [← Finset.mul_sum]
      _ ≤ _ := Nat.mul_le_mul_left _ (Nat.mul_le_mul_left _ hall)
  -- the same value again
  let same : (T × (Q → H)) × (Q → H) → Prop := fun z => A z.1.1 z.1.2 ∧
    c (z.2 (goal z.1.1 z.1.2)) = c (z.1.2 (goal z.1.1 z.1.2))
  have hsame : count same * Fintype.card H ≤
      count (fun y : T × (Q → H) => A y.1 y.2) * (D * Fintype.card (Q → H)) := by
    rw [count_prod, Finset.sum_mul, count_sum (fun y : T × (Q → H) => A y.1 y.2), Finset.sum_mul]
    refine Finset.sum_le_sum fun y _ => ?_
    by_cases h : A y.1 y.2
    · rw [if_pos h, one_mul]
      refine le_trans (Nat.mul_le_mul_right _ (count_mono
        (B := fun h' : Q → H => c (h' (goal y.1 y.2)) = c (y.2 (goal y.1 y.2))) fun _ hz => hz.2)) ?_
      rw [count_value]
      exact Nat.mul_le_mul_right _ (hD _)
    · rw [if_neg h, zero_mul, Nat.le_zero, Nat.mul_eq_zero]
      left
      rw [count_sum]
      exact Finset.sum_eq_zero fun b _ => if_neg fun hz => h hz.1
  have hsplit : count all ≤ count (fun z : (T × (Q → H)) × (Q → H) => A z.1.1 z.1.2 ∧
            A z.1.1 (again tr goal z.1.1 z.1.2 z.2) ∧
            goal z.1.1 (again tr goal z.1.1 z.1.2 z.2) = goal z.1.1 z.1.2 ∧
            c (again tr goal z.1.1 z.1.2 z.2 (goal z.1.1 z.1.2)) ≠ c (z.1.2 (goal z.1.1 z.1.2))) +
      count same := by
    refine le_trans (count_mono fun z hz => ?_) (count_or _ _)
    by_cases h : c (again tr goal z.1.1 z.1.2 z.2 (goal z.1.1 z.1.2)) = c (z.1.2 (goal z.1.1 z.1.2))
    · right
      refine ⟨hz.1, ?_⟩
      rwa [again_goal] at h
    · exact .inl ⟨hz.1, hz.2.1, hz.2.2, h⟩
  calc _ ≤ q * (Fintype.card (T × (Q → H)) * count all) * Fintype.card H :=
        Nat.mul_le_mul_right _ hmain
    _ = q * Fintype.card (T × (Q → H)) * (count all * Fintype.card H) := by ring
    _ ≤ _ := by
        refine Nat.mul_le_mul_left _ (le_trans (Nat.mul_le_mul_right _ hsplit) ?_)
        rw [Nat.add_mul]
        exact Nat.add_le_add_left hsame _

end fork

/-! ### A value that was not asked for -/

section guess

variable {X Z : Type} [DecidableEq X] [Fintype X] [Fintype Z]

/-- Someone names a place and a value; neither depends on the value at that place. -/
theorem count_unseen (x : (X → Z) → X) (z : (X → Z) → Z) (U : (X → Z) → Prop)
    (h : ∀ f e, U f → x (Function.update f (x f) e) = x f ∧ z (Function.update f (x f) e) = z f) :
    count (fun f : X → Z => U f ∧ f (x f) = z f) * Fintype.card Z ≤ Fintype.card (X → Z) := by
  classical
  rw [← count_fst (β := Z), ← Finset.card_univ]
  unfold count
  refine Finset.card_le_card_of_injOn (fun p => Function.update p.1 (x p.1) p.2)
    (fun _ _ => Finset.mem_coe.2 (Finset.mem_univ _)) ?_
  rintro ⟨f, e⟩ hf ⟨f', e'⟩ hf' he
  have hf : U f ∧ f (x f) = z f := by simpa using hf
  have hf' : U f' ∧ f' (x f') = z f' := by simpa using hf'
  have he : Function.update f (x f) e = Function.update f' (x f') e' := he
  have hx : x f = x f' := by rw [← (h f e hf.1).1, ← (h f' e' hf'.1).1, he]
  have hz : z f = z f' := by rw [← (h f e hf.1).2, ← (h f' e' hf'.1).2, he]
  rw [← hx] at he hf'
  have ee : e = e' := by
    have := congrFun he (x f)
    rwa [Function.update_self, Function.update_self] at this
  have ef : f = f' := by
    funext a
    by_cases haa : a = x f
    · rw [haa, hf.2, hf'.2, hz]
    · have := congrFun he a
      rwa [Function.update_of_ne haa, Function.update_of_ne haa] at this
  rw [ef, ee]

end guess

/-! ### Signatures without the key -/

section simulate

variable {X Q H Z : Type} [DecidableEq Q] [CommRing Z] (a : Z) (c : H → Z) (pt : X → Z → Q)
  (msg : Q → Option X)

/-- The nonces that belong to given second halves and challenges. -/
def nonces (S : X → Z) (K : X → H) : X → Z := fun m => S m - c (K m) * a

/-- The function with the challenges in place. -/
def patch (N : X → Z) (K : X → H) (h : Q → H) : Q → H := fun x =>
  match msg x with
  | some m => if x = pt m (N m) then K m else h x
  | none => h x

variable {pt msg}

omit [CommRing Z] in
theorem patch_pt (hmsg : ∀ m r, msg (pt m r) = some m) (N : X → Z) (K : X → H) (h : Q → H) (m : X) : patch pt msg N K h (pt m (N m)) = K m := by
  unfold patch
  rw [hmsg]
  exact if_pos rfl

omit [CommRing Z] in
theorem patch_patch (N : X → Z) (K K' : X → H) (h : Q → H) :
    patch pt msg N K' (patch pt msg N K h) = patch pt msg N K' h := by
  funext x
  unfold patch
  cases hm : msg x with
  | none => rfl
  | some m =>
    simp only
    split
    · rfl
    · rfl

omit [CommRing Z] in
theorem patch_self (N : X → Z) (h : Q → H) : patch pt msg N (fun m => h (pt m (N m))) h = h := by
  funext x
  unfold patch
  cases hm : msg x with
  | none => rfl
  | some m =>
    simp only
    split
    · rename_i e
      rw [← e]
    · rfl

theorem patch_bijective (hmsg : ∀ m r, msg (pt m r) = some m) : Function.Bijective fun z : (X → Z) × (X → H) × (Q → H) =>
    ((nonces a c z.1 z.2.1, patch pt msg (nonces a c z.1 z.2.1) z.2.1 z.2.2),
      fun m => z.2.2 (pt m (nonces a c z.1 z.2.1 m))) := by
  refine Function.bijective_iff_has_inverse.2 ⟨fun w =>
    (fun m => w.1.1 m + c (w.1.2 (pt m (w.1.1 m))) * a, fun m => w.1.2 (pt m (w.1.1 m)),
      patch pt msg w.1.1 w.2 w.1.2), ?_, ?_⟩
  · rintro ⟨S, K, h⟩
    simp only [patch_pt hmsg, patch_patch, patch_self]
    refine Prod.ext (funext fun m => ?_) rfl
    simp [nonces]
  · rintro ⟨⟨N, h⟩, g⟩
    have hN : nonces a c (fun m => N m + c (h (pt m (N m))) * a) (fun m => h (pt m (N m))) = N := by
      funext m
      simp [nonces]
    simp only [hN, patch_patch, patch_self, patch_pt hmsg]

variable [Fintype X] [Fintype Q] [Fintype H] [Fintype Z]

/-- Nothing changes if second halves and challenges are drawn instead of nonces. -/
theorem count_simulated [DecidableEq X] (hmsg : ∀ m r, msg (pt m r) = some m)
    (A : (X → Z) × (Q → H) → Prop) :
    count (fun z : (X → Z) × (X → H) × (Q → H) =>
        A (nonces a c z.1 z.2.1, patch pt msg (nonces a c z.1 z.2.1) z.2.1 z.2.2)) =
      count A * Fintype.card (X → H) := by
  rw [← count_fst (β := X → H)]
  exact count_bij (patch_bijective a c hmsg) fun _ => Iff.rfl

end simulate

end Pasta.Fork
