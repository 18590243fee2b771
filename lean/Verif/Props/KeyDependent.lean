import Verif.Spec.KeyDependent
import Verif.Props.Trying
import Verif.Props.Hybrid

/-!
# C104: texts may contain the keys in use

The bound of C101 (almost) where what is hidden may depend on the keys.
-/

namespace Pasta.C104

open C98 (fraction_count fraction_prod fraction_or fraction_mono)
open Trying (fraction_equiv fraction_fst fraction_prod_le)
open C101 (apart viewIn view_eq view_apart swapElse fixKeys apart_eq bound pairs_nonneg drive drive_hides drive_looks
  drive_opened found_rare average_le)

variable {P : Prims} {v : Ver} {r L : Nat} {K : Finset (BytesN 32)}

/-! ### Requests served alike -/

/-- Served alike with one side and with the other. -/
def Alike (s s' : Side) : Option (Attempt v r) → Option (Attempt v r) → Prop
  | some (.hide i a), some (.hide i' a') => i s = i' s' ∧
      (∀ (P : Prims) (key : Key P v .Local) (rng : Rng), a.run P key s rng = a'.run P key s' rng) ∧
      ∀ text, a.item text = a'.item text
  | x, y => x = y

theorem trying_alike (P : Prims) (keys : Fin r → BytesN 32) (T : Derivation v) (c : CipherOf v L) (f : Tags v)
    {s s' : Side} {ask ask' : List (Found v L) → Option (Attempt v r)}
    (h : ∀ answers, Alike s s' (ask answers) (ask' answers)) (k : Nat) :
    ∀ (n o u q m : Nat) (rng : Rng) (issued : List Item) (answers : List (Found v L)),
      trying P keys T c f s ask k n o u q m rng issued answers =
        trying P keys T c f s' ask' k n o u q m rng issued answers := by
  induction k with
  | zero => intros; rfl
  | succ k ih =>
    intro n o u q m rng issued answers
    have ha := h answers
    rw [trying, trying]
    cases h1 : ask answers with
    | none =>
      rw [h1] at ha
      have e : ask' answers = none := ha.symm
      rw [e]
    | some b =>
      rw [h1] at ha
      cases b with
      | hide i a =>
        cases h2 : ask' answers with
        | none => rw [h2] at ha; cases ha
        | some b' =>
          rw [h2] at ha
          cases b' with
          | hide i' a' =>
            obtain ⟨e1, e2, e3⟩ := ha
            cases n with
            | zero => rfl
            | succ n =>
              dsimp only
              rw [e1, e2]
              congr 1
              funext y
              rw [e3]
              exact ih _ _ _ _ _ _ _ _
          | look i' a' => cases ha
          | derive x => cases ha
          | cipher x => cases ha
          | mac x y => cases ha
      | look i a =>
        have e : ask' answers = some (.look i a) := ha.symm
        rw [e]
        cases o with
        | zero => rfl
        | succ o => exact ih _ _ _ _ _ _ _ _
      | derive x =>
        have e : ask' answers = some (.derive x) := ha.symm
        rw [e]
        cases u with
        | zero => rfl
        | succ u => exact ih _ _ _ _ _ _ _ _
      | cipher x =>
        have e : ask' answers = some (.cipher x) := ha.symm
        rw [e]
        cases q with
        | zero => rfl
        | succ q => exact ih _ _ _ _ _ _ _ _
      | mac x y =>
        have e : ask' answers = some (.mac x y) := ha.symm
        rw [e]
        cases m with
        | zero => rfl
        | succ m => exact ih _ _ _ _ _ _ _ _

theorem pick_run (a : Containing v r) {x x' : Side → (Fin r → BytesN 32) × Side} {s s' : Side} (h : x s = x' s')
    (P : Prims) (key : Key P v .Local) (rng : Rng) : (a.pick x).run P key s rng = (a.pick x').run P key s' rng := by
  cases a with
  | token M F E iP iM iF encoding message footer implicit =>
    unfold Containing.pick Hiding.run
    dsimp only
    rw [h]
  | wrap k hidden =>
    unfold Containing.pick Hiding.run
    dsimp only
    rw [h]

theorem pick_item (a : Containing v r) (x x' : Side → (Fin r → BytesN 32) × Side) (text : Bytes) :
    (a.pick x).item text = (a.pick x').item text := by cases a <;> rfl

/-! ### Requests without keys -/

/-- Some keys. -/
def some0 (r : Nat) : Fin r → BytesN 32 := fun _ => Plug.k0

/-- Left, the candidate of side `s` with the keys; right, one that does not depend on them. -/
def between (s : Side) (keys : Fin r → BytesN 32) : Demand v r → Attempt v r
  | .hide i a => .hide (fun | .left => i s | .right => i .left)
      (a.pick fun | .left => (keys, s) | .right => (some0 r, .left))
  | .look i a => .look i a
  | .derive x => .derive x
  | .cipher x => .cipher x
  | .mac x y => .mac x y

/-- No candidate depends on the keys, nor on the side. -/
def blank : Demand v r → Attempt v r
  | .hide i a => .hide (fun _ => i .left) (a.pick fun _ => (some0 r, .left))
  | .look i a => .look i a
  | .derive x => .derive x
  | .cipher x => .cipher x
  | .mac x y => .mac x y

variable (ask : List (Found v L) → Option (Demand v r))

theorem left_alike (s : Side) (keys : Fin r → BytesN 32) (answers : List (Found v L)) :
    Alike .left s ((ask answers).map (between s keys)) (demands ask keys answers) := by
  unfold demands
  cases ask answers with
  | none => rfl
  | some b =>
    cases b with
    | hide i a => exact ⟨rfl, fun P key rng => by apply pick_run; rfl, fun text => pick_item a _ _ text⟩
    | look i a => rfl
    | derive x => rfl
    | cipher x => rfl
    | mac x y => rfl

theorem right_alike (s : Side) (keys : Fin r → BytesN 32) (answers : List (Found v L)) :
    Alike .right .left ((ask answers).map (between s keys)) ((ask answers).map blank) := by
  cases ask answers with
  | none => rfl
  | some b =>
    cases b with
    | hide i a => exact ⟨rfl, fun P key rng => by apply pick_run; rfl, fun text => pick_item a _ _ text⟩
    | look i a => rfl
    | derive x => rfl
    | cipher x => rfl
    | mac x y => rfl

theorem found_iff (keys : Fin r → BytesN 32) (answers : List (Found v L)) :
    KeyFound keys (demands ask keys) answers ↔ KeyFound keys (fun l => (ask l).map blank) answers := by
  have e : ∀ before x, demands ask keys before = some (.derive x) ↔
      (ask before).map blank = some (.derive x) := by
    intro before x
    unfold demands
    cases ask before with
    | none => exact Iff.rfl
    | some b => cases b <;> simp [Demand.given, blank]
  unfold KeyFound
  simp only [e]

section

variable {ask}

theorem demands_hide {keys : Fin r → BytesN 32} {answers : List (Found v L)} {i : Side → Fin r} {b : Hiding v}
    (h : demands ask keys answers = some (.hide i b)) :
    ∃ a, ask answers = some (.hide i a) ∧ b = a.given keys := by
  unfold demands at h
  obtain ⟨c, h1, h2⟩ := Option.map_eq_some_iff.1 h
  cases c <;> cases h2
  exact ⟨_, h1, rfl⟩

theorem demands_look {keys : Fin r → BytesN 32} {answers : List (Found v L)} {i : Fin r} {a : Opening v}
    (h : demands ask keys answers = some (.look i a)) : ask answers = some (.look i a) := by
  unfold demands at h
  obtain ⟨c, h1, h2⟩ := Option.map_eq_some_iff.1 h
  cases c <;> cases h2
  exact h1

theorem between_hide {s : Side} {keys : Fin r → BytesN 32} {answers : List (Found v L)} {i : Side → Fin r}
    {b : Hiding v} (h : (ask answers).map (between s keys) = some (.hide i b)) :
    ∃ i a x, ask answers = some (.hide i a) ∧ b = a.pick x := by
  obtain ⟨c, h1, h2⟩ := Option.map_eq_some_iff.1 h
  cases c <;> cases h2
  exact ⟨_, _, _, h1, rfl⟩

theorem between_look {s : Side} {keys : Fin r → BytesN 32} {answers : List (Found v L)} {i : Fin r} {a : Opening v}
    (h : (ask answers).map (between s keys) = some (.look i a)) : ask answers = some (.look i a) := by
  obtain ⟨c, h1, h2⟩ := Option.map_eq_some_iff.1 h
  cases c <;> cases h2
  exact h1

theorem blank_hide {answers : List (Found v L)} {i : Side → Fin r}
    {b : Hiding v} (h : (ask answers).map blank = some (.hide i b)) :
    ∃ i a x, ask answers = some (.hide i a) ∧ b = a.pick x := by
  obtain ⟨c, h1, h2⟩ := Option.map_eq_some_iff.1 h
  cases c <;> cases h2
  exact ⟨_, _, _, h1, rfl⟩

end

/-! ### Without the keys -/

theorem bound_nonneg (v : Ver) (n o q m : Nat) : 0 ≤ bound v n o q m := by
  have := pairs_nonneg n
  unfold bound
  positivity

/-- Whatever the keys are, it hardly matters whether the texts contain them. -/
theorem sides (P : Prims) (hK : ∀ x, x ∈ K) (k n o u q m : Nat)
    (hhide : ∀ answers i a, ask answers = some (.hide i a) → a.Comparable P L ∧ a.Fits)
    (hlook : ∀ answers i a, ask answers = some (.look i a) → a.Fits) (s : Side)
    (A : (Fin r → BytesN 32) → Res (List (Found v L)) → Prop) :
    ∃ X₀ : Finset (Bytes × Bytes), ∀ X, X₀ ⊆ X → ∀ d : Tags v,
      |fractionOf (fun z : Tried v r n L X × Derivation v =>
            A z.1.1 (apart P K d (demands ask z.1.1) k o u q m s z)) -
          fractionOf (fun z : Tried v r n L X × Derivation v =>
            A z.1.1 (apart P K d (fun l => (ask l).map blank) k o u q m .left z))| ≤
        bound v n o q m := by
  classical
  have h := fun y : (Fin r → BytesN 32) × Derivation v =>
    C100.advantage P K k n o q m
      (fun ts => (drive y.1 y.2 (fun l => (ask l).map (between s y.1)) k u [] ts).2)
      (drive_hides hK (fun answers i a ha => by
        obtain ⟨i', b, x, h1, rfl⟩ := between_hide ha
        exact ⟨(hhide _ _ _ h1).1 x, (hhide _ _ _ h1).2 x⟩) k u y)
      (drive_looks hK (fun answers i a ha => hlook _ _ _ (between_look ha)) k u y)
      (fun res => A y.1 (res >>= fun ts =>
        .ok (drive y.1 y.2 (fun l => (ask l).map (between s y.1)) k u [] ts).1))
  choose X₀ hX using h
  refine ⟨Finset.univ.biUnion X₀, fun X hs d => ?_⟩
  rw [← fraction_equiv (fixKeys v r n L X), ← fraction_equiv (fixKeys v r n L X) fun z =>
    A z.1.1 (apart P K d (fun l => (ask l).map blank) k o u q m .left z)]
  refine average_le _ _ _ (bound_nonneg v n o q m) fun y => ?_
  have hy := hX y X ((Finset.subset_biUnion_of_mem X₀ (Finset.mem_univ y)).trans hs) d
  have e1 : ∀ x, apart P K d (demands ask y.1) k o u q m s (fixKeys v r n L X (y, x)) =
      apart P K d (fun l => (ask l).map (between s y.1)) k o u q m .left (fixKeys v r n L X (y, x)) :=
    fun x => (trying_alike _ _ _ _ _ (left_alike ask s y.1) k _ _ _ _ _ _ _ _).symm
  have e2 : ∀ x, apart P K d (fun l => (ask l).map blank) k o u q m .left (fixKeys v r n L X (y, x)) =
      apart P K d (fun l => (ask l).map (between s y.1)) k o u q m .right (fixKeys v r n L X (y, x)) :=
    fun x => (trying_alike _ _ _ _ _ (right_alike ask s y.1) k _ _ _ _ _ _ _ _).symm
  show |fractionOf (fun x => A y.1 (apart P K d (demands ask y.1) k o u q m s (fixKeys v r n L X (y, x)))) -
    fractionOf (fun x => A y.1 (apart P K d (fun l => (ask l).map blank) k o u q m .left
      (fixKeys v r n L X (y, x))))| ≤ _
  simp only [e1, e2, apart_eq]
  exact hy

/-- A key in use is among those tried. -/
def Met (keys : Fin r → BytesN 32) (res : Res (List (Found v L))) : Prop :=
  ∃ out, res = .ok out ∧ KeyFound keys (fun l => (ask l).map blank) out

section

variable {ask} {n : Nat} {X : Finset (Bytes × Bytes)}

/-- As long as no key in use is tried, all is the same. -/
theorem view_same (hK : ∀ x, x ∈ K)
    (hhide : ∀ answers i a, ask answers = some (.hide i a) → a.Comparable P L) (d : Tags v) (k o u q m : Nat)
    (s : Side) (z : Tried v r n L X × Derivation v)
    (h : ¬ Met ask z.1.1 (apart P K d (demands ask z.1.1) k o u q m s z)) :
    viewIn P K d (demands ask z.1.1) k o u q m s (swapElse v r n L X z).1 =
      apart P K d (demands ask z.1.1) k o u q m s z := by
  refine view_apart P hK (fun answers i a ha => ?_) d k o u q m s z ?_
  · obtain ⟨b, h1, rfl⟩ := demands_hide ha
    exact hhide _ _ _ h1 _
  · rintro ⟨out, h1, h2⟩
    exact h ⟨out, h1, (found_iff ask _ _).1 h2⟩

theorem met_rare (hK : ∀ x, x ∈ K)
    (hhide : ∀ answers i a, ask answers = some (.hide i a) → a.Comparable P L) (d : Tags v) (k o u q m : Nat) :
    fractionOf (fun z : Tried v r n L X × Derivation v =>
        Met ask z.1.1 (apart P K d (fun l => (ask l).map blank) k o u q m .left z)) ≤
      r * u / 2 ^ 256 + r * (r - 1) / 2 ^ 257 :=
  found_rare P hK (fun answers i a ha => by
    obtain ⟨i', b, x, h1, rfl⟩ := blank_hide ha
    exact hhide _ _ _ h1 x) d k o u q m .left

/-- The chance of an event, from everything drawn. -/
theorem view_fraction (P : Prims) (K : Finset (BytesN 32)) (d : Tags v) (k o u q m : Nat) (s : Side)
    (A : (Fin r → BytesN 32) → Res (List (Found v L)) → Prop) :
    fractionOf (fun x : Tried v r n L X => A x.1 (viewIn P K d (demands ask x.1) k o u q m s x)) =
      fractionOf (fun z : Tried v r n L X × Derivation v =>
        A z.1.1 (viewIn P K d (demands ask z.1.1) k o u q m s (swapElse v r n L X z).1)) := by
  rw [← fraction_fst (β := Derivation v) fun x : Tried v r n L X =>
      A x.1 (viewIn P K d (demands ask x.1) k o u q m s x), ← fraction_equiv (swapElse v r n L X)]
  rfl

end

section

variable {ask}

/-- From the game to one where no text contains a key, and nothing is told about the keys in use. -/
theorem to_blank (P : Prims) (hK : ∀ x, x ∈ K) (k n o u q m : Nat)
    (hhide : ∀ answers i a, ask answers = some (.hide i a) → a.Comparable P L ∧ a.Fits)
    (hlook : ∀ answers i a, ask answers = some (.look i a) → a.Fits) (s : Side)
    (A : (Fin r → BytesN 32) → Res (List (Found v L)) → Prop) :
    ∃ X₀ : Finset (Bytes × Bytes), ∀ X, X₀ ⊆ X → ∀ d : Tags v,
      |fractionOf (fun x : Tried v r n L X => A x.1 (viewIn P K d (demands ask x.1) k o u q m s x)) -
          fractionOf (fun z : Tried v r n L X × Derivation v =>
            A z.1.1 (apart P K d (fun l => (ask l).map blank) k o u q m .left z))| ≤
        bound v n o q m + (r * u / 2 ^ 256 + r * (r - 1) / 2 ^ 257) := by
  obtain ⟨X₁, h₁⟩ := sides ask P hK k n o u q m hhide hlook s fun keys res => A keys res ∨ Met ask keys res
  obtain ⟨X₂, h₂⟩ := sides ask P hK k n o u q m hhide hlook s fun keys res => A keys res ∧ ¬ Met ask keys res
  have hc := fun answers i a ha => (hhide answers i a ha).1
  refine ⟨X₁ ∪ X₂, fun X hs d => ?_⟩
  have a1 := h₁ X (Finset.union_subset_left hs) d
  have a2 := h₂ X (Finset.union_subset_right hs) d
  have a3 := met_rare (n := n) (X := X) hK hc d k o u q m
  rw [view_fraction]
  have b1 : fractionOf (fun z : Tried v r n L X × Derivation v =>
        A z.1.1 (viewIn P K d (demands ask z.1.1) k o u q m s (swapElse v r n L X z).1)) ≤
      fractionOf (fun z : Tried v r n L X × Derivation v =>
        A z.1.1 (apart P K d (demands ask z.1.1) k o u q m s z) ∨
          Met ask z.1.1 (apart P K d (demands ask z.1.1) k o u q m s z)) := by
    refine fraction_mono fun z hz => ?_
    by_cases h : Met ask z.1.1 (apart P K d (demands ask z.1.1) k o u q m s z)
    · exact .inr h
    · rw [view_same hK hc d k o u q m s z h] at hz
      exact .inl hz
  have b2 : fractionOf (fun z : Tried v r n L X × Derivation v =>
        A z.1.1 (apart P K d (demands ask z.1.1) k o u q m s z) ∧
          ¬ Met ask z.1.1 (apart P K d (demands ask z.1.1) k o u q m s z)) ≤
      fractionOf (fun z : Tried v r n L X × Derivation v =>
        A z.1.1 (viewIn P K d (demands ask z.1.1) k o u q m s (swapElse v r n L X z).1)) := by
    refine fraction_mono fun z hz => ?_
    rw [view_same hK hc d k o u q m s z hz.2]
    exact hz.1
  have b3 := fraction_or (fun z : Tried v r n L X × Derivation v =>
      A z.1.1 (apart P K d (fun l => (ask l).map blank) k o u q m .left z))
    (fun z => Met ask z.1.1 (apart P K d (fun l => (ask l).map blank) k o u q m .left z))
  have b4 : fractionOf (fun z : Tried v r n L X × Derivation v =>
        A z.1.1 (apart P K d (fun l => (ask l).map blank) k o u q m .left z)) ≤
      fractionOf (fun z : Tried v r n L X × Derivation v =>
        A z.1.1 (apart P K d (fun l => (ask l).map blank) k o u q m .left z) ∧
          ¬ Met ask z.1.1 (apart P K d (fun l => (ask l).map blank) k o u q m .left z)) +
      fractionOf (fun z : Tried v r n L X × Derivation v =>
        Met ask z.1.1 (apart P K d (fun l => (ask l).map blank) k o u q m .left z)) := by
    refine (fraction_mono fun z hz => ?_).trans (fraction_or _ _)
    by_cases h : Met ask z.1.1 (apart P K d (fun l => (ask l).map blank) k o u q m .left z)
    · exact .inr h
    · exact .inl ⟨hz, h⟩
  generalize (r : ℚ) * u / 2 ^ 256 + r * (r - 1) / 2 ^ 257 = B at *
  generalize bound v n o q m = C at *
  rw [abs_le] at *
  constructor <;> linarith [a1.1, a1.2, a2.1, a2.2]

end

/-- **C104**: whatever is asked for, even that texts contain keys in use, and whatever is concluded from the
answers: the conclusion is drawn (almost) as often when the left candidates are used as when the right ones
are. -/
theorem advantage (P : Prims) (k n o u q m : Nat) (ask : List (Found v L) → Option (Demand v r))
    (hhide : ∀ answers i a, ask answers = some (.hide i a) → a.Comparable P L ∧ a.Fits)
    (hlook : ∀ answers i a, ask answers = some (.look i a) → a.Fits)
    (A : Res (List (Found v L)) → Prop) :
    ∃ X₀ : Finset (Bytes × Bytes), ∀ X, X₀ ⊆ X → ∀ d : Tags v,
      |Tried.chance (fun x : Tried v r n L X => A (x.demandView P d ask k o u q m .left)) -
          Tried.chance (fun x : Tried v r n L X => A (x.demandView P d ask k o u q m .right))| ≤
        6 * (n * (n - 1)) / 2 ^ 256 + 2 * n * q / 2 ^ 256 + 4 * o / 2 ^ (8 * Spec.tagLen v) +
          4 * (n + o) * m / 2 ^ 256 + 2 * r * u / 2 ^ 256 + r * (r - 1) / 2 ^ 256 := by
  obtain ⟨K, hu, hK⟩ := C101.all (T := BytesN 32)
  obtain ⟨X₁, h₁⟩ := to_blank P hK k n o u q m hhide hlook .left fun _ => A
  obtain ⟨X₂, h₂⟩ := to_blank P hK k n o u q m hhide hlook .right fun _ => A
  refine ⟨X₁ ∪ X₂, fun X hs d => ?_⟩
  have hl := h₁ X (Finset.union_subset_left hs) d
  have hr := h₂ X (Finset.union_subset_right hs) d
  unfold Tried.demandView
  simp only [view_eq, ← hu]
  have e : 6 * ((n : ℚ) * (n - 1)) / 2 ^ 256 + 2 * n * q / 2 ^ 256 + 4 * o / 2 ^ (8 * Spec.tagLen v) +
      4 * (n + o) * m / 2 ^ 256 + 2 * r * u / 2 ^ 256 + r * (r - 1) / 2 ^ 256 =
      2 * (bound v n o q m + ((r : ℚ) * u / 2 ^ 256 + r * (r - 1) / 2 ^ 257)) := by
    have e257 : (2 : ℚ) ^ 257 = 2 * 2 ^ 256 := by rw [← pow_succ']
    have : (2 : ℚ) ^ 256 ≠ 0 := by positivity
    unfold bound
    rw [e257]
    generalize (2 : ℚ) ^ 256 = C at *
    generalize (2 : ℚ) ^ (8 * Spec.tagLen v) = T at *
    field_simp
    ring
  rw [e]
  unfold Tried.chance
  unfold fractionOf at hl hr
  generalize bound v n o q m + ((r : ℚ) * u / 2 ^ 256 + r * (r - 1) / 2 ^ 257) = B at *
  rw [abs_le] at *
  constructor <;> linarith [hl.1, hl.2, hr.1, hr.2]

section

variable {ask}

theorem met_in (P : Prims) (hK : ∀ x, x ∈ K) (k n o u q m : Nat)
    (hhide : ∀ answers i a, ask answers = some (.hide i a) → a.Comparable P L ∧ a.Fits)
    (hlook : ∀ answers i a, ask answers = some (.look i a) → a.Fits) (s : Side) :
    ∃ X₀ : Finset (Bytes × Bytes), ∀ X, X₀ ⊆ X → ∀ d : Tags v,
      fractionOf (fun z : Tried v r n L X × Derivation v =>
          Met ask z.1.1 (apart P K d (demands ask z.1.1) k o u q m s z)) ≤
        bound v n o q m + (r * u / 2 ^ 256 + r * (r - 1) / 2 ^ 257) := by
  obtain ⟨X₀, h⟩ := sides ask P hK k n o u q m hhide hlook s (Met ask)
  refine ⟨X₀, fun X hs d => ?_⟩
  have a1 := h X hs d
  have a2 := met_rare (n := n) (X := X) hK (fun answers i a ha => (hhide answers i a ha).1) d k o u q m
  rw [abs_le] at a1
  linarith [a1.2]

theorem unopened_apart (P : Prims) (hK : ∀ x, x ∈ K) (k n o u q m : Nat)
    (hhide : ∀ answers i a, ask answers = some (.hide i a) → a.Comparable P L ∧ a.Fits)
    (hlook : ∀ answers i a, ask answers = some (.look i a) → a.Fits) (s : Side) :
    ∃ X₀ : Finset (Bytes × Bytes), ∀ X, X₀ ⊆ X → ∀ d : Tags v,
      fractionOf (fun z : Tried v r n L X × Derivation v => ∃ answers,
          apart P K d (demands ask z.1.1) k o u q m s z = .ok answers ∧
            TextOpened (demands ask z.1.1) answers) ≤
        n * (n - 1) / 2 ^ 257 + o / 2 ^ (8 * Spec.tagLen v) + (n + o) * m / 2 ^ 256 := by
  classical
  have h := fun y : (Fin r → BytesN 32) × Derivation v =>
    C100.unopened P K k n o q m (fun ts => (drive y.1 y.2 (demands ask y.1) k u [] ts).2)
      (drive_hides hK (fun answers i a ha => by
        obtain ⟨b, h1, rfl⟩ := demands_hide ha
        exact ⟨(hhide _ _ _ h1).1 _, (hhide _ _ _ h1).2 _⟩) k u y)
      (drive_looks hK (fun answers i a ha => hlook _ _ _ (demands_look ha)) k u y) s
  choose X₀ hX using h
  refine ⟨Finset.univ.biUnion X₀, fun X hs d => ?_⟩
  rw [← fraction_equiv (fixKeys v r n L X)]
  refine fraction_prod_le _ _ ?_ fun y => ?_
  · have := pairs_nonneg n
    positivity
  refine le_trans (fraction_mono fun x hx => ?_)
    (hX y X ((Finset.subset_biUnion_of_mem X₀ (Finset.mem_univ y)).trans hs) d)
  obtain ⟨answers, h1, h2⟩ := hx
  change apart P K d (demands ask y.1) k o u q m s (fixKeys v r n L X (y, x)) = .ok answers at h1
  change TextOpened (demands ask y.1) answers at h2
  rw [apart_eq] at h1
  cases hv : x.view P K d (fun ts => (drive y.1 y.2 (demands ask y.1) k u [] ts).2) k o q m s with
  | err e => rw [hv] at h1; cases h1
  | panic => rw [hv] at h1; cases h1
  | ok ts =>
    rw [hv] at h1
    have e : (drive y.1 y.2 (demands ask y.1) k u [] ts).1 = answers := by cases h1; rfl
    refine ⟨ts, rfl, ?_⟩
    have h3 := drive_opened y.1 y.2 (demands ask y.1) (fun ts => (drive y.1 y.2 (demands ask y.1) k u [] ts).2)
      k u [] [] ts (fun _ => rfl) ?_ (by rw [e]; exact h2)
    · exact h3
    · rintro ⟨before, after, i, a, bytes, e, -⟩
      simp at e

end

/-- Hardly ever is a key in use among the keys tried, although texts contain the keys. -/
theorem key_met (P : Prims) (k n o u q m : Nat) (ask : List (Found v L) → Option (Demand v r))
    (hhide : ∀ answers i a, ask answers = some (.hide i a) → a.Comparable P L ∧ a.Fits)
    (hlook : ∀ answers i a, ask answers = some (.look i a) → a.Fits) (s : Side) :
    ∃ X₀ : Finset (Bytes × Bytes), ∀ X, X₀ ⊆ X → ∀ d : Tags v,
      Tried.chance (fun x : Tried v r n L X => ∃ answers, x.demandView P d ask k o u q m s = .ok answers ∧
          KeyFound x.1 (demands ask x.1) answers) ≤
        3 * (n * (n - 1)) / 2 ^ 256 + n * q / 2 ^ 256 + 2 * o / 2 ^ (8 * Spec.tagLen v) +
          2 * (n + o) * m / 2 ^ 256 + r * u / 2 ^ 256 + r * (r - 1) / 2 ^ 257 := by
  obtain ⟨K, hu, hK⟩ := C101.all (T := BytesN 32)
  obtain ⟨X₀, h⟩ := met_in P hK k n o u q m hhide hlook s
  have hc := fun answers i a ha => (hhide answers i a ha).1
  refine ⟨X₀, fun X hs d => ?_⟩
  have a1 := h X hs d
  have e : 3 * ((n : ℚ) * (n - 1)) / 2 ^ 256 + n * q / 2 ^ 256 + 2 * o / 2 ^ (8 * Spec.tagLen v) +
      2 * (n + o) * m / 2 ^ 256 + r * u / 2 ^ 256 + r * (r - 1) / 2 ^ 257 =
      bound v n o q m + ((r : ℚ) * u / 2 ^ 256 + r * (r - 1) / 2 ^ 257) := by
    unfold bound
    ring
  rw [e]
  unfold Tried.demandView
  simp only [view_eq, ← hu, found_iff]
  refine le_trans (le_of_eq (view_fraction P K d k o u q m s (Met ask))) ((fraction_mono fun z hz => ?_).trans a1)
  · by_contra hn
    rw [view_same hK hc d k o u q m s z hn] at hz
    exact hn hz

/-- Hardly ever is anything opened that was not issued, although texts contain the keys. -/
theorem unopened (P : Prims) (k n o u q m : Nat) (ask : List (Found v L) → Option (Demand v r))
    (hhide : ∀ answers i a, ask answers = some (.hide i a) → a.Comparable P L ∧ a.Fits)
    (hlook : ∀ answers i a, ask answers = some (.look i a) → a.Fits) (s : Side) :
    ∃ X₀ : Finset (Bytes × Bytes), ∀ X, X₀ ⊆ X → ∀ d : Tags v,
      Tried.chance (fun x : Tried v r n L X => ∃ answers, x.demandView P d ask k o u q m s = .ok answers ∧
          TextOpened (demands ask x.1) answers) ≤
        4 * (n * (n - 1)) / 2 ^ 256 + n * q / 2 ^ 256 + 3 * o / 2 ^ (8 * Spec.tagLen v) +
          3 * (n + o) * m / 2 ^ 256 + r * u / 2 ^ 256 + r * (r - 1) / 2 ^ 257 := by
  obtain ⟨K, hu, hK⟩ := C101.all (T := BytesN 32)
  obtain ⟨X₁, h₁⟩ := met_in P hK k n o u q m hhide hlook s
  obtain ⟨X₂, h₂⟩ := unopened_apart P hK k n o u q m hhide hlook s
  have hc := fun answers i a ha => (hhide answers i a ha).1
  refine ⟨X₁ ∪ X₂, fun X hs d => ?_⟩
  have a1 := h₁ X (Finset.union_subset_left hs) d
  have a2 := h₂ X (Finset.union_subset_right hs) d
  have e : (n : ℚ) * (n - 1) / 2 ^ 257 + o / 2 ^ (8 * Spec.tagLen v) + (n + o) * m / 2 ^ 256 +
      (bound v n o q m + ((r : ℚ) * u / 2 ^ 256 + r * (r - 1) / 2 ^ 257)) ≤
      4 * (n * (n - 1)) / 2 ^ 256 + n * q / 2 ^ 256 + 3 * o / 2 ^ (8 * Spec.tagLen v) +
          3 * (n + o) * m / 2 ^ 256 + r * u / 2 ^ 256 + r * (r - 1) / 2 ^ 257 := by
    have e257 : (n : ℚ) * (n - 1) / 2 ^ 257 ≤ n * (n - 1) / 2 ^ 256 :=
      div_le_div_of_nonneg_left (pairs_nonneg n) (by positivity) (pow_le_pow_right₀ (by norm_num) (by norm_num))
    have e1 : 4 * ((n : ℚ) * (n - 1)) / 2 ^ 256 + n * q / 2 ^ 256 + 3 * o / 2 ^ (8 * Spec.tagLen v) +
          3 * (n + o) * m / 2 ^ 256 + r * u / 2 ^ 256 + r * (r - 1) / 2 ^ 257 =
        n * (n - 1) / 2 ^ 256 + o / 2 ^ (8 * Spec.tagLen v) + (n + o) * m / 2 ^ 256 +
          (bound v n o q m + ((r : ℚ) * u / 2 ^ 256 + r * (r - 1) / 2 ^ 257)) := by
      unfold bound
      ring
    rw [e1]
    exact add_le_add_left (add_le_add_left (add_le_add_left e257 _) _) _
  refine le_trans ?_ e
  unfold Tried.demandView
  simp only [view_eq, ← hu]
  refine le_trans (le_of_eq (view_fraction P K d k o u q m s fun keys res =>
    ∃ answers, res = .ok answers ∧ TextOpened (demands ask keys) answers))
    (((fraction_mono fun z hz => ?_).trans (fraction_or _ _)).trans (add_le_add a2 a1))
  · by_cases hn : Met ask z.1.1 (apart P K d (demands ask z.1.1) k o u q m s z)
    · exact .inr hn
    · rw [view_same hK hc d k o u q m s z hn] at hz
      exact .inl hz

/-- With up to `2 ^ 64` keys in use, `2 ^ 64` texts and `2 ^ 64` openings, and `2 ^ 100` keys, cipher keys and
MAC keys tried, the chances differ by at most `2 ^ -88`. -/
theorem advantage_practical (P : Prims) (k n o u q m : Nat) (hr : r ≤ 2 ^ 64) (hn : n ≤ 2 ^ 64)
    (ho : o ≤ 2 ^ 64) (hu : u ≤ 2 ^ 100) (hq : q ≤ 2 ^ 100) (hm : m ≤ 2 ^ 100)
    (ask : List (Found v L) → Option (Demand v r))
    (hhide : ∀ answers i a, ask answers = some (.hide i a) → a.Comparable P L ∧ a.Fits)
    (hlook : ∀ answers i a, ask answers = some (.look i a) → a.Fits)
    (A : Res (List (Found v L)) → Prop) :
    ∃ X₀ : Finset (Bytes × Bytes), ∀ X, X₀ ⊆ X → ∀ d : Tags v,
      |Tried.chance (fun x : Tried v r n L X => A (x.demandView P d ask k o u q m .left)) -
          Tried.chance (fun x : Tried v r n L X => A (x.demandView P d ask k o u q m .right))| ≤ 1 / 2 ^ 88 := by
  obtain ⟨X₀, h⟩ := advantage P k n o u q m ask hhide hlook A
  refine ⟨X₀, fun X hX d => (h X hX d).trans ?_⟩
  clear h
  have hb := C102.practical_bound v r n o u q m hr hn ho hu hq hm
  have hp : 0 ≤ 2 * (r : ℚ) * u / 2 ^ 256 + r * (r - 1) / 2 ^ 256 := by
    have := pairs_nonneg r
    positivity
  have e : 6 * ((n : ℚ) * (n - 1)) / 2 ^ 256 + 2 * n * q / 2 ^ 256 + 4 * o / 2 ^ (8 * Spec.tagLen v) +
      4 * (n + o) * m / 2 ^ 256 + 2 * r * u / 2 ^ 256 + r * (r - 1) / 2 ^ 256 =
      2 * (3 * ((n : ℚ) * (n - 1)) / 2 ^ 256 + n * q / 2 ^ 256 + 2 * o / 2 ^ (8 * Spec.tagLen v) +
      2 * (n + o) * m / 2 ^ 256 + 2 * r * u / 2 ^ 256 + r * (r - 1) / 2 ^ 256) -
      (2 * (r : ℚ) * u / 2 ^ 256 + r * (r - 1) / 2 ^ 256) := by ring
  have e88 : (1 : ℚ) / 2 ^ 88 = 2 * (1 / 2 ^ 89) := by norm_num
  rw [e, e88]
  linarith

/-! ### The game is played -/

/-- Nothing breaks the game off: with `k` requests and `k` of each kind allowed, there are `k` answers
unless nothing more is asked. -/
theorem runs (P : Prims) (k n o u q m : Nat) (hn : k ≤ n) (ho : k ≤ o) (hu : k ≤ u) (hq : k ≤ q)
    (hm : k ≤ m) (ask : List (Found v L) → Option (Demand v r))
    (hhide : ∀ answers i a, ask answers = some (.hide i a) → a.Comparable P L)
    (X : Finset (Bytes × Bytes)) (d : Tags v) (s : Side) (x : Tried v r n L X) :
    ∃ answers, x.demandView P d ask k o u q m s = .ok answers ∧
      (answers.length = k ∨ answers.length < k ∧ ask answers = none) := by
  obtain ⟨answers, h1, h2⟩ := C101.runs P k n o u q m hn ho hu hq hm (demands ask x.1) (fun answers i a ha => by
    obtain ⟨b, h1, rfl⟩ := demands_hide ha
    exact hhide _ _ _ h1 _) X d s x
  refine ⟨answers, h1, h2.imp id fun h => ⟨h.1, ?_⟩⟩
  have h3 := h.2
  unfold demands at h3
  exact Option.map_eq_none_iff.1 h3

/-! ### A case: keys wrapped under each other -/

/-- Left, the first key wraps the second; right, it wraps itself. Then, left, the second key wraps the first;
right, it wraps zeros. From both texts a key is guessed; with what it derives, a text is made, and handed in under
the first key. -/
def cycle (v : Ver) (L : Nat) (guess : Told → Told → BytesN 32) (make : (EncInput → Derived v) → Bytes) :
    List (Found v L) → Option (Demand v 2)
  | [] => some (.hide (fun _ => 0) (.wrap .Local fun keys s => match s with | .left => keys 1 | .right => keys 0))
  | [.told _] => some (.hide (fun _ => 1) (.wrap .Local fun keys s => match s with
      | .left => keys 0
      | .right => Plug.k0))
  | [.told t, .told t'] => some (.derive (guess t t'))
  | [.told _, .told _, .derived e] => some (.look 0 (.unwrap .Local (make e)))
  | _ => none

section

variable (guess : Told → Told → BytesN 32) (make : (EncInput → Derived v) → Bytes)

theorem cycle_hides (P : Prims) (hL : 32 ≤ L) (answers : List (Found v L)) (i : Side → Fin 2) (a : Containing v 2)
    (h : cycle v L guess make answers = some (.hide i a)) : a.Comparable P L ∧ a.Fits := by
  unfold cycle at h
  split at h <;> cases h
  · exact ⟨fun x => ⟨fun s => ⟨_, rfl⟩, hL⟩, fun x => trivial⟩
  · exact ⟨fun x => ⟨fun s => ⟨_, rfl⟩, hL⟩, fun x => trivial⟩

theorem cycle_looks (answers : List (Found v L)) (i : Fin 2) (a : Opening v)
    (h : cycle v L guess make answers = some (.look i a)) : a.Fits := by
  unfold cycle at h
  split at h <;> cases h
  trivial

/-- The hypotheses of `advantage_practical` are met, -/
example (P : Prims) (hL : 32 ≤ L) (A : Res (List (Found v L)) → Prop) :=
  advantage_practical P 4 2 1 1 0 0 (by norm_num) (by norm_num) (by norm_num) (by norm_num) (by norm_num)
    (by norm_num) _ (cycle_hides guess make P hL) (cycle_looks guess make) A

/-- … those of `key_met` and `unopened`, -/
example (P : Prims) (hL : 32 ≤ L) (s : Side) :=
  key_met P 4 2 1 1 0 0 _ (cycle_hides guess make P hL) (cycle_looks guess make) s

example (P : Prims) (hL : 32 ≤ L) (s : Side) :=
  unopened P 4 2 1 1 0 0 _ (cycle_hides guess make P hL) (cycle_looks guess make) s

/-- … and those of `runs`. -/
example (P : Prims) (hL : 32 ≤ L) (X : Finset (Bytes × Bytes)) (d : Tags v) (s : Side) (x : Tried v 2 4 L X) :
    ∃ answers, x.demandView P d (cycle v L guess make) 4 4 4 4 4 s = .ok answers ∧
      (answers.length = 4 ∨ answers.length < 4 ∧ cycle v L guess make answers = none) :=
  runs P 4 4 4 4 4 4 (Nat.le_refl _) (Nat.le_refl _) (Nat.le_refl _) (Nat.le_refl _) (Nat.le_refl _) _
    (fun answers i a h => (cycle_hides guess make P hL answers i a h).1) X d s x

/-- What is asked for is that one key in use be wrapped under another, as a user would. -/
example (P : Prims) (keys : Fin 2 → BytesN 32) :
    ∃ i a, demands (cycle v L guess make) keys [] = some (.hide i a) ∧
      a.run P ⟨keys (i .left)⟩ .left =
        (Hiding.wrap .Local fun _ => keys 1 : Hiding v).run P ⟨keys 0⟩ .left :=
  ⟨_, _, rfl, rfl⟩

/-- Whether a key in use is met is not decided beforehand. -/
example (t t' : Told) (e : EncInput → Derived v) :
    KeyFound (L := L) (fun _ => guess t t') (demands (cycle v L guess make) fun _ => guess t t')
      [.told t, .told t', .derived e] :=
  ⟨[.told t, .told t'], [], e, 0, rfl, rfl⟩

end

/-- Tokens may contain keys: with an encoding by which all keys give equally long texts, the hypotheses about what
is to be hidden are met. -/
example (P : Prims) {M F E : Type} [iP : Payload E] [iM : MessageEncoding E M] [iF : Footer F] (encoding : E)
    (message : BytesN 32 → M) (footer : F) (implicit : Bytes) (len : Nat) (hl : len ≤ L)
    (hm : ∀ key, ∃ m, MessageEncoding.encode encoding (message key) = .ok m ∧ m.length = len ∧ Spec.Fits m)
    (f : Bytes) (hf : Footer.encode footer = some f) :
    (Containing.token M F E iP iM iF (fun _ _ => encoding)
      (fun keys s => match s with | .left => message (keys 0) | .right => message (keys 1)) footer implicit :
        Containing v 2).Comparable P L := by
  intro x
  have h : ∀ s, ∃ m, MessageEncoding.encode encoding
      (match (x s).2 with | .left => message ((x s).1 0) | .right => message ((x s).1 1)) = .ok m ∧
        m.length = len ∧ Spec.Fits m := by
    intro s
    cases (x s).2
    · exact hm _
    · exact hm _
  choose m h1 h2 h3 using h
  exact ⟨⟨m, h1, (h2 _).trans (h2 _).symm, (h2 _).le.trans hl, h3 _⟩, f, hf⟩

end Pasta.C104
