import Verif.Spec.SecretContent
import Verif.Props.Lifecycle

/-!
# C107: a secret in texts cannot be guessed
-/

namespace Pasta.C107

open C98 (fraction_prod fraction_mono)

variable {v : Ver} {r n L : Nat} {X : Finset (Bytes × Bytes)} {W : Type}

/-! ### Only the secret of the side taken matters -/

theorem run_alike (P : Prims) (keys : Fin r → BytesN 32) (a : Holding v r W) {f g : Side → W} {s s' : Side}
    (h : f s = g s') (key : Key P v .Local) (rng : Rng) :
    ((a.filled f).given keys).run P key s rng = ((a.filled g).given keys).run P key s' rng := by
  cases a with
  | token M F E iP iM iF encoding message footer implicit =>
    show (Hiding.token M F E iP iM iF (fun s => encoding keys (f s)) (fun s => message keys (f s)) footer implicit :
        Hiding v).run P key s rng =
      (Hiding.token M F E iP iM iF (fun s => encoding keys (g s)) (fun s => message keys (g s)) footer implicit :
        Hiding v).run P key s' rng
    unfold Hiding.run
    dsimp only
    rw [h]
  | wrap k hidden =>
    show (Hiding.wrap k (fun s => hidden keys (f s)) : Hiding v).run P key s rng =
      (Hiding.wrap k (fun s => hidden keys (g s)) : Hiding v).run P key s' rng
    unfold Hiding.run
    dsimp only
    rw [h]

theorem item_alike (keys : Fin r → BytesN 32) (a : Holding v r W) (f g : Side → W) (text : Bytes) :
    ((a.filled f).given keys).item text = ((a.filled g).given keys).item text := by
  cases a <;> rfl

theorem inUse_alike (P : Prims) (keys : Fin r → BytesN 32) (D : Derivation v) (c : CipherOf v L) (t : Tags v)
    (h : Ids v) {f g : Side → W} {s s' : Side} (hs : f s = g s')
    (ask : List (IdGot v L) → Option (SecretWish v r W)) (k : Nat) :
    ∀ (n o u q m : Nat) (rng : Rng) (issued : List Item) (answers : List (IdGot v L)),
      idInUse P keys D c t h s (fun answers => (ask answers).map (SecretWish.filled f)) k n o u q m rng issued answers =
        idInUse P keys D c t h s' (fun answers => (ask answers).map (SecretWish.filled g)) k n o u q m rng issued
          answers := by
  induction k with
  | zero => intros; rfl
  | succ k ih =>
    intro n o u q m rng issued answers
    rw [idInUse, idInUse]
    cases ha : ask answers with
    | none => rfl
    | some a =>
      cases a with
      | hide i a =>
        cases n with
        | zero => rfl
        | succ n =>
          dsimp only [Option.map, SecretWish.filled]
          rw [run_alike P keys a hs]
          cases ((a.filled g).given keys).run P ⟨keys i⟩ s' rng with
          | err z => rw [Res.err_bind, Res.err_bind]
          | panic => rw [Res.panic_bind, Res.panic_bind]
          | ok y =>
            rw [Res.ok_bind, Res.ok_bind, item_alike keys a f g]
            exact ih _ _ _ _ _ _ _ _
      | look i a => cases o with
        | zero => rfl
        | succ o => exact ih _ _ _ _ _ _ _ _
      | derive x => cases u with
        | zero => rfl
        | succ u => exact ih _ _ _ _ _ _ _ _
      | cipher x => cases q with
        | zero => rfl
        | succ q => exact ih _ _ _ _ _ _ _ _
      | mac x y => cases m with
        | zero => rfl
        | succ m => exact ih _ _ _ _ _ _ _ _
      | hash x => cases u with
        | zero => rfl
        | succ u => exact ih _ _ _ _ _ _ _ _

section

variable (ask : (Fin r → Res Bytes) → List (IdGot v L) → Option (SecretWish v r W))

theorem view_alike (P : Prims) (d : Tags v) (k o u q m : Nat) {f g : Side → W} {s s' : Side} (hs : f s = g s')
    (x : Life v r n L X) :
    x.view P d (fun ids answers => (ask ids answers).map (SecretWish.filled f)) k o u q m s =
      x.view P d (fun ids answers => (ask ids answers).map (SecretWish.filled g)) k o u q m s' := by
  unfold Life.view
  congr 1
  funext y
  dsimp only
  rw [inUse_alike _ _ _ _ _ _ hs]

/-- It does not matter which side is taken. -/
theorem either_side (P : Prims) (d : Tags v) (k o u q m : Nat) (w : W) (s : Side) (x : Life v r n L X) :
    x.view P d (fun ids answers => (ask ids answers).map (SecretWish.filled fun _ => w)) k o u q m s =
      x.seenWith P d ask k o u q m w :=
  view_alike ask P d k o u q m (f := fun _ => w) (g := fun _ => w) (s := s) (s' := .left) rfl x

theorem filled_hide {f : Side → W} {ids : Fin r → Res Bytes} {answers : List (IdGot v L)} {i : Side → Fin r}
    {a : Containing v r} (h : (ask ids answers).map (SecretWish.filled f) = some (.demand (.hide i a))) :
    ∃ j b, ask ids answers = some (.hide j b) ∧ a = b.filled f := by
  obtain ⟨c, h1, h2⟩ := Option.map_eq_some_iff.1 h
  cases c <;> cases h2
  exact ⟨_, _, h1, rfl⟩

theorem filled_look {f : Side → W} {ids : Fin r → Res Bytes} {answers : List (IdGot v L)} {i : Fin r}
    {a : Opening v} (h : (ask ids answers).map (SecretWish.filled f) = some (.demand (.look i a))) :
    ask ids answers = some (.look i a) := by
  obtain ⟨c, h1, h2⟩ := Option.map_eq_some_iff.1 h
  cases c <;> cases h2
  exact h1

end

/-- Two secrets, one for each side. -/
def pair (w w' : W) : Side → W
  | .left => w
  | .right => w'

theorem fraction_one [Fintype W] [Nonempty W] (S : Finset W) :
    fractionOf (fun w => w ∈ S) = S.card / Fintype.card W := by
  classical
  unfold fractionOf
  congr 3
  ext w
  simp

section

variable [Fintype W] [Nonempty W]

/-- When all pairs of secrets can hardly be told apart, conclusions do not depend on the texts. -/
theorem from_advantage (P : Prims) (k n o u q m : Nat)
    (ask : (Fin r → Res Bytes) → List (IdGot v L) → Option (SecretWish v r W))
    (R : Res ((Fin r → Res Bytes) × List (IdGot v L)) → W → Prop) (w₀ : W) (B : ℚ)
    (h : ∀ w, ∃ X₀ : Finset (Bytes × Bytes), ∀ X, X₀ ⊆ X → ∀ d : Tags v,
      |fractionOf (fun x : Life v r n L X => R (x.view P d
          (fun ids answers => (ask ids answers).map (SecretWish.filled (pair w w₀))) k o u q m .left) w) -
        fractionOf (fun x : Life v r n L X => R (x.view P d
          (fun ids answers => (ask ids answers).map (SecretWish.filled (pair w w₀))) k o u q m .right) w)| ≤ B) :
    ∃ X₀ : Finset (Bytes × Bytes), ∀ X, X₀ ⊆ X → ∀ d : Tags v,
      |fractionOf (fun z : W × Life v r n L X => R (z.2.seenWith P d ask k o u q m z.1) z.1) -
        fractionOf (fun z : W × Life v r n L X => R (z.2.seenWith P d ask k o u q m w₀) z.1)| ≤ B := by
  classical
  choose X₀ hX using h
  refine ⟨Finset.univ.biUnion X₀, fun X hs d => ?_⟩
  have hw := fun w => hX w X ((Finset.subset_biUnion_of_mem X₀ (Finset.mem_univ w)).trans hs) d
  have el : ∀ w (x : Life v r n L X), x.view P d
      (fun ids answers => (ask ids answers).map (SecretWish.filled (pair w w₀))) k o u q m .left =
        x.seenWith P d ask k o u q m w := fun w x =>
    view_alike ask P d k o u q m (f := pair w w₀) (g := fun _ => w) (s := .left) (s' := .left) rfl x
  have er : ∀ w (x : Life v r n L X), x.view P d
      (fun ids answers => (ask ids answers).map (SecretWish.filled (pair w w₀))) k o u q m .right =
        x.seenWith P d ask k o u q m w₀ := fun w x =>
    view_alike ask P d k o u q m (f := pair w w₀) (g := fun _ => w₀) (s := .right) (s' := .left) rfl x
  simp only [el, er] at hw
  rw [abs_le]
  have h1 := C105.average_mono (fun z : W × Life v r n L X => R (z.2.seenWith P d ask k o u q m z.1) z.1)
    (fun z : W × Life v r n L X => R (z.2.seenWith P d ask k o u q m w₀) z.1) B
    fun w => by have := (abs_le.1 (hw w)).2; linarith
  have h2 := C105.average_mono (fun z : W × Life v r n L X => R (z.2.seenWith P d ask k o u q m w₀) z.1)
    (fun z : W × Life v r n L X => R (z.2.seenWith P d ask k o u q m z.1) z.1) B
    fun w => by have := (abs_le.1 (hw w)).1; linarith
  constructor <;> linarith

/-- **C107**: whatever is asked for, and whatever is concluded about the secret from the ids and the answers: the
conclusion is right (almost) as often as when it is drawn from texts that were made with something else, `w₀`,
instead of the secret. -/
theorem semantic (P : Prims) (k n o u q m : Nat)
    (ask : (Fin r → Res Bytes) → List (IdGot v L) → Option (SecretWish v r W))
    (hhide : ∀ ids answers i a, ask ids answers = some (.hide i a) → a.Comparable P L ∧ a.Fits)
    (hlook : ∀ ids answers i a, ask ids answers = some (.look i a) → a.Fits)
    (R : Res ((Fin r → Res Bytes) × List (IdGot v L)) → W → Prop) (w₀ : W) :
    ∃ X₀ : Finset (Bytes × Bytes), ∀ X, X₀ ⊆ X → ∀ d : Tags v,
      |fractionOf (fun z : W × Life v r n L X => R (z.2.seenWith P d ask k o u q m z.1) z.1) -
        fractionOf (fun z : W × Life v r n L X => R (z.2.seenWith P d ask k o u q m w₀) z.1)| ≤
        6 * (n * (n - 1)) / 2 ^ 256 + 2 * n * q / 2 ^ 256 + 4 * o / 2 ^ (8 * Spec.tagLen v) +
          4 * (n + o) * m / 2 ^ 256 + 2 * r * u / 2 ^ 256 + 2 * (r * (r - 1)) / 2 ^ 256 :=
  from_advantage P k n o u q m ask R w₀ _ fun w => C106.advantage P k n o u q m
    (fun ids answers => (ask ids answers).map (SecretWish.filled (pair w w₀)))
    (fun ids answers i a ha => by
      obtain ⟨j, b, h1, rfl⟩ := filled_hide ask ha
      exact ⟨(hhide _ _ _ _ h1).1 _, (hhide _ _ _ _ h1).2 _⟩)
    (fun ids answers i a ha => hlook _ _ _ _ (filled_look ask ha)) fun res => R res w

/-- With up to `2^64` keys, texts and openings, and `2^100` attempts of each kind: up to `2^-88`. -/
theorem semantic_practical (P : Prims) (k n o u q m : Nat) (hr : r ≤ 2 ^ 64) (hn : n ≤ 2 ^ 64)
    (ho : o ≤ 2 ^ 64) (hu : u ≤ 2 ^ 100) (hq : q ≤ 2 ^ 100) (hm : m ≤ 2 ^ 100)
    (ask : (Fin r → Res Bytes) → List (IdGot v L) → Option (SecretWish v r W))
    (hhide : ∀ ids answers i a, ask ids answers = some (.hide i a) → a.Comparable P L ∧ a.Fits)
    (hlook : ∀ ids answers i a, ask ids answers = some (.look i a) → a.Fits)
    (R : Res ((Fin r → Res Bytes) × List (IdGot v L)) → W → Prop) (w₀ : W) :
    ∃ X₀ : Finset (Bytes × Bytes), ∀ X, X₀ ⊆ X → ∀ d : Tags v,
      |fractionOf (fun z : W × Life v r n L X => R (z.2.seenWith P d ask k o u q m z.1) z.1) -
        fractionOf (fun z : W × Life v r n L X => R (z.2.seenWith P d ask k o u q m w₀) z.1)| ≤ 1 / 2 ^ 88 :=
  from_advantage P k n o u q m ask R w₀ _ fun w => C106.advantage_practical P k n o u q m hr hn ho hu hq hm
    (fun ids answers => (ask ids answers).map (SecretWish.filled (pair w w₀)))
    (fun ids answers i a ha => by
      obtain ⟨j, b, h1, rfl⟩ := filled_hide ask ha
      exact ⟨(hhide _ _ _ _ h1).1 _, (hhide _ _ _ _ h1).2 _⟩)
    (fun ids answers i a ha => hlook _ _ _ _ (filled_look ask ha)) fun res => R res w

/-- Without the texts, `t` guesses hit a fraction of at most `t` in the number of secrets. -/
theorem blind (P : Prims) (k o u q m t : Nat) {n : Nat} {X : Finset (Bytes × Bytes)} (d : Tags v)
    (ask : (Fin r → Res Bytes) → List (IdGot v L) → Option (SecretWish v r W))
    (guesses : Res ((Fin r → Res Bytes) × List (IdGot v L)) → Finset W) (ht : ∀ res, (guesses res).card ≤ t) (w₀ : W) :
    fractionOf (fun z : W × Life v r n L X => z.1 ∈ guesses (z.2.seenWith P d ask k o u q m w₀)) ≤
      t / Fintype.card W := by
  rw [← Trying.fraction_swap]
  refine Trying.fraction_prod_le _ _ (by positivity) fun x => ?_
  have e := fraction_one (guesses (x.seenWith P d ask k o u q m w₀))
  refine (le_of_eq e).trans ?_
  have := ht (x.seenWith P d ask k o u q m w₀)
  gcongr

/-- With `t` guesses, the secret is guessed with a chance of hardly more than `t` in the number of secrets. -/
theorem guessed (P : Prims) (k n o u q m t : Nat)
    (ask : (Fin r → Res Bytes) → List (IdGot v L) → Option (SecretWish v r W))
    (hhide : ∀ ids answers i a, ask ids answers = some (.hide i a) → a.Comparable P L ∧ a.Fits)
    (hlook : ∀ ids answers i a, ask ids answers = some (.look i a) → a.Fits)
    (guesses : Res ((Fin r → Res Bytes) × List (IdGot v L)) → Finset W) (ht : ∀ res, (guesses res).card ≤ t) :
    ∃ X₀ : Finset (Bytes × Bytes), ∀ X, X₀ ⊆ X → ∀ d : Tags v,
      fractionOf (fun z : W × Life v r n L X => z.1 ∈ guesses (z.2.seenWith P d ask k o u q m z.1)) ≤
        t / Fintype.card W + (6 * (n * (n - 1)) / 2 ^ 256 + 2 * n * q / 2 ^ 256 + 4 * o / 2 ^ (8 * Spec.tagLen v) +
          4 * (n + o) * m / 2 ^ 256 + 2 * r * u / 2 ^ 256 + 2 * (r * (r - 1)) / 2 ^ 256) := by
  have w₀ : W := Classical.arbitrary W
  obtain ⟨X₀, h⟩ := semantic P k n o u q m ask hhide hlook (fun res w => w ∈ guesses res) w₀
  refine ⟨X₀, fun X hX d => ?_⟩
  have h := (abs_le.1 (h X hX d)).2
  have h2 := blind P k o u q m t (n := n) (X := X) d ask guesses ht w₀
  linarith

/-- The secret can be drawn in any way, as a function `D` of what is drawn evenly. If no value is more likely than
`p`, a guess is right with a chance of hardly more than `p`. -/
theorem guessed_uneven (P : Prims) (k n o u q m : Nat)
    (ask : (Fin r → Res Bytes) → List (IdGot v L) → Option (SecretWish v r W))
    (hhide : ∀ ids answers i a, ask ids answers = some (.hide i a) → a.Comparable P L ∧ a.Fits)
    (hlook : ∀ ids answers i a, ask ids answers = some (.look i a) → a.Fits)
    {S : Type} (D : W → S) (p : ℚ) (hp : ∀ s, fractionOf (fun w => D w = s) ≤ p)
    (guess : Res ((Fin r → Res Bytes) × List (IdGot v L)) → S) :
    ∃ X₀ : Finset (Bytes × Bytes), ∀ X, X₀ ⊆ X → ∀ d : Tags v,
      fractionOf (fun z : W × Life v r n L X => guess (z.2.seenWith P d ask k o u q m z.1) = D z.1) ≤
        p + (6 * (n * (n - 1)) / 2 ^ 256 + 2 * n * q / 2 ^ 256 + 4 * o / 2 ^ (8 * Spec.tagLen v) +
          4 * (n + o) * m / 2 ^ 256 + 2 * r * u / 2 ^ 256 + 2 * (r * (r - 1)) / 2 ^ 256) := by
  have w₀ : W := Classical.arbitrary W
  obtain ⟨X₀, h⟩ := semantic P k n o u q m ask hhide hlook (fun res w => guess res = D w) w₀
  refine ⟨X₀, fun X hX d => ?_⟩
  have h := (abs_le.1 (h X hX d)).2
  have h2 : fractionOf (fun z : W × Life v r n L X => guess (z.2.seenWith P d ask k o u q m w₀) = D z.1) ≤ p := by
    have hp0 : 0 ≤ p := le_trans (by unfold fractionOf; positivity) (hp (D w₀))
    rw [← Trying.fraction_swap]
    refine Trying.fraction_prod_le _ _ hp0 fun x => ?_
    have e := hp (guess (x.seenWith P d ask k o u q m w₀))
    simp only [eq_comm (b := guess _)] at e
    exact e
  linarith

end

/-- A key that stands in the texts, or that they are made from, in any form: with up to `2^100` guesses it is found
with a chance of at most `2^-87`. -/
theorem key_guessed (P : Prims) (k n o u q m : Nat) (hr : r ≤ 2 ^ 64) (hn : n ≤ 2 ^ 64)
    (ho : o ≤ 2 ^ 64) (hu : u ≤ 2 ^ 100) (hq : q ≤ 2 ^ 100) (hm : m ≤ 2 ^ 100)
    (ask : (Fin r → Res Bytes) → List (IdGot v L) → Option (SecretWish v r (BytesN 32)))
    (hhide : ∀ ids answers i a, ask ids answers = some (.hide i a) → a.Comparable P L ∧ a.Fits)
    (hlook : ∀ ids answers i a, ask ids answers = some (.look i a) → a.Fits)
    (guesses : Res ((Fin r → Res Bytes) × List (IdGot v L)) → Finset (BytesN 32))
    (ht : ∀ res, (guesses res).card ≤ 2 ^ 100) :
    ∃ X₀ : Finset (Bytes × Bytes), ∀ X, X₀ ⊆ X → ∀ d : Tags v,
      fractionOf (fun z : BytesN 32 × Life v r n L X => z.1 ∈ guesses (z.2.seenWith P d ask k o u q m z.1)) ≤
        1 / 2 ^ 87 := by
  have w₀ : BytesN 32 := ⟨List.replicate 32 0, List.length_replicate⟩
  have : Nonempty (BytesN 32) := ⟨w₀⟩
  obtain ⟨X₀, h⟩ := semantic_practical P k n o u q m hr hn ho hu hq hm ask hhide hlook
    (fun res w => w ∈ guesses res) w₀
  refine ⟨X₀, fun X hX d => ?_⟩
  have h := (abs_le.1 (h X hX d)).2
  have h2 := blind P k o u q m (2 ^ 100) (n := n) (X := X) d ask guesses ht w₀
  have e : (Fintype.card (BytesN 32) : ℚ) = 2 ^ 256 := by
    rw [C75.card_bytes]
    norm_num
  rw [e] at h2
  have h3 : ((2 ^ 100 : ℕ) : ℚ) / 2 ^ 256 + 1 / 2 ^ 88 ≤ 1 / 2 ^ 87 := by norm_num
  linarith

/-- Nothing breaks the game off. -/
theorem runs (P : Prims) (k n o u q m : Nat) (hn : k ≤ n) (ho : k ≤ o) (hu : k ≤ u) (hq : k ≤ q) (hm : k ≤ m)
    (ask : (Fin r → Res Bytes) → List (IdGot v L) → Option (SecretWish v r W))
    (hhide : ∀ ids answers i a, ask ids answers = some (.hide i a) → a.Comparable P L)
    (X : Finset (Bytes × Bytes)) (d : Tags v) (w : W) (x : Life v r n L X) :
    ∃ ids answers, x.seenWith P d ask k o u q m w = .ok (ids, answers) ∧
      (answers.length = k ∨ answers.length < k ∧ ask ids answers = none) := by
  obtain ⟨ids, answers, h1, h2⟩ := C106.runs P k n o u q m hn ho hu hq hm
    (fun ids answers => (ask ids answers).map (SecretWish.filled fun _ => w))
    (fun ids answers i a ha => by
      obtain ⟨j, b, h1, rfl⟩ := filled_hide ask ha
      exact hhide _ _ _ _ h1 _) X d .left x
  exact ⟨ids, answers, h1, h2.imp id fun h3 => ⟨h3.1, Option.map_eq_none_iff.1 h3.2⟩⟩

/-! ### A case: a key that is wrapped, and stands in a token beside the key it is wrapped under -/

/-- The secret key is wrapped under the first of two keys. It also stands in a token under the second key, after the
first key; what is opened then is made from both texts. -/
def stored (v : Ver) (L : Nat) (make : Told → Told → Bytes) (_ : Fin 2 → Res Bytes) :
    List (IdGot v L) → Option (SecretWish v 2 (BytesN 32))
  | [] => some (.hide 0 (.wrap .Local fun _ w => w))
  | [.found (.told _)] => some (.hide 1 (.token Bytes Bytes Sample.Raw inferInstance inferInstance inferInstance
      (fun _ _ => ⟨⟩) (fun keys w => (keys 0).1 ++ w.1) [] []))
  | [.found (.told t), .found (.told t')] => some (.look 0 (.unwrap .Local (make t t')))
  | _ => none

section

variable (make : Told → Told → Bytes)

theorem stored_hides (P : Prims) (hL : 64 ≤ L) (ids : Fin 2 → Res Bytes) (answers : List (IdGot v L))
    (i : Fin 2) (a : Holding v 2 (BytesN 32)) (h : stored v L make ids answers = some (.hide i a)) :
    a.Comparable P L ∧ a.Fits := by
  have hl : ∀ a b : BytesN 32, (a.1 ++ b.1).length = 64 := fun a b => by
    rw [List.length_append, a.2, b.2]
  unfold stored at h
  split at h
  · cases h
    exact ⟨fun f x => ⟨fun s => ⟨_, rfl⟩, show 32 ≤ L by omega⟩, fun f x => trivial⟩
  · cases h
    refine ⟨fun f x => ⟨⟨fun s => _, fun s => rfl, ?_, ?_, ?_⟩, [], rfl⟩, fun f x => ⟨?_, ?_, ?_, ?_⟩⟩
    · rw [hl, hl]
    · rw [hl]; exact hL
    · unfold Spec.Fits; rw [hl]; norm_num
    · unfold Spec.Fits; cases v <;> decide
    · unfold Spec.Fits; norm_num
    · intro s m hm
      cases hm
      rw [hl]; norm_num
    · intro f hf
      cases hf
      unfold Spec.Fits; norm_num
  all_goals cases h

theorem stored_looks (ids : Fin 2 → Res Bytes) (answers : List (IdGot v L)) (i : Fin 2) (a : Opening v)
    (h : stored v L make ids answers = some (.look i a)) : a.Fits := by
  unfold stored at h
  split at h
  · cases h
  · cases h
  · cases h; trivial
  · cases h

/-- The hypotheses are met, -/
example (P : Prims) (hL : 64 ≤ L) (R : Res ((Fin 2 → Res Bytes) × List (IdGot v L)) → BytesN 32 → Prop)
    (w₀ : BytesN 32) :=
  have : Nonempty (BytesN 32) := ⟨w₀⟩
  semantic_practical P 3 2 1 0 0 0 (by norm_num) (by norm_num) (by norm_num) (by norm_num) (by norm_num)
    (by norm_num) _ (stored_hides make P hL) (stored_looks make) R w₀

/-- … also with one guess, -/
example (P : Prims) (hL : 64 ≤ L) (guess : Res ((Fin 2 → Res Bytes) × List (IdGot v L)) → BytesN 32) :=
  key_guessed P 3 2 1 0 0 0 (by norm_num) (by norm_num) (by norm_num) (by norm_num) (by norm_num)
    (by norm_num) _ (stored_hides make P hL) (stored_looks make) (fun res => {guess res})
    fun _ => by rw [Finset.card_singleton]; norm_num

/-- … also with a guess of the first byte only, -/
example (P : Prims) (hL : 64 ≤ L) (w₀ : BytesN 32) (p : ℚ)
    (hp : ∀ s, fractionOf (fun w : BytesN 32 => w.1.head? = s) ≤ p)
    (guess : Res ((Fin 2 → Res Bytes) × List (IdGot v L)) → Option UInt8) :=
  have : Nonempty (BytesN 32) := ⟨w₀⟩
  guessed_uneven P 3 2 1 0 0 0 _ (stored_hides make P hL) (stored_looks make) (fun w => w.1.head?) p hp guess

/-- … and all three requests are answered. -/
example (P : Prims) (hL : 64 ≤ L) (X : Finset (Bytes × Bytes)) (d : Tags v) (w : BytesN 32) (x : Life v 2 3 L X) :=
  runs P 3 3 3 3 3 3 (Nat.le_refl _) (Nat.le_refl _) (Nat.le_refl _) (Nat.le_refl _) (Nat.le_refl _)
    (stored v L make) (fun ids answers i a h => (stored_hides make P hL ids answers i a h).1) X d w x

end

end Pasta.C107
