import Verif.Spec.Lifecycle
import Verif.Props.IdsKnown

/-!
# C106: from the generation of the keys on
-/

namespace Pasta.C106

open Trying (fraction_equiv)

variable {v : Ver} {r n L : Nat} {X : Finset (Bytes × Bytes)}

/-! ### The keys are the first blocks of the source -/

theorem tape_cons (t : Blocks (n + 1)) : t.tape = (t 0).1 ++ Blocks.tape fun i : Fin n => t i.succ := by
  unfold Blocks.tape
  rw [List.ofFn_succ, List.map_cons, List.flatten_cons]

theorem tape_cast {m n : Nat} (h : m = n) (t : Blocks n) : Blocks.tape (fun i : Fin m => t (i.cast h)) = t.tape := by
  subst h
  rfl

theorem random_block (P : Prims) (b : BytesN 32) (rest : Rng) :
    Key.localRandom P v (b.1 ++ rest) = .ok (⟨b⟩, rest) := by
  unfold Key.localRandom fillBytes
  have hl : 32 ≤ (b.1 ++ rest).length := by rw [List.length_append, b.2]; omega
  rw [dif_pos hl, Res.ok_bind]
  have e1 : (b.1 ++ rest).take 32 = b.1 := List.take_left' b.2
  have e2 : (b.1 ++ rest).drop 32 = rest := List.drop_left' b.2
  show (Res.ok _ : Res _) = _
  simp only [e1, e2]

theorem generate_eq (P : Prims) : ∀ (r : Nat) (t : Blocks (r + n)),
    generate P v r t.tape =
      .ok (fun i => ⟨t (Fin.castAdd n i)⟩, Blocks.tape fun i : Fin n => t (Fin.natAdd r i)) := by
  intro r
  induction r with
  | zero =>
    intro t
    rw [generate]
    refine congrArg Res.ok (Prod.ext (funext fun i => i.elim0) ?_)
    exact (tape_cast (Nat.zero_add n).symm t).symm.trans
      (congrArg Blocks.tape (funext fun i => congrArg t (Fin.ext (by simp))))
  | succ r ih =>
    intro t
    have e : t.tape = (t 0).1 ++ Blocks.tape fun i : Fin (r + n) => t ((i.succ).cast (by omega)) := by
      rw [← tape_cast (show r + n + 1 = r + 1 + n by omega) t, tape_cons]
      rfl
    rw [generate, e, random_block, Res.ok_bind]
    dsimp only
    rw [ih, Res.ok_bind]
    refine congrArg Res.ok (Prod.ext (funext fun i => ?_) ?_)
    · refine Fin.cases ?_ (fun j => ?_) i
      · exact congrArg (fun j => (⟨t j⟩ : Key P v .Local)) (Fin.ext rfl)
      · exact congrArg (fun j => (⟨t j⟩ : Key P v .Local)) (Fin.ext rfl)
    · exact congrArg Blocks.tape (funext fun i => congrArg t (Fin.ext (by simp; omega)))

/-- The source in two parts. -/
def split (v : Ver) (r n L : Nat) (X : Finset (Bytes × Bytes)) : Life v r n L X ≃ Tried v r n L X × Ids v where
  toFun x := ((fun i => x.1.1.1 (Fin.castAdd n i), ((fun i => x.1.1.1 (Fin.natAdd r i), x.1.1.2), x.1.2)), x.2)
  invFun y := (((Fin.append y.1.1 y.1.2.1.1, y.1.2.1.2), y.1.2.2), y.2)
  left_inv x := by
    obtain ⟨⟨⟨t, c⟩, f⟩, h⟩ := x
    dsimp only
    rw [Fin.append_castAdd_natAdd]
  right_inv y := by
    obtain ⟨⟨κ, ⟨⟨t, c⟩, f⟩⟩, h⟩ := y
    dsimp only
    refine Prod.ext (Prod.ext (funext fun i => ?_) (Prod.ext (Prod.ext (funext fun i => ?_) rfl) rfl)) rfl
    · exact Fin.append_left _ _ _
    · exact Fin.append_right _ _ _

theorem id_text (P : Prims) (key : BytesN 32) :
    (do let id ← (⟨key⟩ : Key P v .Local).toId; id.display) = idOf P v ⟨.Local, key⟩ := by
  unfold idOf
  cases v <;> rfl

theorem keys_eq (P : Prims) (d : Tags v) (x : Life v r n L X) :
    x.keys P d = .ok (fun i => ⟨(split v r n L X x).1.1 i⟩, (split v r n L X x).1.2.1.1.tape) :=
  generate_eq _ _ _

theorem view_eq (P : Prims) (d : Tags v) (ask : (Fin r → Res Bytes) → List (IdGot v L) → Option (IdWish v r))
    (k o u q m : Nat) (s : Side) (x : Life v r n L X) :
    x.view P d ask k o u q m s =
      ((split v r n L X x).1.idView P d ask k o u q m s (split v r n L X x).2 >>= fun answers =>
        .ok ((split v r n L X x).1.ids P d (split v r n L X x).2, answers)) := by
  unfold Life.view
  rw [keys_eq, Res.ok_bind]
  have e : (split v r n L X x).1.idPrims P d (split v r n L X x).2 = x.prims P d := rfl
  have e2 : (split v r n L X x).1.ids P d (split v r n L X x).2 = fun i =>
      (do let id ← (⟨(split v r n L X x).1.1 i⟩ : Key (x.prims P d) v .Local).toId; id.display) := by
    funext i
    rw [id_text]
    unfold Tried.ids
    rw [e]
  unfold Tried.idView
  rw [e2, e]
  rfl

/-! ### The bounds -/

/-- **C106**: keys are generated and used, with one random source; whatever is asked for and whatever is
concluded from the ids and the answers, the conclusion is drawn (almost) as often when the left candidates are used as
when the right ones are. -/
theorem advantage (P : Prims) (k n o u q m : Nat)
    (ask : (Fin r → Res Bytes) → List (IdGot v L) → Option (IdWish v r))
    (hhide : ∀ ids answers i a, ask ids answers = some (.demand (.hide i a)) → a.Comparable P L ∧ a.Fits)
    (hlook : ∀ ids answers i a, ask ids answers = some (.demand (.look i a)) → a.Fits)
    (A : Res ((Fin r → Res Bytes) × List (IdGot v L)) → Prop) :
    ∃ X₀ : Finset (Bytes × Bytes), ∀ X, X₀ ⊆ X → ∀ d : Tags v,
      |fractionOf (fun x : Life v r n L X => A (x.view P d ask k o u q m .left)) -
        fractionOf (fun x : Life v r n L X => A (x.view P d ask k o u q m .right))| ≤
        6 * (n * (n - 1)) / 2 ^ 256 + 2 * n * q / 2 ^ 256 + 4 * o / 2 ^ (8 * Spec.tagLen v) +
          4 * (n + o) * m / 2 ^ 256 + 2 * r * u / 2 ^ 256 + 2 * (r * (r - 1)) / 2 ^ 256 := by
  obtain ⟨X₀, h⟩ := C105.advantage P k n o u q m ask hhide hlook fun ids res =>
    A (res >>= fun answers => .ok (ids, answers))
  refine ⟨X₀, fun X hX d => ?_⟩
  have h := h X hX d
  rw [← fraction_equiv (split v r n L X), ← fraction_equiv (split v r n L X)] at h
  simp only [view_eq]
  exact h

/-- Hardly ever is a generated key tried, or its id made from it, by whom it was not given. -/
theorem key_met (P : Prims) (k n o u q m : Nat)
    (ask : (Fin r → Res Bytes) → List (IdGot v L) → Option (IdWish v r))
    (hhide : ∀ ids answers i a, ask ids answers = some (.demand (.hide i a)) → a.Comparable P L ∧ a.Fits)
    (hlook : ∀ ids answers i a, ask ids answers = some (.demand (.look i a)) → a.Fits) (s : Side) :
    ∃ X₀ : Finset (Bytes × Bytes), ∀ X, X₀ ⊆ X → ∀ d : Tags v,
      fractionOf (fun x : Life v r n L X => ∃ keys rng ids answers, x.keys P d = .ok (keys, rng) ∧
          x.view P d ask k o u q m s = .ok (ids, answers) ∧
            IdKeyMet (fun i => (keys i).key) (ask ids) answers) ≤
        3 * (n * (n - 1)) / 2 ^ 256 + n * q / 2 ^ 256 + 2 * o / 2 ^ (8 * Spec.tagLen v) +
          2 * (n + o) * m / 2 ^ 256 + r * u / 2 ^ 256 + r * (r - 1) / 2 ^ 256 := by
  obtain ⟨X₀, h⟩ := C105.key_met P k n o u q m ask hhide hlook s
  refine ⟨X₀, fun X hX d => ?_⟩
  have h := h X hX d
  rw [← fraction_equiv (split v r n L X)] at h
  refine le_trans (C98.fraction_mono fun x hx => ?_) h
  obtain ⟨keys, rng, ids, answers, h1, h2, h3⟩ := hx
  rw [keys_eq] at h1
  rw [view_eq] at h2
  cases e : (split v r n L X x).1.idView P d ask k o u q m s (split v r n L X x).2 with
  | err z => rw [e] at h2; cases h2
  | panic => rw [e] at h2; cases h2
  | ok out =>
    rw [e, Res.ok_bind] at h2
    cases h1
    cases h2
    exact ⟨_, rfl, h3⟩

/-- Hardly ever is anything opened that was not issued. -/
theorem unopened (P : Prims) (k n o u q m : Nat)
    (ask : (Fin r → Res Bytes) → List (IdGot v L) → Option (IdWish v r))
    (hhide : ∀ ids answers i a, ask ids answers = some (.demand (.hide i a)) → a.Comparable P L ∧ a.Fits)
    (hlook : ∀ ids answers i a, ask ids answers = some (.demand (.look i a)) → a.Fits) (s : Side) :
    ∃ X₀ : Finset (Bytes × Bytes), ∀ X, X₀ ⊆ X → ∀ d : Tags v,
      fractionOf (fun x : Life v r n L X => ∃ ids answers, x.view P d ask k o u q m s = .ok (ids, answers) ∧
          IdOpened (ask ids) answers) ≤
        4 * (n * (n - 1)) / 2 ^ 256 + n * q / 2 ^ 256 + 3 * o / 2 ^ (8 * Spec.tagLen v) +
          3 * (n + o) * m / 2 ^ 256 + r * u / 2 ^ 256 + r * (r - 1) / 2 ^ 256 := by
  obtain ⟨X₀, h⟩ := C105.unopened P k n o u q m ask hhide hlook s
  refine ⟨X₀, fun X hX d => ?_⟩
  have h := h X hX d
  rw [← fraction_equiv (split v r n L X)] at h
  refine le_trans (C98.fraction_mono fun x hx => ?_) h
  obtain ⟨ids, answers, h2, h3⟩ := hx
  rw [view_eq] at h2
  cases e : (split v r n L X x).1.idView P d ask k o u q m s (split v r n L X x).2 with
  | err z => rw [e] at h2; cases h2
  | panic => rw [e] at h2; cases h2
  | ok out =>
    rw [e, Res.ok_bind] at h2
    cases h2
    exact ⟨_, rfl, h3⟩

/-- With up to `2 ^ 64` keys, `2 ^ 64` texts and `2 ^ 64` openings, `2 ^ 100` keys and ids tried, and
`2 ^ 100` cipher keys and MAC keys, the chances differ by at most `2 ^ -88`. -/
theorem advantage_practical (P : Prims) (k n o u q m : Nat) (hr : r ≤ 2 ^ 64) (hn : n ≤ 2 ^ 64)
    (ho : o ≤ 2 ^ 64) (hu : u ≤ 2 ^ 100) (hq : q ≤ 2 ^ 100) (hm : m ≤ 2 ^ 100)
    (ask : (Fin r → Res Bytes) → List (IdGot v L) → Option (IdWish v r))
    (hhide : ∀ ids answers i a, ask ids answers = some (.demand (.hide i a)) → a.Comparable P L ∧ a.Fits)
    (hlook : ∀ ids answers i a, ask ids answers = some (.demand (.look i a)) → a.Fits)
    (A : Res ((Fin r → Res Bytes) × List (IdGot v L)) → Prop) :
    ∃ X₀ : Finset (Bytes × Bytes), ∀ X, X₀ ⊆ X → ∀ d : Tags v,
      |fractionOf (fun x : Life v r n L X => A (x.view P d ask k o u q m .left)) -
        fractionOf (fun x : Life v r n L X => A (x.view P d ask k o u q m .right))| ≤ 1 / 2 ^ 88 := by
  obtain ⟨X₀, h⟩ := C105.advantage_practical P k n o u q m hr hn ho hu hq hm ask hhide hlook fun ids res =>
    A (res >>= fun answers => .ok (ids, answers))
  refine ⟨X₀, fun X hX d => ?_⟩
  have h := h X hX d
  rw [← fraction_equiv (split v r n L X), ← fraction_equiv (split v r n L X)] at h
  simp only [view_eq]
  exact h

/-! ### The game is played -/

/-- The source suffices for the keys: all are generated, from its first blocks. -/
theorem generated (P : Prims) (d : Tags v) (x : Life v r n L X) :
    ∃ keys rng, x.keys P d = .ok (keys, rng) ∧ (∀ i, (keys i).key = x.1.1.1 (Fin.castAdd n i)) ∧
      rng = x.1.1.1.tape.drop (32 * r) := by
  refine ⟨_, _, keys_eq P d x, fun i => rfl, ?_⟩
  show (Blocks.tape fun i : Fin n => x.1.1.1 (Fin.natAdd r i)) = _
  generalize x.1.1.1 = t
  clear x
  have h : ∀ (r : Nat) (t : Blocks (r + n)),
      (Blocks.tape fun i : Fin n => t (Fin.natAdd r i)) = t.tape.drop (32 * r) := by
    intro r
    induction r with
    | zero =>
      intro t
      rw [Nat.mul_zero, List.drop_zero, ← tape_cast (Nat.zero_add n).symm t]
      exact congrArg Blocks.tape (funext fun i => congrArg t (Fin.ext (by simp)))
    | succ r ih =>
      intro t
      have e : t.tape = (t 0).1 ++ Blocks.tape fun i : Fin (r + n) => t ((i.succ).cast (by omega)) := by
        rw [← tape_cast (show r + n + 1 = r + 1 + n by omega) t, tape_cons]
        rfl
      rw [e, show 32 * (r + 1) = 32 + 32 * r by ring, ← List.drop_drop, List.drop_left' (t 0).2, ← ih]
      exact congrArg Blocks.tape (funext fun i => congrArg t (Fin.ext (by simp; omega)))
  exact h r t

/-- Nothing breaks the game off: with `k` requests and `k` of each kind allowed, there are `k` answers
unless nothing more is asked. -/
theorem runs (P : Prims) (k n o u q m : Nat) (hn : k ≤ n) (ho : k ≤ o) (hu : k ≤ u) (hq : k ≤ q)
    (hm : k ≤ m) (ask : (Fin r → Res Bytes) → List (IdGot v L) → Option (IdWish v r))
    (hhide : ∀ ids answers i a, ask ids answers = some (.demand (.hide i a)) → a.Comparable P L)
    (X : Finset (Bytes × Bytes)) (d : Tags v) (s : Side) (x : Life v r n L X) :
    ∃ ids answers, x.view P d ask k o u q m s = .ok (ids, answers) ∧
      (answers.length = k ∨ answers.length < k ∧ ask ids answers = none) := by
  obtain ⟨answers, h1, h2⟩ := C105.runs P k n o u q m hn ho hu hq hm ask hhide X d s (split v r n L X x).2
    (split v r n L X x).1
  refine ⟨_, answers, ?_, h2⟩
  rw [view_eq, h1]
  rfl

/-! ### A case: the id in the footer, from the generation of two keys on -/

section

open C105 (stated stated_hides stated_looks)

variable (guess : Told → IdInput v) (make : Told → BytesN 33 → Bytes)

example (P : Prims) (hL : 32 ≤ L) (A : Res ((Fin 2 → Res Bytes) × List (IdGot v L)) → Prop) :=
  advantage_practical P 3 1 1 1 0 0 (by norm_num) (by norm_num) (by norm_num) (by norm_num) (by norm_num)
    (by norm_num) _ (stated_hides guess make P hL) (stated_looks guess make) A

example (P : Prims) (hL : 32 ≤ L) (s : Side) :=
  key_met P 3 1 1 1 0 0 _ (stated_hides guess make P hL) (stated_looks guess make) s

example (P : Prims) (hL : 32 ≤ L) (s : Side) :=
  unopened P 3 1 1 1 0 0 _ (stated_hides guess make P hL) (stated_looks guess make) s

example (P : Prims) (hL : 32 ≤ L) (X : Finset (Bytes × Bytes)) (d : Tags v) (s : Side) (x : Life v 2 3 L X) :=
  runs P 3 3 3 3 3 3 (Nat.le_refl _) (Nat.le_refl _) (Nat.le_refl _) (Nat.le_refl _) (Nat.le_refl _)
    (stated v L guess make) (fun ids answers i a h => (stated_hides guess make P hL ids answers i a h).1) X d s x

/-- The keys differ from source to source: every pair of keys is generated from some. -/
example (P : Prims) (d : Tags v) (X : Finset (Bytes × Bytes)) (κ : Fin 2 → BytesN 32) (x : Life v 2 n L X) :
    ∃ y : Life v 2 n L X, ∃ keys rng, y.keys P d = .ok (keys, rng) ∧ ∀ i, (keys i).key = κ i := by
  refine ⟨(split v 2 n L X).symm ((κ, (split v 2 n L X x).1.2), x.2), _, _, keys_eq P d _, fun i => ?_⟩
  rw [Equiv.apply_symm_apply]

end

end Pasta.C106
