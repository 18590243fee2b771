import Verif.Lemmas.Trying
import Verif.Props.Knowing

/-!
# C101: who can compute everything has to try keys

The bounds of C100 where the keys are drawn at random and what keys derive can be computed too.
-/

namespace Pasta.C101

open C82 (other count count_eq)
open C83 (comparable_tags)
open C98 (fraction_count fraction_prod fraction_or fraction_mono)
open Trying (fraction_equiv fraction_fst fraction_prod_le hits)

variable {P : Prims} {v : Ver} {r L : Nat} {K : Finset (BytesN 32)}

/-- The primitives of the game. -/
def pr (P : Prims) (K : Finset (BytesN 32)) (c : CipherOf v L) (f : Tags v) (D : Derivation v) : Prims :=
  ((P.withTags v f).withDerived K v D).withCiphers (c.ciphers (P.withTags v f))

/-! ### The game -/

theorem hide_run (P : Prims) (hK : ∀ x, x ∈ K) (c : CipherOf v L) (f : Tags v) {a : Hiding v} (ha : a.Comparable P L) :
    ∃ out : Side → BytesN 32 → (EncInput → Derived v) → Bytes,
      ∀ (D : Derivation v) (s : Side) (key b : BytesN 32) (rest : Rng),
        a.run (pr P K c f D) ⟨key⟩ s (b.1 ++ rest) = .ok (out s b (D key), rest) := by
  obtain ⟨k, -, h⟩ := a.veilCore (P.withTags v f) (comparable_tags _ _ ha)
  exact ⟨fun s b d => k.out (P.withTags v f) (c.ciphers (P.withTags v f)) s b (d (k.tag, b)),
    fun D s key b rest => h K D (c.ciphers _) s key (hK _) b rest⟩

/-- Only what the keys in use derive matters. -/
theorem same (P : Prims) (hK : ∀ x, x ∈ K) (c : CipherOf v L) (f : Tags v) (s : Side)
    (ask : List (Found v L) → Option (Attempt v r))
    (hask : ∀ answers i a, ask answers = some (.hide i a) → a.Comparable P L)
    (T D D' : Derivation v) (keys keys' : Fin r → BytesN 32) (h : ∀ i, D (keys i) = D' (keys' i)) (k : Nat) :
    ∀ (o u q m : Nat) (ns : List (BytesN 32)) (issued : List Item) (answers : List (Found v L)),
      trying (pr P K c f D) keys T c f s ask k ns.length o u q m (ns.map Subtype.val).flatten issued answers =
        trying (pr P K c f D') keys' T c f s ask k ns.length o u q m (ns.map Subtype.val).flatten issued
          answers := by
  induction k with
  | zero => intros; rfl
  | succ k ih =>
    intro o u q m ns issued answers
    rw [trying, trying]
    cases ha : ask answers with
    | none => rfl
    | some a =>
      cases a with
      | hide i a =>
        cases ns with
        | nil => rfl
        | cons b ns =>
          obtain ⟨out, ho⟩ := hide_run P hK c f (hask _ _ _ ha)
          simp only [List.length_cons, List.map_cons, List.flatten_cons]
          rw [ho, ho, Res.ok_bind, Res.ok_bind, h]
          exact ih _ _ _ _ _ _ _
      | look i a =>
        cases o with
        | zero => rfl
        | succ o =>
          dsimp only
          rw [show a.answer (pr P K c f D) (keys i) issued = a.answer (pr P K c f D') (keys' i) issued from
            Trying.answer_derived D D' (hK _) (hK _) (h i) _ issued a]
          exact ih _ _ _ _ _ _ _
      | derive x => cases u with
        | zero => rfl
        | succ u => exact ih _ _ _ _ _ _ _
      | cipher x => cases q with
        | zero => rfl
        | succ q => exact ih _ _ _ _ _ _ _
      | mac x y => cases m with
        | zero => rfl
        | succ m => exact ih _ _ _ _ _ _ _

/-- The game always runs to its end. -/
theorem total (P : Prims) (hK : ∀ x, x ∈ K) (c : CipherOf v L) (f : Tags v) (s : Side)
    (ask : List (Found v L) → Option (Attempt v r))
    (hask : ∀ answers i a, ask answers = some (.hide i a) → a.Comparable P L)
    (T D : Derivation v) (keys : Fin r → BytesN 32) (k : Nat) :
    ∀ (o u q m : Nat) (ns : List (BytesN 32)) (issued : List Item) (answers : List (Found v L)),
      ∃ out, trying (pr P K c f D) keys T c f s ask k ns.length o u q m (ns.map Subtype.val).flatten issued
        answers = .ok out := by
  induction k with
  | zero => intro o u q m ns issued answers; exact ⟨answers, rfl⟩
  | succ k ih =>
    intro o u q m ns issued answers
    rw [trying]
    cases ha : ask answers with
    | none => exact ⟨answers, rfl⟩
    | some a =>
      cases a with
      | hide i a =>
        cases ns with
        | nil => exact ⟨answers, rfl⟩
        | cons b ns =>
          obtain ⟨out, ho⟩ := hide_run P hK c f (hask _ _ _ ha)
          simp only [List.length_cons, List.map_cons, List.flatten_cons]
          rw [ho, Res.ok_bind]
          exact ih _ _ _ _ _ _ _
      | look i a => cases o with
        | zero => exact ⟨answers, rfl⟩
        | succ o => exact ih _ _ _ _ _ _ _
      | derive x => cases u with
        | zero => exact ⟨answers, rfl⟩
        | succ u => exact ih _ _ _ _ _ _ _
      | cipher x => cases q with
        | zero => exact ⟨answers, rfl⟩
        | succ q => exact ih _ _ _ _ _ _ _
      | mac x y => cases m with
        | zero => exact ⟨answers, rfl⟩
        | succ m => exact ih _ _ _ _ _ _ _

/-- Is the answer about a key? -/
def _root_.Pasta.Found.isDerived : Found v L → Bool
  | .derived _ => true
  | _ => false

/-- Answers are added, at most `u` of them about keys. -/
theorem grows (P : Prims) (keys : Fin r → BytesN 32) (T : Derivation v) (c : CipherOf v L) (f : Tags v)
    (s : Side) (ask : List (Found v L) → Option (Attempt v r)) (out : List (Found v L)) (k : Nat) :
    ∀ (n o u q m : Nat) (rng : Rng) (issued : List Item) (answers : List (Found v L)),
      trying P keys T c f s ask k n o u q m rng issued answers = .ok out →
      ∃ more, out = answers ++ more ∧ (more.filter Found.isDerived).length ≤ u := by
  have done : ∀ {u : Nat} {answers : List (Found v L)}, (Res.ok answers : Res _) = .ok out →
      ∃ more, out = answers ++ more ∧ (more.filter Found.isDerived).length ≤ u := by
    intro u answers h
    cases h
    exact ⟨[], (List.append_nil _).symm, Nat.zero_le _⟩
  have step : ∀ {u u' : Nat} {answers : List (Found v L)} {y : Found v L},
      (y.isDerived = true → u' + 1 ≤ u) → u' ≤ u →
      (∃ more, out = (answers ++ [y]) ++ more ∧ (more.filter Found.isDerived).length ≤ u') →
      ∃ more, out = answers ++ more ∧ (more.filter Found.isDerived).length ≤ u := by
    rintro u u' answers y hy hu ⟨more, e, hm⟩
    refine ⟨y :: more, by rw [e, List.append_assoc, List.singleton_append], ?_⟩
    rw [List.filter_cons]
    split
    · rename_i hd
      have := hy hd
      rw [List.length_cons]
      omega
    · exact hm.trans hu
  induction k with
  | zero => intro n o u q m rng issued answers h; exact done h
  | succ k ih =>
    intro n o u q m rng issued answers h
    rw [trying] at h
    cases ha : ask answers with
    | none => rw [ha] at h; exact done h
    | some a =>
      rw [ha] at h
      cases a with
      | hide i a =>
        cases n with
        | zero => exact done h
        | succ n =>
          dsimp only at h
          cases hr : a.run P ⟨keys (i s)⟩ s rng with
          | err x => rw [hr] at h; cases h
          | panic => rw [hr] at h; cases h
          | ok y =>
            rw [hr] at h
            exact step (fun h => by cases h) (Nat.le_refl u) (ih _ _ _ _ _ _ _ _ h)
      | look i a => cases o with
        | zero => exact done h
        | succ o => exact step (fun h => by cases h) (Nat.le_refl u) (ih _ _ _ _ _ _ _ _ h)
      | derive x => cases u with
        | zero => exact done h
        | succ u => exact step (fun h => Nat.le_refl _) (Nat.le_succ u) (ih _ _ _ _ _ _ _ _ h)
      | cipher x => cases q with
        | zero => exact done h
        | succ q => exact step (fun h => by cases h) (Nat.le_refl u) (ih _ _ _ _ _ _ _ _ h)
      | mac x y => cases m with
        | zero => exact done h
        | succ m => exact step (fun h => by cases h) (Nat.le_refl u) (ih _ _ _ _ _ _ _ _ h)

/-- As long as no key in use is tried, what they derive is not seen. -/
theorem until_found (P : Prims) (keys : Fin r → BytesN 32) (T T' : Derivation v)
    (hT : ∀ x, (∀ i, keys i ≠ x) → T x = T' x) (c : CipherOf v L) (f : Tags v) (s : Side)
    (ask : List (Found v L) → Option (Attempt v r)) (out : List (Found v L))
    (hout : ¬ KeyFound keys ask out) (k : Nat) :
    ∀ (n o u q m : Nat) (rng : Rng) (issued : List Item) (answers : List (Found v L)),
      trying P keys T c f s ask k n o u q m rng issued answers = .ok out →
      trying P keys T' c f s ask k n o u q m rng issued answers = .ok out := by
  induction k with
  | zero => intro n o u q m rng issued answers h; exact h
  | succ k ih =>
    intro n o u q m rng issued answers h
    rw [trying] at h ⊢
    cases ha : ask answers with
    | none => rw [ha] at h; exact h
    | some a =>
      rw [ha] at h
      cases a with
      | hide i a =>
        cases n with
        | zero => exact h
        | succ n =>
          dsimp only at h ⊢
          cases hr : a.run P ⟨keys (i s)⟩ s rng with
          | err x => rw [hr] at h; cases h
          | panic => rw [hr] at h; cases h
          | ok y => rw [hr] at h; exact ih _ _ _ _ _ _ _ _ h
      | look i a => cases o with
        | zero => exact h
        | succ o => exact ih _ _ _ _ _ _ _ _ h
      | derive x => cases u with
        | zero => exact h
        | succ u =>
          have hx : ∀ i, keys i ≠ x := by
            rintro i rfl
            obtain ⟨more, e, -⟩ := grows _ _ _ _ _ _ _ _ _ _ _ _ _ _ _ _ _ h
            refine hout ⟨answers, more, T (keys i), i, ?_, ha⟩
            rw [e, List.append_assoc, List.singleton_append]
          dsimp only at h ⊢
          rw [hT x hx] at h
          exact ih _ _ _ _ _ _ _ _ h
      | cipher x => cases q with
        | zero => exact h
        | succ q => exact ih _ _ _ _ _ _ _ _ h
      | mac x y => cases m with
        | zero => exact h
        | succ m => exact ih _ _ _ _ _ _ _ _ h

/-! ### The keys tried -/

/-- The keys asked about. -/
def guesses (ask : List (Found v L) → Option (Attempt v r)) :
    List (Found v L) → List (Found v L) → List (BytesN 32)
  | _, [] => []
  | before, y :: rest =>
    match ask before, y with
    | some (.derive x), .derived _ => x :: guesses ask (before ++ [y]) rest
    | _, _ => guesses ask (before ++ [y]) rest

theorem guesses_length (ask : List (Found v L) → Option (Attempt v r)) (rest : List (Found v L)) :
    ∀ before, (guesses ask before rest).length ≤ (rest.filter Found.isDerived).length := by
  induction rest with
  | nil => intro before; exact Nat.le_refl _
  | cons y rest ih =>
    intro before
    have h := ih (before ++ [y])
    have h2 : (rest.filter Found.isDerived).length ≤ ((y :: rest).filter Found.isDerived).length := by
      rw [List.filter_cons]
      split
      · exact Nat.le_succ _
      · exact Nat.le_refl _
    unfold guesses
    split
    · rw [List.filter_cons_of_pos rfl, List.length_cons, List.length_cons]
      exact Nat.succ_le_succ h
    · exact h.trans h2

theorem mem_guesses {ask : List (Found v L) → Option (Attempt v r)} {x : BytesN 32} {d : EncInput → Derived v}
    (after : List (Found v L)) (mid : List (Found v L)) :
    ∀ before, ask (before ++ mid) = some (.derive x) →
      x ∈ guesses ask before (mid ++ .derived d :: after) := by
  induction mid with
  | nil =>
    intro before h
    rw [List.append_nil] at h
    rw [List.nil_append]
    unfold guesses
    rw [h]
    exact List.mem_cons_self
  | cons y mid ih =>
    intro before h
    have h' := ih (before ++ [y]) (by rw [List.append_assoc]; exact h)
    rw [List.cons_append]
    unfold guesses
    split
    · exact List.mem_cons_of_mem _ h'
    · exact h'

/-! ### Back to the game of C100 -/

/-- The requests of C100 from the requests here when what keys derive is known beforehand: what has been
answered in all, and what is asked for next. -/
def drive (keys : Fin r → BytesN 32) (T : Derivation v) (ask : List (Found v L) → Option (Attempt v r)) :
    (k u : Nat) → List (Found v L) → List (Reply v L) → List (Found v L) × Option (Inquiry v)
  | 0, _, answers, _ => (answers, none)
  | k + 1, u, answers, seen =>
    match ask answers with
    | none => (answers, none)
    | some (.hide i a) =>
      match seen with
      | [] => (answers, some (.hide ⟨fun s => keys (i s), a⟩))
      | .told t :: seen => drive keys T ask k u (answers ++ [.told t]) seen
      | _ :: _ => (answers, none)
    | some (.look i a) =>
      match seen with
      | [] => (answers, some (.look (keys i) a))
      | .told t :: seen => drive keys T ask k u (answers ++ [.told t]) seen
      | _ :: _ => (answers, none)
    | some (.derive x) =>
      match u with
      | 0 => (answers, none)
      | u + 1 => drive keys T ask k u (answers ++ [.derived (T x)]) seen
    | some (.cipher x) =>
      match seen with
      | [] => (answers, some (.cipher x))
      | .cipher c :: seen => drive keys T ask k u (answers ++ [.cipher c]) seen
      | _ :: _ => (answers, none)
    | some (.mac x y) =>
      match seen with
      | [] => (answers, some (.mac x y))
      | .tag t :: seen => drive keys T ask k u (answers ++ [.tag t]) seen
      | _ :: _ => (answers, none)

/-- Everything asked for comes from a request. -/
theorem drive_asked {keys : Fin r → BytesN 32} {T : Derivation v}
    {ask : List (Found v L) → Option (Attempt v r)} (k : Nat) :
    ∀ u answers seen, (∀ a, (drive keys T ask k u answers seen).2 = some (.hide a) →
        ∃ before i, ask before = some (.hide i a.what) ∧ a.key = fun s => keys (i s)) ∧
      (∀ key a, (drive keys T ask k u answers seen).2 = some (.look key a) →
        ∃ before i, ask before = some (.look i a) ∧ key = keys i) := by
  induction k with
  | zero => intro u answers seen; exact ⟨fun a h => (nomatch h), fun key a h => (nomatch h)⟩
  | succ k ih =>
    intro u answers seen
    unfold drive
    cases ha : ask answers with
    | none => exact ⟨fun a h => (nomatch h), fun key a h => (nomatch h)⟩
    | some b =>
      cases b with
      | hide i b =>
        cases seen with
        | nil =>
          refine ⟨fun a h => ?_, fun key a h => (nomatch h)⟩
          cases h
          exact ⟨answers, i, ha, rfl⟩
        | cons y seen =>
          cases y with
          | told t => exact ih _ _ _
          | cipher w => exact ⟨fun a h => (nomatch h), fun key a h => (nomatch h)⟩
          | tag w => exact ⟨fun a h => (nomatch h), fun key a h => (nomatch h)⟩
      | look i b =>
        cases seen with
        | nil =>
          refine ⟨fun a h => (nomatch h), fun key a h => ?_⟩
          cases h
          exact ⟨answers, i, ha, rfl⟩
        | cons y seen =>
          cases y with
          | told t => exact ih _ _ _
          | cipher w => exact ⟨fun a h => (nomatch h), fun key a h => (nomatch h)⟩
          | tag w => exact ⟨fun a h => (nomatch h), fun key a h => (nomatch h)⟩
      | derive x => cases u with
        | zero => exact ⟨fun a h => (nomatch h), fun key a h => (nomatch h)⟩
        | succ u => exact ih _ _ _
      | cipher x =>
        cases seen with
        | nil => exact ⟨fun a h => (nomatch h), fun key a h => (nomatch h)⟩
        | cons y seen =>
          cases y with
          | cipher w => exact ih _ _ _
          | told w => exact ⟨fun a h => (nomatch h), fun key a h => (nomatch h)⟩
          | tag w => exact ⟨fun a h => (nomatch h), fun key a h => (nomatch h)⟩
      | mac x z =>
        cases seen with
        | nil => exact ⟨fun a h => (nomatch h), fun key a h => (nomatch h)⟩
        | cons y seen =>
          cases y with
          | tag w => exact ih _ _ _
          | told w => exact ⟨fun a h => (nomatch h), fun key a h => (nomatch h)⟩
          | cipher w => exact ⟨fun a h => (nomatch h), fun key a h => (nomatch h)⟩

theorem trying_eq (P : Prims) (keys : Fin r → BytesN 32) (T : Derivation v) (c : CipherOf v L) (f : Tags v)
    (s : Side) (ask : List (Found v L) → Option (Attempt v r)) (next : List (Reply v L) → Option (Inquiry v))
    (fin : List (Reply v L) → List (Found v L)) :
    ∀ k k' n o u q m rng issued answers seen, k ≤ k' →
      (∀ ts, next (seen ++ ts) = (drive keys T ask k u answers ts).2) →
      (∀ ts, fin (seen ++ ts) = (drive keys T ask k u answers ts).1) →
      trying P keys T c f s ask k n o u q m rng issued answers =
        (knowing P c f s next k' n o q m rng issued seen >>= fun ts => .ok (fin ts)) := by
  have stop : ∀ k' n o q m rng issued seen, next seen = none →
      knowing P c f s next k' n o q m rng issued seen = .ok seen := by
    intro k' n o q m rng issued seen h
    cases k' with
    | zero => rfl
    | succ k' => rw [knowing, h]
  intro k
  induction k with
  | zero =>
    intro k' n o u q m rng issued answers seen hk h1 h2
    have h1' := h1 []
    have h2' := h2 []
    rw [List.append_nil] at h1' h2'
    rw [stop _ _ _ _ _ _ _ _ h1', Res.ok_bind, h2']
    rfl
  | succ k ih =>
    intro k' n o u q m rng issued answers seen hk h1 h2
    have h1' := h1 []
    have h2' := h2 []
    rw [List.append_nil] at h1' h2'
    obtain ⟨k', rfl⟩ : ∃ j, k' = j + 1 := ⟨k' - 1, by omega⟩
    have stop' : drive keys T ask (k + 1) u answers [] = (answers, none) →
        (knowing P c f s next (k' + 1) n o q m rng issued seen >>= fun ts => (.ok (fin ts) : Res _)) =
          .ok answers := by
      intro h
      rw [h] at h1' h2'
      rw [stop _ _ _ _ _ _ _ _ h1', Res.ok_bind, h2']
    cases hq : ask answers with
    | none => rw [stop' (by rw [drive, hq]), trying, hq]
    | some b =>
      cases b with
      | hide i a =>
        have hd : drive keys T ask (k + 1) u answers [] =
          (answers, some (.hide ⟨fun s => keys (i s), a⟩)) := by rw [drive, hq]
        rw [hd] at h1' h2'
        rw [trying, hq, knowing, h1']
        cases n with
        | zero => dsimp only; rw [Res.ok_bind, h2']
        | succ n =>
          dsimp only
          rw [Res.bind_assoc']
          congr 1
          funext y
          refine ih k' n o u q m y.2 _ _ (seen ++ [.told (some (.ok y.1))]) (by omega) (fun ts => ?_)
            fun ts => ?_
          · rw [List.append_assoc, h1, List.singleton_append, drive, hq]
          · rw [List.append_assoc, h2, List.singleton_append, drive, hq]
      | look i a =>
        have hd : drive keys T ask (k + 1) u answers [] = (answers, some (.look (keys i) a)) := by
          rw [drive, hq]
        rw [hd] at h1' h2'
        rw [trying, hq, knowing, h1']
        cases o with
        | zero => dsimp only; rw [Res.ok_bind, h2']
        | succ o =>
          dsimp only
          refine ih k' n o u q m rng _ _ (seen ++ [.told (a.answer P (keys i) issued)]) (by omega)
            (fun ts => ?_) fun ts => ?_
          · rw [List.append_assoc, h1, List.singleton_append, drive, hq]
          · rw [List.append_assoc, h2, List.singleton_append, drive, hq]
      | derive x =>
        cases u with
        | zero => rw [stop' (by rw [drive, hq]), trying, hq]
        | succ u =>
          rw [trying, hq]
          dsimp only
          refine ih (k' + 1) n o u q m rng _ _ seen (by omega) (fun ts => ?_) fun ts => ?_
          · rw [h1, drive, hq]
          · rw [h2, drive, hq]
      | cipher x =>
        have hd : drive keys T ask (k + 1) u answers [] = (answers, some (.cipher x)) := by rw [drive, hq]
        rw [hd] at h1' h2'
        rw [trying, hq, knowing, h1']
        cases q with
        | zero => dsimp only; rw [Res.ok_bind, h2']
        | succ q =>
          dsimp only
          refine ih k' n o u q m rng _ _ (seen ++ [.cipher (c x)]) (by omega) (fun ts => ?_) fun ts => ?_
          · rw [List.append_assoc, h1, List.singleton_append, drive, hq]
          · rw [List.append_assoc, h2, List.singleton_append, drive, hq]
      | mac x y =>
        have hd : drive keys T ask (k + 1) u answers [] = (answers, some (.mac x y)) := by rw [drive, hq]
        rw [hd] at h1' h2'
        rw [trying, hq, knowing, h1']
        cases m with
        | zero => dsimp only; rw [Res.ok_bind, h2']
        | succ m =>
          dsimp only
          refine ih k' n o u q m rng _ _ (seen ++ [.tag (f (x, y))]) (by omega) (fun ts => ?_) fun ts => ?_
          · rw [List.append_assoc, h1, List.singleton_append, drive, hq]
          · rw [List.append_assoc, h2, List.singleton_append, drive, hq]

theorem textOpened_snoc {ask : List (Found v L) → Option (Attempt v r)} {answers : List (Found v L)}
    {y : Found v L} (h : TextOpened ask (answers ++ [y])) :
    TextOpened ask answers ∨ ∃ i a b, ask answers = some (.look i a) ∧ y = .told (some (.ok b)) := by
  obtain ⟨before, after, i, a, bytes, e, ha⟩ := h
  rcases List.eq_nil_or_concat after with rfl | ⟨rest, z, rfl⟩
  · obtain ⟨rfl, e2⟩ := List.append_inj' e rfl
    exact .inr ⟨i, a, bytes, ha, (List.cons.inj e2).1⟩
  · rw [List.concat_eq_append, ← List.cons_append, ← List.append_assoc] at e
    exact .inl ⟨before, rest, i, a, bytes, (List.append_inj' e rfl).1, ha⟩

/-- What is opened here is opened there. -/
theorem drive_opened (keys : Fin r → BytesN 32) (T : Derivation v)
    (ask : List (Found v L) → Option (Attempt v r)) (next : List (Reply v L) → Option (Inquiry v)) (k : Nat) :
    ∀ u answers seen ts, (∀ xs, next (seen ++ xs) = (drive keys T ask k u answers xs).2) →
      ¬ TextOpened ask answers → TextOpened ask (drive keys T ask k u answers ts).1 →
      Opened next (seen ++ ts) := by
  induction k with
  | zero => intro u answers seen ts _ h h2; exact absurd h2 h
  | succ k ih =>
    intro u answers seen ts hn h h2
    cases ha : ask answers with
    | none =>
      rw [drive, ha] at h2
      exact absurd h2 h
    | some b =>
      have hno : (∀ i a, b ≠ .look i a) → ∀ y, ¬ TextOpened ask (answers ++ [y]) := by
        intro hb y hy
        rcases textOpened_snoc hy with h' | ⟨i, a, _, h', -⟩
        · exact h h'
        · rw [ha] at h'
          exact hb i a (Option.some.inj h')
      have h2' := h2
      rw [drive, ha] at h2'
      cases b with
      | hide i a =>
        cases ts with
        | nil => exact absurd h2' h
        | cons y ts =>
          cases y with
          | told t =>
            rw [show seen ++ Reply.told t :: ts = (seen ++ [.told t]) ++ ts by simp]
            refine ih u _ _ ts (fun xs => ?_) (hno (fun _ _ e => by cases e) _) h2'
            rw [List.append_assoc, hn, List.singleton_append, drive, ha]
          | cipher w => exact absurd h2' h
          | tag w => exact absurd h2' h
      | look i a =>
        cases ts with
        | nil => exact absurd h2' h
        | cons y ts =>
          cases y with
          | told t =>
            by_cases ht : ∃ bytes, t = some (.ok bytes)
            · obtain ⟨bytes, rfl⟩ := ht
              refine ⟨seen, ts, keys i, a, bytes, rfl, ?_⟩
              have h0 := hn []
              rw [List.append_nil, drive, ha] at h0
              exact h0
            · rw [show seen ++ Reply.told t :: ts = (seen ++ [.told t]) ++ ts by simp]
              refine ih u _ _ ts (fun xs => ?_) ?_ h2'
              · rw [List.append_assoc, hn, List.singleton_append, drive, ha]
              · intro hy
                rcases textOpened_snoc hy with h' | ⟨_, _, bytes, -, e⟩
                · exact h h'
                · exact ht ⟨bytes, Found.told.inj e⟩
          | cipher w => exact absurd h2' h
          | tag w => exact absurd h2' h
      | derive x => cases u with
        | zero => exact absurd h2' h
        | succ u =>
          refine ih u _ _ ts (fun xs => ?_) (hno (fun _ _ e => by cases e) _) h2'
          rw [hn, drive, ha]
      | cipher x =>
        cases ts with
        | nil => exact absurd h2' h
        | cons y ts =>
          cases y with
          | cipher w =>
            rw [show seen ++ Reply.cipher w :: ts = (seen ++ [.cipher w]) ++ ts by simp]
            refine ih u _ _ ts (fun xs => ?_) (hno (fun _ _ e => by cases e) _) h2'
            rw [List.append_assoc, hn, List.singleton_append, drive, ha]
          | told w => exact absurd h2' h
          | tag w => exact absurd h2' h
      | mac x z =>
        cases ts with
        | nil => exact absurd h2' h
        | cons y ts =>
          cases y with
          | tag w =>
            rw [show seen ++ Reply.tag w :: ts = (seen ++ [.tag w]) ++ ts by simp]
            refine ih u _ _ ts (fun xs => ?_) (hno (fun _ _ e => by cases e) _) h2'
            rw [List.append_assoc, hn, List.singleton_append, drive, ha]
          | told w => exact absurd h2' h
          | cipher w => exact absurd h2' h

/-! ### What keys derive, apart from the keys in use -/

/-- What is derived, where someone is told what `T` says about keys. -/
def apart (P : Prims) (K : Finset (BytesN 32)) {n : Nat} {X : Finset (Bytes × Bytes)} (d : Tags v)
    (ask : List (Found v L) → Option (Attempt v r)) (k o u q m : Nat) (s : Side)
    (z : Tried v r n L X × Derivation v) : Res (List (Found v L)) :=
  trying (z.1.2.1.prims (P.withTags v (d.on X z.1.2.2)) K) z.1.1 z.2 z.1.2.1.2.2 (d.on X z.1.2.2) s
    ask k n o u q m z.1.2.1.1.tape [] []

theorem all {T : Type} [Fintype T] : ∃ K : Finset T, K = Finset.univ ∧ ∀ x, x ∈ K :=
  ⟨Finset.univ, rfl, Finset.mem_univ⟩

/-- The answers, where all keys are in `K`. -/
def viewIn (P : Prims) (K : Finset (BytesN 32)) {n : Nat} {X : Finset (Bytes × Bytes)} (d : Tags v)
    (ask : List (Found v L) → Option (Attempt v r)) (k o u q m : Nat) (s : Side)
    (x : Tried v r n L X) : Res (List (Found v L)) :=
  apart P K d ask k o u q m s (x, x.2.1.2.1)

theorem view_eq (P : Prims) {n : Nat} {X : Finset (Bytes × Bytes)} (d : Tags v)
    (ask : List (Found v L) → Option (Attempt v r)) (k o u q m : Nat) (s : Side) (x : Tried v r n L X) :
    x.view P d ask k o u q m s = viewIn P Finset.univ d ask k o u q m s x := rfl

open Classical in
/-- `D` on the keys in use, `T` elsewhere. -/
noncomputable def mix (κ : Fin r → BytesN 32) (D T : Derivation v) : Derivation v :=
  fun x => if ∃ i, κ i = x then D x else T x

theorem mix_key (κ : Fin r → BytesN 32) (D T : Derivation v) (i : Fin r) : mix κ D T (κ i) = D (κ i) :=
  if_pos ⟨i, rfl⟩

theorem mix_else (κ : Fin r → BytesN 32) (D T : Derivation v) {x : BytesN 32} (h : ∀ i, κ i ≠ x) :
    mix κ D T x = T x :=
  if_neg fun ⟨i, hi⟩ => h i hi

theorem mix_mix (κ : Fin r → BytesN 32) (D T : Derivation v) :
    mix κ (mix κ D T) (mix κ T D) = D := by
  funext x
  unfold mix
  split <;> rfl

/-- Exchanging what the keys in use do not derive. -/
noncomputable def swapElse (v : Ver) (r n L : Nat) (X : Finset (Bytes × Bytes)) :
    Tried v r n L X × Derivation v ≃ Tried v r n L X × Derivation v where
  toFun z := ((z.1.1, ((z.1.2.1.1, mix z.1.1 z.1.2.1.2.1 z.2, z.1.2.1.2.2), z.1.2.2)),
    mix z.1.1 z.2 z.1.2.1.2.1)
  invFun z := ((z.1.1, ((z.1.2.1.1, mix z.1.1 z.1.2.1.2.1 z.2, z.1.2.1.2.2), z.1.2.2)),
    mix z.1.1 z.2 z.1.2.1.2.1)
  left_inv z := by dsimp only; rw [mix_mix, mix_mix]
  right_inv z := by dsimp only; rw [mix_mix, mix_mix]

section

variable {n : Nat} {X : Finset (Bytes × Bytes)} {ask : List (Found v L) → Option (Attempt v r)}

theorem apart_total (P : Prims) (hK : ∀ x, x ∈ K)
    (hask : ∀ answers i a, ask answers = some (.hide i a) → a.Comparable P L) (d : Tags v) (k o u q m : Nat)
    (s : Side) (z : Tried v r n L X × Derivation v) : ∃ out, apart P K d ask k o u q m s z = .ok out := by
  have h := total P hK z.1.2.1.2.2 (d.on X z.1.2.2) s ask hask z.2 z.1.2.1.2.1 z.1.1 k o u q m
    (List.ofFn z.1.2.1.1) [] []
  rw [List.length_ofFn] at h
  exact h

/-- As long as no key in use is tried, all is the same. -/
theorem view_apart (P : Prims) (hK : ∀ x, x ∈ K)
    (hask : ∀ answers i a, ask answers = some (.hide i a) → a.Comparable P L) (d : Tags v) (k o u q m : Nat)
    (s : Side) (z : Tried v r n L X × Derivation v)
    (h : ¬ ∃ out, apart P K d ask k o u q m s z = .ok out ∧ KeyFound z.1.1 ask out) :
    viewIn P K d ask k o u q m s (swapElse v r n L X z).1 = apart P K d ask k o u q m s z := by
  obtain ⟨out, ho⟩ := apart_total P hK hask d k o u q m s z
  have hk : ¬ KeyFound z.1.1 ask out := fun hk => h ⟨out, ho, hk⟩
  have h1 := until_found _ z.1.1 z.2 (mix z.1.1 z.1.2.1.2.1 z.2) (fun x hx => (mix_else _ _ _ hx).symm) _ _ s
    ask out hk k n o u q m _ _ _ ho
  have h2 := same P hK z.1.2.1.2.2 (d.on X z.1.2.2) s ask hask (mix z.1.1 z.1.2.1.2.1 z.2)
    (mix z.1.1 z.1.2.1.2.1 z.2) z.1.2.1.2.1 z.1.1 z.1.1 (mix_key _ _ _) k o u q m (List.ofFn z.1.2.1.1) [] []
  rw [List.length_ofFn] at h2
  rw [ho]
  exact h2.trans h1

end

/-! ### Keys are seldom found -/

theorem hit_rare {T Y : Type} [Fintype T] [DecidableEq T] [Fintype Y] [Nonempty T] [Nonempty Y] {r : Nat}
    (u : Nat) (Q : (Fin r → Y) → List T) (hQ : ∀ E, (Q E).length ≤ u) (A : (Fin r → T) × (T → Y) → Prop)
    (hA : ∀ z, A z → ∃ i, z.1 i ∈ Q (z.2 ∘ z.1)) :
    fractionOf A ≤ r * u / Fintype.card T + r * (r - 1) / (2 * Fintype.card T) := by
  have h1 : fractionOf A ≤
      fractionOf (fun z : (Fin r → T) × (T → Y) => Function.Injective z.1 ∧ ∃ i, z.1 i ∈ Q (z.2 ∘ z.1)) +
        fractionOf (fun z : (Fin r → T) × (T → Y) => ¬ (List.ofFn z.1).Nodup) := by
    refine (fraction_mono fun z hz => ?_).trans (fraction_or _ _)
    by_cases hi : Function.Injective z.1
    · exact .inl ⟨hi, hA z hz⟩
    · exact .inr fun h => hi (List.nodup_ofFn.1 h)
  refine h1.trans (add_le_add (hits u Q hQ) ?_)
  rw [fraction_fst (β := T → Y) fun κ : Fin r → T => ¬ (List.ofFn κ).Nodup, fraction_count]
  have h2 := C99.blocks_repeat r T
  have hT : (0 : ℚ) < Fintype.card T := Nat.cast_pos.2 Fintype.card_pos
  have hr : (0 : ℚ) < Fintype.card (Fin r → T) := Nat.cast_pos.2 Fintype.card_pos
  have hn : ((r * (r - 1) : Nat) : ℚ) = (r : ℚ) * (r - 1) := by
    cases r with
    | zero => simp
    | succ r => push_cast; simp
  rw [div_le_div_iff₀ hr (by positivity), ← hn]
  exact_mod_cast h2

theorem bound_nonneg (r u : Nat) (C : ℚ) (hC : 0 < C) : 0 ≤ r * u / C + r * (r - 1) / (2 * C) := by
  have : (0 : ℚ) ≤ r * (r - 1) := by
    cases r with
    | zero => simp
    | succ r => push_cast; simp only [add_sub_cancel_right]; positivity
  positivity

/-- The keys and what keys derive taken apart from the rest. -/
def takeApart (v : Ver) (r n L : Nat) (X : Finset (Bytes × Bytes)) :
    ((Blocks n × CipherOf v L × (X → BytesN (Spec.tagLen v))) × Derivation v) ×
      ((Fin r → BytesN 32) × Derivation v) ≃ Tried v r n L X × Derivation v where
  toFun y := ((y.2.1, ((y.1.1.1, y.2.2, y.1.1.2.1), y.1.1.2.2)), y.1.2)
  invFun z := (((z.1.2.1.1, z.1.2.1.2.2, z.1.2.2), z.2), (z.1.1, z.1.2.1.2.1))
  left_inv _ := rfl
  right_inv _ := rfl

noncomputable instance (v : Ver) (n L : Nat) (X : Finset (Bytes × Bytes)) :
    Fintype ((Blocks n × CipherOf v L × (X → BytesN (Spec.tagLen v))) × Derivation v) := inferInstance

noncomputable instance (v : Ver) (r : Nat) : Fintype ((Fin r → BytesN 32) × Derivation v) := inferInstance

noncomputable instance (v : Ver) (r n L : Nat) (X : Finset (Bytes × Bytes)) :
    Fintype (((Blocks n × CipherOf v L × (X → BytesN (Spec.tagLen v))) × Derivation v) ×
      ((Fin r → BytesN 32) × Derivation v)) := inferInstance

noncomputable instance (v : Ver) (r n L : Nat) (X : Finset (Bytes × Bytes)) :
    Fintype (Tried v r n L X × Derivation v) := inferInstance

instance (v : Ver) : Nonempty (Derived v) :=
  ⟨⟨⟨List.replicate 32 0, rfl⟩, ⟨List.replicate _ 0, List.length_replicate⟩,
    ⟨List.replicate _ 0, List.length_replicate⟩⟩⟩

instance : Nonempty (BytesN 32) := ⟨⟨List.replicate 32 0, rfl⟩⟩

section

variable {n : Nat} {X : Finset (Bytes × Bytes)} {ask : List (Found v L) → Option (Attempt v r)}

theorem found_rare (P : Prims) (hK : ∀ x, x ∈ K)
    (hask : ∀ answers i a, ask answers = some (.hide i a) → a.Comparable P L) (d : Tags v) (k o u q m : Nat)
    (s : Side) :
    fractionOf (fun z : Tried v r n L X × Derivation v =>
        ∃ out, apart P K d ask k o u q m s z = .ok out ∧ KeyFound z.1.1 ask out) ≤
      r * u / 2 ^ 256 + r * (r - 1) / 2 ^ 257 := by
  classical
  have hT : (Fintype.card (BytesN 32) : ℚ) = 2 ^ 256 := by rw [C75.card_bytes]; norm_num
  have e257 : (2 : ℚ) ^ 257 = 2 * 2 ^ 256 := by rw [← pow_succ']
  rw [e257, ← hT, ← fraction_equiv (takeApart v r n L X)]
  have h0 : (0 : ℚ) ≤ r * u / Fintype.card (BytesN 32) + r * (r - 1) / (2 * Fintype.card (BytesN 32)) := by
    exact bound_nonneg r u _ (Nat.cast_pos.2 Fintype.card_pos)
  refine fraction_prod_le _ _ h0 fun w => ?_
  let out : (Fin r → BytesN 32) × Derivation v → Res (List (Found v L)) := fun y =>
    apart P K d ask k o u q m s (takeApart v r n L X (w, y))
  have hout : ∀ y y', y.2 ∘ y.1 = y'.2 ∘ y'.1 → out y = out y' := by
    intro y y' h
    have h2 := same P hK w.1.2.1 (d.on X w.1.2.2) s ask hask w.2 y.2 y'.2 y.1 y'.1 (fun i => congrFun h i) k o
      u q m (List.ofFn w.1.1) [] []
    rw [List.length_ofFn] at h2
    exact h2
  let Q : (Fin r → (EncInput → Derived v)) → List (BytesN 32) := fun E =>
    if h : ∃ y : (Fin r → BytesN 32) × Derivation v, y.2 ∘ y.1 = E then
      match out h.choose with
      | .ok l => guesses ask [] l
      | _ => []
    else []
  refine hit_rare u Q ?_ _ ?_
  · intro E
    dsimp only [Q]
    split
    · rename_i h
      split
      · rename_i l hl
        obtain ⟨more, e, hm⟩ := grows _ _ _ _ _ _ _ _ _ _ _ _ _ _ _ _ _ hl
        rw [List.nil_append] at e
        subst e
        exact (guesses_length ask l []).trans hm
      · exact Nat.zero_le _
    · exact Nat.zero_le _
  · rintro y ⟨l, hl, before, after, x, i, e, ha⟩
    refine ⟨i, ?_⟩
    have h : ∃ z : (Fin r → BytesN 32) × Derivation v, z.2 ∘ z.1 = y.2 ∘ y.1 := ⟨y, rfl⟩
    dsimp only [Q]
    rw [dif_pos h, hout h.choose y h.choose_spec, show out y = .ok l from hl, e]
    exact mem_guesses after before [] ha

/-- The chances of an event here and there differ by at most the chance that a key is found. -/
theorem step (P : Prims) (hK : ∀ x, x ∈ K)
    (hask : ∀ answers i a, ask answers = some (.hide i a) → a.Comparable P L) (d : Tags v) (k o u q m : Nat)
    (s : Side) (A : (Fin r → BytesN 32) → Res (List (Found v L)) → Prop) :
    |fractionOf (fun x : Tried v r n L X => A x.1 (viewIn P K d ask k o u q m s x)) -
        fractionOf (fun z : Tried v r n L X × Derivation v => A z.1.1 (apart P K d ask k o u q m s z))| ≤
      r * u / 2 ^ 256 + r * (r - 1) / 2 ^ 257 := by
  rw [← fraction_fst (β := Derivation v) fun x : Tried v r n L X => A x.1 (viewIn P K d ask k o u q m s x),
    ← fraction_equiv (swapElse v r n L X)]
  have hf := found_rare (n := n) (X := X) P hK hask d k o u q m s
  have h1 : fractionOf (fun z : Tried v r n L X × Derivation v =>
      A (swapElse v r n L X z).1.1 (viewIn P K d ask k o u q m s (swapElse v r n L X z).1)) ≤
      fractionOf (fun z : Tried v r n L X × Derivation v => A z.1.1 (apart P K d ask k o u q m s z)) +
      fractionOf (fun z : Tried v r n L X × Derivation v =>
        ∃ out, apart P K d ask k o u q m s z = .ok out ∧ KeyFound z.1.1 ask out) := by
    refine (fraction_mono fun z hz => ?_).trans (fraction_or _ _)
    by_cases h : ∃ out, apart P K d ask k o u q m s z = .ok out ∧ KeyFound z.1.1 ask out
    · exact .inr h
    · rw [view_apart P hK hask d k o u q m s z h] at hz
      exact .inl hz
  have h2 : fractionOf (fun z : Tried v r n L X × Derivation v => A z.1.1 (apart P K d ask k o u q m s z)) ≤
      fractionOf (fun z : Tried v r n L X × Derivation v =>
        A (swapElse v r n L X z).1.1 (viewIn P K d ask k o u q m s (swapElse v r n L X z).1)) +
      fractionOf (fun z : Tried v r n L X × Derivation v =>
        ∃ out, apart P K d ask k o u q m s z = .ok out ∧ KeyFound z.1.1 ask out) := by
    refine (fraction_mono fun z hz => ?_).trans (fraction_or _ _)
    by_cases h : ∃ out, apart P K d ask k o u q m s z = .ok out ∧ KeyFound z.1.1 ask out
    · exact .inr h
    · refine .inl ?_
      rw [view_apart P hK hask d k o u q m s z h]
      exact hz
  generalize (r : ℚ) * u / 2 ^ 256 + r * (r - 1) / 2 ^ 257 = B at *
  rw [abs_le]
  constructor <;> linarith

theorem key_found_in (P : Prims) (hK : ∀ x, x ∈ K)
    (hask : ∀ answers i a, ask answers = some (.hide i a) → a.Comparable P L) (d : Tags v) (k o u q m : Nat)
    (s : Side) :
    fractionOf (fun x : Tried v r n L X =>
        ∃ out, viewIn P K d ask k o u q m s x = .ok out ∧ KeyFound x.1 ask out) ≤
      r * u / 2 ^ 256 + r * (r - 1) / 2 ^ 257 := by
  rw [← fraction_fst (β := Derivation v) fun x : Tried v r n L X =>
      ∃ out, viewIn P K d ask k o u q m s x = .ok out ∧ KeyFound x.1 ask out,
    ← fraction_equiv (swapElse v r n L X)]
  refine (fraction_mono fun z hz => ?_).trans (found_rare (n := n) (X := X) P hK hask d k o u q m s)
  by_contra h
  rw [view_apart P hK hask d k o u q m s z h] at hz
  exact h hz

end

/-! ### The bound -/

/-- The keys and what is told about keys taken apart from the rest. -/
def fixKeys (v : Ver) (r n L : Nat) (X : Finset (Bytes × Bytes)) :
    ((Fin r → BytesN 32) × Derivation v) × Known v n L X ≃ Tried v r n L X × Derivation v where
  toFun y := ((y.1.1, y.2), y.1.2)
  invFun z := ((z.1.1, z.2), z.1.2)
  left_inv _ := rfl
  right_inv _ := rfl

noncomputable instance (v : Ver) (r n L : Nat) (X : Finset (Bytes × Bytes)) :
    Fintype (((Fin r → BytesN 32) × Derivation v) × Known v n L X) := inferInstance

theorem apart_eq (P : Prims) (K : Finset (BytesN 32)) {n : Nat} {X : Finset (Bytes × Bytes)} (d : Tags v)
    (ask : List (Found v L) → Option (Attempt v r)) (k o u q m : Nat) (s : Side)
    (y : (Fin r → BytesN 32) × Derivation v) (x : Known v n L X) :
    apart P K d ask k o u q m s (fixKeys v r n L X (y, x)) =
      (x.view P K d (fun ts => (drive y.1 y.2 ask k u [] ts).2) k o q m s >>= fun ts =>
        .ok (drive y.1 y.2 ask k u [] ts).1) :=
  trying_eq _ y.1 y.2 _ _ s ask _ (fun ts => (drive y.1 y.2 ask k u [] ts).1) k k n o u q m _ [] [] []
    (Nat.le_refl k) (fun _ => rfl) (fun _ => rfl)

theorem average_le {α β : Type} [Fintype α] [Fintype β] (A B : α × β → Prop) (b : ℚ) (hb : 0 ≤ b)
    (h : ∀ a, |fractionOf (fun x => A (a, x)) - fractionOf (fun x => B (a, x))| ≤ b) :
    |fractionOf A - fractionOf B| ≤ b := by
  rw [fraction_prod, fraction_prod]
  have h := C97.average (fun a => fractionOf fun x => A (a, x)) (fun a => fractionOf fun x => B (a, x))
    (fun _ => 0) b hb (fun a => by rw [zero_add]; exact h a)
  rw [Finset.sum_const_zero, zero_div, zero_add] at h
  exact h

section

variable {ask : List (Found v L) → Option (Attempt v r)}

theorem drive_hides {P : Prims} (hK : ∀ x, x ∈ K)
    (hhide : ∀ answers i a, ask answers = some (.hide i a) → a.Comparable P L ∧ a.Fits) (k u : Nat)
    (y : (Fin r → BytesN 32) × Derivation v) (ts : List (Reply v L)) (a : Veiling v)
    (h : (drive y.1 y.2 ask k u [] ts).2 = some (.hide a)) :
    a.what.Comparable P L ∧ (∀ s, a.key s ∈ K) ∧ a.what.Fits := by
  obtain ⟨before, i, hb, -⟩ := (drive_asked k u [] ts).1 a h
  exact ⟨(hhide _ _ _ hb).1, fun s => hK _, (hhide _ _ _ hb).2⟩

theorem drive_looks (hK : ∀ x, x ∈ K)
    (hlook : ∀ answers i a, ask answers = some (.look i a) → a.Fits) (k u : Nat)
    (y : (Fin r → BytesN 32) × Derivation v) (ts : List (Reply v L)) (key : BytesN 32) (a : Opening v)
    (h : (drive y.1 y.2 ask k u [] ts).2 = some (.look key a)) : key ∈ K ∧ a.Fits := by
  obtain ⟨before, i, hb, -⟩ := (drive_asked k u [] ts).2 key a h
  exact ⟨hK _, hlook _ _ _ hb⟩

/-- The bound of C100. -/
def bound (v : Ver) (n o q m : Nat) : ℚ :=
  3 * (n * (n - 1)) / 2 ^ 256 + n * q / 2 ^ 256 + 2 * o / 2 ^ (8 * Spec.tagLen v) + 2 * (n + o) * m / 2 ^ 256

theorem pairs_nonneg (n : Nat) : (0 : ℚ) ≤ n * (n - 1) := by
  cases n with
  | zero => simp
  | succ n => push_cast; simp only [add_sub_cancel_right]; positivity

theorem sides (P : Prims) (hK : ∀ x, x ∈ K) (k n o u q m : Nat)
    (hhide : ∀ answers i a, ask answers = some (.hide i a) → a.Comparable P L ∧ a.Fits)
    (hlook : ∀ answers i a, ask answers = some (.look i a) → a.Fits)
    (A : Res (List (Found v L)) → Prop) :
    ∃ X₀ : Finset (Bytes × Bytes), ∀ X, X₀ ⊆ X → ∀ d : Tags v,
      |fractionOf (fun z : Tried v r n L X × Derivation v => A (apart P K d ask k o u q m .left z)) -
          fractionOf (fun z : Tried v r n L X × Derivation v => A (apart P K d ask k o u q m .right z))| ≤
        bound v n o q m := by
  classical
  have h := fun y : (Fin r → BytesN 32) × Derivation v =>
    C100.advantage P K k n o q m (fun ts => (drive y.1 y.2 ask k u [] ts).2)
      (drive_hides hK hhide k u y) (drive_looks hK hlook k u y)
      (fun res => A (res >>= fun ts => .ok (drive y.1 y.2 ask k u [] ts).1))
  choose X₀ hX using h
  refine ⟨Finset.univ.biUnion X₀, fun X hs d => ?_⟩
  have hb : 0 ≤ bound v n o q m := by
    have := pairs_nonneg n
    unfold bound
    positivity
  rw [← fraction_equiv (fixKeys v r n L X), ← fraction_equiv (fixKeys v r n L X) fun z => A (apart P K d ask k o u q m .right z)]
  refine average_le _ _ _ hb fun y => ?_
  have hy := hX y X ((Finset.subset_biUnion_of_mem X₀ (Finset.mem_univ y)).trans hs) d
  simp only [apart_eq]
  exact hy

theorem unopened_apart (P : Prims) (hK : ∀ x, x ∈ K) (k n o u q m : Nat)
    (hhide : ∀ answers i a, ask answers = some (.hide i a) → a.Comparable P L ∧ a.Fits)
    (hlook : ∀ answers i a, ask answers = some (.look i a) → a.Fits) (s : Side) :
    ∃ X₀ : Finset (Bytes × Bytes), ∀ X, X₀ ⊆ X → ∀ d : Tags v,
      fractionOf (fun z : Tried v r n L X × Derivation v => ∃ answers,
          apart P K d ask k o u q m s z = .ok answers ∧ TextOpened ask answers) ≤
        n * (n - 1) / 2 ^ 257 + o / 2 ^ (8 * Spec.tagLen v) + (n + o) * m / 2 ^ 256 := by
  classical
  have h := fun y : (Fin r → BytesN 32) × Derivation v =>
    C100.unopened P K k n o q m (fun ts => (drive y.1 y.2 ask k u [] ts).2)
      (drive_hides hK hhide k u y) (drive_looks hK hlook k u y) s
  choose X₀ hX using h
  refine ⟨Finset.univ.biUnion X₀, fun X hs d => ?_⟩
  rw [← fraction_equiv (fixKeys v r n L X)]
  refine fraction_prod_le _ _ ?_ fun y => ?_
  · have := pairs_nonneg n
    positivity
  refine le_trans (fraction_mono fun x hx => ?_)
    (hX y X ((Finset.subset_biUnion_of_mem X₀ (Finset.mem_univ y)).trans hs) d)
  obtain ⟨answers, h1, h2⟩ := hx
  rw [apart_eq] at h1
  cases hv : x.view P K d (fun ts => (drive y.1 y.2 ask k u [] ts).2) k o q m s with
  | err e => rw [hv] at h1; cases h1
  | panic => rw [hv] at h1; cases h1
  | ok ts =>
    rw [hv] at h1
    have e : (drive y.1 y.2 ask k u [] ts).1 = answers := by cases h1; rfl
    refine ⟨ts, rfl, ?_⟩
    have h3 := drive_opened y.1 y.2 ask (fun ts => (drive y.1 y.2 ask k u [] ts).2) k u [] [] ts
      (fun _ => rfl) ?_ (by rw [e]; exact h2)
    · exact h3
    · rintro ⟨before, after, i, a, bytes, e, -⟩
      simp at e

/-- Whatever is asked for, whatever is handed in, whatever keys are tried, and whatever is concluded from
the answers: the conclusion is drawn (almost) as often when the left candidates are used as when the right
ones are. -/
theorem advantage (P : Prims) (k n o u q m : Nat) (ask : List (Found v L) → Option (Attempt v r))
    (hhide : ∀ answers i a, ask answers = some (.hide i a) → a.Comparable P L ∧ a.Fits)
    (hlook : ∀ answers i a, ask answers = some (.look i a) → a.Fits)
    (A : Res (List (Found v L)) → Prop) :
    ∃ X₀ : Finset (Bytes × Bytes), ∀ X, X₀ ⊆ X → ∀ d : Tags v,
      |Tried.chance (fun x : Tried v r n L X => A (x.view P d ask k o u q m .left)) -
          Tried.chance (fun x : Tried v r n L X => A (x.view P d ask k o u q m .right))| ≤
        3 * (n * (n - 1)) / 2 ^ 256 + n * q / 2 ^ 256 + 2 * o / 2 ^ (8 * Spec.tagLen v) +
          2 * (n + o) * m / 2 ^ 256 + 2 * r * u / 2 ^ 256 + r * (r - 1) / 2 ^ 256 := by
  obtain ⟨K, hu, hK⟩ := all (T := BytesN 32)
  obtain ⟨X₀, hX⟩ := sides P hK k n o u q m hhide hlook A
  refine ⟨X₀, fun X hs d => ?_⟩
  have h := hX X hs d
  have hc := fun answers i a ha => (hhide answers i a ha).1
  have hl := step (n := n) (X := X) P hK hc d k o u q m .left fun _ => A
  have hr := step (n := n) (X := X) P hK hc d k o u q m .right fun _ => A
  simp only [view_eq, ← hu]
  have e : 3 * ((n : ℚ) * (n - 1)) / 2 ^ 256 + n * q / 2 ^ 256 + 2 * o / 2 ^ (8 * Spec.tagLen v) +
      2 * (n + o) * m / 2 ^ 256 + 2 * r * u / 2 ^ 256 + r * (r - 1) / 2 ^ 256 =
      bound v n o q m + 2 * ((r : ℚ) * u / 2 ^ 256 + r * (r - 1) / 2 ^ 257) := by
    have e257 : (2 : ℚ) ^ 257 = 2 * 2 ^ 256 := by rw [← pow_succ']
    have : (2 : ℚ) ^ 256 ≠ 0 := by positivity
    unfold bound
    rw [e257]
    generalize (2 : ℚ) ^ 256 = C at *
    generalize (2 : ℚ) ^ (8 * Spec.tagLen v) = T at *
    field_simp
    ring
  rw [e]
  unfold Tried.chance
  unfold fractionOf at h hl hr
  generalize (r : ℚ) * u / 2 ^ 256 + r * (r - 1) / 2 ^ 257 = B at *
  generalize bound v n o q m = C at *
  rw [abs_le] at *
  constructor <;> linarith [hl.1, hl.2, hr.1, hr.2, h.1, h.2]

/-- Hardly ever is a key in use among the keys tried, although everything can be computed. -/
theorem key_found (P : Prims) (k n o u q m : Nat) (ask : List (Found v L) → Option (Attempt v r))
    (hhide : ∀ answers i a, ask answers = some (.hide i a) → a.Comparable P L) (X : Finset (Bytes × Bytes))
    (d : Tags v) (s : Side) :
    Tried.chance (fun x : Tried v r n L X => ∃ answers, x.view P d ask k o u q m s = .ok answers ∧
        KeyFound x.1 ask answers) ≤ r * u / 2 ^ 256 + r * (r - 1) / 2 ^ 257 := by
  obtain ⟨K, hu, hK⟩ := all (T := BytesN 32)
  simp only [view_eq, ← hu]
  exact key_found_in P hK hhide d k o u q m s

/-- Hardly ever is anything opened that was not issued, although everything can be computed. -/
theorem unopened (P : Prims) (k n o u q m : Nat) (ask : List (Found v L) → Option (Attempt v r))
    (hhide : ∀ answers i a, ask answers = some (.hide i a) → a.Comparable P L ∧ a.Fits)
    (hlook : ∀ answers i a, ask answers = some (.look i a) → a.Fits) (s : Side) :
    ∃ X₀ : Finset (Bytes × Bytes), ∀ X, X₀ ⊆ X → ∀ d : Tags v,
      Tried.chance (fun x : Tried v r n L X => ∃ answers, x.view P d ask k o u q m s = .ok answers ∧
          TextOpened ask answers) ≤
        n * (n - 1) / 2 ^ 257 + o / 2 ^ (8 * Spec.tagLen v) + (n + o) * m / 2 ^ 256 + r * u / 2 ^ 256 +
          r * (r - 1) / 2 ^ 257 := by
  obtain ⟨K, hu, hK⟩ := all (T := BytesN 32)
  obtain ⟨X₀, hX⟩ := unopened_apart P hK k n o u q m hhide hlook s
  refine ⟨X₀, fun X hs d => ?_⟩
  have h := hX X hs d
  have hl := step (n := n) (X := X) P hK (fun answers i a ha => (hhide answers i a ha).1) d k o u q m s
    fun _ res => ∃ answers, res = .ok answers ∧ TextOpened ask answers
  simp only [view_eq, ← hu]
  unfold Tried.chance
  unfold fractionOf at h hl
  rw [add_assoc _ ((r : ℚ) * u / 2 ^ 256)]
  generalize (r : ℚ) * u / 2 ^ 256 + r * (r - 1) / 2 ^ 257 = B at *
  generalize (n : ℚ) * (n - 1) / 2 ^ 257 + o / 2 ^ (8 * Spec.tagLen v) + (n + o) * m / 2 ^ 256 = C at *
  rw [abs_le] at hl
  linarith [hl.1, hl.2]

end

/-- With up to `2 ^ 64` keys in use, `2 ^ 64` texts and `2 ^ 64` openings, and `2 ^ 100` keys, cipher keys and
MAC keys tried, the chances differ by at most `2 ^ -89`. -/
theorem advantage_practical (P : Prims) (k n o u q m : Nat) (hr : r ≤ 2 ^ 64) (hn : n ≤ 2 ^ 64)
    (ho : o ≤ 2 ^ 64) (hu : u ≤ 2 ^ 100) (hq : q ≤ 2 ^ 100) (hm : m ≤ 2 ^ 100)
    (ask : List (Found v L) → Option (Attempt v r))
    (hhide : ∀ answers i a, ask answers = some (.hide i a) → a.Comparable P L ∧ a.Fits)
    (hlook : ∀ answers i a, ask answers = some (.look i a) → a.Fits)
    (A : Res (List (Found v L)) → Prop) :
    ∃ X₀ : Finset (Bytes × Bytes), ∀ X, X₀ ⊆ X → ∀ d : Tags v,
      |Tried.chance (fun x : Tried v r n L X => A (x.view P d ask k o u q m .left)) -
          Tried.chance (fun x : Tried v r n L X => A (x.view P d ask k o u q m .right))| ≤ 1 / 2 ^ 89 := by
  obtain ⟨X₀, h⟩ := advantage P k n o u q m ask hhide hlook A
  refine ⟨X₀, fun X hX d => (h X hX d).trans ?_⟩
  clear h
  have h1 : (n : ℚ) ≤ 2 ^ 64 := by exact_mod_cast hn
  have h2 : (o : ℚ) ≤ 2 ^ 64 := by exact_mod_cast ho
  have h3 : (q : ℚ) ≤ 2 ^ 100 := by exact_mod_cast hq
  have h4 : (m : ℚ) ≤ 2 ^ 100 := by exact_mod_cast hm
  have h5 : (r : ℚ) ≤ 2 ^ 64 := by exact_mod_cast hr
  have h6 : (u : ℚ) ≤ 2 ^ 100 := by exact_mod_cast hu
  have n0 : (0 : ℚ) ≤ n := Nat.cast_nonneg n
  have o0 : (0 : ℚ) ≤ o := Nat.cast_nonneg o
  have q0 : (0 : ℚ) ≤ q := Nat.cast_nonneg q
  have m0 : (0 : ℚ) ≤ m := Nat.cast_nonneg m
  have r0 : (0 : ℚ) ≤ r := Nat.cast_nonneg r
  have u0 : (0 : ℚ) ≤ u := Nat.cast_nonneg u
  have ht : (2 : ℚ) ^ 256 ≤ 2 ^ (8 * Spec.tagLen v) := by
    refine pow_le_pow_right₀ (by norm_num) ?_
    cases v <;> decide
  have a1 : 2 * (o : ℚ) / 2 ^ (8 * Spec.tagLen v) ≤ 2 * o / 2 ^ 256 :=
    div_le_div_of_nonneg_left (by positivity) (by positivity) ht
  have b1 : (n : ℚ) * n ≤ 2 ^ 64 * 2 ^ 64 := mul_le_mul h1 h1 n0 (by positivity)
  have b2 : (n : ℚ) * q ≤ 2 ^ 64 * 2 ^ 100 := mul_le_mul h1 h3 q0 (by positivity)
  have b3 : ((n : ℚ) + o) * m ≤ (2 ^ 64 + 2 ^ 64) * 2 ^ 100 :=
    mul_le_mul (add_le_add h1 h2) h4 m0 (by positivity)
  have b4 : (r : ℚ) * u ≤ 2 ^ 64 * 2 ^ 100 := mul_le_mul h5 h6 u0 (by positivity)
  have b5 : (r : ℚ) * r ≤ 2 ^ 64 * 2 ^ 64 := mul_le_mul h5 h5 r0 (by positivity)
  have hs : 3 * ((n : ℚ) * (n - 1)) + n * q + 2 * o + 2 * (n + o) * m + 2 * r * u + r * (r - 1) ≤ 2 ^ 167 := by
    have e : 3 * ((n : ℚ) * (n - 1)) + n * q + 2 * o + 2 * (n + o) * m + 2 * r * u + r * (r - 1) =
      3 * (n * n) - 3 * n + n * q + 2 * o + 2 * ((n + o) * m) + 2 * (r * u) + r * r - r := by ring
    rw [e]
    clear e a1 ht h3 h4 h5 h6
    norm_num at b1 b2 b3 b4 b5 h2 ⊢
    have h2 : (o : ℚ) ≤ 18446744073709551616 := by exact_mod_cast h2
    linarith
  have e : 3 * ((n : ℚ) * (n - 1)) / 2 ^ 256 + n * q / 2 ^ 256 + 2 * o / 2 ^ 256 +
      2 * (n + o) * m / 2 ^ 256 + 2 * r * u / 2 ^ 256 + r * (r - 1) / 2 ^ 256 =
      (3 * (n * (n - 1)) + n * q + 2 * o + 2 * (n + o) * m + 2 * r * u + r * (r - 1)) / 2 ^ 256 := by ring
  have h5 : 3 * ((n : ℚ) * (n - 1)) / 2 ^ 256 + n * q / 2 ^ 256 + 2 * o / 2 ^ 256 +
      2 * (n + o) * m / 2 ^ 256 + 2 * r * u / 2 ^ 256 + r * (r - 1) / 2 ^ 256 ≤ 1 / 2 ^ 89 := by
    rw [e, div_le_div_iff₀ (by positivity) (by positivity)]
    refine (mul_le_mul_of_nonneg_right hs (by positivity)).trans (le_of_eq ?_)
    rw [one_mul, ← pow_add]
  linarith

/-! ### The game is played -/

/-- Nothing breaks the game off: with `k` requests and `k` of each kind allowed, there are `k` answers
unless nothing more is asked. -/
theorem runs (P : Prims) (k n o u q m : Nat) (hn : k ≤ n) (ho : k ≤ o) (hu : k ≤ u) (hq : k ≤ q)
    (hm : k ≤ m) (ask : List (Found v L) → Option (Attempt v r))
    (hhide : ∀ answers i a, ask answers = some (.hide i a) → a.Comparable P L)
    (X : Finset (Bytes × Bytes)) (d : Tags v) (s : Side) (x : Tried v r n L X) :
    ∃ answers, x.view P d ask k o u q m s = .ok answers ∧
      (answers.length = k ∨ answers.length < k ∧ ask answers = none) := by
  obtain ⟨K, hall, hK⟩ := all (T := BytesN 32)
  have h : ∀ (k n o u q m : Nat) (rng : Rng) (issued : List Item) (answers out : List (Found v L)),
      k ≤ n → k ≤ o → k ≤ u → k ≤ q → k ≤ m →
      trying (pr P K x.2.1.2.2 (d.on X x.2.2) x.2.1.2.1) x.1 x.2.1.2.1 x.2.1.2.2 (d.on X x.2.2) s ask k
        n o u q m rng issued answers = .ok out →
      (out.length = answers.length + k ∨ out.length < answers.length + k ∧ ask out = none) := by
    intro k
    induction k with
    | zero => intro n o u q m rng issued answers out _ _ _ _ _ e; cases e; exact .inl rfl
    | succ k ih =>
      intro n o u q m rng issued answers out hn ho hu hq hm e
      have step : ∀ {y : Found v L},
          (out.length = (answers ++ [y]).length + k ∨
            out.length < (answers ++ [y]).length + k ∧ ask out = none) →
          (out.length = answers.length + (k + 1) ∨ out.length < answers.length + (k + 1) ∧ ask out = none) := by
        intro y h2
        rw [List.length_append, List.length_singleton] at h2
        rcases h2 with h2 | ⟨h2, h3⟩
        · exact .inl (by omega)
        · exact .inr ⟨by omega, h3⟩
      rw [trying] at e
      cases ha : ask answers with
      | none => rw [ha] at e; cases e; exact .inr ⟨by omega, ha⟩
      | some a =>
        rw [ha] at e
        cases a with
        | hide i a =>
          obtain ⟨n, rfl⟩ : ∃ j, n = j + 1 := ⟨n - 1, by omega⟩
          dsimp only at e
          cases hr : a.run (pr P K x.2.1.2.2 (d.on X x.2.2) x.2.1.2.1) ⟨x.1 (i s)⟩ s rng with
          | err y => rw [hr] at e; cases e
          | panic => rw [hr] at e; cases e
          | ok y =>
            rw [hr] at e
            exact step (ih _ _ _ _ _ _ _ _ _ (by omega) (by omega) (by omega) (by omega) (by omega) e)
        | look i a =>
          obtain ⟨o, rfl⟩ : ∃ j, o = j + 1 := ⟨o - 1, by omega⟩
          exact step (ih _ _ _ _ _ _ _ _ _ (by omega) (by omega) (by omega) (by omega) (by omega) e)
        | derive y =>
          obtain ⟨u, rfl⟩ : ∃ j, u = j + 1 := ⟨u - 1, by omega⟩
          exact step (ih _ _ _ _ _ _ _ _ _ (by omega) (by omega) (by omega) (by omega) (by omega) e)
        | cipher y =>
          obtain ⟨q, rfl⟩ : ∃ j, q = j + 1 := ⟨q - 1, by omega⟩
          exact step (ih _ _ _ _ _ _ _ _ _ (by omega) (by omega) (by omega) (by omega) (by omega) e)
        | mac y z =>
          obtain ⟨m, rfl⟩ : ∃ j, m = j + 1 := ⟨m - 1, by omega⟩
          exact step (ih _ _ _ _ _ _ _ _ _ (by omega) (by omega) (by omega) (by omega) (by omega) e)
  obtain ⟨out, ho'⟩ := apart_total P hK hhide d k o u q m s (x, x.2.1.2.1)
  refine ⟨out, ?_, ?_⟩
  · rw [view_eq, ← hall]
    exact ho'
  · have h2 := h k n o u q m _ _ _ out hn ho hu hq hm ho'
    simpa using h2

/-! ### A case -/

/-- Left, the first of two keys wraps zeros; right, the second wraps ones. Then a key is guessed; with
what it derives, a text is made, and handed in under both keys. -/
def guesser (v : Ver) (L : Nat) (guess : BytesN 32) (make : Told → (EncInput → Derived v) → Bytes) :
    List (Found v L) → Option (Attempt v 2)
  | [] => some (.hide (fun | .left => 0 | .right => 1) (.wrap .Local (C83.twoKeys v)))
  | [.told _] => some (.derive guess)
  | [.told t, .derived e] => some (.look 0 (.unwrap .Local (make t e)))
  | [.told t, .derived e, _] => some (.look 1 (.unwrap .Local (make t e)))
  | _ => none

theorem guesser_hides (P : Prims) (guess : BytesN 32) (make : Told → (EncInput → Derived v) → Bytes)
    (hL : 32 ≤ L) (answers : List (Found v L)) (i : Side → Fin 2) (a : Hiding v)
    (h : guesser v L guess make answers = some (.hide i a)) : a.Comparable P L ∧ a.Fits := by
  unfold guesser at h
  split at h <;> cases h
  refine ⟨⟨fun s => ⟨⟨C83.twoKeys v s⟩, by cases v <;> rfl⟩, ?_⟩, trivial⟩
  cases v <;> exact hL

theorem guesser_looks (guess : BytesN 32) (make : Told → (EncInput → Derived v) → Bytes)
    (answers : List (Found v L)) (i : Fin 2) (a : Opening v)
    (h : guesser v L guess make answers = some (.look i a)) : a.Fits := by
  unfold guesser at h
  split at h <;> cases h <;> trivial

example (P : Prims) (guess : BytesN 32) (make : Told → (EncInput → Derived v) → Bytes) (hL : 32 ≤ L)
    (A : Res (List (Found v L)) → Prop) :
    ∃ X₀ : Finset (Bytes × Bytes), ∀ X, X₀ ⊆ X → ∀ d : Tags v,
      |Tried.chance (fun x : Tried v 2 1 L X => A (x.view P d (guesser v L guess make) 4 2 1 0 0 .left)) -
          Tried.chance (fun x : Tried v 2 1 L X => A (x.view P d (guesser v L guess make) 4 2 1 0 0 .right))| ≤
        1 / 2 ^ 89 :=
  advantage_practical P 4 1 2 1 0 0 (by norm_num) (by norm_num) (by norm_num) (by norm_num) (by norm_num)
    (by norm_num) _ (guesser_hides P guess make hL) (guesser_looks guess make) A

example (P : Prims) (guess : BytesN 32) (make : Told → (EncInput → Derived v) → Bytes) (hL : 32 ≤ L)
    (X : Finset (Bytes × Bytes)) (d : Tags v) (s : Side) :
    Tried.chance (fun x : Tried v 2 1 L X => ∃ answers,
        x.view P d (guesser v L guess make) 4 2 1 0 0 s = .ok answers ∧
          KeyFound x.1 (guesser v L guess make) answers) ≤
      (2 : Nat) * (1 : Nat) / 2 ^ 256 + (2 : Nat) * ((2 : Nat) - 1) / 2 ^ 257 :=
  key_found P 4 1 2 1 0 0 _ (fun answers i a h => (guesser_hides P guess make hL answers i a h).1) X d s

example (P : Prims) (guess : BytesN 32) (make : Told → (EncInput → Derived v) → Bytes) (hL : 32 ≤ L)
    (s : Side) :
    ∃ X₀ : Finset (Bytes × Bytes), ∀ X, X₀ ⊆ X → ∀ d : Tags v,
      Tried.chance (fun x : Tried v 2 1 L X => ∃ answers,
          x.view P d (guesser v L guess make) 4 2 1 0 0 s = .ok answers ∧
            TextOpened (guesser v L guess make) answers) ≤
        (1 : Nat) * ((1 : Nat) - 1) / 2 ^ 257 + (2 : Nat) / 2 ^ (8 * Spec.tagLen v) +
          ((1 : Nat) + (2 : Nat)) * (0 : Nat) / 2 ^ 256 + (2 : Nat) * (1 : Nat) / 2 ^ 256 +
          (2 : Nat) * ((2 : Nat) - 1) / 2 ^ 257 :=
  unopened P 4 1 2 1 0 0 _ (guesser_hides P guess make hL) (guesser_looks guess make) s

/-- All requests are made. -/
example (P : Prims) (guess : BytesN 32) (make : Told → (EncInput → Derived v) → Bytes) (hL : 32 ≤ L)
    (X : Finset (Bytes × Bytes)) (d : Tags v) (s : Side) (x : Tried v 2 4 L X) :
    ∃ answers, x.view P d (guesser v L guess make) 4 4 4 4 4 s = .ok answers ∧
      (answers.length = 4 ∨ answers.length < 4 ∧ guesser v L guess make answers = none) :=
  runs P 4 4 4 4 4 4 (Nat.le_refl _) (Nat.le_refl _) (Nat.le_refl _) (Nat.le_refl _) (Nat.le_refl _) _
    (fun answers i a h => (guesser_hides P guess make hL answers i a h).1) X d s x

/-- Which key is found is not decided beforehand: whatever is guessed, there are keys with which the guess
is right. -/
example (guess : BytesN 32) (make : Told → (EncInput → Derived v) → Bytes) (t : Told)
    (e : EncInput → Derived v) :
    KeyFound (fun _ => guess) (guesser v L guess make) [.told t, .derived e] :=
  ⟨[.told t], [], e, 0, rfl, rfl⟩

end Pasta.C101
