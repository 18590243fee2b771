import Verif.Spec.PwInUse
import Verif.Lemmas.Hybrid
import Verif.Props.PwHiding

/-!
# The game after a key has been wrapped with a password

For C103. Hiding and opening do not use the hashes; what the game uses of the cipher; how it is played without
the hashes.
-/

namespace Pasta.C103

open Hybrid (hide_local answer_local okOr_bind)

variable {P : Prims} {v : Ver} {r L : Nat} {K : Finset (BytesN 32)} {W : Finset Bytes}

/-! ### Hiding and opening do not use the hashes -/

/-- Other hashes. -/
def hashed (P : Prims) (F : W → PwHash v) (h : KeyHash v) : Prims := (P.withKeyHash v h).withPwHash W v F

theorem pw_pr (P : Prims) (K : Finset (BytesN 32)) (c : CipherOf v L) (f : Tags v) (D : Derivation v)
    (F : W → PwHash v) (h : KeyHash v) :
    ((P.withTags v f).withDerived K v D).withPw W F h c = hashed (C101.pr P K c f D) F h := by
  cases v <;> rfl

theorem edFromKeypair_hashed (F : W → PwHash v) (h : KeyHash v) (b : BytesN 64) :
    Key.edFromKeypair (hashed P F h) b = Key.edFromKeypair P b := by
  unfold Key.edFromKeypair
  generalize BytesN.split 32 32 _ b = sp
  obtain ⟨s, p⟩ := sp
  dsimp only
  cases hp : P.edParse p with
  | none =>
    have h' : (hashed P F h).edParse p = none := by cases v <;> exact hp
    rw [h']
  | some pk =>
    cases v with
    | V3 =>
      have h' : (hashed P F h).edParse p = some pk := hp
      rw [h']
      rfl
    | V4 =>
      have h' : (hashed P F h).edParse p = some pk := hp
      rw [h']
      rfl

theorem hide_hashed (F : W → PwHash v) (h : KeyHash v) (a : Hiding v) (key : BytesN 32) (s : Side) (rng : Rng) :
    a.run (hashed P F h) ⟨key⟩ s rng = a.run P ⟨key⟩ s rng := by
  cases a with
  | token M F E iP iM iF encoding message footer i => cases v <;> rfl
  | wrap k hidden =>
    cases v <;> cases k
    · rfl
    · exact okOr_bind (o := Key.p384ScalarFromSlice P (hidden s).1) rfl _ _ _ _ fun _ => rfl
    · rfl
    · exact okOr_bind (edFromKeypair_hashed (P := P) F h (hidden s)) _ _ _ _ fun _ => rfl

theorem look_hashed (F : W → PwHash v) (h : KeyHash v) (a : Opening v) (key : BytesN 32) :
    a.run (hashed P F h) key = a.run P key := by
  cases a with
  | decrypt M F E iP iM iF text look i => cases v <;> rfl
  | unwrap k text =>
    show (PieWrappedKey.parse v k text >>= fun w =>
        w.unwrapKey (hashed P F h) ⟨key⟩ >>= fun key => (.ok key.toBytes.1 : Res Bytes)) =
      (PieWrappedKey.parse v k text >>= fun w =>
        w.unwrapKey P ⟨key⟩ >>= fun key => .ok key.toBytes.1)
    congr 1
    funext w
    rw [PieWrappedKey.unwrapKey_eq, PieWrappedKey.unwrapKey_eq]
    have e1 : Spec.pieTag (hashed P F h) v k.kind key w.nonce.1 w.wrappedKey.1 =
      Spec.pieTag P v k.kind key w.nonce.1 w.wrappedKey.1 := by cases v <;> rfl
    have e2 : pieCodeStream (hashed P F h) v key w.nonce.1 = pieCodeStream P v key w.nonce.1 := by
      cases v <;> rfl
    dsimp only
    rw [e1, e2]
    split
    · generalize applyKeystreamN (pieCodeStream P v key w.nonce.1) w.wrappedKey = b
      clear e1 e2
      cases v <;> cases k
      · rfl
      · exact okOr_bind (o := Key.p384ScalarFromSlice P b.1) rfl _ _ _ _ fun _ => rfl
      · rfl
      · exact okOr_bind (edFromKeypair_hashed (P := P) F h b) _ _ _ _ fun _ => rfl
    · rfl

theorem answer_hashed (F : W → PwHash v) (h : KeyHash v) (a : Opening v) (key : BytesN 32) (issued : List Item) :
    a.answer (hashed P F h) key issued = a.answer P key issued := by
  unfold Opening.answer
  rw [look_hashed]

/-- What comes of running the password hash. -/
abbrev Run (v : Ver) := Bytes → BytesN (pwSaltLen v) → KdfState v → Res Bytes

theorem pwInUse_hashed (P : Prims) (F : W → PwHash v) (h' : KeyHash v) (keys : Fin r → BytesN 32) (D : Derivation v)
    (c : CipherOf v L) (f : Tags v) (h : KeyHash v) (H : Run v) (s : Side)
    (ask : List (PwGot v L) → Option (PwWish v r)) (k : Nat) :
    ∀ (n o u q m w : Nat) (rng : Rng) (issued : List Item) (answers : List (PwGot v L)),
      pwInUse (hashed P F h') keys D c f h H s ask k n o u q m w rng issued answers =
        pwInUse P keys D c f h H s ask k n o u q m w rng issued answers := by
  induction k with
  | zero => intros; rfl
  | succ k ih =>
    intro n o u q m w rng issued answers
    simp only [pwInUse, hide_hashed, answer_hashed, ih]

/-- The game uses the cipher under few keys, and the hashes for what is asked. -/
theorem few (P : Prims) (hK : ∀ x, x ∈ K) (c : CipherOf v L) (f : Tags v) (h : KeyHash v) (H : Run v) (s : Side)
    (ask : List (PwGot v L) → Option (PwWish v r))
    (hask : ∀ answers i a, ask answers = some (.attempt (.hide i a)) → a.Comparable P L)
    (D : Derivation v) (keys : Fin r → BytesN 32) (k : Nat) :
    ∀ (o u q m w : Nat) (ns : List (BytesN 32)) (issued : List Item) (answers : List (PwGot v L)),
      ∃ xs : List (BytesN 32), xs.length ≤ k ∧
        ∀ (c' : CipherOf v L) (h' : KeyHash v) (H' : Run v),
        (∀ x ∈ xs, c' x = c x) →
        (∀ y, .keyHash y ∈ (pwInUse (C101.pr P K c f D) keys D c f h H s ask k ns.length o u q m w
          (ns.map Subtype.val).flatten issued answers).2 → h' y = h y) →
        (∀ y z t, .seek (.hash y z t) ∈ (pwInUse (C101.pr P K c f D) keys D c f h H s ask k ns.length o u q m w
          (ns.map Subtype.val).flatten issued answers).2 → H' y z t = H y z t) →
        pwInUse (C101.pr P K c' f D) keys D c' f h' H' s ask k ns.length o u q m w (ns.map Subtype.val).flatten
            issued answers =
          pwInUse (C101.pr P K c f D) keys D c f h H s ask k ns.length o u q m w (ns.map Subtype.val).flatten
            issued answers := by
  induction k with
  | zero => intros; exact ⟨[], Nat.le_refl _, fun _ _ _ _ _ _ => rfl⟩
  | succ k ih =>
    intro o u q m w ns issued answers
    have stop : ∀ x : Res (List (PwGot v L)),
        ∃ xs : List (BytesN 32), xs.length ≤ k + 1 ∧
          ∀ (c' : CipherOf v L) (h' : KeyHash v) (H' : Run v),
          (∀ x ∈ xs, c' x = c x) → (∀ y, .keyHash y ∈ (x, ([] : List (PwAsk v))).2 → h' y = h y) →
          (∀ y z t, .seek (.hash y z t) ∈ (x, ([] : List (PwAsk v))).2 → H' y z t = H y z t) →
          (x, ([] : List (PwAsk v))) = (x, ([] : List (PwAsk v))) :=
      fun _ => ⟨[], Nat.zero_le _, fun _ _ _ _ _ _ => rfl⟩
    simp only [pwInUse]
    cases ha : ask answers with
    | none => exact stop _
    | some a =>
      cases a with
      | attempt a => cases a with
        | hide i a =>
          cases ns with
          | nil => exact stop _
          | cons b ns =>
            obtain ⟨x, text, hx⟩ := hide_local P hK c f D (hask _ _ _ ha) s (keys (i s)) b
            obtain ⟨xs, h1, h2⟩ := ih o u q m w ns (a.item text :: issued)
              (answers ++ [.found (.told (some (.ok text)))])
            have e0 := hx c rfl (ns.map Subtype.val).flatten
            refine ⟨x :: xs, Nat.succ_le_succ h1, fun c' h' H' hc hh hH => ?_⟩
            have e1 := hx c' (hc x List.mem_cons_self) (ns.map Subtype.val).flatten
            simp only [List.length_cons, List.map_cons, List.flatten_cons] at hh hH ⊢
            rw [e0] at hh hH
            rw [e0, e1]
            exact h2 c' h' H' (fun y hy => hc y (List.mem_cons_of_mem _ hy)) hh hH
        | look i a =>
          cases o with
          | zero => exact stop _
          | succ o =>
            obtain ⟨x, hl, hx⟩ := answer_local (K := K) P c f D a (keys i) issued
            obtain ⟨xs, h1, h2⟩ := ih o u q m w ns issued
              (answers ++ [.found (.told (a.answer (C101.pr P K c f D) (keys i) issued))])
            refine ⟨x ++ xs, by rw [List.length_append]; omega, fun c' h' H' hc hh hH => ?_⟩
            dsimp only
            rw [hx c' fun y hy => hc y (List.mem_append_left _ hy)]
            exact h2 c' h' H' (fun y hy => hc y (List.mem_append_right _ hy)) hh hH
        | derive x => cases u with
          | zero => exact stop _
          | succ u =>
            obtain ⟨xs, h1, h2⟩ := ih o u q m w ns issued (answers ++ [.found (.derived (D x))])
            exact ⟨xs, Nat.le_succ_of_le h1, h2⟩
        | cipher x => cases q with
          | zero => exact stop _
          | succ q =>
            obtain ⟨xs, h1, h2⟩ := ih o u q m w ns issued (answers ++ [.found (.cipher (c x))])
            refine ⟨x :: xs, Nat.succ_le_succ h1, fun c' h' H' hc hh hH => ?_⟩
            dsimp only
            rw [hc x List.mem_cons_self]
            exact h2 c' h' H' (fun y hy => hc y (List.mem_cons_of_mem _ hy)) hh hH
        | mac x y => cases m with
          | zero => exact stop _
          | succ m =>
            obtain ⟨xs, h1, h2⟩ := ih o u q m w ns issued (answers ++ [.found (.tag (f (x, y)))])
            exact ⟨xs, Nat.le_succ_of_le h1, h2⟩
      | hash y z t => cases q with
        | zero => exact stop _
        | succ q => cases w with
          | zero => exact stop _
          | succ w =>
            obtain ⟨xs, h1, h2⟩ := ih o u q m w ns issued (answers ++ [.hash (H y z t)])
            refine ⟨xs, Nat.le_succ_of_le h1, fun c' h' H' hc hh hH => ?_⟩
            dsimp only at hh hH ⊢
            rw [hH y z t List.mem_cons_self, h2 c' h' H' hc (fun y hy => hh y (List.mem_cons_of_mem _ hy))
              fun y z t hy => hH y z t (List.mem_cons_of_mem _ hy)]
      | keyHash x => cases q with
        | zero => exact stop _
        | succ q =>
          obtain ⟨xs, h1, h2⟩ := ih o u q m w ns issued (answers ++ [.keyHash (h x)])
          refine ⟨xs, Nat.le_succ_of_le h1, fun c' h' H' hc hh hH => ?_⟩
          dsimp only at hh hH ⊢
          rw [hh x List.mem_cons_self, h2 c' h' H' hc (fun y hy => hh y (List.mem_cons_of_mem _ hy))
            fun y z t hy => hH y z t (List.mem_cons_of_mem _ hy)]

/-- How much is hashed. -/
theorem asked_length (P : Prims) (keys : Fin r → BytesN 32) (D : Derivation v) (c : CipherOf v L) (f : Tags v)
    (h : KeyHash v) (H : Run v) (s : Side) (ask : List (PwGot v L) → Option (PwWish v r)) (k : Nat) :
    ∀ (n o u q m w : Nat) (rng : Rng) (issued : List Item) (answers : List (PwGot v L)),
      (pwInUse P keys D c f h H s ask k n o u q m w rng issued answers).2.length ≤ q ∧
      ((pwInUse P keys D c f h H s ask k n o u q m w rng issued answers).2.filterMap PwAsk.tried).length ≤ w := by
  induction k with
  | zero => intros; exact ⟨Nat.zero_le _, Nat.zero_le _⟩
  | succ k ih =>
    intro n o u q m w rng issued answers
    have stop : ∀ x : Res (List (PwGot v L)), (x, ([] : List (PwAsk v))).2.length ≤ q ∧
        ((x, ([] : List (PwAsk v))).2.filterMap PwAsk.tried).length ≤ w :=
      fun _ => ⟨Nat.zero_le _, Nat.zero_le _⟩
    simp only [pwInUse]
    cases ha : ask answers with
    | none => exact stop _
    | some a =>
      cases a with
      | attempt a => cases a with
        | hide i a => cases n with
          | zero => exact stop _
          | succ n =>
            dsimp only
            cases a.run P ⟨keys (i s)⟩ s rng with
            | err e => exact stop _
            | panic => exact stop _
            | ok z => exact ih _ _ _ _ _ _ _ _ _
        | look i a => cases o with
          | zero => exact stop _
          | succ o => exact ih _ _ _ _ _ _ _ _ _
        | derive z => cases u with
          | zero => exact stop _
          | succ u => exact ih _ _ _ _ _ _ _ _ _
        | cipher z => cases q with
          | zero => exact stop _
          | succ q =>
            obtain ⟨h1, h2⟩ := ih n o u q m w rng issued (answers ++ [.found (.cipher (c z))])
            exact ⟨Nat.le_succ_of_le h1, h2⟩
        | mac z w => cases m with
          | zero => exact stop _
          | succ m => exact ih _ _ _ _ _ _ _ _ _
      | hash y z t => cases q with
        | zero => exact stop _
        | succ q => cases w with
          | zero => exact stop _
          | succ w =>
            obtain ⟨h1, h2⟩ := ih n o u q m w rng issued (answers ++ [.hash (H y z t)])
            exact ⟨Nat.succ_le_succ h1, Nat.succ_le_succ h2⟩
      | keyHash z => cases q with
        | zero => exact stop _
        | succ q =>
          obtain ⟨h1, h2⟩ := ih n o u q m w rng issued (answers ++ [.keyHash (h z)])
          exact ⟨Nat.succ_le_succ h1, h2⟩

/-! ### Without the hashes -/

/-- Answers so far, and how often the password hash may be run. -/
abbrev Stand (v : Ver) (L : Nat) := List (PwGot v L) × Nat

/-- One more thing has been found out. -/
def step (h : KeyHash v) (H : Run v) (ask : List (PwGot v L) → Option (PwWish v r)) (st : Stand v L)
    (x : Found v L) : Stand v L :=
  match ask st.1, st.2 with
  | some (.attempt _), w => (st.1 ++ [.found x], w)
  | some (.hash y z t), w + 1 => (st.1 ++ [.hash (H y z t)], w)
  | some (.keyHash m), w => (st.1 ++ [.keyHash (h m)], w)
  | _, _ => st

/-- The answers from what has been found out. -/
def replay (w : Nat) (h : KeyHash v) (H : Run v) (ask : List (PwGot v L) → Option (PwWish v r))
    (xs : List (Found v L)) : Stand v L :=
  xs.foldl (step h H ask) ([], w)

theorem replay_snoc (w : Nat) (h : KeyHash v) (H : Run v) (ask : List (PwGot v L) → Option (PwWish v r))
    (xs : List (Found v L)) (x : Found v L) :
    replay w h H ask (xs ++ [x]) = step h H ask (replay w h H ask xs) x := by
  unfold replay
  rw [List.foldl_append]
  rfl

/-- An answer to a request of C101 has been found out when the request was to be made. -/
theorem replay_split (w : Nat) (h : KeyHash v) (H : Run v) (ask : List (PwGot v L) → Option (PwWish v r))
    {xs : List (Found v L)} {before after : List (PwGot v L)} {y : PwGot v L} {a : Attempt v r}
    (ha : ask before = some (.attempt a)) (hr : (replay w h H ask xs).1 = before ++ y :: after) :
    ∃ xs1 z xs2, xs = xs1 ++ z :: xs2 ∧ (replay w h H ask xs1).1 = before ∧ y = .found z := by
  induction xs using List.reverseRecOn generalizing after with
  | nil => cases before <;> cases hr
  | append_singleton xs x ih =>
    have more : ∀ {after : List (PwGot v L)}, (replay w h H ask xs).1 = before ++ y :: after →
        ∃ xs1 z xs2, xs ++ [x] = xs1 ++ z :: xs2 ∧ (replay w h H ask xs1).1 = before ∧ y = .found z :=
      fun h => by
        obtain ⟨xs1, z, xs2, e1, e2⟩ := ih h
        exact ⟨xs1, z, xs2 ++ [x], by rw [e1, List.append_assoc]; rfl, e2⟩
    have last : ∀ {g : PwGot v L}, (replay w h H ask xs).1 ++ [g] = before ++ y :: after →
        ((replay w h H ask xs).1 = before ∧ g = y) ∨
          ∃ after', (replay w h H ask xs).1 = before ++ y :: after' := by
      intro g hg
      rcases List.eq_nil_or_concat after with rfl | ⟨after', g', rfl⟩
      · obtain ⟨h1, h2⟩ := List.append_inj' hg rfl
        exact .inl ⟨h1, List.singleton_inj.1 h2⟩
      · rw [List.concat_eq_append, ← List.cons_append, ← List.append_assoc] at hg
        obtain ⟨h1, -⟩ := List.append_inj' hg rfl
        exact .inr ⟨after', h1⟩
    rw [replay_snoc] at hr
    generalize hst : replay w h H ask xs = st at hr last more
    obtain ⟨acc, pend⟩ := st
    dsimp only at last more
    unfold step at hr
    dsimp only at hr
    split at hr
    · rcases last hr with ⟨h1, h2⟩ | ⟨after', h1⟩
      · subst h1
        exact ⟨xs, _, [], rfl, by rw [hst], h2.symm⟩
      · exact more h1
    · rename_i hm
      rcases last hr with ⟨h1, h2⟩ | ⟨after', h1⟩
      · rw [h1, ha] at hm; cases hm
      · exact more h1
    · rename_i hm
      rcases last hr with ⟨h1, h2⟩ | ⟨after', h1⟩
      · rw [h1, ha] at hm; cases hm
      · exact more h1
    · exact more hr

/-- The next request of C101. -/
def next (ask : List (PwGot v L) → Option (PwWish v r)) (st : Stand v L) : Option (Attempt v r) :=
  match ask st.1, st.2 with
  | some (.attempt a), _ => some a
  | some (.hash ..), _ + 1 => some (.cipher Plug.k0)
  | some (.keyHash _), _ => some (.cipher Plug.k0)
  | _, _ => none

/-- First a tag, then the requests. -/
def withTag (w : Nat) (x y : Bytes) (textOf : BytesN (Spec.tagLen v) → Bytes) (h : KeyHash v) (H : Run v)
    (ask : Bytes → List (PwGot v L) → Option (PwWish v r)) : List (Found v L) → Option (Attempt v r)
  | [] => some (.mac x y)
  | .tag t :: xs => next (ask (textOf t)) (replay w h H (ask (textOf t)) xs)
  | _ => none

/-- Text and answers. -/
def seen (w : Nat) (textOf : BytesN (Spec.tagLen v) → Bytes) (h : KeyHash v) (H : Run v)
    (ask : Bytes → List (PwGot v L) → Option (PwWish v r)) : List (Found v L) → Bytes × List (PwGot v L)
  | .tag t :: xs => (textOf t, (replay w h H (ask (textOf t)) xs).1)
  | _ => ([], [])

theorem simulated (P : Prims) (c : CipherOf v L) (f : Tags v) (h : KeyHash v) (H : Run v) (s : Side) (w0 : Nat)
    (x y : Bytes) (textOf : BytesN (Spec.tagLen v) → Bytes)
    (ask : Bytes → List (PwGot v L) → Option (PwWish v r)) (D : Derivation v) (keys : Fin r → BytesN 32)
    (t : BytesN (Spec.tagLen v)) (k : Nat) :
    ∀ (n o u q m w : Nat) (rng : Rng) (issued : List Item) (xs : List (Found v L)) (acc : List (PwGot v L)),
      replay w0 h H (ask (textOf t)) xs = (acc, w) →
      ((pwInUse P keys D c f h H s (ask (textOf t)) k n o u q m w rng issued acc).1 >>=
          fun a => (.ok (textOf t, a) : Res (Bytes × List (PwGot v L)))) =
        (trying P keys D c f s (withTag w0 x y textOf h H ask) k n o u q m rng issued (.tag t :: xs) >>=
          fun ys => (.ok (seen w0 textOf h H ask ys) : Res (Bytes × List (PwGot v L)))) := by
  induction k with
  | zero =>
    intro n o u q m w rng issued xs acc hr
    show Res.ok (textOf t, acc) = Res.ok (textOf t, (replay w0 h H (ask (textOf t)) xs).1)
    rw [hr]
  | succ k ih =>
    intro n o u q m w rng issued xs acc hr
    have hend : (.ok (seen w0 textOf h H ask (.tag t :: xs)) : Res (Bytes × List (PwGot v L))) =
        .ok (textOf t, acc) := by
      show Res.ok (textOf t, (replay w0 h H (ask (textOf t)) xs).1) = _
      rw [hr]
    have hs : ∀ z, replay w0 h H (ask (textOf t)) (xs ++ [z]) = step h H (ask (textOf t)) (acc, w) z :=
      fun z => by rw [replay_snoc, hr]
    have hw : withTag w0 x y textOf h H ask (.tag t :: xs) = next (ask (textOf t)) (acc, w) := by
      show next _ (replay w0 h H (ask (textOf t)) xs) = _
      rw [hr]
    unfold next at hw
    unfold step at hs
    simp only [pwInUse]
    rw [trying, hw]
    cases ha : ask (textOf t) acc with
    | none => simp only; rw [Res.ok_bind, Res.ok_bind, hend]
    | some a =>
      simp only [ha] at hs
      cases a with
      | attempt a =>
        dsimp only at hs ⊢
        cases a with
        | hide i a =>
          cases n with
          | zero => dsimp only; rw [Res.ok_bind, Res.ok_bind, hend]
          | succ n =>
            dsimp only
            cases a.run P ⟨keys (i s)⟩ s rng with
            | err e => rfl
            | panic => rfl
            | ok z => exact ih _ _ _ _ _ _ _ _ _ _ (hs _)
        | look i a =>
          cases o with
          | zero => dsimp only; rw [Res.ok_bind, Res.ok_bind, hend]
          | succ o => exact ih _ _ _ _ _ _ _ _ _ _ (hs _)
        | derive z => cases u with
          | zero => dsimp only; rw [Res.ok_bind, Res.ok_bind, hend]
          | succ u => exact ih _ _ _ _ _ _ _ _ _ _ (hs _)
        | cipher z => cases q with
          | zero => dsimp only; rw [Res.ok_bind, Res.ok_bind, hend]
          | succ q => exact ih _ _ _ _ _ _ _ _ _ _ (hs _)
        | mac z w => cases m with
          | zero => dsimp only; rw [Res.ok_bind, Res.ok_bind, hend]
          | succ m => exact ih _ _ _ _ _ _ _ _ _ _ (hs _)
      | hash a b d => cases w with
        | zero => cases q <;> (dsimp only; rw [Res.ok_bind, Res.ok_bind, hend])
        | succ w => cases q with
          | zero => dsimp only; rw [Res.ok_bind, Res.ok_bind, hend]
          | succ q => exact ih _ _ _ _ _ _ _ _ _ _ (hs (.cipher (c Plug.k0)))
      | keyHash z => cases q with
        | zero => dsimp only; rw [Res.ok_bind, Res.ok_bind, hend]
        | succ q => exact ih _ _ _ _ _ _ _ _ _ _ (hs (.cipher (c Plug.k0)))

/-- Requests without hashes hide what the requests hide. -/
theorem withTag_hide {w : Nat} {x y : Bytes} {text : BytesN (Spec.tagLen v) → Bytes} {h : KeyHash v} {H : Run v}
    {ask : Bytes → List (PwGot v L) → Option (PwWish v r)} {answers : List (Found v L)}
    {i : Side → Fin r} {a : Hiding v} (ha : withTag w x y text h H ask answers = some (.hide i a)) :
    ∃ t answers, ask t answers = some (.attempt (.hide i a)) := by
  unfold withTag at ha
  split at ha
  · cases ha
  · unfold next at ha
    split at ha <;> cases ha
    exact ⟨_, _, by assumption⟩
  · cases ha

theorem withTag_look {w : Nat} {x y : Bytes} {text : BytesN (Spec.tagLen v) → Bytes} {h : KeyHash v} {H : Run v}
    {ask : Bytes → List (PwGot v L) → Option (PwWish v r)} {answers : List (Found v L)}
    {i : Fin r} {a : Opening v} (ha : withTag w x y text h H ask answers = some (.look i a)) :
    ∃ t answers, ask t answers = some (.attempt (.look i a)) := by
  unfold withTag at ha
  split at ha
  · cases ha
  · unfold next at ha
    split at ha <;> cases ha
    exact ⟨_, _, by assumption⟩
  · cases ha

theorem seen_key {keys : Fin r → BytesN 32} {w : Nat} {x y : Bytes} {text : BytesN (Spec.tagLen v) → Bytes}
    {h : KeyHash v} {H : Run v} {ask : Bytes → List (PwGot v L) → Option (PwWish v r)} {ys : List (Found v L)}
    (hm : PwKeyMet keys (ask (seen w text h H ask ys).1) (seen w text h H ask ys).2) :
    KeyFound keys (withTag w x y text h H ask) ys := by
  obtain ⟨before, after, e, i, h1, h2⟩ := hm
  unfold seen at h1 h2
  split at h1
  · rename_i t xs
    dsimp only at h2
    obtain ⟨xs1, z, xs2, e1, e2, e4⟩ := replay_split w h H (ask (text t)) h2 h1
    cases e4
    refine ⟨.tag t :: xs1, xs2, e, i, by rw [e1]; rfl, ?_⟩
    show next (ask (text t)) (replay w h H (ask (text t)) xs1) = _
    unfold next
    simp only [e2, h2]
  · cases before <;> cases h1

theorem seen_text {w : Nat} {x y : Bytes} {text : BytesN (Spec.tagLen v) → Bytes}
    {h : KeyHash v} {H : Run v} {ask : Bytes → List (PwGot v L) → Option (PwWish v r)} {ys : List (Found v L)}
    (hm : PwUnlocked (ask (seen w text h H ask ys).1) (seen w text h H ask ys).2) :
    TextOpened (withTag w x y text h H ask) ys := by
  obtain ⟨before, after, i, a, bytes, h1, h2⟩ := hm
  unfold seen at h1 h2
  split at h1
  · rename_i t xs
    dsimp only at h2
    obtain ⟨xs1, z, xs2, e1, e2, e4⟩ := replay_split w h H (ask (text t)) h2 h1
    cases e4
    refine ⟨.tag t :: xs1, xs2, i, a, bytes, by rw [e1]; rfl, ?_⟩
    show next (ask (text t)) (replay w h H (ask (text t)) xs1) = _
    unfold next
    simp only [e2, h2]
  · cases before <;> cases h1

/-- Nothing breaks the game off; how many answers there are. -/
theorem pwInUse_total (P : Prims) (hK : ∀ x, x ∈ K) (c : CipherOf v L) (f : Tags v) (h : KeyHash v) (H : Run v)
    (s : Side) (ask : List (PwGot v L) → Option (PwWish v r))
    (hask : ∀ answers i a, ask answers = some (.attempt (.hide i a)) → a.Comparable P L)
    (D : Derivation v) (keys : Fin r → BytesN 32) (k : Nat) :
    ∀ (o u q m w : Nat) (ns : List (BytesN 32)) (issued : List Item) (answers : List (PwGot v L)),
      k ≤ ns.length → k ≤ o → k ≤ u → k ≤ q → k ≤ m → k ≤ w →
      ∃ out, (pwInUse (C101.pr P K c f D) keys D c f h H s ask k ns.length o u q m w
          (ns.map Subtype.val).flatten issued answers).1 = .ok out ∧
        (out.length = answers.length + k ∨ out.length < answers.length + k ∧ ask out = none) := by
  induction k with
  | zero => intro o u q m w ns issued answers _ _ _ _ _ _; exact ⟨answers, rfl, .inl rfl⟩
  | succ k ih =>
    intro o u q m w ns issued answers hn ho hu hq hm hw
    have more : ∀ {y : PwGot v L} {x : Res (List (PwGot v L))},
        (∃ out, x = .ok out ∧ (out.length = (answers ++ [y]).length + k ∨
          out.length < (answers ++ [y]).length + k ∧ ask out = none)) →
        ∃ out, x = .ok out ∧ (out.length = answers.length + (k + 1) ∨
          out.length < answers.length + (k + 1) ∧ ask out = none) := by
      rintro y x ⟨out, h1, h2⟩
      refine ⟨out, h1, ?_⟩
      rw [List.length_append, List.length_singleton] at h2
      rcases h2 with h2 | ⟨h2, h3⟩
      · exact .inl (by omega)
      · exact .inr ⟨by omega, h3⟩
    simp only [pwInUse]
    obtain ⟨o, rfl⟩ : ∃ j, o = j + 1 := ⟨o - 1, by omega⟩
    obtain ⟨u, rfl⟩ : ∃ j, u = j + 1 := ⟨u - 1, by omega⟩
    obtain ⟨q, rfl⟩ : ∃ j, q = j + 1 := ⟨q - 1, by omega⟩
    obtain ⟨m, rfl⟩ : ∃ j, m = j + 1 := ⟨m - 1, by omega⟩
    obtain ⟨w, rfl⟩ : ∃ j, w = j + 1 := ⟨w - 1, by omega⟩
    cases ha : ask answers with
    | none => exact ⟨answers, rfl, .inr ⟨by omega, ha⟩⟩
    | some a =>
      cases a with
      | attempt a => cases a with
        | hide i a =>
          cases ns with
          | nil => cases hn
          | cons b ns =>
            obtain ⟨x, text, hx⟩ := hide_local P hK c f D (hask _ _ _ ha) s (keys (i s)) b
            have e0 := hx c rfl (ns.map Subtype.val).flatten
            have hn : k ≤ ns.length := Nat.le_of_succ_le_succ hn
            have h := more (ih (o + 1) (u + 1) (q + 1) (m + 1) (w + 1) ns (a.item text :: issued)
              (answers ++ [.found (.told (some (.ok text)))])
              hn (by omega) (by omega) (by omega) (by omega) (by omega))
            simp only [List.length_cons, List.map_cons, List.flatten_cons]
            rw [e0]
            exact h
        | look i a =>
          exact more (ih _ _ _ _ _ _ _ _ (by omega) (by omega) (by omega) (by omega) (by omega) (by omega))
        | derive y =>
          exact more (ih _ _ _ _ _ _ _ _ (by omega) (by omega) (by omega) (by omega) (by omega) (by omega))
        | cipher y =>
          exact more (ih _ _ _ _ _ _ _ _ (by omega) (by omega) (by omega) (by omega) (by omega) (by omega))
        | mac y z =>
          exact more (ih _ _ _ _ _ _ _ _ (by omega) (by omega) (by omega) (by omega) (by omega) (by omega))
      | hash y z t =>
        exact more (ih _ _ _ _ _ _ _ _ (by omega) (by omega) (by omega) (by omega) (by omega) (by omega))
      | keyHash y =>
        exact more (ih _ _ _ _ _ _ _ _ (by omega) (by omega) (by omega) (by omega) (by omega) (by omega))

end Pasta.C103
