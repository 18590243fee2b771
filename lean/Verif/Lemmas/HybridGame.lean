import Verif.Lemmas.Hybrid

/-!
# The game after a key has been sealed

For C102. What the game uses of hash and cipher; how it is played without the hash and without unsealing.
-/

namespace Pasta.C102

open Hybrid (hide_hash answer_hash hide_local answer_local)

variable {P : Prims} {v : Ver} {r L : Nat} {K : Finset (BytesN 32)}

/-- The primitives of the game. -/
def hp (P : Prims) (K : Finset (BytesN 32)) (c : CipherOf v L) (f : Tags v) (D : Derivation v)
    (g : SealHash v) : Prims :=
  (C101.pr P K c f D).withSealHash v g

/-- The game uses the cipher under few keys, and hash and unsealing for what is asked. -/
theorem few (P : Prims) (hK : ∀ x, x ∈ K) (c : CipherOf v L) (f : Tags v) (g : SealHash v)
    (U : Bytes → Option (Res Bytes)) (s : Side) (ask : List (Got v L) → Option (Wish v r))
    (hask : ∀ answers i a, ask answers = some (.attempt (.hide i a)) → a.Comparable P L)
    (D : Derivation v) (keys : Fin r → BytesN 32) (k : Nat) :
    ∀ (o u q m : Nat) (ns : List (BytesN 32)) (issued : List Item) (answers : List (Got v L)),
      ∃ xs : List (BytesN 32),
        xs.length + (hybrid (hp P K c f D g) keys D c f g U s ask k ns.length o u q m
          (ns.map Subtype.val).flatten issued answers).2.length ≤ k ∧
        ∀ (c' : CipherOf v L) (g' : SealHash v) (U' : Bytes → Option (Res Bytes)),
        (∀ x ∈ xs, c' x = c x) →
        (∀ y, .hash y ∈ (hybrid (hp P K c f D g) keys D c f g U s ask k ns.length o u q m
          (ns.map Subtype.val).flatten issued answers).2 → g' y = g y) →
        (∀ y, .unseal y ∈ (hybrid (hp P K c f D g) keys D c f g U s ask k ns.length o u q m
          (ns.map Subtype.val).flatten issued answers).2 → U' y = U y) →
        hybrid (hp P K c' f D g') keys D c' f g' U' s ask k ns.length o u q m (ns.map Subtype.val).flatten
            issued answers =
          hybrid (hp P K c f D g) keys D c f g U s ask k ns.length o u q m (ns.map Subtype.val).flatten
            issued answers := by
  induction k with
  | zero => intros; exact ⟨[], Nat.le_refl _, fun _ _ _ _ _ _ => rfl⟩
  | succ k ih =>
    intro o u q m ns issued answers
    have stop : ∀ x : Res (List (Got v L)),
        ∃ xs : List (BytesN 32), xs.length + (x, ([] : List (SealAsk v))).2.length ≤ k + 1 ∧
          ∀ (c' : CipherOf v L) (g' : SealHash v) (U' : Bytes → Option (Res Bytes)),
          (∀ x ∈ xs, c' x = c x) → (∀ y, .hash y ∈ (x, ([] : List (SealAsk v))).2 → g' y = g y) →
          (∀ y, .unseal y ∈ (x, ([] : List (SealAsk v))).2 → U' y = U y) →
          (x, ([] : List (SealAsk v))) = (x, ([] : List (SealAsk v))) :=
      fun _ => ⟨[], Nat.zero_le _, fun _ _ _ _ _ _ => rfl⟩
    simp only [hybrid]
    cases ha : ask answers with
    | none => exact stop _
    | some a =>
      cases a with
      | attempt a => cases a with
        | hide i a =>
          cases ns with
          | nil => exact stop _
          | cons b ns =>
            obtain ⟨x, text, hx⟩ := hide_local P hK c f D (hask _ _ _ ha) s (keys (i s)) b
            obtain ⟨xs, h1, h2⟩ := ih o u q m ns (a.item text :: issued)
              (answers ++ [.found (.told (some (.ok text)))])
            have e0 := (hide_hash g a (keys (i s)) s _).trans (hx c rfl (ns.map Subtype.val).flatten)
            refine ⟨x :: xs, ?_, fun c' g' U' hc hg hU => ?_⟩
            · simp only [List.length_cons, List.map_cons, List.flatten_cons]
              unfold hp at h1 ⊢
              rw [e0]
              dsimp only
              omega
            · have e1 := (hide_hash g' a (keys (i s)) s _).trans
                (hx c' (hc x List.mem_cons_self) (ns.map Subtype.val).flatten)
              simp only [List.length_cons, List.map_cons, List.flatten_cons] at hg hU ⊢
              unfold hp at hg hU ⊢
              rw [e0] at hg hU
              rw [e0, e1]
              exact h2 c' g' U' (fun y hy => hc y (List.mem_cons_of_mem _ hy)) hg hU
        | look i a =>
          cases o with
          | zero => exact stop _
          | succ o =>
            obtain ⟨x, hl, hx⟩ := answer_local (K := K) P c f D a (keys i) issued
            obtain ⟨xs, h1, h2⟩ := ih o u q m ns issued
              (answers ++ [.found (.told (a.answer (hp P K c f D g) (keys i) issued))])
            refine ⟨x ++ xs, by rw [List.length_append]; dsimp only; omega, fun c' g' U' hc hg hU => ?_⟩
            have e : a.answer (hp P K c' f D g') (keys i) issued =
                a.answer (hp P K c f D g) (keys i) issued := by
              unfold hp
              rw [answer_hash, answer_hash, hx c' fun y hy => hc y (List.mem_append_left _ hy)]
            dsimp only
            rw [e]
            exact h2 c' g' U' (fun y hy => hc y (List.mem_append_right _ hy)) hg hU
        | derive x => cases u with
          | zero => exact stop _
          | succ u =>
            obtain ⟨xs, h1, h2⟩ := ih o u q m ns issued (answers ++ [.found (.derived (D x))])
            exact ⟨xs, Nat.le_succ_of_le h1, h2⟩
        | cipher x => cases q with
          | zero => exact stop _
          | succ q =>
            obtain ⟨xs, h1, h2⟩ := ih o u q m ns issued (answers ++ [.found (.cipher (c x))])
            refine ⟨x :: xs, by rw [List.length_cons]; dsimp only; omega, fun c' g' U' hc hg hU => ?_⟩
            dsimp only
            rw [hc x List.mem_cons_self]
            exact h2 c' g' U' (fun y hy => hc y (List.mem_cons_of_mem _ hy)) hg hU
        | mac x y => cases m with
          | zero => exact stop _
          | succ m =>
            obtain ⟨xs, h1, h2⟩ := ih o u q m ns issued (answers ++ [.found (.tag (f (x, y)))])
            exact ⟨xs, Nat.le_succ_of_le h1, h2⟩
      | hash x => cases q with
        | zero => exact stop _
        | succ q =>
          obtain ⟨xs, h1, h2⟩ := ih o u q m ns issued (answers ++ [.hash (g x)])
          refine ⟨xs, by dsimp only; rw [List.length_cons]; omega, fun c' g' U' hc hg hU => ?_⟩
          dsimp only at hg hU ⊢
          rw [hg x List.mem_cons_self, h2 c' g' U' hc (fun y hy => hg y (List.mem_cons_of_mem _ hy))
            fun y hy => hU y (List.mem_cons_of_mem _ hy)]
      | «unseal» x => cases q with
        | zero => exact stop _
        | succ q => cases m with
          | zero => exact stop _
          | succ m =>
            obtain ⟨xs, h1, h2⟩ := ih o u q m ns issued (answers ++ [.unsealed (U x)])
            refine ⟨xs, by dsimp only; rw [List.length_cons]; omega, fun c' g' U' hc hg hU => ?_⟩
            dsimp only at hg hU ⊢
            rw [hU x List.mem_cons_self, h2 c' g' U' hc (fun y hy => hg y (List.mem_cons_of_mem _ hy))
              fun y hy => hU y (List.mem_cons_of_mem _ hy)]

/-! ### Without hash and unsealing -/

/-- How a text is unsealed with one tag and the cipher under one key: which tag, which key, and the result. -/
structure Way (v : Ver) (L : Nat) where
  mac : Bytes → Bytes × Bytes
  key : Bytes → BytesN 32
  res : Bytes → Bytes → BytesN (Spec.tagLen v) → OneCipher v L → Option (Res Bytes)

/-- What is unsealed in that way, when the given text is the one the game is about. -/
def Way.run (W : Way v L) (f : Tags v) (c : CipherOf v L) (text s : Bytes) : Option (Res Bytes) :=
  W.res text s (f (W.mac s)) (c (W.key s))

/-- Answers so far, and the tag that has been computed for the next one. -/
abbrev Stand (v : Ver) (L : Nat) := List (Got v L) × Option (BytesN (Spec.tagLen v))

/-- One more thing has been found out. -/
def step (W : Way v L) (k0 : Nat) (g : SealHash v) (text : Bytes)
    (ask : List (Got v L) → Option (Wish v r)) (st : Stand v L) (x : Found v L) : Stand v L :=
  if k0 ≤ st.1.length then st else
    match st.2, ask st.1, x with
    | none, some (.attempt _), x => (st.1 ++ [.found x], none)
    | none, some (.hash m), _ => (st.1 ++ [.hash (g m)], none)
    | none, some (.unseal _), .tag t => (st.1, some t)
    | some t, some (.unseal s), .cipher c => (st.1 ++ [.unsealed (W.res text s t c)], none)
    | _, _, _ => st

/-- The answers from what has been found out. -/
def replay (W : Way v L) (k0 : Nat) (g : SealHash v) (text : Bytes)
    (ask : List (Got v L) → Option (Wish v r)) (xs : List (Found v L)) : Stand v L :=
  xs.foldl (step W k0 g text ask) ([], none)

theorem replay_snoc (W : Way v L) (k0 : Nat) (g : SealHash v) (text : Bytes)
    (ask : List (Got v L) → Option (Wish v r)) (xs : List (Found v L)) (x : Found v L) :
    replay W k0 g text ask (xs ++ [x]) = step W k0 g text ask (replay W k0 g text ask xs) x := by
  unfold replay
  rw [List.foldl_append]
  rfl

/-- An answer to a request of C101 has been found out when the request was to be made. -/
theorem replay_split (W : Way v L) (k0 : Nat) (g : SealHash v) (text : Bytes)
    (ask : List (Got v L) → Option (Wish v r)) {xs : List (Found v L)} {before after : List (Got v L)}
    {y : Got v L} {a : Attempt v r} (ha : ask before = some (.attempt a))
    (h : (replay W k0 g text ask xs).1 = before ++ y :: after) :
    ∃ xs1 z xs2, xs = xs1 ++ z :: xs2 ∧ replay W k0 g text ask xs1 = (before, none) ∧
      before.length < k0 ∧ y = .found z := by
  induction xs using List.reverseRecOn generalizing after with
  | nil => cases before <;> cases h
  | append_singleton xs x ih =>
    have more : ∀ {after : List (Got v L)}, (replay W k0 g text ask xs).1 = before ++ y :: after →
        ∃ xs1 z xs2, xs ++ [x] = xs1 ++ z :: xs2 ∧ replay W k0 g text ask xs1 = (before, none) ∧
          before.length < k0 ∧ y = .found z := fun h => by
      obtain ⟨xs1, z, xs2, e1, e2⟩ := ih h
      exact ⟨xs1, z, xs2 ++ [x], by rw [e1, List.append_assoc]; rfl, e2⟩
    have last : ∀ {w : Got v L}, (replay W k0 g text ask xs).1 ++ [w] = before ++ y :: after →
        ((replay W k0 g text ask xs).1 = before ∧ w = y) ∨
          ∃ after', (replay W k0 g text ask xs).1 = before ++ y :: after' := by
      intro w hw
      rcases List.eq_nil_or_concat after with rfl | ⟨after', w', rfl⟩
      · obtain ⟨h1, h2⟩ := List.append_inj' hw rfl
        exact .inl ⟨h1, List.singleton_inj.1 h2⟩
      · rw [List.concat_eq_append, ← List.cons_append, ← List.append_assoc] at hw
        obtain ⟨h1, -⟩ := List.append_inj' hw rfl
        exact .inr ⟨after', h1⟩
    rw [replay_snoc] at h
    generalize hst : replay W k0 g text ask xs = st at h last more
    obtain ⟨acc, pend⟩ := st
    dsimp only at last more
    unfold step at h
    dsimp only at h
    split at h
    · exact more h
    rename_i hk
    split at h
    · rename_i b
      rcases last h with ⟨h1, h2⟩ | ⟨after', h1⟩
      · subst h1
        exact ⟨xs, _, [], rfl, hst, Nat.lt_of_not_le hk, h2.symm⟩
      · exact more h1
    · rename_i hm
      rcases last h with ⟨h1, h2⟩ | ⟨after', h1⟩
      · rw [h1, ha] at hm; cases hm
      · exact more h1
    · exact more h
    · rename_i hm
      rcases last h with ⟨h1, h2⟩ | ⟨after', h1⟩
      · rw [h1, ha] at hm; cases hm
      · exact more h1
    · exact more h

/-- The next request of C101. -/
def next (W : Way v L) (k0 : Nat) (ask : List (Got v L) → Option (Wish v r)) (st : Stand v L) :
    Option (Attempt v r) :=
  if k0 ≤ st.1.length then none else
    match st.2, ask st.1 with
    | none, some (.attempt a) => some a
    | none, some (.hash _) => some (.cipher Plug.k0)
    | none, some (.unseal s) => some (.mac (W.mac s).1 (W.mac s).2)
    | some _, some (.unseal s) => some (.cipher (W.key s))
    | _, _ => none

/-- First a tag, then the requests. -/
def withTag (W : Way v L) (k0 : Nat) (x y : Bytes) (textOf : BytesN (Spec.tagLen v) → Bytes) (g : SealHash v)
    (ask : Bytes → List (Got v L) → Option (Wish v r)) : List (Found v L) → Option (Attempt v r)
  | [] => some (.mac x y)
  | .tag t :: xs => next W k0 (ask (textOf t)) (replay W k0 g (textOf t) (ask (textOf t)) xs)
  | _ => none

/-- Text and answers. -/
def seen (W : Way v L) (k0 : Nat) (textOf : BytesN (Spec.tagLen v) → Bytes) (g : SealHash v)
    (ask : Bytes → List (Got v L) → Option (Wish v r)) : List (Found v L) → Bytes × List (Got v L)
  | .tag t :: xs => (textOf t, (replay W k0 g (textOf t) (ask (textOf t)) xs).1)
  | _ => ([], [])

theorem simulated (P : Prims) (c : CipherOf v L) (f : Tags v) (g : SealHash v) (s : Side) (W : Way v L)
    (k0 : Nat) (x y : Bytes) (textOf : BytesN (Spec.tagLen v) → Bytes)
    (ask : Bytes → List (Got v L) → Option (Wish v r)) (D : Derivation v) (keys : Fin r → BytesN 32)
    (t : BytesN (Spec.tagLen v)) (k : Nat) :
    ∀ (j n o u q m : Nat) (rng : Rng) (issued : List Item) (xs : List (Found v L)) (acc : List (Got v L)),
      replay W k0 g (textOf t) (ask (textOf t)) xs = (acc, none) → acc.length + k = k0 → 2 * k ≤ j →
      ((hybrid (P.withSealHash v g) keys D c f g (W.run f c (textOf t)) s (ask (textOf t)) k n o u q m rng issued
          acc).1 >>= fun a => (.ok (textOf t, a) : Res (Bytes × List (Got v L)))) =
        (trying P keys D c f s (withTag W k0 x y textOf g ask) j n o u q m rng issued (.tag t :: xs) >>=
          fun ys => (.ok (seen W k0 textOf g ask ys) : Res (Bytes × List (Got v L)))) := by
  induction k with
  | zero =>
    intro j n o u q m rng issued xs acc hr hl _
    have hstop : trying P keys D c f s (withTag W k0 x y textOf g ask) j n o u q m rng issued (.tag t :: xs) =
        .ok (.tag t :: xs) := by
      cases j with
      | zero => rfl
      | succ j =>
        have hw : withTag W k0 x y textOf g ask (.tag t :: xs) = none := by
          show next W k0 _ (replay W k0 g (textOf t) (ask (textOf t)) xs) = none
          rw [hr]
          unfold next
          rw [if_pos (by dsimp only; omega)]
        rw [trying, hw]
    rw [hstop, Res.ok_bind]
    show Res.ok (textOf t, acc) = Res.ok (textOf t, (replay W k0 g (textOf t) (ask (textOf t)) xs).1)
    rw [hr]
  | succ k ih =>
    intro j n o u q m rng issued xs acc hr hl hj
    obtain ⟨j, rfl⟩ : ∃ i, j = i + 2 := ⟨j - 2, by omega⟩
    have hlt : ¬ k0 ≤ acc.length := by omega
    have hend : ∀ zs, (replay W k0 g (textOf t) (ask (textOf t)) zs).1 = acc →
        (.ok (seen W k0 textOf g ask (.tag t :: zs)) : Res (Bytes × List (Got v L))) = .ok (textOf t, acc) := by
      intro zs h
      show Res.ok (textOf t, (replay W k0 g (textOf t) (ask (textOf t)) zs).1) = _
      rw [h]
    have hend0 := hend xs (by rw [hr])
    have hs : ∀ z, replay W k0 g (textOf t) (ask (textOf t)) (xs ++ [z]) =
        step W k0 g (textOf t) (ask (textOf t)) (acc, none) z := fun z => by rw [replay_snoc, hr]
    have hw : withTag W k0 x y textOf g ask (.tag t :: xs) = next W k0 (ask (textOf t)) (acc, none) := by
      show next W k0 _ (replay W k0 g (textOf t) (ask (textOf t)) xs) = _
      rw [hr]
    unfold next at hw
    unfold step at hs
    simp only [if_neg hlt] at hw hs
    simp only [hybrid]
    rw [trying, hw]
    cases ha : ask (textOf t) acc with
    | none => dsimp only; rw [Res.ok_bind, Res.ok_bind, hend0]
    | some a =>
      simp only [ha] at hs
      have hlen : ∀ z : Got v L, (acc ++ [z]).length + k = k0 := fun z => by
        rw [List.length_append, List.length_singleton]; omega
      cases a with
      | attempt a =>
        dsimp only at hs ⊢
        cases a with
        | hide i a =>
          cases n with
          | zero => dsimp only; rw [Res.ok_bind, Res.ok_bind, hend0]
          | succ n =>
            simp only [hide_hash]
            cases a.run P ⟨keys (i s)⟩ s rng with
            | err e => rfl
            | panic => rfl
            | ok z => exact ih (j + 1) _ _ _ _ _ _ _ _ _ (hs _) (hlen _) (by omega)
        | look i a =>
          cases o with
          | zero => dsimp only; rw [Res.ok_bind, Res.ok_bind, hend0]
          | succ o =>
            simp only [answer_hash]
            exact ih (j + 1) _ _ _ _ _ _ _ _ _ (hs _) (hlen _) (by omega)
        | derive z => cases u with
          | zero => dsimp only; rw [Res.ok_bind, Res.ok_bind, hend0]
          | succ u => exact ih (j + 1) _ _ _ _ _ _ _ _ _ (hs _) (hlen _) (by omega)
        | cipher z => cases q with
          | zero => dsimp only; rw [Res.ok_bind, Res.ok_bind, hend0]
          | succ q => exact ih (j + 1) _ _ _ _ _ _ _ _ _ (hs _) (hlen _) (by omega)
        | mac z w => cases m with
          | zero => dsimp only; rw [Res.ok_bind, Res.ok_bind, hend0]
          | succ m => exact ih (j + 1) _ _ _ _ _ _ _ _ _ (hs _) (hlen _) (by omega)
      | hash z => cases q with
        | zero => dsimp only; rw [Res.ok_bind, Res.ok_bind, hend0]
        | succ q => exact ih (j + 1) _ _ _ _ _ _ _ _ _ (hs (.cipher (c Plug.k0))) (hlen _) (by omega)
      | «unseal» z =>
        cases m with
        | zero => cases q <;> (dsimp only; rw [Res.ok_bind, Res.ok_bind, hend0])
        | succ m =>
          have h1 := hs (.tag (f (W.mac z)))
          dsimp only at h1
          have h2 : withTag W k0 x y textOf g ask (.tag t :: (xs ++ [.tag (f (W.mac z))])) =
              some (.cipher (W.key z)) := by
            show next W k0 _ (replay W k0 g (textOf t) (ask (textOf t)) (xs ++ [.tag (f (W.mac z))])) = _
            rw [h1]
            unfold next
            simp only [if_neg hlt, ha]
          dsimp only
          rw [List.cons_append, show ((W.mac z).1, (W.mac z).2) = W.mac z from rfl, trying, h2]
          cases q with
          | zero =>
            dsimp only
            rw [Res.ok_bind, Res.ok_bind]
            exact (hend (xs ++ [.tag (f (W.mac z))]) (by rw [h1])).symm
          | succ q =>
            have h3 : replay W k0 g (textOf t) (ask (textOf t))
                (xs ++ [.tag (f (W.mac z))] ++ [.cipher (c (W.key z))]) =
                (acc ++ [.unsealed (W.run f c (textOf t) z)], none) := by
              rw [replay_snoc, h1]
              unfold step
              simp only [if_neg hlt, ha]
              rfl
            exact ih j _ _ _ _ _ _ _ _ _ h3 (hlen _) (by omega)

/-- Requests without hashes hide what the requests hide. -/
theorem withTag_hide {W : Way v L} {k0 : Nat} {x y : Bytes} {text : BytesN (Spec.tagLen v) → Bytes}
    {g : SealHash v} {ask : Bytes → List (Got v L) → Option (Wish v r)} {answers : List (Found v L)}
    {i : Side → Fin r} {a : Hiding v} (h : withTag W k0 x y text g ask answers = some (.hide i a)) :
    ∃ t answers, ask t answers = some (.attempt (.hide i a)) := by
  unfold withTag at h
  split at h
  · cases h
  · unfold next at h
    split at h
    · cases h
    split at h <;> cases h
    exact ⟨_, _, by assumption⟩
  · cases h

theorem withTag_look {W : Way v L} {k0 : Nat} {x y : Bytes} {text : BytesN (Spec.tagLen v) → Bytes}
    {g : SealHash v} {ask : Bytes → List (Got v L) → Option (Wish v r)} {answers : List (Found v L)}
    {i : Fin r} {a : Opening v} (h : withTag W k0 x y text g ask answers = some (.look i a)) :
    ∃ t answers, ask t answers = some (.attempt (.look i a)) := by
  unfold withTag at h
  split at h
  · cases h
  · unfold next at h
    split at h
    · cases h
    split at h <;> cases h
    exact ⟨_, _, by assumption⟩
  · cases h

theorem seen_key {keys : Fin r → BytesN 32} {W : Way v L} {k0 : Nat} {x y : Bytes}
    {text : BytesN (Spec.tagLen v) → Bytes} {g : SealHash v}
    {ask : Bytes → List (Got v L) → Option (Wish v r)} {ys : List (Found v L)}
    (h : KeyMet keys (ask (seen W k0 text g ask ys).1) (seen W k0 text g ask ys).2) :
    KeyFound keys (withTag W k0 x y text g ask) ys := by
  obtain ⟨before, after, e, i, h1, h2⟩ := h
  unfold seen at h1 h2
  split at h1
  · rename_i t xs
    dsimp only at h2
    obtain ⟨xs1, z, xs2, e1, e2, e3, e4⟩ := replay_split W k0 g (text t) (ask (text t)) h2 h1
    cases e4
    refine ⟨.tag t :: xs1, xs2, e, i, by rw [e1]; rfl, ?_⟩
    show next W k0 (ask (text t)) (replay W k0 g (text t) (ask (text t)) xs1) = _
    rw [e2]
    unfold next
    simp only [if_neg (Nat.not_le_of_lt e3), h2]
  · cases before <;> cases h1

theorem seen_text {W : Way v L} {k0 : Nat} {x y : Bytes} {text : BytesN (Spec.tagLen v) → Bytes}
    {g : SealHash v} {ask : Bytes → List (Got v L) → Option (Wish v r)} {ys : List (Found v L)}
    (h : Unlocked (ask (seen W k0 text g ask ys).1) (seen W k0 text g ask ys).2) :
    TextOpened (withTag W k0 x y text g ask) ys := by
  obtain ⟨before, after, i, a, bytes, h1, h2⟩ := h
  unfold seen at h1 h2
  split at h1
  · rename_i t xs
    dsimp only at h2
    obtain ⟨xs1, z, xs2, e1, e2, e3, e4⟩ := replay_split W k0 g (text t) (ask (text t)) h2 h1
    cases e4
    refine ⟨.tag t :: xs1, xs2, i, a, bytes, by rw [e1]; rfl, ?_⟩
    show next W k0 (ask (text t)) (replay W k0 g (text t) (ask (text t)) xs1) = _
    rw [e2]
    unfold next
    simp only [if_neg (Nat.not_le_of_lt e3), h2]
  · cases before <;> cases h1

/-! ### Asking for nothing to be unsealed; how much is asked -/

/-- Only what is asked for is unsealed. -/
theorem asked_unseal (P : Prims) (keys : Fin r → BytesN 32) (D : Derivation v) (c : CipherOf v L) (f : Tags v)
    (g : SealHash v) (U U' : Bytes → Option (Res Bytes)) (s : Side) (ask : List (Got v L) → Option (Wish v r))
    (hask : ∀ answers y, ask answers ≠ some (.unseal y)) (k : Nat) :
    ∀ (n o u q m : Nat) (rng : Rng) (issued : List Item) (answers : List (Got v L)),
      hybrid P keys D c f g U s ask k n o u q m rng issued answers =
          hybrid P keys D c f g U' s ask k n o u q m rng issued answers ∧
        (hybrid P keys D c f g U s ask k n o u q m rng issued answers).2.length ≤ q ∧
        ∀ y, SealAsk.unseal y ∉ (hybrid P keys D c f g U s ask k n o u q m rng issued answers).2 := by
  induction k with
  | zero => intros; exact ⟨rfl, Nat.zero_le _, fun _ h => by cases h⟩
  | succ k ih =>
    intro n o u q m rng issued answers
    have stop : ∀ x : Res (List (Got v L)), (x, ([] : List (SealAsk v))) = (x, []) ∧
        (x, ([] : List (SealAsk v))).2.length ≤ q ∧ ∀ y, SealAsk.unseal y ∉ (x, ([] : List (SealAsk v))).2 :=
      fun _ => ⟨rfl, Nat.zero_le _, fun _ h => by cases h⟩
    simp only [hybrid]
    cases ha : ask answers with
    | none => exact stop _
    | some a =>
      cases a with
      | attempt a => cases a with
        | hide i a => cases n with
          | zero => exact stop _
          | succ n =>
            dsimp only
            cases a.run P ⟨keys (i s)⟩ s rng with
            | err e => exact stop _
            | panic => exact stop _
            | ok z => exact ih _ _ _ _ _ _ _ _
        | look i a => cases o with
          | zero => exact stop _
          | succ o => exact ih _ _ _ _ _ _ _ _
        | derive z => cases u with
          | zero => exact stop _
          | succ u => exact ih _ _ _ _ _ _ _ _
        | cipher z => cases q with
          | zero => exact stop _
          | succ q =>
            obtain ⟨h1, h2, h3⟩ := ih n o u q m rng issued (answers ++ [.found (.cipher (c z))])
            exact ⟨h1, Nat.le_succ_of_le h2, h3⟩
        | mac z w => cases m with
          | zero => exact stop _
          | succ m => exact ih _ _ _ _ _ _ _ _
      | hash z => cases q with
        | zero => exact stop _
        | succ q =>
          obtain ⟨h1, h2, h3⟩ := ih n o u q m rng issued (answers ++ [.hash (g z)])
          dsimp only
          refine ⟨by rw [h1], Nat.succ_le_succ h2, fun y hy => ?_⟩
          rcases List.mem_cons.1 hy with hy | hy
          · cases hy
          · exact h3 y hy
      | «unseal» z => exact absurd ha (hask _ _)

/-- How much is hashed or unsealed. -/
theorem asked_length (P : Prims) (keys : Fin r → BytesN 32) (D : Derivation v) (c : CipherOf v L) (f : Tags v)
    (g : SealHash v) (U : Bytes → Option (Res Bytes)) (s : Side) (ask : List (Got v L) → Option (Wish v r))
    (k : Nat) : ∀ (n o u q m : Nat) (rng : Rng) (issued : List Item) (answers : List (Got v L)),
      (hybrid P keys D c f g U s ask k n o u q m rng issued answers).2.length ≤ q := by
  induction k with
  | zero => intros; exact Nat.zero_le _
  | succ k ih =>
    intro n o u q m rng issued answers
    simp only [hybrid]
    cases ha : ask answers with
    | none => exact Nat.zero_le _
    | some a =>
      cases a with
      | attempt a => cases a with
        | hide i a => cases n with
          | zero => exact Nat.zero_le _
          | succ n =>
            dsimp only
            cases a.run P ⟨keys (i s)⟩ s rng with
            | err e => exact Nat.zero_le _
            | panic => exact Nat.zero_le _
            | ok z => exact ih _ _ _ _ _ _ _ _
        | look i a => cases o with
          | zero => exact Nat.zero_le _
          | succ o => exact ih _ _ _ _ _ _ _ _
        | derive z => cases u with
          | zero => exact Nat.zero_le _
          | succ u => exact ih _ _ _ _ _ _ _ _
        | cipher z => cases q with
          | zero => exact Nat.zero_le _
          | succ q => exact Nat.le_succ_of_le (ih _ _ _ _ _ _ _ _)
        | mac z w => cases m with
          | zero => exact Nat.zero_le _
          | succ m => exact ih _ _ _ _ _ _ _ _
      | hash z => cases q with
        | zero => exact Nat.zero_le _
        | succ q => exact Nat.succ_le_succ (ih _ _ _ _ _ _ _ _)
      | «unseal» z => cases q with
        | zero => exact Nat.zero_le _
        | succ q => cases m with
          | zero => exact Nat.zero_le _
          | succ m => exact Nat.succ_le_succ (ih _ _ _ _ _ _ _ _)

/-- Nothing breaks the game off; how many answers there are. -/
theorem hybrid_total (P : Prims) (hK : ∀ x, x ∈ K) (c : CipherOf v L) (f : Tags v) (g : SealHash v)
    (U : Bytes → Option (Res Bytes)) (s : Side) (ask : List (Got v L) → Option (Wish v r))
    (hask : ∀ answers i a, ask answers = some (.attempt (.hide i a)) → a.Comparable P L)
    (D : Derivation v) (keys : Fin r → BytesN 32) (k : Nat) :
    ∀ (o u q m : Nat) (ns : List (BytesN 32)) (issued : List Item) (answers : List (Got v L)),
      k ≤ ns.length → k ≤ o → k ≤ u → k ≤ q → k ≤ m →
      ∃ out, (hybrid (hp P K c f D g) keys D c f g U s ask k ns.length o u q m (ns.map Subtype.val).flatten
          issued answers).1 = .ok out ∧
        (out.length = answers.length + k ∨ out.length < answers.length + k ∧ ask out = none) := by
  induction k with
  | zero => intro o u q m ns issued answers _ _ _ _ _; exact ⟨answers, rfl, .inl rfl⟩
  | succ k ih =>
    intro o u q m ns issued answers hn ho hu hq hm
    have more : ∀ {y : Got v L} {x : Res (List (Got v L))},
        (∃ out, x = .ok out ∧ (out.length = (answers ++ [y]).length + k ∨
          out.length < (answers ++ [y]).length + k ∧ ask out = none)) →
        ∃ out, x = .ok out ∧ (out.length = answers.length + (k + 1) ∨
          out.length < answers.length + (k + 1) ∧ ask out = none) := by
      rintro y x ⟨out, h1, h2⟩
      refine ⟨out, h1, ?_⟩
      rw [List.length_append, List.length_singleton] at h2
      rcases h2 with h2 | ⟨h2, h3⟩
      · exact .inl (by omega)
      · exact .inr ⟨by omega, h3⟩
    simp only [hybrid]
    cases ha : ask answers with
    | none => exact ⟨answers, rfl, .inr ⟨by omega, ha⟩⟩
    | some a =>
      cases a with
      | attempt a => cases a with
        | hide i a =>
          cases ns with
          | nil => cases hn
          | cons b ns =>
            obtain ⟨x, text, hx⟩ := hide_local P hK c f D (hask _ _ _ ha) s (keys (i s)) b
            have e0 := (hide_hash g a (keys (i s)) s _).trans (hx c rfl (ns.map Subtype.val).flatten)
            have hn : k ≤ ns.length := Nat.le_of_succ_le_succ hn
            have h := more (ih o u q m ns (a.item text :: issued) (answers ++ [.found (.told (some (.ok text)))])
              hn (by omega) (by omega) (by omega) (by omega))
            simp only [List.length_cons, List.map_cons, List.flatten_cons]
            unfold hp at h ⊢
            rw [e0]
            exact h
        | look i a =>
          obtain ⟨o, rfl⟩ : ∃ j, o = j + 1 := ⟨o - 1, by omega⟩
          exact more (ih _ _ _ _ _ _ _ (by omega) (by omega) (by omega) (by omega) (by omega))
        | derive y =>
          obtain ⟨u, rfl⟩ : ∃ j, u = j + 1 := ⟨u - 1, by omega⟩
          exact more (ih _ _ _ _ _ _ _ (by omega) (by omega) (by omega) (by omega) (by omega))
        | cipher y =>
          obtain ⟨q, rfl⟩ : ∃ j, q = j + 1 := ⟨q - 1, by omega⟩
          exact more (ih _ _ _ _ _ _ _ (by omega) (by omega) (by omega) (by omega) (by omega))
        | mac y z =>
          obtain ⟨m, rfl⟩ : ∃ j, m = j + 1 := ⟨m - 1, by omega⟩
          exact more (ih _ _ _ _ _ _ _ (by omega) (by omega) (by omega) (by omega) (by omega))
      | hash y =>
        obtain ⟨q, rfl⟩ : ∃ j, q = j + 1 := ⟨q - 1, by omega⟩
        exact more (ih _ _ _ _ _ _ _ (by omega) (by omega) (by omega) (by omega) (by omega))
      | «unseal» y =>
        obtain ⟨q, rfl⟩ : ∃ j, q = j + 1 := ⟨q - 1, by omega⟩
        obtain ⟨m, rfl⟩ : ∃ j, m = j + 1 := ⟨m - 1, by omega⟩
        exact more (ih _ _ _ _ _ _ _ (by omega) (by omega) (by omega) (by omega) (by omega))

end Pasta.C102
