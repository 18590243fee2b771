import Verif.Spec.ForgingMany
import Verif.Props.Forging

/-!
# C95: with many keys in use, nothing can be forged under any of them

With a random MAC. Neither the number of keys nor knowing other keys plays a part.
-/

namespace Pasta.C95

open C81 (Parts keyOf)

variable {P : Prims} {v : Ver} {K : Set (BytesN 32)}

theorem prefix_of (P : Prims) (ask : List (Res Bytes) → Option (AskedOf v)) :
    ∀ (n q : Nat) (log : ServedOf v), ∃ rest, forgingMany P ask n q log = log ++ rest := by
  intro n
  induction n with
  | zero => intro q log; exact ⟨[], by simp [forgingMany]⟩
  | succ n ih =>
    intro q log
    unfold forgingMany
    cases ask (log.map Prod.snd) with
    | none => exact ⟨[], by simp⟩
    | some a =>
      dsimp only
      split
      · cases q with
        | zero => exact ⟨[], by simp⟩
        | succ q =>
          obtain ⟨rest, h⟩ := ih q (log ++ [(a, a.run P)])
          exact ⟨(a, a.run P) :: rest, by simp [h]⟩
      · obtain ⟨rest, h⟩ := ih q (log ++ [(a, a.run P)])
        exact ⟨(a, a.run P) :: rest, by simp [h]⟩

/-- A text is accepted that was not issued before under a related key, after the first `k` requests. -/
def BadFrom (rel : BytesN 32 → BytesN 32 → Prop) (P : Prims) (k : Nat) (out : ServedOf v) : Prop :=
  ∃ before a answer after key item, out = before ++ (a, answer) :: after ∧ k ≤ before.length ∧
    a.Accepted P key item ∧ ∀ k', rel k' key → (k', item) ∉ ServedOf.items before

variable {rel : BytesN 32 → BytesN 32 → Prop}

theorem badFrom_step {log rest out : ServedOf v} {a : AskedOf v} {r : Res Bytes}
    (ho : out = (log ++ [(a, r)]) ++ rest) (h : BadFrom rel P log.length out) :
    (∃ key item, a.Accepted P key item ∧ ∀ k', rel k' key → (k', item) ∉ ServedOf.items log) ∨
      BadFrom rel P (log ++ [(a, r)]).length out := by
  obtain ⟨before, a', answer, after, key, item, he, hl, hacc, hni⟩ := h
  by_cases hb : before.length = log.length
  · left
    have h1 : log ++ ((a, r) :: rest) = before ++ (a', answer) :: after := by
      rw [← he, ho]; simp
    obtain ⟨rfl, h2⟩ := List.append_inj h1 hb.symm
    cases h2
    exact ⟨key, item, hacc, hni⟩
  · right
    exact ⟨before, a', answer, after, key, item, he, by simp; omega, hacc, hni⟩

theorem badFrom_end {log : ServedOf v} (h : BadFrom rel P log.length log) : False := by
  obtain ⟨before, a', answer, after, key, item, he, hl, -⟩ := h
  have := congrArg List.length he
  simp at this
  omega

/-- Not derived from a key in use. -/
def Foreign (P : Prims) (v : Ver) (K : Set (BytesN 32)) (k : Bytes) : Prop :=
  ∀ key ∈ K, ∀ n, k ≠ Spec.localAuthKey P v key n ∧ k ≠ Spec.pieAuthKey P v key n

/-- The points asked for are those of issued items, or have a foreign MAC key. -/
def Known (P : Prims) (K : Set (BytesN 32)) (f : Tags v) (log : ServedOf v)
    (S : Finset (Bytes × Bytes)) : Prop :=
  ∀ x ∈ S, Foreign P v K x.1 ∨ ∃ key ∈ K, ∃ p : Parts v, p.Fits ∧ x = p.input P key ∧
    (key, p.item (f x)) ∈ ServedOf.items log

theorem known_append {f : Tags v} {log rest : ServedOf v} {S : Finset (Bytes × Bytes)}
    (h : Known P K f log S) : Known P K f (log ++ rest) S := by
  intro x hx
  rcases h x hx with h | ⟨key, h0, p, h1, h2, h3⟩
  · exact .inl h
  refine .inr ⟨key, h0, p, h1, h2, ?_⟩
  unfold ServedOf.items at *
  rw [List.filterMap_append]
  exact List.mem_append_left _ h3

theorem input_not_foreign {key : BytesN 32} (hk : key ∈ K) (p : Parts v) :
    ¬ Foreign P v K (p.input P key).1 := by
  intro h
  cases p with
  | token s n c f i => exact (h key hk n).1 rfl
  | pie k n c => exact (h key hk n.1).2 rfl

theorem strategy (P : Prims) (K : Set (BytesN 32)) (rel : BytesN 32 → BytesN 32 → Prop)
    (hrel : ∀ key ∈ K, ∀ key' ∈ K, ∀ p : Parts v, p.input P key = p.input P key' → rel key key')
    (ask : List (Res Bytes) → Option (AskedOf v))
    (hask : ∀ answers a, ask answers = some a → a.Proper P K) : ∀ (n q : Nat) (log : ServedOf v),
    ∃ s : Guess (Bytes × Bytes) (BytesN (Spec.tagLen v)), s.AtMost q ∧
      ∀ (f : Tags v) (S : Finset (Bytes × Bytes)), Known P K f log S →
        BadFrom rel (P.withTags v f) log.length (forgingMany (P.withTags v f) ask n q log) →
        s.Wins f S := by
  intro n
  induction n with
  | zero => intro q log; exact ⟨.stop, trivial, fun f S _ h => badFrom_end h⟩
  | succ n ih =>
    intro q log
    cases hq : ask (log.map Prod.snd) with
    | none =>
      refine ⟨.stop, trivial, fun f S _ h => ?_⟩
      unfold forgingMany at h
      rw [hq] at h
      exact badFrom_end h
    | some a =>
      have hprop := hask _ _ hq
      have hstep : a.isAttempt = false → ∀ f : Tags v,
          forgingMany (P.withTags v f) ask (n + 1) q log =
            forgingMany (P.withTags v f) ask n q (log ++ [(a, a.run (P.withTags v f))]) := by
        intro ha f
        rw [forgingMany, hq]
        simp [ha]
      have hna : a.isAttempt = false → ∀ (f : Tags v) key item,
          ¬ a.Accepted (P.withTags v f) key item := by
        intro ha f key item h
        cases a with
        | mac => exact h
        | use k a => cases a <;> first | exact h.2 | cases ha
      -- a request that does not attempt anything, and whose answer does not depend on the tags
      have hfixed : a.isAttempt = false → ∀ r, (∀ f : Tags v, a.run (P.withTags v f) = r) →
          ∃ s : Guess (Bytes × Bytes) (BytesN (Spec.tagLen v)), s.AtMost q ∧
            ∀ (f : Tags v) (S : Finset (Bytes × Bytes)), Known P K f log S →
              BadFrom rel (P.withTags v f) log.length
                (forgingMany (P.withTags v f) ask (n + 1) q log) → s.Wins f S := by
        intro ha r hr
        obtain ⟨s, hs, hw⟩ := ih q (log ++ [(a, r)])
        refine ⟨s, hs, fun f S hk h => hw f S (known_append hk) ?_⟩
        rw [hstep ha, hr] at h
        obtain ⟨rest, ho⟩ := prefix_of (P.withTags v f) ask n q (log ++ [(a, r)])
        rcases badFrom_step ho h with ⟨key, item, h, -⟩ | h
        · exact absurd h (hna ha f key item)
        · exact h
      -- one whose answer is made from the tag of some point
      have hlook : a.isAttempt = false → ∀ (x : Bytes × Bytes) (r : BytesN (Spec.tagLen v) → Bytes),
          (∀ f : Tags v, a.run (P.withTags v f) = .ok (r (f x))) →
          (∀ f : Tags v, Known P K f (log ++ [(a, .ok (r (f x)))]) {x}) →
          ∃ s : Guess (Bytes × Bytes) (BytesN (Spec.tagLen v)), s.AtMost q ∧
            ∀ (f : Tags v) (S : Finset (Bytes × Bytes)), Known P K f log S →
              BadFrom rel (P.withTags v f) log.length
                (forgingMany (P.withTags v f) ask (n + 1) q log) → s.Wins f S := by
        intro ha x r hr hx
        have h := fun t => ih q (log ++ [(a, .ok (r t))])
        choose s hs hw using h
        refine ⟨.look x s, hs, fun f S hk h => hw _ f _ ?_ ?_⟩
        · intro y hy
          rcases Finset.mem_insert.1 hy with rfl | hy
          · exact hx f y (Finset.mem_singleton_self _)
          · exact known_append hk y hy
        · rw [hstep ha, hr] at h
          obtain ⟨rest, ho⟩ := prefix_of (P.withTags v f) ask n q (log ++ [(a, .ok (r (f x)))])
          rcases badFrom_step ho h with ⟨key, item, h, -⟩ | h
          · exact absurd h (hna ha f key item)
          · exact h
      cases a with
      | mac k m =>
        by_cases hm : isTagInput m = true
        · refine hlook rfl (k, m) (fun t => t.1) (fun f => ?_) fun f x hx => ?_
          · show Res.ok _ = _
            rw [C81.mac_tags f k m hm]
          · rw [Finset.mem_singleton.1 hx]
            exact .inl hprop
        · refine hfixed rfl (.ok (Spec.mac P v k m)) fun f => ?_
          show Res.ok _ = _
          congr 1
          cases v <;> simp [Spec.mac, Prims.withTags, hm]
      | use key a =>
        obtain ⟨hkey, hfit⟩ := hprop
        cases ha : a.isAttempt with
        | false =>
          rcases C81.issue P key a hfit ha with ⟨r, hr⟩ | ⟨p, hp, hr, hi⟩
          · exact hfixed ha r hr
          · refine hlook ha (p.input P key) (fun t => p.text t) hr fun f x hx => ?_
            rw [Finset.mem_singleton.1 hx]
            refine .inr ⟨key, hkey, p, hp, rfl, ?_⟩
            unfold ServedOf.items
            rw [List.filterMap_append]
            refine List.mem_append_right _ ?_
            simp [AskedOf.issues, hi]
        | true =>
          cases q with
          | zero =>
            refine ⟨.stop, trivial, fun f S _ h => ?_⟩
            unfold forgingMany at h
            rw [hq] at h
            simp only [AskedOf.isAttempt, ha, if_true] at h
            exact badFrom_end h
          | succ q =>
            have hstep : ∀ f : Tags v, forgingMany (P.withTags v f) ask (n + 1) (q + 1) log =
                forgingMany (P.withTags v f) ask n q
                  (log ++ [(.use key a, a.run (P.withTags v f) (keyOf P key f))]) := by
              intro f
              rw [forgingMany, hq]
              simp [AskedOf.isAttempt, ha, AskedOf.run]
            rcases C81.attempt P key a hfit ha with ⟨r, hr⟩ | ⟨p, t, r, hp, hr⟩
            · obtain ⟨s, hs, hw⟩ := ih q (log ++ [(.use key a, r)])
              refine ⟨s, C81.atMost_mono s (Nat.le_succ q) hs,
                fun f S hk h => hw f S (known_append hk) ?_⟩
              rw [hstep, (hr f).1] at h
              obtain ⟨rest, ho⟩ := prefix_of (P.withTags v f) ask n q (log ++ [(.use key a, r)])
              rcases badFrom_step ho h with ⟨k', item, h, -⟩ | h
              · exact absurd h.2 ((hr f).2 item)
              · exact h
            · have h := fun b : Bool => ih q (log ++ [(.use key a, if b then r else .err .cryptoError)])
              choose s hs hw using h
              refine ⟨.guess (p.input P key) t s, ⟨q, rfl, hs⟩, fun f S hk h => ?_⟩
              have hrun : a.run (P.withTags v f) (keyOf P key f) =
                  if decide (f (p.input P key) = t) = true then r else .err .cryptoError := by
                rw [(hr f).1]
                simp only [decide_eq_true_eq]
              rw [hstep, hrun] at h
              obtain ⟨rest, ho⟩ := prefix_of (P.withTags v f) ask n q
                (log ++ [(.use key a,
                  if decide (f (p.input P key) = t) = true then r else .err .cryptoError)])
              rcases badFrom_step ho h with ⟨k', item, h, hni⟩ | h
              · obtain ⟨rfl, h⟩ := h
                obtain ⟨ht, rfl⟩ := (hr f).2 item h
                refine .inl ⟨fun hS => ?_, ht⟩
                rcases hk _ hS with hf | ⟨key', hkey', p', hp', hx, hin⟩
                · exact input_not_foreign hkey p hf
                · obtain rfl := Parts.msg_inj hp hp' (congrArg Prod.snd hx)
                  rw [ht] at hin
                  exact hni key' (hrel _ hkey' _ hkey p hx.symm) hin
              · exact .inr (hw _ f S (known_append hk) h)

theorem bound (P : Prims) (K : Set (BytesN 32)) (rel : BytesN 32 → BytesN 32 → Prop)
    (hrel : ∀ key ∈ K, ∀ key' ∈ K, ∀ p : Parts v, p.input P key = p.input P key' → rel key key')
    (ask : List (Res Bytes) → Option (AskedOf v))
    (hask : ∀ answers a, ask answers = some a → a.Proper P K) (n q : Nat)
    (bad : Prims → ServedOf v → Prop) (hbad : ∀ Q log, bad Q log → BadFrom rel Q 0 log) :
    ∃ X₀ : Finset (Bytes × Bytes), ∀ X, X₀ ⊆ X → ∀ d : Tags v,
      ∀ [DecidablePred fun g : X → BytesN (Spec.tagLen v) => bad (P.withTags v (d.on X g))
        (forgingMany (P.withTags v (d.on X g)) ask n q [])],
      ((Finset.univ.filter fun g : X → BytesN (Spec.tagLen v) => bad (P.withTags v (d.on X g))
        (forgingMany (P.withTags v (d.on X g)) ask n q [])).card : ℚ) /
        Fintype.card (X → BytesN (Spec.tagLen v)) ≤ q / 2 ^ (8 * Spec.tagLen v) := by
  classical
  obtain ⟨s, hs, hw⟩ := strategy P K rel hrel ask hask n q []
  refine ⟨s.points, fun X hX d _ => ?_⟩
  have h := Guess.card_wins_all d X s q hs hX
  have hle := Finset.card_le_card (s := Finset.univ.filter fun g : X → BytesN (Spec.tagLen v) =>
      bad (P.withTags v (d.on X g)) (forgingMany (P.withTags v (d.on X g)) ask n q []))
    (t := Finset.univ.filter fun g : X → BytesN (Spec.tagLen v) => s.Wins (Guess.ext d X g) ∅) (by
      intro g hg
      rw [Finset.mem_filter] at hg ⊢
      exact ⟨hg.1, hw _ _ (fun x hx => absurd hx (Finset.notMem_empty x)) (hbad _ _ hg.2)⟩)
  have h2 := le_trans (Nat.mul_le_mul_right _ hle) h
  rw [C81.card_tags] at h2
  have hpos : (0 : ℚ) < Fintype.card (X → BytesN (Spec.tagLen v)) := by
    have : 0 < Fintype.card (X → BytesN (Spec.tagLen v)) := Fintype.card_pos_iff.2 ⟨fun x => d x.1⟩
    exact_mod_cast this
  rw [div_le_div_iff₀ hpos (by positivity)]
  exact_mod_cast h2

/-- For every asker there is a finite set of MAC inputs such that on every larger finite set `X`, of all
functions that could be the MAC on `X` the share for which something is accepted under any of the keys
that was issued under none is at most `q / 2 ^ (8 · tag length)`, `q` being the number of texts handed
in. The keys, their number, and the number of requests play no part. -/
theorem forging_bound (P : Prims) (K : Set (BytesN 32)) (ask : List (Res Bytes) → Option (AskedOf v))
    (hask : ∀ answers a, ask answers = some a → a.Proper P K) (n q : Nat) :
    ∃ X₀ : Finset (Bytes × Bytes), ∀ X, X₀ ⊆ X → ∀ d : Tags v,
      ∀ [DecidablePred fun g : X → BytesN (Spec.tagLen v) => ForgedMany (P.withTags v (d.on X g))
        (forgingMany (P.withTags v (d.on X g)) ask n q [])],
      ((Finset.univ.filter fun g : X → BytesN (Spec.tagLen v) => ForgedMany (P.withTags v (d.on X g))
        (forgingMany (P.withTags v (d.on X g)) ask n q [])).card : ℚ) /
        Fintype.card (X → BytesN (Spec.tagLen v)) ≤ q / 2 ^ (8 * Spec.tagLen v) := by
  refine bound P K (fun _ _ => True) (fun _ _ _ _ _ _ => trivial) ask hask n q (fun Q => ForgedMany Q) ?_
  rintro Q log ⟨before, a, answer, after, key, item, h1, h2, h3⟩
  exact ⟨before, a, answer, after, key, item, h1, Nat.zero_le _, h2, fun k _ => h3 k⟩

/-- If the keys in use do not derive equal MAC keys from any nonce, the same holds for what is accepted
under a key and was not issued under this key: a text is no good under any other key. -/
theorem misuse_bound (P : Prims) (K : Set (BytesN 32))
    (hK : ∀ k ∈ K, ∀ k' ∈ K, ∀ n, (Spec.localAuthKey P v k n = Spec.localAuthKey P v k' n → k = k') ∧
      (Spec.pieAuthKey P v k n = Spec.pieAuthKey P v k' n → k = k'))
    (ask : List (Res Bytes) → Option (AskedOf v))
    (hask : ∀ answers a, ask answers = some a → a.Proper P K) (n q : Nat) :
    ∃ X₀ : Finset (Bytes × Bytes), ∀ X, X₀ ⊆ X → ∀ d : Tags v,
      ∀ [DecidablePred fun g : X → BytesN (Spec.tagLen v) => MisusedMany (P.withTags v (d.on X g))
        (forgingMany (P.withTags v (d.on X g)) ask n q [])],
      ((Finset.univ.filter fun g : X → BytesN (Spec.tagLen v) => MisusedMany (P.withTags v (d.on X g))
        (forgingMany (P.withTags v (d.on X g)) ask n q [])).card : ℚ) /
        Fintype.card (X → BytesN (Spec.tagLen v)) ≤ q / 2 ^ (8 * Spec.tagLen v) := by
  refine bound P K (fun k k' => k = k') ?_ ask hask n q (fun Q => MisusedMany Q) ?_
  · intro k hk k' hk' p h
    cases p with
    | token s n c f i => exact (hK k hk k' hk' n).1 (congrArg Prod.fst h)
    | pie w n c => exact (hK k hk k' hk' n.1).2 (congrArg Prod.fst h)
  · rintro Q log ⟨before, a, answer, after, key, item, h1, h2, h3⟩
    exact ⟨before, a, answer, after, key, item, h1, Nat.zero_le _, h2, fun k hk => hk ▸ h3⟩

/-- With a single key it is the game of C81. -/
theorem one_key (P : Prims) (key : BytesN 32) (ask : List (Res Bytes) → Option (Asked v)) :
    ∀ (n q : Nat) (log : Served v),
      forgingMany P (fun answers => (ask answers).map (.use key)) n q
          (log.map fun e => (.use key e.1, e.2)) =
        (forging P ⟨key⟩ ask n q log).map fun e => (.use key e.1, e.2) := by
  intro n
  induction n with
  | zero => intro q log; rfl
  | succ n ih =>
    intro q log
    unfold forgingMany forging
    rw [List.map_map]
    have hm : (Prod.snd ∘ fun e : Asked v × Res Bytes => (AskedOf.use key e.1, e.2)) = Prod.snd := rfl
    rw [hm]
    cases ask (log.map Prod.snd) with
    | none => rfl
    | some a =>
      have h := fun q => ih q (log ++ [(a, a.run P ⟨key⟩)])
      simp only [List.map_append, List.map_cons, List.map_nil] at h
      have ho : Option.map (AskedOf.use key) (some a) = some (.use key a) := rfl
      rw [ho]
      dsimp only
      by_cases ha : a.isAttempt = true
      · have ha' : (AskedOf.use key a).isAttempt = true := ha
        rw [if_pos ha, if_pos ha']
        cases q with
        | zero => rfl
        | succ q => exact h q
      · have ha' : ¬ (AskedOf.use key a).isAttempt = true := ha
        rw [if_neg ha, if_neg ha']
        exact h q

/-! ### A case -/

/-- A derivation that keeps keys apart: the key itself, filled up. -/
def echo (n : Nat) (k : Bytes) : BytesN n := ⟨(k ++ List.replicate n 0).take n, by simp⟩

theorem echo_inj {n : Nat} (hn : 32 ≤ n) {k k' : BytesN 32} (h : (echo n k.1).1 = (echo n k'.1).1) :
    k = k' := by
  have h := congrArg (List.take 32) h
  simp only [echo, List.take_take, Nat.min_eq_left hn] at h
  rw [List.take_left' k.2, List.take_left' k'.2] at h
  exact Subtype.ext h

/-- Two keys. The asker has a token made under the first, hands it in under the second, has a MAC computed
under the empty key, which is nobody's, and hands in under the first key what they make of it. -/
def crossing (v : Ver) (a b : BytesN 32) (answers : List (Res Bytes)) : Option (AskedOf v) :=
  match answers with
  | [] => some (.use a (.encrypt Bytes Unit Sample.Raw inferInstance inferInstance inferInstance
      ⟨⟨⟨⟩, [1, 2, 3], ()⟩⟩ [7] (List.replicate 32 9)))
  | [.ok text] => some (.use b (.decrypt Bytes Unit Sample.Raw inferInstance inferInstance inferInstance
      (text.take 1000) (fun t => t.message) [7]))
  | [_, _] => some (.mac [] [5, 6])
  | [.ok text, _, .ok tag] => some (.use a (.decrypt Bytes Unit Sample.Raw inferInstance inferInstance
      inferInstance ((text ++ tag).take 1000) (fun t => t.message) [7]))
  | _ => none

example (P : Prims) (a b : BytesN 32) :
    let Q : Prims := { P with
      hkdfSha384 := fun n k _ => echo n k, hmacSha384 := fun k _ => echo 48 k
      blake2bMac := fun n k _ => echo n k }
    ∃ X₀ : Finset (Bytes × Bytes), ∀ X, X₀ ⊆ X → ∀ d : Tags v,
      ∀ [DecidablePred fun g : X → BytesN (Spec.tagLen v) => MisusedMany (Q.withTags v (d.on X g))
        (forgingMany (Q.withTags v (d.on X g)) (crossing v a b) 4 2 [])],
      ((Finset.univ.filter fun g : X → BytesN (Spec.tagLen v) => MisusedMany (Q.withTags v (d.on X g))
        (forgingMany (Q.withTags v (d.on X g)) (crossing v a b) 4 2 [])).card : ℚ) /
        Fintype.card (X → BytesN (Spec.tagLen v)) ≤ (2 : Nat) / 2 ^ (8 * Spec.tagLen v) := by
  intro Q
  have hlen : ∀ (k : BytesN 32) n, Spec.localAuthKey Q v k n ≠ [] ∧ Spec.pieAuthKey Q v k n ≠ [] := by
    intro k n
    constructor <;> intro h <;> have h := congrArg List.length h <;> revert h <;> cases v <;>
      simp [Spec.localAuthKey, Spec.pieAuthKey, Spec.v3AuthKey, Spec.v4AuthKey, Q, echo]
  have hshort : ∀ l : Bytes, Spec.Fits (l.take 1000) := by
    intro l
    have := List.length_take_le 1000 l
    unfold Spec.Fits
    omega
  have hsuf : Spec.Fits (Spec.header v .Local (Payload.suffix Sample.Raw)) := by
    unfold Spec.Fits
    cases v <;> decide
  have hone : Spec.Fits [7] := by unfold Spec.Fits; decide
  have hnil : Spec.Fits [] := by unfold Spec.Fits; decide
  refine misuse_bound Q {a, b} ?_ (crossing v a b) ?_ 4 2
  · intro k _ k' _ n
    cases v
    · refine ⟨fun h => echo_inj (n := 48) (by decide) h, fun h => Subtype.ext ?_⟩
      have h : ((k.1 ++ List.replicate 48 0).take 48).take 32 =
        ((k'.1 ++ List.replicate 48 0).take 48).take 32 := h
      rw [List.take_take, List.take_take] at h
      exact (List.take_left' k.2).symm.trans (h.trans (List.take_left' k'.2))
    · exact ⟨fun h => echo_inj (n := 32) (by decide) h, fun h => echo_inj (n := 32) (by decide) h⟩
  · intro answers x h
    unfold crossing at h
    split at h <;> cases h
    · refine ⟨by simp, hsuf, hone, fun m hm => ?_, fun f hf => ?_⟩
      · cases hm
        show 3 + 80 < 2 ^ 63
        decide
      · cases hf
        exact hnil
    · exact ⟨by simp, hsuf, hshort _, hone⟩
    · exact fun key _ n => ⟨(hlen key n).1.symm, (hlen key n).2.symm⟩
    · exact ⟨by simp, hsuf, hshort _, hone⟩

end Pasta.C95
