import Mathlib.Data.Nat.Choose.Cast
import Mathlib.Tactic.Positivity
import Mathlib.Tactic.NormNum
import Mathlib.Algebra.Order.Field.Rat
import Mathlib.Algebra.Order.Field.Basic
import Verif.Spec.Colliding
import Verif.Props.KeyIds
import Verif.Props.Forging
import Verif.Props.Distinguish

/-!
# C85: keys with the same id are hard to find
-/

set_option exponentiation.threshold 264

namespace Pasta.C85

open C82 (count count_eq guessAll guessAll_atMost guessAll_wins)

variable {P : Prims} {v : Ver}

/-! ### What is hashed -/

theorem idHashed_inj {c c' : KeyBytes v} (h : idHashed c = idHashed c') : c = c' := by
  obtain ⟨k, b⟩ := c
  obtain ⟨k', b'⟩ := c'
  unfold idHashed at h
  dsimp only at h
  have hl : (Spec.paserkHeader v (Spec.idTypeText k)).length =
      (Spec.paserkHeader v (Spec.idTypeText k')).length := by
    cases v <;> cases k <;> cases k' <;> rfl
  obtain ⟨h1, h2⟩ := List.append_inj h hl
  have e : k = k' := by
    cases v <;> cases k <;> cases k' <;> first | rfl | (exact absurd h1 (by decide))
  subst e
  have := SecuredToken.base64url_inj (List.append_cancel_left h2)
  rw [Subtype.ext this]

/-- What is hashed for a key, as one of all that can be hashed. -/
def point (c : KeyBytes v) : IdInput v :=
  ⟨idHashed c, c, rfl⟩

theorem point_inj {c c' : KeyBytes v} (h : point c = point c') : c = c' :=
  idHashed_inj (congrArg Subtype.val h)

/-- The text of an id. -/
def textOf (k : Kind) (i : BytesN 33) : Bytes := Spec.paserkText v (Spec.idTypeText k) i.1

theorem textOf_inj {k k' : Kind} {i j : BytesN 33} (h : textOf (v := v) k i = textOf (v := v) k' j) :
    i = j := by
  have := (C32.text_type_unique (⟨i⟩ : KeyId v k) (⟨j⟩ : KeyId v k') (by
    rw [KeyId.display_eq, KeyId.display_eq]
    exact congrArg Res.ok h)).2.2
  exact Subtype.ext this

theorem edFromKeypair_hash (s : Bytes → BytesN 48) (t : (n : Nat) → Bytes → BytesN n) (b : BytesN 64) :
    Key.edFromKeypair { P with sha384 := s, blake2b := t } b = Key.edFromKeypair P b := by
  unfold Key.edFromKeypair
  generalize BytesN.split 32 32 _ b = sp
  obtain ⟨l, p⟩ := sp
  dsimp only
  cases P.edParse p <;> rfl

theorem theKey_hash (s : Bytes → BytesN 48) (t : (n : Nat) → Bytes → BytesN n) (x : KeyBytes v) :
    theKey { P with sha384 := s, blake2b := t } v x = theKey P v x := by
  have okOr : ∀ {α κ κ' β : Type} (o : Option α) (f : α → κ) (f' : α → κ') (g : κ → β)
      (g' : κ' → β) (_ : ∀ x, g (f x) = g' (f' x)),
      ((Res.okOr .invalidKey o >>= fun x => pure (f x)) >>= fun k => (Res.ok (g k) : Res β)) =
      ((Res.okOr .invalidKey o >>= fun x => pure (f' x)) >>= fun k => (Res.ok (g' k) : Res β)) := by
    intro α κ κ' β o f f' g g' h
    cases o with
    | none => rfl
    | some x => exact congrArg Res.ok (h x)
  obtain ⟨k, b⟩ := x
  cases v <;> cases k
  · rfl
  · exact okOr (P.p384Parse b.1) _ _ _ _ fun _ => rfl
  · exact okOr (Key.p384ScalarFromSlice P b.1) _ _ _ _ fun _ => rfl
  · rfl
  · exact okOr (P.edParse b) _ _ _ _ fun _ => rfl
  · have e := edFromKeypair_hash (P := P) s t b
    show ((Res.okOr .invalidKey (Key.edFromKeypair { P with sha384 := s, blake2b := t } b) >>= fun l =>
      pure (Key.mk l : Key { P with sha384 := s, blake2b := t } .V4 .Secret)) >>= _) = _
    rw [e]
    exact okOr (Key.edFromKeypair P b)
      (fun l : BytesN 32 => (Key.mk l : Key { P with sha384 := s, blake2b := t } .V4 .Secret))
      (fun l : BytesN 32 => (Key.mk l : Key P .V4 .Secret))
      (fun k => (⟨.Secret, k.toBytes⟩ : KeyBytes .V4)) (fun k => ⟨.Secret, k.toBytes⟩) fun _ => rfl

theorem withIds_eq (f : Ids v) :
    ∃ s t, P.withIds v f = { P with sha384 := s, blake2b := t } := by
  cases v
  · exact ⟨_, P.blake2b, rfl⟩
  · exact ⟨P.sha384, _, rfl⟩

/-- The ids do not matter for which keys there are. -/
theorem theKey_ids (f : Ids v) (x : KeyBytes v) : theKey (P.withIds v f) v x = theKey P v x := by
  obtain ⟨s, t, h⟩ := withIds_eq (P := P) f
  rw [h, theKey_hash]

theorem idBytes_ids (f : Ids v) (c : KeyBytes v) :
    Spec.idBytes (P.withIds v f) v c.1 c.2.1 = (f (point c)).1 := by
  have hm : ∃ c' : KeyBytes v, idHashed c' = idHashed c := (point c).2
  cases v
  · show ((P.withIds .V3 f).sha384 (idHashed c)).1.take 33 = _
    unfold Prims.withIds
    dsimp only
    rw [dif_pos hm]
    dsimp only
    rw [List.take_append_of_le_length (by rw [(f _).2]), List.take_of_length_le (by rw [(f _).2])]
    rfl
  · show ((P.withIds .V4 f).blake2b 33 (idHashed c)).1 = _
    unfold Prims.withIds
    dsimp only
    rw [dif_pos ⟨rfl, hm⟩]
    rfl

/-- The answers, in terms of the function. -/
def answer (P : Prims) (f : Ids v) (x : KeyBytes v) : Res Bytes := do
  let c ← theKey P v x
  return textOf (v := v) c.1 (f (point c))

theorem idOf_ids (f : Ids v) (x : KeyBytes v) : idOf (P.withIds v f) v x = answer P f x := by
  unfold answer
  rw [← theKey_ids f]
  unfold idOf theKey
  rw [Res.bind_assoc']
  congr 1
  funext key
  rw [C30.id_text key]
  show _ = Res.ok _
  unfold textOf Spec.idText
  have := idBytes_ids (P := P) f ⟨x.1, key.toBytes⟩
  dsimp only at this
  rw [this]

/-! ### The session as a strategy of guessing -/

variable (P) in
/-- Guess that the next id is one of some ids; with `grow`, of all ids so far. -/
def tree (grow : Bool) (ask : List (Res Bytes) → Option (KeyBytes v)) :
    Nat → List (Res Bytes) → List (BytesN 33) → Guess (IdInput v) (BytesN 33)
  | 0, _, _ => .stop
  | q + 1, answers, ids =>
    match ask answers with
    | none => .stop
    | some x =>
      match theKey P v x with
      | .ok c => guessAll (point c) (.look (point c) fun i =>
          tree grow ask q (answers ++ [.ok (textOf (v := v) c.1 i)]) (if grow then i :: ids else ids)) ids
      | .err e => tree grow ask q (answers ++ [.err e]) ids
      | .panic => tree grow ask q (answers ++ [.panic]) ids

theorem tree_atMost_grow (ask : List (Res Bytes) → Option (KeyBytes v)) :
    ∀ (q : Nat) (answers : List (Res Bytes)) (ids : List (BytesN 33)),
      (tree P true ask q answers ids).AtMost (q * ids.length + q.choose 2) := by
  intro q
  induction q with
  | zero => intros; trivial
  | succ q ih =>
    intro answers ids
    have e : (q + 1) * ids.length + (q + 1).choose 2 =
        (q * (ids.length + 1) + q.choose 2) + ids.length := by
      rw [Nat.choose_succ_succ' q 1, Nat.choose_one_right]; ring
    have hle : q * ids.length + q.choose 2 ≤ (q + 1) * ids.length + (q + 1).choose 2 := by
      rw [e]; nlinarith
    unfold tree
    cases ask answers with
    | none => trivial
    | some x =>
      dsimp only
      cases theKey P v x with
      | ok c =>
        dsimp only
        rw [e]
        refine guessAll_atMost _ (next := .look _ _) ?_ _
        intro i
        exact ih _ (i :: ids)
      | err e => exact C81.atMost_mono _ hle (ih _ _)
      | panic => exact C81.atMost_mono _ hle (ih _ _)

theorem tree_atMost_fixed (ask : List (Res Bytes) → Option (KeyBytes v)) :
    ∀ (q : Nat) (answers : List (Res Bytes)) (ids : List (BytesN 33)),
      (tree P false ask q answers ids).AtMost (q * ids.length) := by
  intro q
  induction q with
  | zero => intros; trivial
  | succ q ih =>
    intro answers ids
    have hle : q * ids.length ≤ (q + 1) * ids.length := Nat.mul_le_mul_right _ (Nat.le_succ q)
    unfold tree
    cases ask answers with
    | none => trivial
    | some x =>
      dsimp only
      cases theKey P v x with
      | ok c =>
        dsimp only
        rw [Nat.succ_mul]
        refine guessAll_atMost _ (next := .look _ _) ?_ _
        intro i
        exact ih _ ids
      | err e => exact C81.atMost_mono _ hle (ih _ _)
      | panic => exact C81.atMost_mono _ hle (ih _ _)

/-- The log holds the answers of `f`, the points `seen` are those of the log. -/
structure Honest (P : Prims) (f : Ids v) (log : Named v) (seen : Finset (IdInput v)) : Prop where
  answers : ∀ x a, (x, a) ∈ log → a = answer P f x
  seen : ∀ p, p ∈ seen → ∃ x a c, (x, a) ∈ log ∧ theKey P v x = .ok c ∧ p = point c

theorem Honest.append {f : Ids v} {log : Named v} {seen : Finset (IdInput v)} (h : Honest P f log seen)
    (x : KeyBytes v) {c : KeyBytes v} (hc : theKey P v x = .ok c) :
    Honest P f (log ++ [(x, answer P f x)]) (insert (point c) seen) where
  answers := by
    intro y a hy
    rcases List.mem_append.1 hy with hy | hy
    · exact h.answers y a hy
    · rw [List.mem_singleton, Prod.mk.injEq] at hy
      rw [hy.1, hy.2]
  seen := by
    intro p hp
    rcases Finset.mem_insert.1 hp with rfl | hp
    · exact ⟨x, _, c, List.mem_append_right _ (List.mem_singleton.2 rfl), hc, rfl⟩
    · obtain ⟨y, a, d, h1, h2, h3⟩ := h.seen p hp
      exact ⟨y, a, d, List.mem_append_left _ h1, h2, h3⟩

theorem Honest.append_bad {f : Ids v} {log : Named v} {seen : Finset (IdInput v)}
    (h : Honest P f log seen) (x : KeyBytes v) :
    Honest P f (log ++ [(x, answer P f x)]) seen where
  answers := by
    intro y a hy
    rcases List.mem_append.1 hy with hy | hy
    · exact h.answers y a hy
    · rw [List.mem_singleton, Prod.mk.injEq] at hy
      rw [hy.1, hy.2]
  seen := by
    intro p hp
    obtain ⟨y, a, d, h1, h2, h3⟩ := h.seen p hp
    exact ⟨y, a, d, List.mem_append_left _ h1, h2, h3⟩

theorem answer_ok {f : Ids v} {x : KeyBytes v} {t : Bytes} :
    answer P f x = .ok t ↔ ∃ c, theKey P v x = .ok c ∧ t = textOf (v := v) c.1 (f (point c)) := by
  unfold answer
  cases theKey P v x with
  | ok c =>
    constructor
    · intro h; cases h; exact ⟨c, rfl, rfl⟩
    · rintro ⟨c', h, rfl⟩; cases h; rfl
  | err e => constructor
             · intro h; cases h
             · rintro ⟨_, h, _⟩; cases h
  | panic => constructor
             · intro h; cases h
             · rintro ⟨_, h, _⟩; cases h

theorem collided_wins (f : Ids v) (ask : List (Res Bytes) → Option (KeyBytes v)) :
    ∀ (q : Nat) (log : Named v) (ids : List (BytesN 33)) (seen : Finset (IdInput v)),
      Honest P f log seen →
      (∀ x a c, (x, a) ∈ log → theKey P v x = .ok c → f (point c) ∈ ids) →
      ¬ Collided P log → ¬ (tree P true ask q (log.map Prod.snd) ids).Wins f seen →
      ¬ Collided P (naming (P.withIds v f) ask q log) := by
  intro q
  induction q with
  | zero => intro log ids seen _ _ h _; exact h
  | succ q ih =>
    intro log ids seen hh hi hn hw
    unfold naming
    unfold tree at hw
    cases hx : ask (log.map Prod.snd) with
    | none => exact hn
    | some x =>
      rw [hx] at hw
      dsimp only at hw ⊢
      rw [idOf_ids]
      have bad : ∀ a, answer P f x = a → (∀ t, a ≠ .ok t) →
          ¬ Collided P (log ++ [(x, a)]) := by
        rintro a - ha ⟨y, z, t, hy, hz, hd⟩
        have : ∀ y, (y, Res.ok t) ∈ log ++ [(x, a)] → (y, Res.ok t) ∈ log := by
          intro y hy
          rcases List.mem_append.1 hy with hy | hy
          · exact hy
          · rw [List.mem_singleton, Prod.mk.injEq] at hy
            exact absurd hy.2.symm (ha t)
        exact hn ⟨y, z, t, this y hy, this z hz, hd⟩
      have hhb := hh.append_bad x
      cases hc : theKey P v x with
      | err e =>
        have ha : answer P f x = .err e := by unfold answer; rw [hc]; rfl
        rw [hc] at hw
        rw [ha] at hhb ⊢
        refine ih _ ids seen hhb ?_ (bad _ ha nofun) (by simpa using hw)
        intro y a c hy hyc
        rcases List.mem_append.1 hy with hy | hy
        · exact hi y a c hy hyc
        · rw [List.mem_singleton, Prod.mk.injEq] at hy
          rw [hy.1, hc] at hyc; cases hyc
      | panic =>
        have ha : answer P f x = .panic := by unfold answer; rw [hc]; rfl
        rw [hc] at hw
        rw [ha] at hhb ⊢
        refine ih _ ids seen hhb ?_ (bad _ ha nofun) (by simpa using hw)
        intro y a c hy hyc
        rcases List.mem_append.1 hy with hy | hy
        · exact hi y a c hy hyc
        · rw [List.mem_singleton, Prod.mk.injEq] at hy
          rw [hy.1, hc] at hyc; cases hyc
      | ok c =>
        have ha : answer P f x = .ok (textOf (v := v) c.1 (f (point c))) := by
          unfold answer; rw [hc]; rfl
        have hh' := hh.append x hc
        rw [hc] at hw
        dsimp only at hw
        rw [guessAll_wins] at hw
        simp only [Guess.Wins] at hw
        push Not at hw
        obtain ⟨h1, h2⟩ := hw
        rw [if_pos trivial] at h2
        rw [ha] at hh' ⊢
        have key : ∀ y, (y, Res.ok (textOf (v := v) c.1 (f (point c)))) ∈ log →
            theKey P v y = theKey P v x := by
          intro y hy
          obtain ⟨d, hd, ht⟩ := answer_ok.1 (hh.answers y _ hy).symm
          have he := textOf_inj ht
          by_cases hs : point c ∈ seen
          · obtain ⟨z, a, c', hz, hzc, hp⟩ := hh.seen _ hs
            cases point_inj hp
            have haz : a = .ok (textOf (v := v) c.1 (f (point c))) := by
              rw [hh.answers z a hz]; unfold answer; rw [hzc]; rfl
            subst haz
            by_contra hne
            refine hn ⟨y, z, _, hy, hz, ?_⟩
            rw [hzc, ← hc]; exact hne
          · exact absurd (by rw [he]; exact hi y _ d hy hd) (h1 hs)
        refine ih _ _ _ hh' ?_ ?_ (by simpa using h2)
        · intro y a d hy hyd
          rcases List.mem_append.1 hy with hy | hy
          · exact List.mem_cons_of_mem _ (hi y a d hy hyd)
          · rw [List.mem_singleton, Prod.mk.injEq] at hy
            rw [hy.1, hc] at hyd
            cases hyd
            exact List.mem_cons_self
        · rintro ⟨y, z, t, hy, hz, hd⟩
          rcases List.mem_append.1 hy with hy | hy <;> rcases List.mem_append.1 hz with hz | hz
          · exact hn ⟨y, z, t, hy, hz, hd⟩
          · rw [List.mem_singleton, Prod.mk.injEq, Res.ok.injEq] at hz
            rw [hz.2] at hy
            rw [hz.1] at hd
            exact hd (key y hy)
          · rw [List.mem_singleton, Prod.mk.injEq, Res.ok.injEq] at hy
            rw [hy.2] at hz
            rw [hy.1] at hd
            exact hd (key z hz).symm
          · rw [List.mem_singleton, Prod.mk.injEq, Res.ok.injEq] at hy hz
            rw [hy.1, hz.1] at hd
            exact hd rfl

theorem card_ids : Fintype.card (BytesN 33) = 2 ^ 264 := by
  rw [C75.card_bytes, show (264 : Nat) = 8 * 33 from rfl, pow_mul]
  norm_num

theorem share_le {a q R T : Nat} (hR : 0 < R) (hT : 0 < T) (h : a * R ≤ q * T) :
    (a : ℚ) / T ≤ q / R := by
  have hR' : (0 : ℚ) < R := by exact_mod_cast hR
  have hT' : (0 : ℚ) < T := by exact_mod_cast hT
  rw [div_le_div_iff₀ hT' hR']
  exact_mod_cast h

theorem count_wins {X T : Type} [Fintype X] [DecidableEq X] [Fintype T] [DecidableEq T]
    (d : T) {A : (X → T) → Prop} {s : Guess X T} {q : Nat} (hq : s.AtMost q)
    (h : ∀ f, A f → s.Wins f ∅) : count A * Fintype.card T ≤ q * Fintype.card (X → T) := by
  classical
  let F : (X → T) ≃ ({p // p ∈ (Finset.univ : Finset X)} → T) :=
    Equiv.arrowCongr (Equiv.subtypeUnivEquiv Finset.mem_univ).symm (Equiv.refl _)
  have hF : ∀ f, Guess.ext (fun _ => d) Finset.univ (F f) = f := by
    intro f
    funext p
    unfold Guess.ext
    rw [dif_pos (Finset.mem_univ p)]
    rfl
  have h1 := Guess.card_wins_all (fun _ => d) Finset.univ s q hq (Finset.subset_univ _)
  rw [← Fintype.card_congr F] at h1
  refine le_trans (Nat.mul_le_mul_right _ ?_) h1
  unfold count
  refine Finset.card_le_card_of_injOn F ?_ (fun x _ y _ h => F.injective h)
  intro f hf
  have hf := (Finset.mem_filter.1 hf).2
  simp only [Finset.coe_filter, Set.mem_ofPred_eq, Finset.mem_univ, true_and]
  rw [hF]
  exact h f hf

theorem card_pos {X T : Type} [Fintype X] [DecidableEq X] [Fintype T] (d : T) :
    0 < Fintype.card (X → T) := Fintype.card_pos_iff.2 ⟨fun _ => d⟩

/-- Some id. -/
def someId : BytesN 33 := ⟨List.replicate 33 0, List.length_replicate⟩

theorem chance_le {A : Ids v → Prop} {s : Guess (IdInput v) (BytesN 33)} {q : Nat} (hq : s.AtMost q)
    (h : ∀ f, A f → s.Wins f ∅) : idChance A ≤ q / 2 ^ 264 := by
  have h1 := count_wins someId hq h
  rw [card_ids] at h1
  have h2 := share_le (Nat.two_pow_pos 264) (card_pos someId) h1
  rw [Nat.cast_pow] at h2
  exact h2

/-- Two different keys with the same id, of `q` keys of any kinds each chosen from the ids so far:
the chance is at most `q (q - 1) / 2` in `2 ^ 264`. -/
theorem collision (P : Prims) (ask : List (Res Bytes) → Option (KeyBytes v)) (q : Nat) :
    idChance (fun f : Ids v => Collided (P.withIds v f) (naming (P.withIds v f) ask q [])) ≤
      q * (q - 1) / 2 / 2 ^ 264 := by
  have h := chance_le (v := v) (A := fun f => Collided (P.withIds v f) (naming (P.withIds v f) ask q []))
    (tree_atMost_grow (P := P) ask q [] []) (by
      intro f hf
      by_contra hw
      refine collided_wins (P := P) f ask q [] [] ∅ ⟨nofun, nofun⟩ nofun nofun hw ?_
      obtain ⟨x, y, t, hx, hy, hd⟩ := hf
      rw [theKey_ids, theKey_ids] at hd
      exact ⟨x, y, t, hx, hy, hd⟩)
  rw [List.length_nil, Nat.mul_zero, Nat.zero_add, Nat.cast_choose_two] at h
  exact h

/-! ### A key with the id of a given one -/

variable (P) in
/-- First look at the ids of the given keys. -/
def treeGiven (ask : List (Res Bytes) → Option (KeyBytes v)) (q : Nat) :
    List (KeyBytes v) → List (Res Bytes) → List (BytesN 33) → Guess (IdInput v) (BytesN 33)
  | [], answers, ids => tree P false ask q answers ids
  | x :: xs, answers, ids =>
    match theKey P v x with
    | .ok c => .look (point c) fun i =>
        treeGiven ask q xs (answers ++ [.ok (textOf (v := v) c.1 i)]) (i :: ids)
    | .err e => treeGiven ask q xs (answers ++ [.err e]) ids
    | .panic => treeGiven ask q xs (answers ++ [.panic]) ids

theorem treeGiven_atMost (ask : List (Res Bytes) → Option (KeyBytes v)) (q : Nat) :
    ∀ (xs : List (KeyBytes v)) (answers : List (Res Bytes)) (ids : List (BytesN 33)),
      (treeGiven P ask q xs answers ids).AtMost (q * (ids.length + xs.length)) := by
  intro xs
  induction xs with
  | nil => intro answers ids; exact tree_atMost_fixed ask q answers ids
  | cons x xs ih =>
    intro answers ids
    unfold treeGiven
    have hle : q * (ids.length + xs.length) ≤ q * (ids.length + (x :: xs).length) := by
      rw [List.length_cons]; exact Nat.mul_le_mul_left _ (by omega)
    cases theKey P v x with
    | ok c =>
      intro i
      have := ih (answers ++ [.ok (textOf (v := v) c.1 i)]) (i :: ids)
      rw [List.length_cons, Nat.add_right_comm] at this
      exact this
    | err e => exact C81.atMost_mono _ hle (ih _ _)
    | panic => exact C81.atMost_mono _ hle (ih _ _)

/-- A key in the log that is not a given one has the id of a given one. -/
def Hit (P : Prims) (f : Ids v) (given : List (KeyBytes v)) (log : Named v) : Prop :=
  ∃ x ∈ given, ∃ y t, (y, .ok t) ∈ log ∧ answer P f x = .ok t ∧ ∀ z ∈ given, theKey P v z ≠ theKey P v y

theorem matched_wins (f : Ids v) (ask : List (Res Bytes) → Option (KeyBytes v))
    (given : List (KeyBytes v)) :
    ∀ (q : Nat) (log : Named v) (ids : List (BytesN 33)) (seen : Finset (IdInput v)),
      Honest P f log seen →
      (∀ x c, x ∈ given → theKey P v x = .ok c → f (point c) ∈ ids) →
      ¬ Hit P f given log → ¬ (tree P false ask q (log.map Prod.snd) ids).Wins f seen →
      ¬ Hit P f given (naming (P.withIds v f) ask q log) := by
  intro q
  induction q with
  | zero => intro log ids seen _ _ h _; exact h
  | succ q ih =>
    intro log ids seen hh hi hn hw
    unfold naming
    unfold tree at hw
    cases hx : ask (log.map Prod.snd) with
    | none => exact hn
    | some x =>
      rw [hx] at hw
      dsimp only at hw ⊢
      rw [idOf_ids]
      have bad : ∀ a, (∀ t, a ≠ .ok t) → ¬ Hit P f given (log ++ [(x, a)]) := by
        rintro a ha ⟨y, hg, z, t, hz, hy, hd⟩
        rcases List.mem_append.1 hz with hz | hz
        · exact hn ⟨y, hg, z, t, hz, hy, hd⟩
        · rw [List.mem_singleton, Prod.mk.injEq] at hz
          exact absurd hz.2.symm (ha t)
      have hhb := hh.append_bad x
      cases hc : theKey P v x with
      | err e =>
        have ha : answer P f x = .err e := by unfold answer; rw [hc]; rfl
        rw [hc] at hw
        rw [ha] at hhb ⊢
        exact ih _ ids seen hhb hi (bad _ nofun) (by simpa using hw)
      | panic =>
        have ha : answer P f x = .panic := by unfold answer; rw [hc]; rfl
        rw [hc] at hw
        rw [ha] at hhb ⊢
        exact ih _ ids seen hhb hi (bad _ nofun) (by simpa using hw)
      | ok c =>
        have ha : answer P f x = .ok (textOf (v := v) c.1 (f (point c))) := by
          unfold answer; rw [hc]; rfl
        have hh' := hh.append x hc
        rw [hc] at hw
        dsimp only at hw
        rw [guessAll_wins] at hw
        simp only [Guess.Wins] at hw
        push Not at hw
        obtain ⟨h1, h2⟩ := hw
        rw [if_neg (by simp)] at h2
        rw [ha] at hh' ⊢
        refine ih _ _ _ hh' hi ?_ (by simpa using h2)
        rintro ⟨y, hg, z, t, hz, hy, hd⟩
        obtain ⟨c', hc', ht'⟩ := answer_ok.1 hy
        have hmem := hi y c' hg hc'
        rcases List.mem_append.1 hz with hz | hz
        · exact hn ⟨y, hg, z, t, hz, hy, hd⟩
        · rw [List.mem_singleton, Prod.mk.injEq, Res.ok.injEq] at hz
          rw [hz.2] at ht'
          have hid := textOf_inj ht'
          by_cases hs : point c ∈ seen
          · obtain ⟨z', a, e', hz', hze, hp⟩ := hh.seen _ hs
            cases point_inj hp
            have haz : a = .ok t := by
              rw [hh.answers z' a hz', answer_ok]; exact ⟨c, hze, hz.2⟩
            subst haz
            refine hn ⟨y, hg, z', t, hz', hy, fun w hw => ?_⟩
            rw [hze, ← hc, ← hz.1]
            exact hd w hw
          · exact h1 hs (hid ▸ hmem)

theorem given_wins (f : Ids v) (ask : List (Res Bytes) → Option (KeyBytes v))
    (given : List (KeyBytes v)) (q : Nat) :
    ∀ (xs : List (KeyBytes v)) (log : Named v) (ids : List (BytesN 33)) (seen : Finset (IdInput v)),
      given = log.map Prod.fst ++ xs → Honest P f log seen →
      (∀ x a c, (x, a) ∈ log → theKey P v x = .ok c → f (point c) ∈ ids) →
      ¬ (treeGiven P ask q xs (log.map Prod.snd) ids).Wins f seen →
      ¬ Hit P f given (naming (P.withIds v f) ask q (log ++ givenKeys (P.withIds v f) xs)) := by
  intro xs
  induction xs with
  | nil =>
    intro log ids seen hg hh hi hw
    rw [List.append_nil] at hg
    have e : log ++ givenKeys (P.withIds v f) [] = log := by simp [givenKeys]
    rw [e]
    refine matched_wins f ask given q log ids seen hh ?_ ?_ hw
    · intro x c hx hc
      rw [hg] at hx
      obtain ⟨⟨y, a⟩, hy, rfl⟩ := List.mem_map.1 hx
      exact hi y a c hy hc
    · rintro ⟨x, hx, y, t, hy, -, hd⟩
      refine hd y ?_ rfl
      rw [hg]
      exact List.mem_map.2 ⟨_, hy, rfl⟩
  | cons x xs ih =>
    intro log ids seen hg hh hi hw
    have e : log ++ givenKeys (P.withIds v f) (x :: xs) =
        (log ++ [(x, answer P f x)]) ++ givenKeys (P.withIds v f) xs := by
      simp [givenKeys, idOf_ids]
    rw [e]
    unfold treeGiven at hw
    have hhb := hh.append_bad x
    have hg' : given = (log ++ [(x, answer P f x)]).map Prod.fst ++ xs := by simp [hg]
    cases hc : theKey P v x with
    | err e =>
      have ha : answer P f x = .err e := by unfold answer; rw [hc]; rfl
      rw [hc] at hw
      rw [ha] at hhb hg' ⊢
      refine ih _ ids seen hg' hhb ?_ (by simpa using hw)
      intro y a c hy hyc
      rcases List.mem_append.1 hy with hy | hy
      · exact hi y a c hy hyc
      · rw [List.mem_singleton, Prod.mk.injEq] at hy
        rw [hy.1, hc] at hyc; cases hyc
    | panic =>
      have ha : answer P f x = .panic := by unfold answer; rw [hc]; rfl
      rw [hc] at hw
      rw [ha] at hhb hg' ⊢
      refine ih _ ids seen hg' hhb ?_ (by simpa using hw)
      intro y a c hy hyc
      rcases List.mem_append.1 hy with hy | hy
      · exact hi y a c hy hyc
      · rw [List.mem_singleton, Prod.mk.injEq] at hy
        rw [hy.1, hc] at hyc; cases hyc
    | ok c =>
      have ha : answer P f x = .ok (textOf (v := v) c.1 (f (point c))) := by
        unfold answer; rw [hc]; rfl
      have hh' := hh.append x hc
      rw [hc] at hw
      rw [ha] at hh' hg' ⊢
      refine ih _ (f (point c) :: ids) _ hg' hh' ?_ (by simpa [Guess.Wins] using hw)
      intro y a d hy hyd
      rcases List.mem_append.1 hy with hy | hy
      · exact List.mem_cons_of_mem _ (hi y a d hy hyd)
      · rw [List.mem_singleton, Prod.mk.injEq] at hy
        rw [hy.1, hc] at hyd
        cases hyd
        exact List.mem_cons_self

/-- A key with the id of one of the given keys, of `q` keys each chosen from the ids so far: the
chance is at most `q` times the number of given keys in `2 ^ 264`. -/
theorem imitation (P : Prims) (given : List (KeyBytes v)) (ask : List (Res Bytes) → Option (KeyBytes v))
    (q : Nat) :
    idChance (fun f : Ids v => Matched (P.withIds v f) given
      (naming (P.withIds v f) ask q (givenKeys (P.withIds v f) given))) ≤
      q * given.length / 2 ^ 264 := by
  have h := chance_le (v := v) (A := fun f => Matched (P.withIds v f) given
      (naming (P.withIds v f) ask q (givenKeys (P.withIds v f) given)))
    (treeGiven_atMost (P := P) ask q given [] []) (by
      intro f hf
      by_contra hw
      refine given_wins (P := P) f ask given q given [] [] ∅ rfl ⟨nofun, nofun⟩ nofun hw ?_
      obtain ⟨x, hx, y, t, hy, ht, hd⟩ := hf
      rw [idOf_ids] at ht
      simp only [theKey_ids] at hd
      exact ⟨x, hx, y, t, hy, ht, hd⟩)
  rw [List.length_nil, Nat.zero_add, Nat.cast_mul] at h
  exact h

/-! ### The bounds are attained -/

theorem count_equal {X T : Type} [Fintype X] [DecidableEq X] [Fintype T] [DecidableEq T] {a b : X}
    (h : a ≠ b) : count (fun f : X → T => f a = f b) * Fintype.card T = Fintype.card (X → T) := by
  classical
  let F : {f : X → T // f a = f b} × T ≃ (X → T) := {
    toFun := fun p => Function.update p.1.1 b p.2
    invFun := fun f => (⟨Function.update f b (f a), by
      rw [Function.update_self, Function.update_of_ne h]⟩, f b)
    left_inv := by
      rintro ⟨⟨f, hf⟩, t⟩
      refine Prod.ext (Subtype.ext ?_) (Function.update_self _ _ _)
      dsimp only
      rw [Function.update_of_ne h, Function.update_idem, hf, Function.update_eq_self]
    right_inv := by
      intro f
      dsimp only
      rw [Function.update_idem, Function.update_eq_self] }
  rw [← Fintype.card_congr F, Fintype.card_prod, Fintype.card_subtype]
  unfold count
  congr

theorem share_eq {a R T : Nat} (hR : 0 < R) (hT : 0 < T) (h : a * R = T) : (a : ℚ) / T = 1 / R := by
  have hR' : (R : ℚ) ≠ 0 := by exact_mod_cast hR.ne'
  have hT' : (T : ℚ) ≠ 0 := by exact_mod_cast hT.ne'
  rw [div_eq_div_iff hT' hR', one_mul]
  exact_mod_cast h

theorem theKey_kind {x c : KeyBytes v} (h : theKey P v x = .ok c) : c.1 = x.1 := by
  unfold theKey at h
  obtain ⟨key, -, h⟩ := Res.bind_eq_ok.1 h
  cases h
  rfl

/-- Two different keys of one kind have the same id with chance exactly one in `2 ^ 264`: what the
bounds say of two keys, and of one given key and one more. -/
theorem two_keys (P : Prims) (k : Kind) (b b' : BytesN (keyLen v k)) (c c' : KeyBytes v)
    (hb : theKey P v ⟨k, b⟩ = .ok c) (hb' : theKey P v ⟨k, b'⟩ = .ok c') (h : c ≠ c') :
    idChance (fun f : Ids v => idOf (P.withIds v f) v ⟨k, b⟩ = idOf (P.withIds v f) v ⟨k, b'⟩) =
      1 / 2 ^ 264 := by
  have e : ∀ f : Ids v, (idOf (P.withIds v f) v ⟨k, b⟩ = idOf (P.withIds v f) v ⟨k, b'⟩) ↔
      f (point c) = f (point c') := by
    intro f
    rw [idOf_ids, idOf_ids]
    unfold answer
    rw [hb, hb']
    show Res.ok _ = Res.ok _ ↔ _
    rw [Res.ok.injEq, theKey_kind hb, theKey_kind hb']
    exact ⟨textOf_inj, fun h => by rw [h]⟩
  simp only [e]
  have h1 := count_equal (T := BytesN 33) fun e => h (point_inj e)
  rw [card_ids] at h1
  have h2 := share_eq (Nat.two_pow_pos 264) (card_pos someId) h1
  rw [Nat.cast_pow] at h2
  exact h2

/-- The hash of `P` itself, as a function that makes the ids. -/
def ownIds (P : Prims) : (v : Ver) → Ids v
  | .V3 => fun m => (P.sha384 m.1).prefixN 33 (by decide)
  | .V4 => fun m => P.blake2b 33 m.1

theorem with_sha (P : Prims) {s : Bytes → BytesN 48} (h : ∀ m, s m = P.sha384 m) :
    { P with sha384 := s } = P := by
  cases funext h
  rfl

theorem with_blake (P : Prims) {t : (n : Nat) → Bytes → BytesN n} (h : ∀ n m, t n m = P.blake2b n m) :
    { P with blake2b := t } = P := by
  cases funext fun n => funext (h n)
  rfl

/-- The hash of the library is one of those counted: with it, nothing changes. -/
theorem own (P : Prims) (v : Ver) : P.withIds v (ownIds P v) = P := by
  cases v
  · unfold Prims.withIds
    refine with_sha P fun m => ?_
    split
    · exact Subtype.ext (List.take_append_drop 33 (P.sha384 m).1)
    · rfl
  · unfold Prims.withIds
    refine with_blake P fun n m => ?_
    split
    · rename_i h
      obtain ⟨rfl, -⟩ := h
      rfl
    · rfl

/-- The two local keys of all zeros and all ones, in `k4`. -/
example (P : Prims) :
    idChance (fun f : Ids .V4 =>
      idOf (P.withIds .V4 f) .V4 ⟨.Local, (⟨List.replicate 32 0, List.length_replicate⟩ : BytesN 32)⟩ =
      idOf (P.withIds .V4 f) .V4 ⟨.Local, (⟨List.replicate 32 1, List.length_replicate⟩ : BytesN 32)⟩) =
      1 / 2 ^ 264 :=
  two_keys P .Local _ _ _ _ rfl rfl (by
    intro h
    have : List.replicate 32 (0 : UInt8) = List.replicate 32 1 :=
      congrArg (fun c : KeyBytes .V4 => c.2.1) h
    exact absurd this (by decide))

/-- A billion keys a second for a thousand years: fewer than `2 ^ 65` keys, and a chance of less than
one in `2 ^ 135`. -/
example (P : Prims) (ask : List (Res Bytes) → Option (KeyBytes v)) :
    idChance (fun f : Ids v => Collided (P.withIds v f) (naming (P.withIds v f) ask (2 ^ 65) [])) ≤
      1 / 2 ^ 135 := by
  refine le_trans (collision P ask (2 ^ 65)) ?_
  rw [show 264 = 135 + 129 from rfl, pow_add]
  norm_num

end Pasta.C85
