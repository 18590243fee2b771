import Mathlib.Algebra.Order.Field.Rat
import Mathlib.Logic.Equiv.Prod
import Mathlib.Data.Fintype.Sum
import Mathlib.Tactic.Linarith
import Mathlib.Tactic.Positivity
import Mathlib.Tactic.FieldSimp
import Verif.Spec.Distinguish
import Verif.Lemmas.Distinguish
import Verif.Props.Birthday
import Verif.Props.Samples
import Verif.Props.TokenSpec

/-!
# C82: who does not know the key cannot tell which of two messages is in a token

With random nonces, a random derivation of cipher keys and a random cipher.
-/

namespace Pasta.C82

variable {P : Prims} {v : Ver} {L : Nat}

/-! ### Guessing several values at one point -/

section tree

variable {X T : Type}

/-- Guess every value of the list. -/
def guessAll (x : X) (next : Guess X T) : List T → Guess X T
  | [] => next
  | t :: ts => .guess x t fun _ => guessAll x next ts

theorem guessAll_atMost (x : X) {next : Guess X T} {q : Nat} (h : next.AtMost q) :
    ∀ ts : List T, (guessAll x next ts).AtMost (q + ts.length)
  | [] => h
  | _ :: ts => ⟨q + ts.length, rfl, fun _ => guessAll_atMost x h ts⟩

theorem guessAll_wins [DecidableEq X] [DecidableEq T] (x : X) (next : Guess X T) (f : X → T)
    (seen : Finset X) :
    ∀ ts : List T, (guessAll x next ts).Wins f seen ↔ (x ∉ seen ∧ f x ∈ ts) ∨ next.Wins f seen
  | [] => by simp [guessAll]
  | t :: ts => by
    simp only [guessAll, Guess.Wins, guessAll_wins x next f seen ts, List.mem_cons]
    tauto

end tree

/-! ### The game in short -/

variable (P) in
/-- The texts, given the nonces. -/
def plays (iv : Ivs v) (co : List Bytes → Option HidingCore) (e : EncKeys) (c : Ciphers) (s : Side) :
    List (BytesN 32) → List Bytes → List Bytes
  | [], texts => texts
  | n :: ns, texts =>
    match co texts with
    | none => texts
    | some k => plays iv co e c s ns (texts ++ [k.out P iv e c s n])

variable (P) in
/-- The requests served, with their nonces. -/
def trace (iv : Ivs v) (co : List Bytes → Option HidingCore) (e : EncKeys) (c : Ciphers) (s : Side) :
    List (BytesN 32) → List Bytes → List (HidingCore × BytesN 32)
  | [], _ => []
  | n :: ns, texts =>
    match co texts with
    | none => []
    | some k => (k, n) :: trace iv co e c s ns (texts ++ [k.out P iv e c s n])

theorem game_eq (P : Prims) (key : BytesN 32) (iv : Ivs v) (ask : List Bytes → Option (Hiding v))
    (hask : ∀ texts a, ask texts = some a → a.Comparable P L) :
    ∃ co : List Bytes → Option HidingCore, (∀ texts k, co texts = some k → k.Ok L) ∧
      (∀ texts, co texts = none → ask texts = none) ∧ ∀ e c s (ns : List (BytesN 32)) texts,
        hidingGame ((P.withEncKeys key v e iv).withCiphers c) ⟨key⟩ s ask ns.length
          (ns.map Subtype.val).flatten texts = .ok (plays P iv co e c s ns texts) := by
  have h : ∀ texts, ∃ o : Option HidingCore, (∀ k, o = some k → k.Ok L) ∧
      (ask texts = none → o = none) ∧
      ∀ a, ask texts = some a → ∃ k, o = some k ∧ ∀ (e : EncKeys) (c : Ciphers) (s : Side)
        (n : BytesN 32) (rest : Rng),
        a.run ((P.withEncKeys key v e iv).withCiphers c) ⟨key⟩ s (n.1 ++ rest) =
          .ok (k.out P iv e c s n, rest) := by
    intro texts
    cases ha : ask texts with
    | none => exact ⟨none, fun k h => (nomatch h), fun _ => rfl, fun a h => (nomatch h)⟩
    | some a =>
      obtain ⟨k, h1, h2⟩ := a.core P key iv (hask texts a ha)
      refine ⟨some k, fun k' h => by cases h; exact h1, fun h => (by cases h), fun a' h => ?_⟩
      cases h
      exact ⟨k, rfl, h2⟩
  choose co h1 h2 h3 using h
  refine ⟨co, h1, fun texts h => ?_, fun e c s ns => ?_⟩
  · cases ha : ask texts with
    | none => rfl
    | some a =>
      obtain ⟨k, h4, -⟩ := h3 texts a ha
      rw [h] at h4; cases h4
  induction ns with
  | nil => intro texts; rfl
  | cons n ns ih =>
    intro texts
    rw [List.length_cons, List.map_cons, List.flatten_cons]
    unfold hidingGame plays
    cases ha : ask texts with
    | none => rw [h2 texts ha]
    | some a =>
      obtain ⟨k, h4, h5⟩ := h3 texts a ha
      rw [h4]
      dsimp only
      rw [h5, Res.ok_bind]
      exact ih _

/-! ### Exchanging the two sides -/

/-- The other side. -/
def other : Side → Side
  | .left => .right
  | .right => .left

/-- A change of the key stream for some cipher keys, each with its initialisation vector. -/
abbrev Mask (v : Ver) := BytesN 32 → Option (BytesN (ivLen v) × (Nat → UInt8))

/-- Change the cipher. -/
def shift : {v : Ver} → Mask v → CipherFam v L → CipherFam v L
  | .V3, M, c => fun k b =>
    match M k with
    | none => c k b
    | some (iv, d) => ⟨(c k b).1.mapIdx fun r x =>
        x ^^^ d (16 * ((beNat (b.1.drop 8) + 2 ^ 64 - beNat (iv.1.drop 8)) % 2 ^ 64) + r), by
        simp [(c k b).2]⟩
  | .V4, M, c => fun k n i =>
    match M k with
    | none => c k n i
    | some (_, d) => c k n i ^^^ d i.1

theorem xor_twice (x y : UInt8) : x ^^^ y ^^^ y = x := by
  rw [UInt8.xor_assoc, UInt8.xor_self, UInt8.xor_zero]

theorem shift_shift (M : Mask v) (c : CipherFam v L) : shift M (shift M c) = c := by
  cases v with
  | V3 =>
    funext k b
    apply Subtype.ext
    cases h : M k with
    | none => simp only [shift, h]
    | some x =>
      simp only [shift, h]
      apply List.ext_getElem
      · simp
      · intro i h1 h2
        simp only [List.getElem_mapIdx, xor_twice]
  | V4 =>
    funext k n i
    cases h : M k with
    | none => simp only [shift, h]
    | some x => simp only [shift, h, xor_twice]

theorem shift_stream (M : Mask v) (c : CipherFam v L) {ek : BytesN 32} {iv : BytesN (ivLen v)}
    {d : Nat → UInt8} (h : M ek = some (iv, d)) {i : Nat} (hi : i < L) (hi' : i < 2 ^ 64) :
    stream (P.withCiphers ((shift M c).ciphers P)) v ek iv i =
      stream (P.withCiphers (c.ciphers P)) v ek iv i ^^^ d i := by
  cases v with
  | V3 =>
    have hj : i / 16 < 2 ^ 64 := by omega
    have he : 16 * (i / 16) + i % 16 = i := by omega
    have hl : ∀ b, i % 16 < ((show BytesN 32 → BytesN 16 → BytesN 16 from c) ek b).1.length := by
      intro b
      rw [((show BytesN 32 → BytesN 16 → BytesN 16 from c) ek b).2]; omega
    show (P.withCiphers _).aesCtr64 ek iv i = (P.withCiphers _).aesCtr64 ek iv i ^^^ d i
    unfold Prims.aesCtr64
    simp only [Prims.withCiphers, CipherFam.ciphers, shift, h]
    rw [List.getElem?_mapIdx, List.getElem?_eq_getElem (hl _)]
    simp only [Option.map_some, Option.getD_some]
    rw [ctr64Block_index iv _ hj, he]
  | V4 =>
    show (if h : i < L then shift M c ek iv ⟨i, h⟩ else 0) =
      (if h : i < L then c ek iv ⟨i, h⟩ else 0) ^^^ d i
    rw [dif_pos hi, dif_pos hi]
    simp only [shift, h]

/-- The difference of the two candidates. -/
def diff (k : HidingCore) (i : Nat) : UInt8 := (k.hidden .left)[i]?.getD 0 ^^^ (k.hidden .right)[i]?.getD 0

theorem out_swap (iv : Ivs v) (M : Mask v) (c : CipherFam v L) (e : EncKeys) (s : Side)
    (n : BytesN 32) (k : HidingCore) (hk : k.Ok L)
    (h : M (e (k.tag, n)) = some (iv (k.tag, n), diff k)) :
    k.out P iv e ((shift M c).ciphers P) (other s) n = k.out P iv e (c.ciphers P) s n := by
  unfold HidingCore.out
  congr 1
  obtain ⟨h1, h2, h3⟩ := hk
  have hlen : ∀ s, (k.hidden s).length = (k.hidden .left).length := by
    intro s; cases s
    · rfl
    · exact h1.symm
  unfold applyKeystream
  apply List.ext_getElem
  · rw [List.length_mapIdx, List.length_mapIdx, hlen (other s), hlen s]
  · intro i hi hi'
    rw [List.length_mapIdx, hlen] at hi
    have h3 : (k.hidden .left).length < 2 ^ 63 := h3
    simp only [List.getElem_mapIdx]
    rw [shift_stream M c h (by omega) (by omega)]
    have hr : i < (k.hidden .right).length := by omega
    unfold diff
    rw [List.getElem?_eq_getElem hi, List.getElem?_eq_getElem hr]
    cases s
    · exact xor_shift _ _ _
    · show (k.hidden .left)[i] ^^^ _ = (k.hidden .right)[i] ^^^ _
      rw [UInt8.xor_comm (Option.getD (some (k.hidden .left)[i]) 0)]
      exact xor_shift _ _ _

theorem swap (iv : Ivs v) (co : List Bytes → Option HidingCore)
    (hco : ∀ texts k, co texts = some k → k.Ok L) (M : Mask v) (c : CipherFam v L) (e : EncKeys)
    (s : Side) :
    ∀ (ns : List (BytesN 32)) (texts : List Bytes),
      (∀ x ∈ trace P iv co e (c.ciphers P) s ns texts,
        M (e (x.1.tag, x.2)) = some (iv (x.1.tag, x.2), diff x.1)) →
      plays P iv co e ((shift M c).ciphers P) (other s) ns texts =
          plays P iv co e (c.ciphers P) s ns texts ∧
        trace P iv co e ((shift M c).ciphers P) (other s) ns texts =
          trace P iv co e (c.ciphers P) s ns texts := by
  intro ns
  induction ns with
  | nil => intro texts _; exact ⟨rfl, rfl⟩
  | cons n ns ih =>
    intro texts h
    unfold plays trace
    unfold trace at h
    cases hk : co texts with
    | none => exact ⟨rfl, rfl⟩
    | some k =>
      rw [hk] at h
      dsimp only at h ⊢
      rw [out_swap iv M c e s n k (hco texts k hk) (h (k, n) List.mem_cons_self)]
      obtain ⟨h1, h2⟩ := ih _ fun x hx => h x (List.mem_cons_of_mem _ hx)
      exact ⟨h1, by rw [h2]⟩

/-- The cipher keys used. -/
def eks (e : EncKeys) (tr : List (HidingCore × BytesN 32)) : List (BytesN 32) :=
  tr.map fun x => e (x.1.tag, x.2)

/-- What has to be changed to exchange the sides. -/
def maskOf (iv : Ivs v) (e : EncKeys) (tr : List (HidingCore × BytesN 32)) : Mask v := fun k =>
  (tr.find? fun x => decide (e (x.1.tag, x.2) = k)).map fun x => (iv (x.1.tag, x.2), diff x.1)

theorem maskOf_mem (iv : Ivs v) (e : EncKeys) {tr : List (HidingCore × BytesN 32)}
    (h : (eks e tr).Nodup) {x : HidingCore × BytesN 32} (hx : x ∈ tr) :
    maskOf iv e tr (e (x.1.tag, x.2)) = some (iv (x.1.tag, x.2), diff x.1) := by
  have : tr.find? (fun y => decide (e (y.1.tag, y.2) = e (x.1.tag, x.2))) = some x := by
    induction tr with
    | nil => cases hx
    | cons y tr ih =>
      rw [eks, List.map_cons, List.nodup_cons] at h
      rcases List.mem_cons.1 hx with rfl | hx
      · rw [List.find?_cons_of_pos (by simp)]
      · rw [List.find?_cons_of_neg, ih h.2 hx]
        simp only [decide_eq_true_eq]
        intro he
        exact h.1 (he ▸ List.mem_map_of_mem (f := fun x => e (x.1.tag, x.2)) hx)
  unfold maskOf
  rw [this]
  rfl

open Classical in
/-- With the nonces and cipher keys fixed: as many ciphers for one side as for the other, but for
those that repeat a cipher key. -/
theorem sides (iv : Ivs v) (co : List Bytes → Option HidingCore)
    (hco : ∀ texts k, co texts = some k → k.Ok L) (e : EncKeys) (s : Side) (ns : List (BytesN 32))
    (D : List Bytes → Prop) :
    (Finset.univ.filter fun c : CipherFam v L => D (plays P iv co e (c.ciphers P) s ns [])).card ≤
      (Finset.univ.filter fun c : CipherFam v L =>
        D (plays P iv co e (c.ciphers P) (other s) ns [])).card +
      (Finset.univ.filter fun c : CipherFam v L =>
        ¬ (eks e (trace P iv co e (c.ciphers P) s ns [])).Nodup).card := by
  set good := Finset.univ.filter fun c : CipherFam v L =>
    D (plays P iv co e (c.ciphers P) s ns []) ∧ (eks e (trace P iv co e (c.ciphers P) s ns [])).Nodup
    with hgood
  have hsub : (Finset.univ.filter fun c : CipherFam v L => D (plays P iv co e (c.ciphers P) s ns [])) ⊆
      good ∪ Finset.univ.filter fun c : CipherFam v L =>
        ¬ (eks e (trace P iv co e (c.ciphers P) s ns [])).Nodup := by
    intro c hc
    have hc := (Finset.mem_filter.1 hc).2
    rw [Finset.mem_union, hgood, Finset.mem_filter, Finset.mem_filter]
    by_cases h : (eks e (trace P iv co e (c.ciphers P) s ns [])).Nodup
    · exact .inl ⟨Finset.mem_univ _, hc, h⟩
    · exact .inr ⟨Finset.mem_univ _, h⟩
  refine le_trans (Finset.card_le_card hsub) (le_trans (Finset.card_union_le _ _)
    (Nat.add_le_add_right ?_ _))
  have hsw : ∀ c ∈ good, _ := fun c hc => swap iv co hco
    (maskOf iv e (trace P iv co e (c.ciphers P) s ns [])) c e s ns [] fun x hx =>
      maskOf_mem iv e (Finset.mem_filter.1 hc).2.2 hx
  refine Finset.card_le_card_of_injOn
    (fun c => shift (maskOf iv e (trace P iv co e (c.ciphers P) s ns [])) c) ?_ ?_
  · intro c hc
    have h := (hsw c hc).1
    simp only [Finset.coe_filter, Set.mem_ofPred_eq, Finset.mem_univ, true_and]
    rw [h]
    exact (Finset.mem_filter.1 hc).2.1
  · intro c hc c' hc' h
    have h1 := (hsw c hc).2
    have h2 := (hsw c' hc').2
    dsimp only at h
    rw [h, h2] at h1
    rw [h1] at h
    have := congrArg (shift (maskOf iv e (trace P iv co e (c.ciphers P) s ns []))) h
    rwa [shift_shift, shift_shift] at this

/-! ### Repeated cipher keys -/

/-- What is random: the nonces and the derived cipher keys. -/
abbrev Point (n : Nat) := Fin n ⊕ EncInput

variable (P) in
/-- Guess that a nonce is one of those before; guess that a cipher key is one of those before. -/
def tree {n : Nat} (iv : Ivs v) (co : List Bytes → Option HidingCore) (c : Ciphers) (s : Side) :
    List (Fin n) → List Bytes → List (BytesN 32) → List (BytesN 32) → Guess (Point n) (BytesN 32)
  | [], _, _, _ => .stop
  | i :: is, texts, ns, es =>
    match co texts with
    | none => .stop
    | some k =>
      guessAll (.inl i) (.look (.inl i) fun n =>
        guessAll (.inr (k.tag, n)) (.look (.inr (k.tag, n)) fun ek =>
          tree iv co c s is (texts ++ [k.out P iv (fun _ => ek) c s n]) (n :: ns) (ek :: es)) es) ns

theorem tree_atMost {n : Nat} (iv : Ivs v) (co : List Bytes → Option HidingCore) (c : Ciphers)
    (s : Side) :
    ∀ (is : List (Fin n)) (texts : List Bytes) (ns es : List (BytesN 32)), ns.length = es.length →
      (tree P iv co c s is texts ns es).AtMost (is.length * (2 * ns.length + is.length - 1)) := by
  intro is
  induction is with
  | nil => intro texts ns es _; trivial
  | cons i is ih =>
    intro texts ns es h
    unfold tree
    cases co texts with
    | none => trivial
    | some k =>
      dsimp only
      have e : (i :: is).length * (2 * ns.length + (i :: is).length - 1) =
          (is.length * (2 * (ns.length + 1) + is.length - 1) + es.length) + ns.length := by
        rw [List.length_cons, ← h]
        generalize is.length = a
        generalize ns.length = b
        have e1 : 2 * b + (a + 1) - 1 = 2 * b + a := by omega
        have e2 : 2 * (b + 1) + a - 1 = 2 * b + a + 1 := by omega
        rw [e1, e2]
        ring
      rw [e]
      refine guessAll_atMost _ (next := .look _ _) ?_ _
      intro n
      refine guessAll_atMost _ (next := .look _ _) ?_ _
      intro ek
      exact ih _ (n :: ns) (ek :: es) (by simp [h])

theorem not_wins {n : Nat} (iv : Ivs v) (co : List Bytes → Option HidingCore) (c : Ciphers)
    (s : Side) (f : Point n → BytesN 32) :
    ∀ (is : List (Fin n)) (texts : List Bytes) (ns es : List (BytesN 32)) (seen : Finset (Point n)),
      is.Nodup → (∀ i ∈ is, Sum.inl i ∉ seen) → (∀ b m, Sum.inr (b, m) ∈ seen → m ∈ ns) →
      ¬ (tree P iv co c s is texts ns es).Wins f seen → es.Nodup →
      (es.reverse ++ eks (fun x => f (.inr x))
        (trace P iv co (fun x => f (.inr x)) c s (is.map fun i => f (.inl i)) texts)).Nodup := by
  intro is
  induction is with
  | nil =>
    intro texts ns es seen _ _ _ _ h
    simpa [trace, eks] using h
  | cons i is ih =>
    intro texts ns es seen h1 h2 h3 h4 h5
    rw [List.map_cons]
    unfold trace
    unfold tree at h4
    cases hk : co texts with
    | none => simpa [eks] using h5
    | some k =>
      rw [hk] at h4
      dsimp only at h4 ⊢
      rw [guessAll_wins] at h4
      simp only [Guess.Wins] at h4
      rw [guessAll_wins] at h4
      simp only [Guess.Wins] at h4
      push Not at h4
      obtain ⟨h6, h7, h8⟩ := h4
      have h9 := h6 (h2 i List.mem_cons_self)
      have h10 : Sum.inr (k.tag, f (.inl i)) ∉ insert (Sum.inl i) seen := by
        rw [Finset.mem_insert]
        rintro (h | h)
        · cases h
        · exact h9 (h3 _ _ h)
      have h11 := h7 h10
      obtain ⟨h12, h13⟩ := List.nodup_cons.1 h1
      have := ih _ _ _ _ h13 ?_ ?_ h8 (List.nodup_cons.2 ⟨h11, h5⟩)
      · rw [List.reverse_cons, List.append_assoc] at this
        exact this
      · intro j hj
        rw [Finset.mem_insert, Finset.mem_insert]
        rintro (h | h | h)
        · cases h
        · cases h; exact h12 hj
        · exact h2 j (List.mem_cons_of_mem _ hj) h
      · intro b m hm
        rw [Finset.mem_insert, Finset.mem_insert] at hm
        rcases hm with h | h | h
        · cases h; exact List.mem_cons_self
        · cases h
        · exact List.mem_cons_of_mem _ (h3 b m h)

open Classical in
/-- With the cipher fixed: cipher keys are hardly ever repeated. -/
theorem repeats {n : Nat} (iv : Ivs v) (co : List Bytes → Option HidingCore) (c : Ciphers) (s : Side) :
    (Finset.univ.filter fun x : Blocks n × EncKeys =>
        ¬ (eks x.2 (trace P iv co x.2 c s (List.ofFn x.1) [])).Nodup).card * 2 ^ 256 ≤
      n * (n - 1) * Fintype.card (Blocks n × EncKeys) := by
  let F : Blocks n × EncKeys ≃ ({p // p ∈ (Finset.univ : Finset (Point n))} → BytesN 32) :=
    (Equiv.sumArrowEquivProdArrow (Fin n) EncInput (BytesN 32)).symm.trans
      (Equiv.arrowCongr (Equiv.subtypeUnivEquiv Finset.mem_univ).symm (Equiv.refl _))
  have hF : ∀ x p, Guess.ext (fun _ => ⟨List.replicate 32 0, rfl⟩) Finset.univ (F x) p =
      Sum.elim x.1 x.2 p := by
    intro x p
    unfold Guess.ext
    rw [dif_pos (Finset.mem_univ p)]
    rfl
  have h := Guess.card_wins_all (fun _ => ⟨List.replicate 32 0, rfl⟩) Finset.univ
    (tree P iv co c s (List.finRange n) [] [] []) _ (tree_atMost iv co c s _ _ _ _ rfl)
    (Finset.subset_univ _)
  rw [List.length_finRange, C75.card_bytes, ← Fintype.card_congr F] at h
  have e : (256 : Nat) ^ 32 = 2 ^ 256 := by norm_num
  rw [e] at h
  simp only [List.length_nil, Nat.mul_zero, Nat.zero_add] at h
  refine le_trans (Nat.mul_le_mul_right _ ?_) h
  refine Finset.card_le_card_of_injOn F ?_ (fun x _ y _ h => F.injective h)
  intro x hx
  have hx := (Finset.mem_filter.1 hx).2
  simp only [Finset.coe_filter, Set.mem_ofPred_eq, Finset.mem_univ, true_and]
  by_contra hw
  apply hx
  have e2 : (Guess.ext (fun _ => ⟨List.replicate 32 0, rfl⟩) Finset.univ (F x)) = Sum.elim x.1 x.2 :=
    funext (hF x)
  rw [e2] at hw
  have := not_wins iv co c s (Sum.elim x.1 x.2) (List.finRange n) [] [] [] ∅
    (List.nodup_finRange n) (by simp) (by simp) hw List.nodup_nil
  simp only [Sum.elim_inr, Sum.elim_inl, List.reverse_nil, List.nil_append] at this
  rwa [← List.ofFn_eq_map] at this

/-! ### The bound -/

open Classical in
/-- How many there are. -/
noncomputable def count {α : Type} [Fintype α] (A : α → Prop) : Nat := (Finset.univ.filter A).card

theorem count_eq {α : Type} [Fintype α] (A : α → Prop) [DecidablePred A] :
    (Finset.univ.filter A).card = count A := by
  unfold count
  congr

theorem count_prod {α β : Type} [Fintype α] [Fintype β] (A : α × β → Prop) :
    count A = ∑ a : α, count fun b => A (a, b) := by
  simp only [count, Finset.card_filter]
  rw [Fintype.sum_prod_type]

theorem count_prod' {α β : Type} [Fintype α] [Fintype β] (A : α × β → Prop) :
    count A = ∑ b : β, count fun a => A (a, b) := by
  simp only [count, Finset.card_filter]
  rw [Fintype.sum_prod_type_right]

open Classical in
theorem core_side (P : Prims) (iv : Ivs v) (n : Nat) (co : List Bytes → Option HidingCore)
    (hco : ∀ texts k, co texts = some k → k.Ok L) (D : List Bytes → Prop) (s : Side) :
    (Finset.univ.filter fun x : Ideal v n L =>
        D (plays P iv co x.2.1 (x.2.2.ciphers P) s (List.ofFn x.1) [])).card * 2 ^ 256 ≤
      (Finset.univ.filter fun x : Ideal v n L =>
        D (plays P iv co x.2.1 (x.2.2.ciphers P) (other s) (List.ofFn x.1) [])).card * 2 ^ 256 +
        n * (n - 1) * Fintype.card (Ideal v n L) := by
  have hbad : (Finset.univ.filter fun x : Ideal v n L => ¬ (eks x.2.1
      (trace P iv co x.2.1 (x.2.2.ciphers P) s (List.ofFn x.1) [])).Nodup).card * 2 ^ 256 ≤
      n * (n - 1) * Fintype.card (Ideal v n L) := by
    have e1 : (Finset.univ.filter fun x : Ideal v n L => ¬ (eks x.2.1
        (trace P iv co x.2.1 (x.2.2.ciphers P) s (List.ofFn x.1) [])).Nodup).card =
        (Finset.univ.filter fun x : (Blocks n × EncKeys) × CipherFam v L => ¬ (eks x.1.2
          (trace P iv co x.1.2 (x.2.ciphers P) s (List.ofFn x.1.1) [])).Nodup).card := by
      refine Finset.card_bij' (fun x _ => ((x.1, x.2.1), x.2.2)) (fun x _ => (x.1.1, x.1.2, x.2))
        ?_ ?_ (fun _ _ => rfl) (fun _ _ => rfl)
      · intro x hx
        simpa using hx
      · intro x hx
        simpa using hx
    rw [e1, count_eq, count_prod', Finset.sum_mul]
    refine le_trans (Finset.sum_le_sum fun c _ => ?_)
      (b := ∑ _c : CipherFam v L, n * (n - 1) * Fintype.card (Blocks n × EncKeys)) ?_
    · have := repeats (P := P) (n := n) iv co (c.ciphers P) s
      rwa [count_eq] at this
    rw [Finset.sum_const, Finset.card_univ, Nat.nsmul_eq_mul, Fintype.card_prod, Fintype.card_prod,
      Fintype.card_prod]
    exact le_of_eq (by ring)
  refine le_trans (Nat.mul_le_mul_right (2 ^ 256) ?_) (le_trans (le_of_eq (Nat.add_mul _ _ _))
    (Nat.add_le_add_left hbad _))
  rw [count_eq, count_eq, count_eq, count_prod, count_prod, count_prod, ← Finset.sum_add_distrib]
  refine Finset.sum_le_sum fun t _ => ?_
  rw [count_prod, count_prod, count_prod, ← Finset.sum_add_distrib]
  refine Finset.sum_le_sum fun e _ => ?_
  have := sides (P := P) iv co hco e s (List.ofFn t) D
  rwa [count_eq, count_eq, count_eq] at this

open Classical in
theorem one_side (P : Prims) (key : BytesN 32) (iv : Ivs v) (n : Nat)
    (ask : List Bytes → Option (Hiding v))
    (hask : ∀ texts a, ask texts = some a → a.Comparable P L) (D : Res (List Bytes) → Prop) (s : Side) :
    (Finset.univ.filter fun x : Ideal v n L => D (x.view P key iv ask s)).card * 2 ^ 256 ≤
      (Finset.univ.filter fun x : Ideal v n L => D (x.view P key iv ask (other s))).card * 2 ^ 256 +
        n * (n - 1) * Fintype.card (Ideal v n L) := by
  obtain ⟨co, hco, -, hg⟩ := game_eq P key iv ask hask
  have hv : ∀ (x : Ideal v n L) s, x.view P key iv ask s =
      .ok (plays P iv co x.2.1 (x.2.2.ciphers P) s (List.ofFn x.1) []) := by
    intro x s
    have := hg x.2.1 (x.2.2.ciphers P) s (List.ofFn x.1) []
    rw [List.length_ofFn] at this
    exact this
  simp only [hv]
  exact core_side P iv n co hco (fun texts => D (.ok texts)) s

theorem card_pos (v : Ver) (n L : Nat) : 0 < Fintype.card (Ideal v n L) := by
  rw [Fintype.card_pos_iff]
  refine ⟨fun _ => ⟨List.replicate 32 0, rfl⟩, fun _ => ⟨List.replicate 32 0, rfl⟩, ?_⟩
  cases v
  · exact (fun _ _ => ⟨List.replicate 16 0, rfl⟩ : BytesN 32 → BytesN 16 → BytesN 16)
  · exact (fun _ _ _ => 0 : BytesN 32 → BytesN 24 → Fin L → UInt8)

/-- Whatever is asked for and whatever is concluded from the texts: the conclusion is drawn (almost) as
often when the left candidates are used as when the right ones are. -/
theorem advantage (P : Prims) (key : BytesN 32) (iv : Ivs v) (n : Nat)
    (ask : List Bytes → Option (Hiding v))
    (hask : ∀ texts a, ask texts = some a → a.Comparable P L) (D : Res (List Bytes) → Prop) :
    |Ideal.chance (fun x : Ideal v n L => D (x.view P key iv ask .left)) -
        Ideal.chance (fun x : Ideal v n L => D (x.view P key iv ask .right))| ≤
      n * (n - 1) / 2 ^ 256 := by
  classical
  have hpos : (0 : ℚ) < Fintype.card (Ideal v n L) := by exact_mod_cast card_pos v n L
  have h1 := one_side P key iv n ask hask D .left
  have h2 := one_side P key iv n ask hask D .right
  simp only [other] at h1 h2
  have hn : ((n * (n - 1) : Nat) : ℚ) = (n : ℚ) * (n - 1) := by
    cases n with
    | zero => simp
    | succ n => push_cast; simp
  unfold Ideal.chance
  set a := (Finset.univ.filter fun x : Ideal v n L => D (x.view P key iv ask .left)).card
  set b := (Finset.univ.filter fun x : Ideal v n L => D (x.view P key iv ask .right)).card
  set N := Fintype.card (Ideal v n L)
  have h1' : (a : ℚ) * 2 ^ 256 ≤ b * 2 ^ 256 + n * (n - 1) * N := by
    rw [← hn]; exact_mod_cast h1
  have h2' : (b : ℚ) * 2 ^ 256 ≤ a * 2 ^ 256 + n * (n - 1) * N := by
    rw [← hn]; exact_mod_cast h2
  rw [← sub_div, abs_div, abs_of_pos hpos, div_le_div_iff₀ hpos (by positivity)]
  have hp : (0 : ℚ) < 2 ^ 256 := by positivity
  rw [← abs_of_pos hp, ← abs_mul, abs_le]
  constructor <;> linarith

/-- The game always runs to its end. -/
theorem runs (P : Prims) (key : BytesN 32) (iv : Ivs v) (n : Nat)
    (ask : List Bytes → Option (Hiding v))
    (hask : ∀ texts a, ask texts = some a → a.Comparable P L) (s : Side) (x : Ideal v n L) :
    ∃ texts, x.view P key iv ask s = .ok texts ∧
      (texts.length = n ∨ texts.length < n ∧ ask texts = none) := by
  obtain ⟨co, hco, hn, hg⟩ := game_eq P key iv ask hask
  have h : ∀ ns texts, (plays P iv co x.2.1 (x.2.2.ciphers P) s ns texts).length =
      texts.length + ns.length ∨ (plays P iv co x.2.1 (x.2.2.ciphers P) s ns texts).length <
        texts.length + ns.length ∧ ask (plays P iv co x.2.1 (x.2.2.ciphers P) s ns texts) = none := by
    intro ns
    induction ns with
    | nil => intro texts; exact .inl rfl
    | cons n ns ih =>
      intro texts
      unfold plays
      cases hk : co texts with
      | none => exact .inr ⟨by simp, hn texts hk⟩
      | some k =>
        have := ih (texts ++ [k.out P iv x.2.1 (x.2.2.ciphers P) s n])
        simp only [List.length_append, List.length_cons, List.length_nil] at this ⊢
        rcases this with h | ⟨h, h'⟩
        · exact .inl (by omega)
        · exact .inr ⟨by omega, h'⟩
  have h1 := hg x.2.1 (x.2.2.ciphers P) s (List.ofFn x.1) []
  have h2 := h (List.ofFn x.1) []
  rw [List.length_ofFn] at h1 h2
  rw [List.length_nil, Nat.zero_add] at h2
  exact ⟨_, h1, h2⟩

/-! ### How good the bound is -/

/-- Two messages, equal on the left and different on the right. -/
def word : Bool → Side → Bytes
  | true, _ => [0]
  | false, .left => [0]
  | false, .right => [1]

theorem word_length (b : Bool) (s : Side) : (word b s).length = 1 := by cases b <;> cases s <;> rfl

/-- Ask for the two. -/
def twice (v : Ver) (texts : List Bytes) : Option (Hiding v) :=
  some (.token Bytes Unit Sample.Raw inferInstance inferInstance inferInstance (fun _ => ⟨⟩)
    (word texts.isEmpty) () [])

theorem twice_comparable (P : Prims) (hL : 1 ≤ L) (texts : List Bytes) (a : Hiding v)
    (h : twice v texts = some a) : a.Comparable P L := by
  cases h
  refine ⟨⟨word texts.isEmpty, fun s => rfl, ?_, ?_, ?_⟩, [], rfl⟩
  · rw [word_length, word_length]
  · rw [word_length]; exact hL
  · show List.length _ < _
    rw [word_length]; decide

theorem tokenShape_inj (P : Prims) (key : BytesN 32) (v : Ver) (suffix f i : Bytes) {n n' : BytesN 32}
    {ct ct' : Bytes} (hl : ct.length = ct'.length)
    (h : tokenShape P key v suffix f i n ct = tokenShape P key v suffix f i n' ct') :
    n = n' ∧ ct = ct' := by
  have h := C03.tokenText_inj _ _ _ _ h
  rw [List.append_assoc, List.append_assoc] at h
  obtain ⟨h1, h2⟩ := List.append_inj h (n.2.trans n'.2.symm)
  exact ⟨Subtype.ext h1, (List.append_inj h2 hl).1⟩

/-- Asking for twice the same message or for two messages: the two texts are equal when the nonces
are, and the first has been used twice. -/
theorem twice_equal (P : Prims) (key : BytesN 32) (iv : Ivs v) (x : Ideal v 2 L) (s : Side) :
    (∃ text, x.view P key iv (twice v) s = .ok [text, text]) ↔ x.1 0 = x.1 1 ∧ s = .left := by
  let k : Bool → HidingCore := fun b => ⟨false, word b, tokenShape P key v (asc "r") [] []⟩
  have hr : ∀ (texts : List Bytes) (n : BytesN 32) rest,
      Hiding.run (x.prims P key iv) ⟨key⟩ s ((twice v texts).get rfl) (n.1 ++ rest) =
        .ok ((k texts.isEmpty).out P iv x.2.1 (x.2.2.ciphers P) s n, rest) := by
    intro texts n rest
    exact Hiding.token_run P key iv (E := Sample.Raw) inferInstance inferInstance inferInstance
      (fun _ => ⟨⟩) (word texts.isEmpty) () [] (word texts.isEmpty) (fun _ => rfl) rfl x.2.1
      (x.2.2.ciphers P) s n rest
  have hv : x.view P key iv (twice v) s =
      .ok [(k true).out P iv x.2.1 (x.2.2.ciphers P) s (x.1 0),
        (k false).out P iv x.2.1 (x.2.2.ciphers P) s (x.1 1)] := by
    have e1 : x.1.tape = (x.1 0).1 ++ ((x.1 1).1 ++ []) := by
      unfold Blocks.tape
      rw [List.ofFn_succ, List.ofFn_succ]
      simp
    unfold Ideal.view
    rw [e1]
    show (Hiding.run (x.prims P key iv) ⟨key⟩ s ((twice v []).get rfl) _ >>= _) = _
    rw [hr, Res.ok_bind]
    show (Hiding.run (x.prims P key iv) ⟨key⟩ s ((twice v _).get rfl) _ >>= _) = _
    rw [hr, Res.ok_bind]
    rfl
  rw [hv]
  have h1 : (∃ text, (Res.ok [(k true).out P iv x.2.1 (x.2.2.ciphers P) s (x.1 0),
        (k false).out P iv x.2.1 (x.2.2.ciphers P) s (x.1 1)] : Res (List Bytes)) = .ok [text, text]) ↔
      (k true).out P iv x.2.1 (x.2.2.ciphers P) s (x.1 0) =
        (k false).out P iv x.2.1 (x.2.2.ciphers P) s (x.1 1) := by
    constructor
    · rintro ⟨t, h⟩
      simp only [Res.ok.injEq, List.cons.injEq, and_true] at h
      exact h.1.trans h.2.symm
    · intro h
      exact ⟨_, by rw [h]⟩
  rw [h1]
  cases s with
  | left =>
    constructor
    · intro h
      exact ⟨(tokenShape_inj P key v (asc "r") [] []
        (by rw [applyKeystream_length, applyKeystream_length, word_length, word_length]) h).1, rfl⟩
    · rintro ⟨h, -⟩
      rw [h]
      rfl
  | right =>
    refine ⟨fun h => ?_, fun h => (nomatch h.2)⟩
    obtain ⟨h2, h3⟩ := tokenShape_inj P key v (asc "r") [] []
      (by rw [applyKeystream_length, applyKeystream_length, word_length, word_length]) h
    rw [h2] at h3
    have h3 : word true .right = word false .right := applyKeystream_inj h3
    exact absurd h3 (by decide)

theorem ratio (N R : Nat) (hN : 0 < N) (hR : 0 < R) :
    ((N * R : Nat) : ℚ) / ((N ^ 2 * R : Nat) : ℚ) = 1 / N := by
  have hN : (0 : ℚ) < N := by exact_mod_cast hN
  have hR : (0 : ℚ) < R := by exact_mod_cast hR
  push_cast
  rw [div_eq_div_iff (by positivity) (by positivity)]
  ring

/-- With two requests, an advantage of `1 / 2 ^ 256` is reached. -/
theorem reached (P : Prims) (key : BytesN 32) (v : Ver) (iv : Ivs v) (hL : 1 ≤ L) :
    ∃ ask : List Bytes → Option (Hiding v), (∀ texts a, ask texts = some a → a.Comparable P L) ∧
      ∃ D : Res (List Bytes) → Prop,
        Ideal.chance (fun x : Ideal v 2 L => D (x.view P key iv ask .left)) = 1 / 2 ^ 256 ∧
        Ideal.chance (fun x : Ideal v 2 L => D (x.view P key iv ask .right)) = 0 := by
  classical
  refine ⟨twice v, fun texts a => twice_comparable P hL texts a, fun r => ∃ text, r = .ok [text, text],
    ?_, ?_⟩
  · have hA : (fun x : Ideal v 2 L => ∃ text, x.view P key iv (twice v) .left = .ok [text, text]) =
        fun x => x.1 0 = x.1 1 := by
      funext x
      rw [twice_equal]
      simp
    rw [hA]
    unfold Ideal.chance
    rw [count_eq, count_prod]
    have h1 : ∀ t : Blocks 2, (count fun _ : EncKeys × CipherFam v L => t 0 = t 1) =
        (if t 0 = t 1 then 1 else 0) * Fintype.card (EncKeys × CipherFam v L) := by
      intro t
      by_cases h : t 0 = t 1
      · rw [if_pos h, one_mul, ← count_eq, Finset.filter_true_of_mem fun _ _ => h, Finset.card_univ]
      · rw [if_neg h, zero_mul, ← count_eq, Finset.filter_false_of_mem fun _ _ => h,
          Finset.card_empty]
    have h2 : (∑ t : Blocks 2, if t 0 = t 1 then 1 else 0) = 2 ^ 256 := by
      rw [← Finset.card_filter]
      have : (Finset.univ.filter fun t : Blocks 2 => t 0 = t 1) =
          Finset.univ.image fun (b : BytesN 32) (_ : Fin 2) => b := by
        ext t
        simp only [Finset.mem_filter, Finset.mem_univ, true_and, Finset.mem_image]
        constructor
        · intro h
          refine ⟨t 0, ?_⟩
          funext i
          match i with
          | 0 => rfl
          | 1 => exact h
        · rintro ⟨b, rfl⟩; rfl
      rw [this, Finset.card_image_of_injective _ fun a b h => congrFun h 0, Finset.card_univ,
        C75.card_bytes]
      norm_num
    have hpos : 0 < Fintype.card (EncKeys × CipherFam v L) := by
      have := card_pos v 2 L
      rw [Fintype.card_prod] at this
      exact Nat.pos_of_mul_pos_left this
    have hp : (0 : Nat) < 2 ^ 256 := by positivity
    rw [Finset.sum_congr rfl fun t _ => h1 t, ← Finset.sum_mul, h2, Fintype.card_prod (Blocks 2),
      C75.card_blocks]
    generalize Fintype.card (EncKeys × CipherFam v L) = R at hpos ⊢
    rw [ratio _ R hp hpos, Nat.cast_pow, Nat.cast_ofNat]
  · have hA : (fun x : Ideal v 2 L => ∃ text, x.view P key iv (twice v) .right = .ok [text, text]) =
        fun _ => False := by
      funext x
      rw [twice_equal]
      simp
    rw [hA]
    unfold Ideal.chance
    rw [count_eq, ← count_eq, Finset.filter_false, Finset.card_empty, Nat.cast_zero, zero_div]

end Pasta.C82
