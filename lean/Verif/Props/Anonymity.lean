import Mathlib.Algebra.Order.Field.Rat
import Mathlib.Logic.Equiv.Basic
import Mathlib.Tactic.Linarith
import Mathlib.Tactic.Positivity
import Mathlib.Tactic.FieldSimp
import Verif.Lemmas.Anonymity
import Verif.Props.Birthday
import Verif.Props.Distinguish
import Verif.Props.Samples

/-!
# C93: who does not know the keys cannot tell which key made a token

With random nonces and a random derivation from the keys in use. Cipher and MAC are whatever they are.
-/

namespace Pasta.C93

variable {P : Prims} {v : Ver} {K : Finset (BytesN 32)}

/-! ### The game in short -/

/-- A request, in short. -/
structure Core (v : Ver) extends HiddenCore v where
  key : Side → BytesN 32

/-- The texts, given the nonces. -/
def plays (co : List Bytes → Option (Core v)) (D : Derivation v) (s : Side) :
    List (BytesN 32) → List Bytes → List Bytes
  | [], texts => texts
  | n :: ns, texts =>
    match co texts with
    | none => texts
    | some c => plays co D s ns (texts ++ [c.text n (D (c.key s) (c.tag, n))])

theorem game_eq (P : Prims) (ask : List Bytes → Option (Naming v))
    (hask : ∀ texts a, ask texts = some a → a.what.Possible P ∧ ∀ s, a.key s ∈ K) :
    ∃ co : List Bytes → Option (Core v), (∀ texts, co texts = none → ask texts = none) ∧
      ∀ D s (ns : List (BytesN 32)) texts,
        namingGame (P.withDerived K v D) s ask ns.length (ns.map Subtype.val).flatten texts =
          .ok (plays co D s ns texts) := by
  have h : ∀ texts, ∃ o : Option (Core v), (ask texts = none → o = none) ∧
      ∀ a, ask texts = some a → ∃ c, o = some c ∧ ∀ (D : Derivation v) (s : Side)
        (n : BytesN 32) (rest : Rng),
        a.what.run (P.withDerived K v D) ⟨a.key s⟩ (n.1 ++ rest) =
          .ok (c.text n (D (c.key s) (c.tag, n)), rest) := by
    intro texts
    cases ha : ask texts with
    | none => exact ⟨none, fun _ => rfl, fun a h => (nomatch h)⟩
    | some a =>
      obtain ⟨hp, hk⟩ := hask texts a ha
      obtain ⟨c, hc⟩ := a.what.core P hp
      refine ⟨some ⟨c, a.key⟩, fun h => (by cases h), fun a' h => ?_⟩
      cases h
      exact ⟨_, rfl, fun D s => hc K D (a.key s) (hk s)⟩
  choose co h2 h3 using h
  refine ⟨co, fun texts h => ?_, fun D s ns => ?_⟩
  · cases ha : ask texts with
    | none => rfl
    | some a =>
      obtain ⟨k, h4, -⟩ := h3 texts a ha
      rw [h] at h4; cases h4
  induction ns with
  | nil => intro texts; rfl
  | cons n ns ih =>
    intro texts
    rw [List.length_cons, List.map_cons, List.flatten_cons]
    unfold namingGame plays
    cases ha : ask texts with
    | none => rw [h2 texts ha]
    | some a =>
      obtain ⟨k, h4, h5⟩ := h3 texts a ha
      rw [h4]
      dsimp only
      rw [h5, Res.ok_bind]
      exact ih _

/-! ### Exchanging the two sides -/

/-- Exchange what two keys derive from one nonce. -/
def swapAt (a b : BytesN 32) (x : EncInput) (D : Derivation v) : Derivation v := fun k y =>
  if y = x then D (Equiv.swap a b k) y else D k y

theorem swapAt_swapAt (a b : BytesN 32) (x : EncInput) (D : Derivation v) :
    swapAt a b x (swapAt a b x D) = D := by
  funext k y
  unfold swapAt
  by_cases h : y = x
  · rw [if_pos h, if_pos h, Equiv.swap_apply_self]
  · rw [if_neg h, if_neg h]

theorem swapAt_other {a b : BytesN 32} {x y : EncInput} (h : y ≠ x) (D : Derivation v) (k : BytesN 32) :
    swapAt a b x D k y = D k y := if_neg h

/-- Exchange the keys at every nonce used. -/
def exchange (co : List Bytes → Option (Core v)) :
    List (BytesN 32) → List Bytes → Derivation v → Derivation v
  | [], _, D => D
  | n :: ns, texts, D =>
    match co texts with
    | none => D
    | some c => exchange co ns (texts ++ [c.text n (D (c.key .left) (c.tag, n))])
        (swapAt (c.key .left) (c.key .right) (c.tag, n) D)

theorem exchange_other (co : List Bytes → Option (Core v)) :
    ∀ (ns : List (BytesN 32)) (texts : List Bytes) (D : Derivation v) (k : BytesN 32) (y : EncInput),
      y.2 ∉ ns → exchange co ns texts D k y = D k y := by
  intro ns
  induction ns with
  | nil => intros; rfl
  | cons n ns ih =>
    intro texts D k y h
    rw [List.mem_cons, not_or] at h
    unfold exchange
    cases co texts with
    | none => rfl
    | some c =>
      dsimp only
      rw [ih _ _ _ _ h.2, swapAt_other fun e => h.1 (by rw [e])]

theorem plays_congr (co : List Bytes → Option (Core v)) (s : Side) :
    ∀ (ns : List (BytesN 32)) (texts : List Bytes) (D D' : Derivation v),
      (∀ k y, y.2 ∈ ns → D k y = D' k y) → plays co D s ns texts = plays co D' s ns texts := by
  intro ns
  induction ns with
  | nil => intros; rfl
  | cons n ns ih =>
    intro texts D D' h
    unfold plays
    cases co texts with
    | none => rfl
    | some c =>
      dsimp only
      rw [h _ (c.tag, n) List.mem_cons_self]
      exact ih _ _ _ fun k y hy => h k y (List.mem_cons_of_mem _ hy)

/-- After the exchange the right keys give the texts that the left ones gave before. -/
theorem plays_exchange (co : List Bytes → Option (Core v)) :
    ∀ (ns : List (BytesN 32)) (texts : List Bytes) (D : Derivation v), ns.Nodup →
      plays co (exchange co ns texts D) .right ns texts = plays co D .left ns texts := by
  intro ns
  induction ns with
  | nil => intros; rfl
  | cons n ns ih =>
    intro texts D h
    obtain ⟨h1, h2⟩ := List.nodup_cons.1 h
    unfold plays exchange
    cases co texts with
    | none => rfl
    | some c =>
      dsimp only
      rw [exchange_other co ns _ _ _ (c.tag, n) h1]
      have e : swapAt (c.key .left) (c.key .right) (c.tag, n) D (c.key .right) (c.tag, n) =
          D (c.key .left) (c.tag, n) := by
        unfold swapAt
        rw [if_pos rfl, Equiv.swap_apply_right]
      rw [e, ih _ _ h2]
      refine plays_congr co .left ns _ _ _ fun k y hy => swapAt_other (fun e => h1 ?_) D k
      rw [e] at hy
      exact hy

theorem exchange_injective (co : List Bytes → Option (Core v)) :
    ∀ (ns : List (BytesN 32)) (texts : List Bytes), ns.Nodup →
      Function.Injective (exchange co ns texts) := by
  intro ns
  induction ns with
  | nil => intro texts _ D D' h; exact h
  | cons n ns ih =>
    intro texts h D D' he
    obtain ⟨h1, h2⟩ := List.nodup_cons.1 h
    unfold exchange at he
    cases hc : co texts with
    | none => simpa only [hc] using he
    | some c =>
      simp only [hc] at he
      have e : ∀ k, swapAt (c.key .left) (c.key .right) (c.tag, n) D k (c.tag, n) =
          swapAt (c.key .left) (c.key .right) (c.tag, n) D' k (c.tag, n) := by
        intro k
        have := congrFun (congrFun he k) (c.tag, n)
        rwa [exchange_other co ns _ _ _ (c.tag, n) h1, exchange_other co ns _ _ _ (c.tag, n) h1] at this
      have e1 : D (c.key .left) (c.tag, n) = D' (c.key .left) (c.tag, n) := by
        have := e (c.key .right)
        unfold swapAt at this
        rwa [if_pos rfl, if_pos rfl, Equiv.swap_apply_right] at this
      rw [e1] at he
      have := congrArg (swapAt (c.key .left) (c.key .right) (c.tag, n)) (ih _ h2 he)
      rwa [swapAt_swapAt, swapAt_swapAt] at this

theorem count_bij {α : Type} [Fintype α] {f : α → α} (hf : Function.Injective f) {A B : α → Prop}
    (h : ∀ x, B (f x) ↔ A x) : C82.count A = C82.count B := by
  classical
  have hb : Function.Bijective f := Finite.injective_iff_bijective.1 hf
  unfold C82.count
  refine Finset.card_bij (fun x _ => f x) ?_ (fun x _ y _ h => hf h) ?_
  · intro x hx
    rw [Finset.mem_filter] at hx ⊢
    exact ⟨Finset.mem_univ _, (h x).2 hx.2⟩
  · intro y hy
    obtain ⟨x, rfl⟩ := hb.2 y
    rw [Finset.mem_filter, h] at hy
    exact ⟨x, Finset.mem_filter.2 ⟨Finset.mem_univ _, hy.2⟩, rfl⟩

/-- With distinct nonces the two sides are alike. -/
theorem sides (co : List Bytes → Option (Core v)) {ns : List (BytesN 32)} (h : ns.Nodup)
    (A : List Bytes → Prop) :
    (C82.count fun D : Derivation v => A (plays co D .left ns [])) =
      C82.count fun D : Derivation v => A (plays co D .right ns []) :=
  count_bij (exchange_injective co ns [] h) fun D => by rw [plays_exchange co ns [] D h]

/-! ### The bound -/

theorem card_repeats (n : Nat) :
    (C82.count fun t : Blocks n => ¬ Function.Injective t) * 2 ^ 257 ≤
      n * (n - 1) * Fintype.card (Blocks n) := by
  classical
  have hcard := Finset.card_filter_add_card_filter_not (s := (Finset.univ : Finset (Blocks n)))
    (fun t => Function.Injective t)
  rw [C75.card_injective, Finset.card_univ, C75.card_blocks] at hcard
  have hb := C75.descFactorial_bound (2 ^ 256) n
  rw [C82.count_eq] at hcard
  rw [C75.card_blocks]
  generalize (C82.count fun t : Blocks n => ¬ Function.Injective t) = rep at hcard ⊢
  have h1 : 2 ^ 256 * rep ≤ n.choose 2 * (2 ^ 256) ^ n := by
    rw [← hcard, Nat.mul_add, hcard] at hb
    exact Nat.le_of_add_le_add_left hb
  have h2 : n.choose 2 * 2 = n * (n - 1) := by
    rw [Nat.choose_two_right]
    exact Nat.div_mul_cancel (Nat.even_mul_pred_self n).two_dvd
  rw [← h2, pow_succ]
  generalize 2 ^ 256 = N at h1 ⊢
  calc rep * (N * 2) = (N * rep) * 2 := by ring
    _ ≤ (n.choose 2 * N ^ n) * 2 := Nat.mul_le_mul_right _ h1
    _ = n.choose 2 * 2 * N ^ n := by ring

theorem one_side {n : Nat} (co : List Bytes → Option (Core v)) (A : List Bytes → Prop) (s s' : Side) :
    (C82.count fun x : Anon v n => A (plays co x.2 s (List.ofFn x.1) [])) * 2 ^ 257 ≤
      (C82.count fun x : Anon v n => A (plays co x.2 s' (List.ofFn x.1) [])) * 2 ^ 257 +
        n * (n - 1) * Fintype.card (Anon v n) := by
  classical
  have key : (C82.count fun x : Anon v n => A (plays co x.2 s (List.ofFn x.1) [])) ≤
      (C82.count fun x : Anon v n => A (plays co x.2 s' (List.ofFn x.1) [])) +
        (C82.count fun t : Blocks n => ¬ Function.Injective t) * Fintype.card (Derivation v) := by
    rw [C82.count_prod, C82.count_prod, ← C82.count_eq, Finset.card_filter, Finset.sum_mul,
      ← Finset.sum_add_distrib]
    refine Finset.sum_le_sum fun t _ => ?_
    by_cases h : Function.Injective t
    · have hs := sides co (List.nodup_ofFn.2 h) A
      refine Nat.le_add_right_of_le (le_of_eq ?_)
      cases s <;> cases s'
      · rfl
      · exact hs
      · exact hs.symm
      · rfl
    · rw [if_pos h, Nat.one_mul]
      refine Nat.le_add_left_of_le ?_
      rw [← C82.count_eq]
      exact Finset.card_le_univ _
  have hr := card_repeats n
  generalize 2 ^ 257 = T at hr ⊢
  calc _ ≤ _ := Nat.mul_le_mul_right _ key
    _ = (C82.count fun x : Anon v n => A (plays co x.2 s' (List.ofFn x.1) [])) * T +
        ((C82.count fun t : Blocks n => ¬ Function.Injective t) * T) *
          Fintype.card (Derivation v) := by ring
    _ ≤ _ := by
      refine Nat.add_le_add_left ?_ _
      refine (Nat.mul_le_mul_right _ hr).trans (le_of_eq ?_)
      rw [Fintype.card_prod]
      ring

theorem view_eq (P : Prims) {ask : List Bytes → Option (Naming v)} {co : List Bytes → Option (Core v)}
    (hg : ∀ D s (ns : List (BytesN 32)) texts,
      namingGame (P.withDerived K v D) s ask ns.length (ns.map Subtype.val).flatten texts =
        .ok (plays co D s ns texts)) {n : Nat} (x : Anon v n) (s : Side) :
    x.view P K ask s = .ok (plays co x.2 s (List.ofFn x.1) []) := by
  have := hg x.2 s (List.ofFn x.1) []
  rw [List.length_ofFn] at this
  exact this

/-- Whatever is asked for and whatever is concluded from the texts: the conclusion is drawn (almost) as
often when the left keys are used as when the right ones are. -/
theorem advantage (P : Prims) (K : Finset (BytesN 32)) (n : Nat) (ask : List Bytes → Option (Naming v))
    (hask : ∀ texts a, ask texts = some a → a.what.Possible P ∧ ∀ s, a.key s ∈ K)
    (A : Res (List Bytes) → Prop) :
    |Anon.chance (fun x : Anon v n => A (x.view P K ask .left)) -
        Anon.chance (fun x : Anon v n => A (x.view P K ask .right))| ≤ n * (n - 1) / 2 ^ 257 := by
  classical
  obtain ⟨co, -, hg⟩ := game_eq P ask hask
  have hpos : (0 : ℚ) < Fintype.card (Anon v n) := by
    have : 0 < Fintype.card (Anon v n) := by
      rw [Fintype.card_pos_iff]
      exact ⟨fun _ => ⟨List.replicate 32 0, rfl⟩, fun _ _ => ⟨⟨List.replicate 32 0, rfl⟩,
        ⟨List.replicate _ 0, List.length_replicate⟩, ⟨List.replicate _ 0, List.length_replicate⟩⟩⟩
    exact_mod_cast this
  have h1 := one_side (n := n) co (fun texts => A (.ok texts)) .left .right
  have h2 := one_side (n := n) co (fun texts => A (.ok texts)) .right .left
  have hn : ((n * (n - 1) : Nat) : ℚ) = (n : ℚ) * (n - 1) := by
    cases n with
    | zero => simp
    | succ n => push_cast; simp
  unfold Anon.chance
  simp only [view_eq P hg]
  rw [C82.count_eq, C82.count_eq]
  generalize (C82.count fun x : Anon v n => A (.ok (plays co x.2 .left (List.ofFn x.1) []))) = a at *
  generalize (C82.count fun x : Anon v n => A (.ok (plays co x.2 .right (List.ofFn x.1) []))) = b at *
  generalize Fintype.card (Anon v n) = N at *
  have hT : (2 : ℚ) ^ 257 = ((2 ^ 257 : Nat) : ℚ) := by rw [Nat.cast_pow, Nat.cast_ofNat]
  have hp : 0 < 2 ^ 257 := by positivity
  rw [hT]
  generalize 2 ^ 257 = T at h1 h2 hp ⊢
  have hp : (0 : ℚ) < T := Nat.cast_pos.2 hp
  have h1' : (a : ℚ) * T ≤ b * T + n * (n - 1) * N := by
    rw [← hn]; exact_mod_cast h1
  have h2' : (b : ℚ) * T ≤ a * T + n * (n - 1) * N := by
    rw [← hn]; exact_mod_cast h2
  rw [← sub_div, abs_div, abs_of_pos hpos, div_le_div_iff₀ hpos (by positivity)]
  rw [← abs_of_pos hp, ← abs_mul, abs_le]
  constructor <;> linarith

/-- Up to `2 ^ 64` requests the chances differ by at most `2 ^ -129`. -/
theorem advantage_practical (P : Prims) (K : Finset (BytesN 32)) (n : Nat) (hn : n ≤ 2 ^ 64)
    (ask : List Bytes → Option (Naming v))
    (hask : ∀ texts a, ask texts = some a → a.what.Possible P ∧ ∀ s, a.key s ∈ K)
    (A : Res (List Bytes) → Prop) :
    |Anon.chance (fun x : Anon v n => A (x.view P K ask .left)) -
        Anon.chance (fun x : Anon v n => A (x.view P K ask .right))| ≤ 1 / 2 ^ 129 := by
  refine (advantage P K n ask hask A).trans ?_
  have h1 : (n : ℚ) ≤ 2 ^ 64 := by exact_mod_cast hn
  have h0 : (0 : ℚ) ≤ n := Nat.cast_nonneg n
  rw [div_le_div_iff₀ (by positivity) (by positivity)]
  have h3 : (2 : ℚ) ^ 257 = (2 ^ 64 * 2 ^ 64) * 2 ^ 129 := by rw [← pow_add, ← pow_add]
  rw [h3, one_mul]
  refine mul_le_mul_of_nonneg_right ?_ (by positivity)
  nlinarith

/-- As long as no nonce is repeated, nothing at all is seen: what is concluded, it is concluded for as
many derivations when the left keys are used as when the right ones are. -/
theorem distinct_nonces (P : Prims) (K : Finset (BytesN 32)) {n : Nat}
    (ask : List Bytes → Option (Naming v))
    (hask : ∀ texts a, ask texts = some a → a.what.Possible P ∧ ∀ s, a.key s ∈ K)
    (A : Res (List Bytes) → Prop) (t : Blocks n) (ht : Function.Injective t) :
    open Classical in
    (Finset.univ.filter fun D : Derivation v => A (Anon.view P K ask .left (t, D))).card =
      (Finset.univ.filter fun D : Derivation v => A (Anon.view P K ask .right (t, D))).card := by
  classical
  obtain ⟨co, -, hg⟩ := game_eq P ask hask
  rw [C82.count_eq, C82.count_eq]
  simp only [view_eq P hg]
  exact sides co (List.nodup_ofFn.2 ht) fun texts => A (.ok texts)

/-- Whether all tokens were made with one key, or every one with a key of its own: nobody can tell. -/
theorem unlinkable (P : Prims) (K : Finset (BytesN 32)) (n : Nat) (ask : List Bytes → Option (Hidden v))
    (hask : ∀ texts a, ask texts = some a → a.Possible P) (one : BytesN 32) (many : Nat → BytesN 32)
    (h1 : one ∈ K) (h2 : ∀ i, many i ∈ K) (A : Res (List Bytes) → Prop) :
    let game (key : Nat → BytesN 32) (x : Anon v n) : Res (List Bytes) :=
      x.view P K (fun texts => (ask texts).map fun a => ⟨fun _ => key texts.length, a⟩) .left
    |Anon.chance (fun x : Anon v n => A (game (fun _ => one) x)) -
        Anon.chance (fun x : Anon v n => A (game many x))| ≤ n * (n - 1) / 2 ^ 257 := by
  intro game
  let both : List Bytes → Option (Naming v) := fun texts => (ask texts).map fun a =>
    ⟨fun s => match s with | .left => one | .right => many texts.length, a⟩
  have hv : ∀ (key : Nat → BytesN 32) (s : Side), (∀ texts : List Bytes, (match s with
      | .left => one | .right => many texts.length) = key texts.length) →
      ∀ x : Anon v n, game key x = x.view P K both s := by
    intro key s h x
    have : ∀ (m : Nat) (rng : Rng) (texts : List Bytes),
        namingGame (P.withDerived K v x.2) .left
          (fun texts => (ask texts).map fun a => (⟨fun _ => key texts.length, a⟩ : Naming v)) m rng texts =
        namingGame (P.withDerived K v x.2) s both m rng texts := by
      intro m
      induction m with
      | zero => intros; rfl
      | succ m ih =>
        intro rng texts
        unfold namingGame
        cases ha : ask texts with
        | none => simp only [both, ha, Option.map_none]
        | some a =>
          simp only [both, ha, Option.map_some, h]
          congr 1
          funext y
          exact ih _ _
    exact this _ _ _
  have e1 : (fun x : Anon v n => A (game (fun _ => one) x)) = fun x => A (x.view P K both .left) := by
    funext x; rw [hv (fun _ => one) .left fun _ => rfl]
  have e2 : (fun x : Anon v n => A (game many x)) = fun x => A (x.view P K both .right) := by
    funext x; rw [hv many .right fun _ => rfl]
  rw [e1, e2]
  refine advantage P K n both ?_ A
  intro texts a ha
  simp only [both, Option.map_eq_some_iff] at ha
  obtain ⟨b, hb, rfl⟩ := ha
  refine ⟨hask texts b hb, fun s => ?_⟩
  cases s
  · exact h1
  · exact h2 _

/-- The game always runs to its end. -/
theorem runs (P : Prims) (K : Finset (BytesN 32)) (n : Nat) (ask : List Bytes → Option (Naming v))
    (hask : ∀ texts a, ask texts = some a → a.what.Possible P ∧ ∀ s, a.key s ∈ K) (s : Side)
    (x : Anon v n) :
    ∃ texts, x.view P K ask s = .ok texts ∧
      (texts.length = n ∨ texts.length < n ∧ ask texts = none) := by
  obtain ⟨co, hn, hg⟩ := game_eq P ask hask
  have h : ∀ ns texts, (plays co x.2 s ns texts).length = texts.length + ns.length ∨
      (plays co x.2 s ns texts).length < texts.length + ns.length ∧
        ask (plays co x.2 s ns texts) = none := by
    intro ns
    induction ns with
    | nil => intro texts; exact .inl rfl
    | cons n ns ih =>
      intro texts
      unfold plays
      cases hk : co texts with
      | none => exact .inr ⟨by simp, hn texts hk⟩
      | some c =>
        have := ih (texts ++ [c.text n (x.2 (c.key s) (c.tag, n))])
        simp only [List.length_append, List.length_cons, List.length_nil] at this ⊢
        rcases this with h | ⟨h, h'⟩
        · exact .inl (by omega)
        · exact .inr ⟨by omega, h'⟩
  have h2 := h (List.ofFn x.1) []
  rw [List.length_ofFn, List.length_nil, Nat.zero_add] at h2
  exact ⟨_, view_eq P hg x s, h2⟩

/-- The idealisation touches nothing else: what is derived from other keys, MACs of authenticated
bytes, the cipher. And what is derived from a key in use is what has been drawn. -/
theorem idealised (P : Prims) (K : Finset (BytesN 32)) (D : Derivation v) (k n : BytesN 32) :
    (k ∈ K →
      encPair (P.withDerived K v D) v k n.1 = ((D k (false, n)).cipherKey, (D k (false, n)).iv) ∧
      Spec.localAuthKey (P.withDerived K v D) v k n.1 = (D k (false, n)).authKey.1) ∧
    (k ∉ K →
      encPair (P.withDerived K v D) v k n.1 = encPair P v k n.1 ∧
      Spec.localAuthKey (P.withDerived K v D) v k n.1 = Spec.localAuthKey P v k n.1) := by
  refine ⟨fun h => ⟨encPair_derived D h n, localAuthKey_derived D h n⟩, fun h => ?_⟩
  have hu : inUse K k.1 = none := by
    unfold inUse
    rw [dif_pos k.2, if_neg h]
  cases v
  · simp only [encPair, Spec.v3EncKey, Spec.localAuthKey, Spec.v3AuthKey, Prims.withDerived, hu,
      dite_true]
    exact ⟨rfl, trivial⟩
  · simp only [encPair, Spec.v4EncKey, Spec.localAuthKey, Spec.v4AuthKey, Prims.withDerived, hu]
    exact ⟨rfl, trivial⟩

/-! ### A case -/

/-- Two keys, and a request for each text so far: the message is the texts seen, joined. -/
example (P : Prims) (a b : BytesN 32) (n : Nat) (A : Res (List Bytes) → Prop) :
    let ask : List Bytes → Option (Naming v) := fun texts => some ⟨fun s => match s with
      | .left => a
      | .right => if texts.length % 2 = 0 then a else b,
      .token Bytes Unit Sample.Raw inferInstance inferInstance inferInstance ⟨⟩ texts.flatten () []⟩
    |Anon.chance (fun x : Anon v n => A (x.view P {a, b} ask .left)) -
        Anon.chance (fun x : Anon v n => A (x.view P {a, b} ask .right))| ≤ n * (n - 1) / 2 ^ 257 := by
  intro ask
  refine advantage P {a, b} n ask ?_ A
  rintro texts _ ⟨⟩
  refine ⟨⟨⟨_, rfl⟩, [], rfl⟩, fun s => ?_⟩
  cases s
  · simp
  · dsimp only
    split <;> simp

end Pasta.C93
