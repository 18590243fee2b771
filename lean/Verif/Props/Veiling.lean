import Verif.Lemmas.Veiling
import Verif.Props.Anonymity

/-!
# C94: with many keys in use, neither the message nor the key can be told from a token

With random nonces, a random derivation from the keys in use, and a random cipher.
-/

namespace Pasta.C94

variable {P : Prims} {v : Ver} {K : Finset (BytesN 32)} {L : Nat}

/-! ### The game in short -/

/-- A request, in short. -/
structure Core (v : Ver) extends VeilCore v where
  key : Side → BytesN 32

variable (P) in
/-- The texts, given the nonces, when the keys are chosen by `ks` and the candidates by `s`. -/
def plays (co : List Bytes → Option (Core v)) (D : Derivation v) (c : Ciphers) (ks : Core v → BytesN 32)
    (s : Side) : List (BytesN 32) → List Bytes → List Bytes
  | [], texts => texts
  | n :: ns, texts =>
    match co texts with
    | none => texts
    | some k => plays co D c ks s ns (texts ++ [k.out P c s n (D (ks k) (k.tag, n))])

theorem game_eq (P : Prims) (ask : List Bytes → Option (Veiling v))
    (hask : ∀ texts a, ask texts = some a → a.what.Comparable P L ∧ ∀ s, a.key s ∈ K) :
    ∃ co : List Bytes → Option (Core v), (∀ texts k, co texts = some k → k.Ok L) ∧
      (∀ texts, co texts = none → ask texts = none) ∧ ∀ D c s (ns : List (BytesN 32)) texts,
        veilingGame ((P.withDerived K v D).withCiphers c) s ask ns.length
          (ns.map Subtype.val).flatten texts = .ok (plays P co D c (fun k => k.key s) s ns texts) := by
  have h : ∀ texts, ∃ o : Option (Core v), (∀ k, o = some k → k.Ok L) ∧
      (ask texts = none → o = none) ∧
      ∀ a, ask texts = some a → ∃ k, o = some k ∧ ∀ (D : Derivation v) (c : Ciphers) (s : Side)
        (n : BytesN 32) (rest : Rng),
        a.what.run ((P.withDerived K v D).withCiphers c) ⟨a.key s⟩ s (n.1 ++ rest) =
          .ok (k.out P c s n (D (k.key s) (k.tag, n)), rest) := by
    intro texts
    cases ha : ask texts with
    | none => exact ⟨none, fun k h => (nomatch h), fun _ => rfl, fun a h => (nomatch h)⟩
    | some a =>
      obtain ⟨hp, hk⟩ := hask texts a ha
      obtain ⟨k, h1, h2⟩ := a.what.veilCore P hp
      refine ⟨some ⟨k, a.key⟩, fun k' h => by cases h; exact h1, fun h => (by cases h), fun a' h => ?_⟩
      cases h
      exact ⟨_, rfl, fun D c s => h2 K D c s (a.key s) (hk s)⟩
  choose co h1 h2 h3 using h
  refine ⟨co, h1, fun texts h => ?_, fun D c s ns => ?_⟩
  · cases ha : ask texts with
    | none => rfl
    | some a =>
      obtain ⟨k, h4, -⟩ := h3 texts a ha
      rw [h] at h4; cases h4
  induction ns with
  | nil => intro texts; rfl
  | cons n ns ih =>
    intro texts
    rw [List.length_cons, List.map_cons, List.flatten_cons]
    unfold veilingGame plays
    cases ha : ask texts with
    | none => rw [h2 texts ha]
    | some a =>
      obtain ⟨k, h4, h5⟩ := h3 texts a ha
      rw [h4]
      dsimp only
      rw [h5, Res.ok_bind]
      exact ih _

theorem view_eq (P : Prims) {ask : List Bytes → Option (Veiling v)} {co : List Bytes → Option (Core v)}
    (hg : ∀ D c s (ns : List (BytesN 32)) texts,
      veilingGame ((P.withDerived K v D).withCiphers c) s ask ns.length
        (ns.map Subtype.val).flatten texts = .ok (plays P co D c (fun k => k.key s) s ns texts))
    {n : Nat} (x : Veiled v n L) (s : Side) :
    x.view P K ask s =
      .ok (plays P co x.2.1 (x.2.2.ciphers P) (fun k => k.key s) s (List.ofFn x.1) []) := by
  have := hg x.2.1 (x.2.2.ciphers P) s (List.ofFn x.1) []
  rw [List.length_ofFn] at this
  exact this

/-! ### Counting -/

theorem count_equiv {α β : Type} [Fintype α] [Fintype β] (f : α ≃ β) (A : β → Prop) :
    (C82.count fun x => A (f x)) = C82.count A := by
  classical
  unfold C82.count
  refine Finset.card_bij (fun x _ => f x) ?_ (fun x _ y _ h => f.injective h) ?_
  · intro x hx
    rw [Finset.mem_filter] at hx ⊢
    exact ⟨Finset.mem_univ _, hx.2⟩
  · intro y hy
    rw [Finset.mem_filter] at hy
    exact ⟨f.symm y, Finset.mem_filter.2 ⟨Finset.mem_univ _, by rw [f.apply_symm_apply]; exact hy.2⟩,
      f.apply_symm_apply y⟩

theorem count_fst {α β : Type} [Fintype α] [Fintype β] (A : α → Prop) :
    (C82.count fun x : α × β => A x.1) = Fintype.card β * C82.count A := by
  rw [C82.count_prod']
  show (∑ _b : β, C82.count A) = _
  rw [Finset.sum_const, Finset.card_univ, Nat.nsmul_eq_mul]

/-- All that is random, for one side. -/
noncomputable def number (P : Prims) (n L : Nat) (co : List Bytes → Option (Core v))
    (ks : Core v → BytesN 32) (s : Side) (A : List Bytes → Prop) : Nat :=
  C82.count fun x : Veiled v n L => A (plays P co x.2.1 (x.2.2.ciphers P) ks s (List.ofFn x.1) [])

/-! ### Other keys -/

/-- The same requests for what is to be hidden on one side, with two ways to choose the key. -/
def twoKeys (P : Prims) (co : List Bytes → Option (Core v)) (c : Ciphers) (s : Side)
    (ks ks' : Core v → BytesN 32) (texts : List Bytes) : Option (C93.Core v) :=
  (co texts).map fun k => ⟨⟨k.tag, k.out P c s⟩, fun | .left => ks k | .right => ks' k⟩

theorem plays_left (co : List Bytes → Option (Core v)) (D : Derivation v) (c : Ciphers) (s : Side)
    (ks ks' : Core v → BytesN 32) : ∀ (ns : List (BytesN 32)) (texts : List Bytes),
      C93.plays (twoKeys P co c s ks ks') D .left ns texts = plays P co D c ks s ns texts := by
  intro ns
  induction ns with
  | nil => intros; rfl
  | cons n ns ih =>
    intro texts
    unfold C93.plays plays
    cases h : co texts with
    | none => simp only [twoKeys, h, Option.map_none]
    | some k =>
      simp only [twoKeys, h, Option.map_some]
      exact ih _

theorem plays_right (co : List Bytes → Option (Core v)) (D : Derivation v) (c : Ciphers) (s : Side)
    (ks ks' : Core v → BytesN 32) : ∀ (ns : List (BytesN 32)) (texts : List Bytes),
      C93.plays (twoKeys P co c s ks ks') D .right ns texts = plays P co D c ks' s ns texts := by
  intro ns
  induction ns with
  | nil => intros; rfl
  | cons n ns ih =>
    intro texts
    unfold C93.plays plays
    cases h : co texts with
    | none => simp only [twoKeys, h, Option.map_none]
    | some k =>
      simp only [twoKeys, h, Option.map_some]
      exact ih _

/-- Splitting off the cipher. -/
def regroup (v : Ver) (n L : Nat) : CipherFam v L × Anon v n ≃ Veiled v n L where
  toFun x := (x.2.1, x.2.2, x.1)
  invFun x := (x.2.2, x.1, x.2.1)
  left_inv _ := rfl
  right_inv _ := rfl

theorem other_keys (P : Prims) (n L : Nat) (co : List Bytes → Option (Core v)) (s : Side)
    (ks ks' : Core v → BytesN 32) (A : List Bytes → Prop) :
    number P n L co ks s A * 2 ^ 257 ≤
      number P n L co ks' s A * 2 ^ 257 + n * (n - 1) * Fintype.card (Veiled v n L) := by
  have key : ∀ c : CipherFam v L, _ := fun c =>
    C93.one_side (n := n) (twoKeys P co (c.ciphers P) s ks ks') A .left .right
  simp only [plays_left, plays_right] at key
  unfold number
  rw [← count_equiv (regroup v n L), ← count_equiv (regroup v n L), C82.count_prod, C82.count_prod,
    Finset.sum_mul, Finset.sum_mul, ← Fintype.card_congr (regroup v n L), Fintype.card_prod]
  refine (Finset.sum_le_sum fun c _ => key c).trans ?_
  rw [Finset.sum_add_distrib, Finset.sum_const, Finset.card_univ, Nat.nsmul_eq_mul]
  refine Nat.add_le_add_left (le_of_eq ?_) _
  ring

/-! ### Other messages under one key -/

/-- The cipher keys derived from a key. -/
def encOf (k : BytesN 32) (D : Derivation v) : EncKeys := fun x => (D k x).cipherKey

/-- Exchange the cipher keys derived from a key. -/
def setEnc (k : BytesN 32) (D : Derivation v) (e : EncKeys) : Derivation v := fun k' x =>
  if k' = k then ⟨e x, (D k' x).iv, (D k' x).authKey⟩ else D k' x

theorem encOf_setEnc (k : BytesN 32) (D : Derivation v) (e : EncKeys) : encOf k (setEnc k D e) = e := by
  funext x
  unfold encOf setEnc
  rw [if_pos rfl]

theorem setEnc_setEnc (k : BytesN 32) (D : Derivation v) (e : EncKeys) :
    setEnc k (setEnc k D e) (encOf k D) = D := by
  funext k' x
  unfold setEnc encOf
  by_cases h : k' = k
  · subst h
    simp only [if_true]
  · simp only [if_neg h]

/-- Exchange the derived cipher keys for others, and keep the old ones. -/
def trade (k : BytesN 32) (v : Ver) (n L : Nat) :
    Derivation v × Ideal v n L ≃ Veiled v n L × EncKeys where
  toFun x := ((x.2.1, setEnc k x.1 x.2.2.1, x.2.2.2), encOf k x.1)
  invFun y := (setEnc k y.1.2.1 y.2, y.1.1, encOf k y.1.2.1, y.1.2.2)
  left_inv x := by
    obtain ⟨D, t, e, c⟩ := x
    simp only [setEnc_setEnc, encOf_setEnc]
  right_inv y := by
    obtain ⟨⟨t, D, c⟩, e⟩ := y
    simp only [setEnc_setEnc, encOf_setEnc]

/-- The requests, with everything that is derived from the key except for cipher keys put in. -/
def oneKey (co : List Bytes → Option (Core v)) (k : BytesN 32) (D : Derivation v) (texts : List Bytes) :
    Option HidingCore :=
  (co texts).map fun r => ⟨r.tag, r.hidden, fun n ct => r.shape n (D k (r.tag, n)).authKey ct⟩

theorem oneKey_ok {co : List Bytes → Option (Core v)} (hco : ∀ texts k, co texts = some k → k.Ok L)
    (k : BytesN 32) (D : Derivation v) (texts : List Bytes) (r : HidingCore)
    (h : oneKey co k D texts = some r) : r.Ok L := by
  obtain ⟨r', h', rfl⟩ := Option.map_eq_some_iff.1 h
  exact hco texts r' h'

theorem plays_one (co : List Bytes → Option (Core v)) (k : BytesN 32) (D : Derivation v) (e : EncKeys)
    (c : Ciphers) (s : Side) : ∀ (ns : List (BytesN 32)) (texts : List Bytes),
      plays P co (setEnc k D e) c (fun _ => k) s ns texts =
        C82.plays P (fun x => (D k x).iv) (oneKey co k D) e c s ns texts := by
  intro ns
  induction ns with
  | nil => intros; rfl
  | cons n ns ih =>
    intro texts
    unfold C82.plays plays
    cases h : co texts with
    | none => simp only [oneKey, h, Option.map_none]
    | some r =>
      simp only [oneKey, h, Option.map_some]
      have : setEnc k D e k (r.tag, n) =
          ⟨e (r.tag, n), (D k (r.tag, n)).iv, (D k (r.tag, n)).authKey⟩ := if_pos rfl
      rw [ih, this]
      rfl

theorem other_messages (P : Prims) (n : Nat) (co : List Bytes → Option (Core v))
    (hco : ∀ texts k, co texts = some k → k.Ok L) (k : BytesN 32) (s : Side) (A : List Bytes → Prop) :
    number P n L co (fun _ => k) s A * 2 ^ 256 ≤
      number P n L co (fun _ => k) (C82.other s) A * 2 ^ 256 +
        n * (n - 1) * Fintype.card (Veiled v n L) := by
  classical
  have key : ∀ D : Derivation v, _ := fun D =>
    C82.core_side P (fun x => (D k x).iv) n (oneKey co k D) (oneKey_ok hco k D) A s
  simp only [C82.count_eq, ← plays_one] at key
  have hn : ∀ s, Fintype.card EncKeys * number P n L co (fun _ => k) s A =
      ∑ D : Derivation v, C82.count fun x : Ideal v n L =>
        A (plays P co (setEnc k D x.2.1) (x.2.2.ciphers P) (fun _ => k) s (List.ofFn x.1) []) := by
    intro s
    unfold number
    rw [← count_fst (β := EncKeys), ← count_equiv (trade k v n L), C82.count_prod]
    rfl
  have hE : 0 < Fintype.card EncKeys := by
    rw [Fintype.card_pos_iff]
    exact ⟨fun _ => ⟨List.replicate 32 0, rfl⟩⟩
  have hc : Fintype.card (Derivation v) * Fintype.card (Ideal v n L) =
      Fintype.card EncKeys * Fintype.card (Veiled v n L) := by
    rw [← Fintype.card_prod, Fintype.card_congr (trade k v n L), Fintype.card_prod, Nat.mul_comm]
  refine Nat.le_of_mul_le_mul_left ?_ hE
  rw [Nat.mul_add, ← Nat.mul_assoc, ← Nat.mul_assoc, hn, hn, Finset.sum_mul, Finset.sum_mul]
  refine (Finset.sum_le_sum fun D _ => key D).trans ?_
  rw [Finset.sum_add_distrib, Finset.sum_const, Finset.card_univ, Nat.nsmul_eq_mul]
  refine Nat.add_le_add_left (le_of_eq ?_) _
  rw [Nat.mul_left_comm, hc, Nat.mul_left_comm]

/-! ### The bound -/

theorem one_side (P : Prims) (n : Nat) (co : List Bytes → Option (Core v))
    (hco : ∀ texts k, co texts = some k → k.Ok L) (A : List Bytes → Prop) (s : Side) :
    number P n L co (fun k => k.key s) s A * 2 ^ 255 ≤
      number P n L co (fun k => k.key (C82.other s)) (C82.other s) A * 2 ^ 255 +
        n * (n - 1) * Fintype.card (Veiled v n L) := by
  have z : BytesN 32 := ⟨List.replicate 32 0, rfl⟩
  have h1 := other_keys P n L co s (fun k => k.key s) (fun _ => z) A
  have h2 := other_messages P n co hco z s A
  have h3 := other_keys P n L co (C82.other s) (fun _ => z) (fun k => k.key (C82.other s)) A
  have e1 : (2 : Nat) ^ 257 = 4 * 2 ^ 255 := by
    rw [pow_succ, pow_succ, Nat.mul_assoc, Nat.mul_comm]
  have e2 : (2 : Nat) ^ 256 = 2 * 2 ^ 255 := by norm_num
  rw [e1] at h1 h3
  rw [e2] at h2
  generalize 2 ^ 255 = T at *
  generalize n * (n - 1) * Fintype.card (Veiled v n L) = B at *
  generalize number P n L co (fun k => k.key s) s A = a at *
  generalize number P n L co (fun _ => z) s A = b at *
  generalize number P n L co (fun _ => z) (C82.other s) A = c at *
  generalize number P n L co (fun k => k.key (C82.other s)) (C82.other s) A = d at *
  rw [Nat.mul_left_comm] at h1 h2 h3
  rw [Nat.mul_left_comm b] at h1
  rw [Nat.mul_left_comm c] at h2
  rw [Nat.mul_left_comm d] at h3
  generalize a * T = aT at *
  generalize b * T = bT at *
  generalize c * T = cT at *
  generalize d * T = dT at *
  omega

/-- Whatever is asked for and whatever is concluded from the texts: the conclusion is drawn (almost) as
often when the left candidates are used under the left keys as when the right ones are under the right
keys. -/
theorem advantage (P : Prims) (K : Finset (BytesN 32)) (n L : Nat)
    (ask : List Bytes → Option (Veiling v))
    (hask : ∀ texts a, ask texts = some a → a.what.Comparable P L ∧ ∀ s, a.key s ∈ K)
    (A : Res (List Bytes) → Prop) :
    |Veiled.chance (fun x : Veiled v n L => A (x.view P K ask .left)) -
        Veiled.chance (fun x : Veiled v n L => A (x.view P K ask .right))| ≤ n * (n - 1) / 2 ^ 255 := by
  classical
  obtain ⟨co, hco, -, hg⟩ := game_eq P ask hask
  have hpos : (0 : ℚ) < Fintype.card (Veiled v n L) := by
    have : 0 < Fintype.card (Veiled v n L) := by
      have h := C82.card_pos v n L
      rw [Fintype.card_pos_iff] at h ⊢
      exact ⟨h.some.1, fun _ _ => ⟨⟨List.replicate 32 0, rfl⟩,
        ⟨List.replicate _ 0, List.length_replicate⟩, ⟨List.replicate _ 0, List.length_replicate⟩⟩,
        h.some.2.2⟩
    exact_mod_cast this
  have h1 := one_side P n co hco (fun texts => A (.ok texts)) .left
  have h2 := one_side P n co hco (fun texts => A (.ok texts)) .right
  have hn : ((n * (n - 1) : Nat) : ℚ) = (n : ℚ) * (n - 1) := by
    cases n with
    | zero => simp
    | succ n => push_cast; simp
  unfold number at h1 h2
  simp only [C82.other] at h1 h2
  unfold Veiled.chance
  simp only [view_eq P hg]
  rw [C82.count_eq, C82.count_eq]
  generalize (C82.count fun x : Veiled v n L => A (.ok (plays P co x.2.1 (x.2.2.ciphers P)
    (fun k => k.key .left) .left (List.ofFn x.1) []))) = a at *
  generalize (C82.count fun x : Veiled v n L => A (.ok (plays P co x.2.1 (x.2.2.ciphers P)
    (fun k => k.key .right) .right (List.ofFn x.1) []))) = b at *
  generalize Fintype.card (Veiled v n L) = N at *
  have hT : (2 : ℚ) ^ 255 = ((2 ^ 255 : Nat) : ℚ) := by rw [Nat.cast_pow, Nat.cast_ofNat]
  have hp : 0 < 2 ^ 255 := by positivity
  rw [hT]
  generalize 2 ^ 255 = T at h1 h2 hp ⊢
  have hp : (0 : ℚ) < T := Nat.cast_pos.2 hp
  have h1' : (a : ℚ) * T ≤ b * T + n * (n - 1) * N := by
    rw [← hn]; exact_mod_cast h1
  have h2' : (b : ℚ) * T ≤ a * T + n * (n - 1) * N := by
    rw [← hn]; exact_mod_cast h2
  rw [← sub_div, abs_div, abs_of_pos hpos, div_le_div_iff₀ hpos (by positivity)]
  rw [← abs_of_pos hp, ← abs_mul, abs_le]
  constructor <;> linarith

/-- Up to `2 ^ 64` requests the chances differ by at most `2 ^ -127`. -/
theorem advantage_practical (P : Prims) (K : Finset (BytesN 32)) (n L : Nat) (hn : n ≤ 2 ^ 64)
    (ask : List Bytes → Option (Veiling v))
    (hask : ∀ texts a, ask texts = some a → a.what.Comparable P L ∧ ∀ s, a.key s ∈ K)
    (A : Res (List Bytes) → Prop) :
    |Veiled.chance (fun x : Veiled v n L => A (x.view P K ask .left)) -
        Veiled.chance (fun x : Veiled v n L => A (x.view P K ask .right))| ≤ 1 / 2 ^ 127 := by
  refine (advantage P K n L ask hask A).trans ?_
  have h1 : (n : ℚ) ≤ 2 ^ 64 := by exact_mod_cast hn
  have h0 : (0 : ℚ) ≤ n := Nat.cast_nonneg n
  rw [div_le_div_iff₀ (by positivity) (by positivity)]
  have h3 : (2 : ℚ) ^ 255 = (2 ^ 64 * 2 ^ 64) * 2 ^ 127 := by rw [← pow_add, ← pow_add]
  rw [h3, one_mul]
  refine mul_le_mul_of_nonneg_right ?_ (by positivity)
  nlinarith

/-- The game always runs to its end. -/
theorem runs (P : Prims) (K : Finset (BytesN 32)) (n L : Nat) (ask : List Bytes → Option (Veiling v))
    (hask : ∀ texts a, ask texts = some a → a.what.Comparable P L ∧ ∀ s, a.key s ∈ K) (s : Side)
    (x : Veiled v n L) :
    ∃ texts, x.view P K ask s = .ok texts ∧
      (texts.length = n ∨ texts.length < n ∧ ask texts = none) := by
  obtain ⟨co, -, hn, hg⟩ := game_eq P ask hask
  have h : ∀ ns texts, (plays P co x.2.1 (x.2.2.ciphers P) (fun k => k.key s) s ns texts).length =
      texts.length + ns.length ∨
      (plays P co x.2.1 (x.2.2.ciphers P) (fun k => k.key s) s ns texts).length <
        texts.length + ns.length ∧
        ask (plays P co x.2.1 (x.2.2.ciphers P) (fun k => k.key s) s ns texts) = none := by
    intro ns
    induction ns with
    | nil => intro texts; exact .inl rfl
    | cons n ns ih =>
      intro texts
      unfold plays
      cases hk : co texts with
      | none => exact .inr ⟨by simp, hn texts hk⟩
      | some k =>
        have := ih (texts ++ [k.out P (x.2.2.ciphers P) s n (x.2.1 (k.key s) (k.tag, n))])
        simp only [List.length_append, List.length_cons, List.length_nil] at this ⊢
        rcases this with h | ⟨h, h'⟩
        · exact .inl (by omega)
        · exact .inr ⟨by omega, h'⟩
  have h2 := h (List.ofFn x.1) []
  rw [List.length_ofFn, List.length_nil, Nat.zero_add] at h2
  exact ⟨_, view_eq P hg x s, h2⟩

/-! ### A case -/

/-- Left, the first key encrypts as many zeros as texts have been seen; right, the second encrypts ones. -/
example (P : Prims) (a b : BytesN 32) (n : Nat) (hn : n < 2 ^ 63) (A : Res (List Bytes) → Prop) :
    let ask : List Bytes → Option (Veiling v) := fun texts =>
      if texts.length < n then
        some ⟨fun s => match s with | .left => a | .right => b,
          .token Bytes Unit Sample.Raw inferInstance inferInstance inferInstance (fun _ => ⟨⟩)
            (fun s => match s with
              | .left => List.replicate texts.length 0
              | .right => List.replicate texts.length 1) () []⟩
      else none
    |Veiled.chance (fun x : Veiled v n n => A (x.view P {a, b} ask .left)) -
        Veiled.chance (fun x : Veiled v n n => A (x.view P {a, b} ask .right))| ≤
      n * (n - 1) / 2 ^ 255 := by
  intro ask
  refine advantage P {a, b} n n ask ?_ A
  intro texts r hr
  simp only [ask] at hr
  split at hr
  · rename_i hl
    cases hr
    refine ⟨⟨⟨fun s => match s with
      | .left => List.replicate texts.length 0
      | .right => List.replicate texts.length 1, ?_, by simp, by simp; omega, ?_⟩, [], rfl⟩, ?_⟩
    · intro s; cases s <;> rfl
    · show (List.replicate texts.length (0 : UInt8)).length < _
      rw [List.length_replicate]; omega
    · intro s; cases s <;> simp
  · cases hr

end Pasta.C94
