import Verif.Lemmas.Computing

/-!
# C99: being able to compute the cipher does not help telling the message or the key of a token

With random nonces, a random derivation from the keys in use, and a random cipher that can be computed
under any key.
-/

namespace Pasta.C99

variable {P : Prims} {v : Ver} {K : Finset (BytesN 32)} {L : Nat}

/-! ### The game in short -/

variable (P) in
/-- The answers, given the nonces, when the keys are chosen by `ks` and the candidates by `s`. -/
def plays (co : Strat v L (C94.Core v)) (D : Derivation v) (c : CipherOf v L)
    (ks : C94.Core v → BytesN 32) (s : Side) (k q : Nat) (ns : List (BytesN 32))
    (seen : List (Calculated v L)) : List (Calculated v L) :=
  (run co c (fun r n (_ : Unit) => r.out P (c.ciphers P) s n (D (ks r) (r.tag, n))) k q
    (ns.map fun n => (n, ())) seen).seen

theorem game_eq (P : Prims) (ask : List (Calculated v L) → Option (Calc v))
    (hask : ∀ seen a, ask seen = some (.hide a) → a.what.Comparable P L ∧ ∀ s, a.key s ∈ K) :
    ∃ co : Strat v L (C94.Core v), (∀ seen r, co seen = some (.inl r) → r.Ok L) ∧
      (∀ seen, co seen = none → ask seen = none) ∧
      (∀ seen r, co seen = some (.inl r) → ∃ a, ask seen = some (.hide a)) ∧
      (∀ seen x, co seen = some (.inr x) → ask seen = some (.cipher x)) ∧
      ∀ D (c : CipherOf v L) s k q (ns : List (BytesN 32)) seen,
        calcGame ((P.withDerived K v D).withCiphers (c.ciphers P)) c s ask k ns.length q
          (ns.map Subtype.val).flatten seen = .ok (plays P co D c (fun r => r.key s) s k q ns seen) := by
  have h : ∀ seen, ∃ o : Option (C94.Core v ⊕ BytesN 32), (∀ r, o = some (.inl r) → r.Ok L) ∧
      (ask seen = none → o = none) ∧ (∀ x, ask seen = some (.cipher x) → o = some (.inr x)) ∧
      ∀ a, ask seen = some (.hide a) → ∃ r : C94.Core v, o = some (.inl r) ∧
        ∀ (D : Derivation v) (c : Ciphers) (s : Side) (n : BytesN 32) (rest : Rng),
        a.what.run ((P.withDerived K v D).withCiphers c) ⟨a.key s⟩ s (n.1 ++ rest) =
          .ok (r.out P c s n (D (r.key s) (r.tag, n)), rest) := by
    intro seen
    cases ha : ask seen with
    | none =>
      exact ⟨none, fun r h => (nomatch h), fun _ => rfl, fun x h => (nomatch h), fun a h => (nomatch h)⟩
    | some d =>
      cases d with
      | cipher x =>
        exact ⟨some (.inr x), fun r h => (by cases h), fun h => (by cases h),
          fun x' h => (by cases h; rfl), fun a h => (by cases h)⟩
      | hide a =>
        obtain ⟨hp, hk⟩ := hask seen a ha
        obtain ⟨r, h1, h2⟩ := a.what.veilCore P hp
        refine ⟨some (.inl ⟨r, a.key⟩), fun r' h => by cases h; exact h1, fun h => (by cases h),
          fun x h => (by cases h), fun a' h => ?_⟩
        cases h
        exact ⟨_, rfl, fun D c s => h2 K D c s (a.key s) (hk s)⟩
  choose co h1 h2 h3 h4 using h
  refine ⟨co, h1, fun seen h => ?_, fun seen r h => ?_, fun seen x h => ?_, fun D c s k => ?_⟩
  · cases ha : ask seen with
    | none => rfl
    | some d =>
      cases d with
      | hide a => obtain ⟨r, h5, -⟩ := h4 seen a ha; rw [h] at h5; cases h5
      | cipher x => have h5 := h3 seen x ha; rw [h] at h5; cases h5
  · cases ha : ask seen with
    | none => have h5 := h2 seen ha; rw [h] at h5; cases h5
    | some d =>
      cases d with
      | hide a => exact ⟨a, rfl⟩
      | cipher x => have h5 := h3 seen x ha; rw [h] at h5; cases h5
  · cases ha : ask seen with
    | none => have h5 := h2 seen ha; rw [h] at h5; cases h5
    | some d =>
      cases d with
      | hide a => obtain ⟨r, h5, -⟩ := h4 seen a ha; rw [h] at h5; cases h5
      | cipher y => have h5 := h3 seen y ha; rw [h] at h5; cases h5; rfl
  induction k with
  | zero => intros; rfl
  | succ k ih =>
    intro q ns seen
    unfold calcGame plays run
    cases ha : ask seen with
    | none => rw [h2 seen ha]
    | some d =>
      cases d with
      | hide a =>
        obtain ⟨r, h5, h6⟩ := h4 seen a ha
        rw [h5]
        cases ns with
        | nil => rfl
        | cons n ns =>
          rw [List.length_cons, List.map_cons, List.flatten_cons]
          dsimp only
          rw [h6, Res.ok_bind]
          exact ih _ _ _
      | cipher x =>
        rw [h3 seen x ha]
        cases q with
        | zero => rfl
        | succ q => exact ih _ _ _

theorem view_eq (P : Prims) {ask : List (Calculated v L) → Option (Calc v)}
    {co : Strat v L (C94.Core v)}
    (hg : ∀ D (c : CipherOf v L) s k q (ns : List (BytesN 32)) seen,
      calcGame ((P.withDerived K v D).withCiphers (c.ciphers P)) c s ask k ns.length q
        (ns.map Subtype.val).flatten seen = .ok (plays P co D c (fun r => r.key s) s k q ns seen))
    {n : Nat} (x : Drawn v n L) (k q : Nat) (s : Side) :
    x.view P K ask k q s =
      .ok (plays P co x.2.1 x.2.2 (fun r => r.key s) s k q (List.ofFn x.1) []) := by
  have := hg x.2.1 x.2.2 s k q (List.ofFn x.1) []
  rw [List.length_ofFn] at this
  exact this

/-- How often the answers are such. -/
noncomputable def number (P : Prims) (n : Nat) (co : Strat v L (C94.Core v))
    (ks : C94.Core v → BytesN 32) (s : Side) (k q : Nat) (A : List (Calculated v L) → Prop) : Nat :=
  C82.count fun x : Drawn v n L => A (plays P co x.2.1 x.2.2 ks s k q (List.ofFn x.1) [])

/-! ### Other keys -/

/-- With the cipher known: what is hidden next after these texts, and all answers up to then. -/
def after {R : Type} (co : Strat v L R) (c : CipherOf v L) :
    (k q : Nat) → List Bytes → List (Calculated v L) → Option R × List (Calculated v L)
  | 0, _, _, seen => (none, seen)
  | k + 1, q, texts, seen =>
    match co seen with
    | none => (none, seen)
    | some (.inl r) =>
      match texts with
      | [] => (some r, seen)
      | t :: texts => after co c k q texts (seen ++ [.text t])
    | some (.inr x) =>
      match q with
      | 0 => (none, seen)
      | q + 1 => after co c k q texts (seen ++ [.cipher (c x)])

theorem plays_after (co : Strat v L (C94.Core v)) (D : Derivation v) (c : CipherOf v L)
    (ks : C94.Core v → BytesN 32) (s : Side) (nxt : List Bytes → Option (C94.Core v))
    (fin : List Bytes → List (Calculated v L)) :
    ∀ (k q : Nat) (ns : List (BytesN 32)) (texts : List Bytes) (seen : List (Calculated v L)),
      (∀ ts, nxt (texts ++ ts) = (after co c k q ts seen).1) →
      (∀ ts, fin (texts ++ ts) = (after co c k q ts seen).2) →
      fin (C94.plays P nxt D (c.ciphers P) ks s ns texts) = plays P co D c ks s k q ns seen := by
  have stop : ∀ ns texts, nxt texts = none →
      C94.plays P nxt D (c.ciphers P) ks s ns texts = texts := by
    intro ns texts h
    cases ns with
    | nil => rfl
    | cons n ns => unfold C94.plays; rw [h]
  intro k
  induction k with
  | zero =>
    intro q ns texts seen h1 h2
    have h1 := h1 []
    have h2 := h2 []
    rw [List.append_nil] at h1 h2
    rw [stop ns texts h1, h2]
    rfl
  | succ k ih =>
    intro q ns texts seen h1 h2
    have h1' := h1 []
    have h2' := h2 []
    rw [List.append_nil] at h1' h2'
    unfold plays run
    unfold after at h1 h2 h1' h2'
    cases hc : co seen with
    | none =>
      rw [hc] at h1' h2'
      rw [stop ns texts h1', h2']
    | some d =>
      rw [hc] at h1' h2'
      simp only [hc] at h1 h2
      cases d with
      | inl r =>
        cases ns with
        | nil => exact h2'
        | cons n ns =>
          unfold C94.plays
          rw [h1']
          refine ih q ns _ _ ?_ ?_
          · intro ts
            rw [List.append_assoc]
            exact h1 _
          · intro ts
            rw [List.append_assoc]
            exact h2 _
      | inr x =>
        cases q with
        | zero => rw [stop ns texts h1', h2']
        | succ q => exact ih q ns _ _ h1 h2

/-- Splitting off the cipher. -/
def regroup (v : Ver) (n L : Nat) : CipherOf v L × Anon v n ≃ Drawn v n L where
  toFun x := (x.2.1, x.2.2, x.1)
  invFun x := (x.2.2, x.1, x.2.1)
  left_inv _ := rfl
  right_inv _ := rfl

theorem other_keys (P : Prims) (n : Nat) (co : Strat v L (C94.Core v)) (s : Side)
    (ks ks' : C94.Core v → BytesN 32) (k q : Nat) (A : List (Calculated v L) → Prop) :
    number P n co ks s k q A * 2 ^ 257 ≤
      number P n co ks' s k q A * 2 ^ 257 + n * (n - 1) * Fintype.card (Drawn v n L) := by
  have key : ∀ c : CipherOf v L, _ := fun c =>
    C93.one_side (n := n) (C94.twoKeys P (fun texts => (after co c k q texts []).1) (c.ciphers P) s ks ks')
      (fun texts => A (after co c k q texts []).2) .left .right
  simp only [C94.plays_left, C94.plays_right] at key
  have e : ∀ (c : CipherOf v L) (D : Derivation v) (ks : C94.Core v → BytesN 32)
      (ns : List (BytesN 32)), (after co c k q (C94.plays P (fun texts => (after co c k q texts []).1) D
        (c.ciphers P) ks s ns []) []).2 = plays P co D c ks s k q ns [] := fun c D ks ns =>
    plays_after co D c ks s (fun texts => (after co c k q texts []).1)
      (fun texts => (after co c k q texts []).2) k q ns [] [] (fun _ => rfl) fun _ => rfl
  simp only [e] at key
  unfold number
  rw [← C94.count_equiv (regroup v n L), ← C94.count_equiv (regroup v n L), C82.count_prod,
    C82.count_prod, Finset.sum_mul, Finset.sum_mul, ← Fintype.card_congr (regroup v n L),
    Fintype.card_prod]
  refine (Finset.sum_le_sum fun c _ => key c).trans ?_
  rw [Finset.sum_add_distrib, Finset.sum_const, Finset.card_univ, Nat.nsmul_eq_mul]
  refine Nat.add_le_add_left (le_of_eq ?_) _
  ring

/-! ### Other messages under one key -/

open C94 (encOf setEnc encOf_setEnc setEnc_setEnc)

/-- Exchange the derived cipher keys for others, and keep the old ones. -/
def trade (z : BytesN 32) (v : Ver) (n L : Nat) :
    Derivation v × Apart v n L ≃ Drawn v n L × EncKeys × (Fin n → OneCipher v L) where
  toFun x := ((x.2.1, setEnc z x.1 x.2.2.1, x.2.2.2.1), encOf z x.1, x.2.2.2.2)
  invFun y := (setEnc z y.1.2.1 y.2.1, y.1.1, encOf z y.1.2.1, y.1.2.2, y.2.2)
  left_inv x := by
    obtain ⟨D, t, e, c, S⟩ := x
    simp only [setEnc_setEnc, encOf_setEnc]
  right_inv y := by
    obtain ⟨⟨t, D, c⟩, e, S⟩ := y
    simp only [setEnc_setEnc, encOf_setEnc]

/-- A request, with everything that is derived from the key except for cipher keys put in. -/
def under (z : BytesN 32) (D : Derivation v) (r : C94.Core v) : HidingCore :=
  ⟨r.tag, r.hidden, fun n ct => r.shape n (D z (r.tag, n)).authKey ct⟩

/-- The requests under one key. -/
def oneKey (co : Strat v L (C94.Core v)) (z : BytesN 32) (D : Derivation v) : Strat v L HidingCore :=
  fun seen => (co seen).map (Sum.map (under z D) id)

theorem oneKey_ok {co : Strat v L (C94.Core v)} (hco : ∀ seen r, co seen = some (.inl r) → r.Ok L)
    (z : BytesN 32) (D : Derivation v) (seen : List (Calculated v L)) (r : HidingCore)
    (h : oneKey co z D seen = some (.inl r)) : r.Ok L := by
  obtain ⟨d, h', e⟩ := Option.map_eq_some_iff.1 h
  cases d with
  | inl r' => cases e; exact hco seen r' h'
  | inr x => cases e

theorem run_under {W W' : Type} (co : Strat v L (C94.Core v)) (z : BytesN 32) (D : Derivation v)
    (c : CipherOf v L) (txt : C94.Core v → BytesN 32 → W → Bytes)
    (txt' : HidingCore → BytesN 32 → W' → Bytes) (h : ∀ r n w w', txt' (under z D r) n w' = txt r n w) :
    ∀ (k q : Nat) (l : List (BytesN 32 × W)) (l' : List (BytesN 32 × W')) (seen : List (Calculated v L)),
      l.map Prod.fst = l'.map Prod.fst →
      (run co c txt k q l seen).seen = (run (oneKey co z D) c txt' k q l' seen).seen := by
  intro k
  induction k with
  | zero => intros; rfl
  | succ k ih =>
    intro q l l' seen hl
    unfold run
    cases hc : co seen with
    | none =>
      have : oneKey co z D seen = none := by unfold oneKey; rw [hc]; rfl
      rw [this]
    | some d =>
      cases d with
      | inl r =>
        have : oneKey co z D seen = some (.inl (under z D r)) := by unfold oneKey; rw [hc]; rfl
        rw [this]
        cases l with
        | nil =>
          cases l' with
          | nil => rfl
          | cons y l' => cases hl
        | cons y l =>
          cases l' with
          | nil => cases hl
          | cons y' l' =>
            obtain ⟨n, w⟩ := y
            obtain ⟨n', w'⟩ := y'
            simp only [List.map_cons, List.cons.injEq] at hl
            obtain ⟨rfl, hl⟩ := hl
            dsimp only
            rw [h r n w w']
            exact ih q l l' _ hl
      | inr x =>
        have : oneKey co z D seen = some (.inr x) := by unfold oneKey; rw [hc]; rfl
        rw [this]
        cases q with
        | zero => rfl
        | succ q => exact ih q l l' _ hl

theorem plays_one {n : Nat} (co : Strat v L (C94.Core v)) (z : BytesN 32) (D : Derivation v) (s : Side)
    (k q : Nat) (y : Apart v n L) :
    plays P co (setEnc z D y.2.1) y.2.2.1 (fun _ => z) s k q (List.ofFn y.1) [] =
      (real P (fun x => (D z x).iv) (oneKey co z D) s k q y).1.seen := by
  refine run_under co z D _ _ _ ?_ k q _ _ [] ?_
  · intro r m _ _
    have : setEnc z D y.2.1 z (r.tag, m) =
        ⟨y.2.1 (r.tag, m), (D z (r.tag, m)).iv, (D z (r.tag, m)).authKey⟩ := if_pos rfl
    unfold VeilCore.out textOne
    rw [this, stream_one]
    rfl
  · rw [pairs_fst, List.map_map]
    exact List.map_id _

theorem other_messages (P : Prims) (n : Nat) (co : Strat v L (C94.Core v))
    (hco : ∀ seen r, co seen = some (.inl r) → r.Ok L) (z : BytesN 32) (s : Side) (k q : Nat)
    (A : List (Calculated v L) → Prop) :
    number P n co (fun _ => z) s k q A * 2 ^ 256 ≤
      number P n co (fun _ => z) (C82.other s) k q A * 2 ^ 256 +
        (n * (n - 1) + n * q) * Fintype.card (Drawn v n L) := by
  have key : ∀ D : Derivation v, _ := fun D =>
    core_side (n := n) P (fun x => (D z x).iv) (oneKey co z D) (oneKey_ok hco z D) s k q A
  simp only [← plays_one] at key
  have hn : ∀ s, Fintype.card (EncKeys × (Fin n → OneCipher v L)) * number P n co (fun _ => z) s k q A =
      ∑ D : Derivation v, C82.count fun y : Apart v n L =>
        A (plays P co (setEnc z D y.2.1) y.2.2.1 (fun _ => z) s k q (List.ofFn y.1) []) := by
    intro s
    unfold number
    rw [← C94.count_fst (β := EncKeys × (Fin n → OneCipher v L)), ← C94.count_equiv (trade z v n L),
      C82.count_prod]
    rfl
  have hc : Fintype.card (Derivation v) * Fintype.card (Apart v n L) =
      Fintype.card (EncKeys × (Fin n → OneCipher v L)) * Fintype.card (Drawn v n L) := by
    rw [← Fintype.card_prod, Fintype.card_congr (trade z v n L), Fintype.card_prod (Drawn v n L),
      Nat.mul_comm]
  have hE : 0 < Fintype.card (EncKeys × (Fin n → OneCipher v L)) := by
    rw [Fintype.card_pos_iff]
    refine ⟨fun _ => ⟨List.replicate 32 0, rfl⟩, fun _ => ?_⟩
    cases v
    · exact fun _ => ⟨List.replicate _ 0, List.length_replicate⟩
    · exact fun _ _ => 0
  refine Nat.le_of_mul_le_mul_left ?_ hE
  rw [Nat.mul_add, ← Nat.mul_assoc, ← Nat.mul_assoc, hn, hn, Finset.sum_mul, Finset.sum_mul]
  refine (Finset.sum_le_sum fun D _ => key D).trans ?_
  rw [Finset.sum_add_distrib, Finset.sum_const, Finset.card_univ, Nat.nsmul_eq_mul]
  refine Nat.add_le_add_left (le_of_eq ?_) _
  rw [Nat.mul_left_comm, hc, Nat.mul_left_comm]

/-! ### The bound -/

theorem one_side (P : Prims) (n : Nat) (co : Strat v L (C94.Core v))
    (hco : ∀ seen r, co seen = some (.inl r) → r.Ok L) (k q : Nat) (A : List (Calculated v L) → Prop)
    (s : Side) :
    number P n co (fun r => r.key s) s k q A * 2 ^ 256 ≤
      number P n co (fun r => r.key (C82.other s)) (C82.other s) k q A * 2 ^ 256 +
        (2 * (n * (n - 1)) + n * q) * Fintype.card (Drawn v n L) := by
  have z : BytesN 32 := ⟨List.replicate 32 0, rfl⟩
  have h1 := other_keys P n co s (fun r => r.key s) (fun _ => z) k q A
  have h2 := other_messages P n co hco z s k q A
  have h3 := other_keys P n co (C82.other s) (fun _ => z) (fun r => r.key (C82.other s)) k q A
  have e1 : (2 : Nat) ^ 257 = 2 * 2 ^ 256 := by rw [pow_succ, Nat.mul_comm]
  rw [e1] at h1 h3
  rw [Nat.add_mul] at h2 ⊢
  rw [Nat.mul_assoc 2]
  generalize 2 ^ 256 = T at *
  generalize n * (n - 1) * Fintype.card (Drawn v n L) = B at *
  generalize n * q * Fintype.card (Drawn v n L) = Q at *
  generalize number P n co (fun r => r.key s) s k q A = a at *
  generalize number P n co (fun _ => z) s k q A = b at *
  generalize number P n co (fun _ => z) (C82.other s) k q A = c at *
  generalize number P n co (fun r => r.key (C82.other s)) (C82.other s) k q A = d at *
  rw [Nat.mul_left_comm] at h1 h3
  rw [Nat.mul_left_comm b] at h1
  rw [Nat.mul_left_comm d] at h3
  generalize a * T = aT at *
  generalize b * T = bT at *
  generalize c * T = cT at *
  generalize d * T = dT at *
  omega

/-- Whatever is asked for, whatever cipher keys are tried, and whatever is concluded from the answers: the
conclusion is drawn (almost) as often when the left candidates are used under the left keys as when the
right ones are under the right keys. -/
theorem advantage (P : Prims) (K : Finset (BytesN 32)) (k n q L : Nat)
    (ask : List (Calculated v L) → Option (Calc v))
    (hask : ∀ seen a, ask seen = some (.hide a) → a.what.Comparable P L ∧ ∀ s, a.key s ∈ K)
    (A : Res (List (Calculated v L)) → Prop) :
    |Drawn.chance (fun x : Drawn v n L => A (x.view P K ask k q .left)) -
        Drawn.chance (fun x : Drawn v n L => A (x.view P K ask k q .right))| ≤
      n * (n - 1) / 2 ^ 255 + n * q / 2 ^ 256 := by
  classical
  obtain ⟨co, hco, -, -, -, hg⟩ := game_eq P ask hask
  have hpos : (0 : ℚ) < Fintype.card (Drawn v n L) := by
    have : 0 < Fintype.card (Drawn v n L) := by
      rw [Fintype.card_pos_iff]
      refine ⟨fun _ => ⟨List.replicate 32 0, rfl⟩, fun _ _ => ⟨⟨List.replicate 32 0, rfl⟩,
        ⟨List.replicate _ 0, List.length_replicate⟩, ⟨List.replicate _ 0, List.length_replicate⟩⟩,
        fun _ => ?_⟩
      cases v
      · exact fun _ => ⟨List.replicate _ 0, List.length_replicate⟩
      · exact fun _ _ => 0
    exact_mod_cast this
  have h1 := one_side P n co hco k q (fun seen => A (.ok seen)) .left
  have h2 := one_side P n co hco k q (fun seen => A (.ok seen)) .right
  have hn : ((n * (n - 1) : Nat) : ℚ) = (n : ℚ) * (n - 1) := by
    cases n with
    | zero => simp
    | succ n => push_cast; simp
  unfold number at h1 h2
  simp only [C82.other] at h1 h2
  unfold Drawn.chance
  simp only [view_eq P hg]
  rw [C82.count_eq, C82.count_eq]
  generalize (C82.count fun x : Drawn v n L => A (.ok (plays P co x.2.1 x.2.2
    (fun r => r.key .left) .left k q (List.ofFn x.1) []))) = a at *
  generalize (C82.count fun x : Drawn v n L => A (.ok (plays P co x.2.1 x.2.2
    (fun r => r.key .right) .right k q (List.ofFn x.1) []))) = b at *
  generalize Fintype.card (Drawn v n L) = N at *
  have e : (n : ℚ) * (n - 1) / 2 ^ 255 + n * q / 2 ^ 256 = (2 * (n * (n - 1)) + n * q) / 2 ^ 256 := by
    rw [add_div, pow_succ (2 : ℚ) 255, mul_comm ((2 : ℚ) ^ 255) 2, mul_div_mul_left _ _ two_ne_zero]
  rw [e]
  have hT : (2 : ℚ) ^ 256 = ((2 ^ 256 : Nat) : ℚ) := by rw [Nat.cast_pow, Nat.cast_ofNat]
  have hp : 0 < 2 ^ 256 := by positivity
  rw [hT]
  generalize 2 ^ 256 = T at h1 h2 hp ⊢
  have hp : (0 : ℚ) < T := Nat.cast_pos.2 hp
  have h1' : (a : ℚ) * T ≤ b * T + (2 * (n * (n - 1)) + n * q) * N := by
    rw [← hn]; exact_mod_cast h1
  have h2' : (b : ℚ) * T ≤ a * T + (2 * (n * (n - 1)) + n * q) * N := by
    rw [← hn]; exact_mod_cast h2
  rw [← sub_div, abs_div, abs_of_pos hpos, div_le_div_iff₀ hpos (by positivity)]
  rw [← abs_of_pos hp, ← abs_mul, abs_le]
  constructor <;> linarith

/-- Up to `2 ^ 64` requests that hide something, and with up to `2 ^ 100` cipher keys tried, the chances
differ by at most `2 ^ -91`. -/
theorem advantage_practical (P : Prims) (K : Finset (BytesN 32)) (k n q L : Nat) (hn : n ≤ 2 ^ 64)
    (hq : q ≤ 2 ^ 100) (ask : List (Calculated v L) → Option (Calc v))
    (hask : ∀ seen a, ask seen = some (.hide a) → a.what.Comparable P L ∧ ∀ s, a.key s ∈ K)
    (A : Res (List (Calculated v L)) → Prop) :
    |Drawn.chance (fun x : Drawn v n L => A (x.view P K ask k q .left)) -
        Drawn.chance (fun x : Drawn v n L => A (x.view P K ask k q .right))| ≤ 1 / 2 ^ 91 := by
  refine (advantage P K k n q L ask hask A).trans ?_
  have h1 : (n : ℚ) ≤ 2 ^ 64 := by exact_mod_cast hn
  have h0 : (0 : ℚ) ≤ n := Nat.cast_nonneg n
  have h2 : (q : ℚ) ≤ 2 ^ 100 := by exact_mod_cast hq
  have h3 : (0 : ℚ) ≤ q := Nat.cast_nonneg q
  have h4 : (n : ℚ) * (n - 1) ≤ 2 ^ 64 * 2 ^ 64 := by nlinarith
  have h5 : (n : ℚ) * q ≤ 2 ^ 64 * 2 ^ 100 := mul_le_mul h1 h2 h3 (by positivity)
  have h6 : (n : ℚ) * (n - 1) / 2 ^ 255 ≤ 2 ^ 64 * 2 ^ 64 / 2 ^ 255 :=
    div_le_div_of_nonneg_right h4 (by positivity)
  have h7 : (n : ℚ) * q / 2 ^ 256 ≤ 2 ^ 64 * 2 ^ 100 / 2 ^ 256 :=
    div_le_div_of_nonneg_right h5 (by positivity)
  refine (add_le_add h6 h7).trans ?_
  norm_num

/-- The game always runs to its end: until all requests are made, or one more would be too many of its
kind, or nothing is asked for. -/
theorem runs (P : Prims) (K : Finset (BytesN 32)) (k n q L : Nat)
    (ask : List (Calculated v L) → Option (Calc v))
    (hask : ∀ seen a, ask seen = some (.hide a) → a.what.Comparable P L ∧ ∀ s, a.key s ∈ K) (s : Side)
    (x : Drawn v n L) :
    ∃ seen, x.view P K ask k q s = .ok seen ∧ (seen.length = k ∨ seen.length < k ∧
      (ask seen = none ∨
        (∃ a, ask seen = some (.hide a)) ∧
          (seen.filter fun | .text _ => true | .cipher _ => false).length = n ∨
        (∃ y, ask seen = some (.cipher y)) ∧
          (seen.filter fun | .text _ => false | .cipher _ => true).length = q)) := by
  obtain ⟨co, -, hn, hh, hc, hg⟩ := game_eq P ask hask
  refine ⟨_, view_eq P hg x k q s, ?_⟩
  have h : ∀ (k q : Nat) (ns : List (BytesN 32)) (seen : List (Calculated v L)),
      let o := plays P co x.2.1 x.2.2 (fun r => r.key s) s k q ns seen
      o.length = seen.length + k ∨ o.length < seen.length + k ∧ (ask o = none ∨
        (∃ a, ask o = some (.hide a)) ∧ (o.filter fun | .text _ => true | .cipher _ => false).length =
          (seen.filter fun | .text _ => true | .cipher _ => false).length + ns.length ∨
        (∃ y, ask o = some (.cipher y)) ∧ (o.filter fun | .text _ => false | .cipher _ => true).length =
          (seen.filter fun | .text _ => false | .cipher _ => true).length + q) := by
    intro k
    induction k with
    | zero => intro q ns seen; exact .inl rfl
    | succ k ih =>
      intro q ns seen
      unfold plays run
      cases h : co seen with
      | none => exact .inr ⟨by simp, .inl (hn seen h)⟩
      | some d =>
        cases d with
        | inl r =>
          cases ns with
          | nil => exact .inr ⟨by simp, .inr (.inl ⟨hh seen r h, rfl⟩)⟩
          | cons m ns =>
            have := ih q ns (seen ++ [.text (r.out P (x.2.2.ciphers P) s m (x.2.1 (r.key s) (r.tag, m)))])
            simp only [List.length_append, List.length_cons, List.length_nil, List.filter_append,
              List.filter_cons, List.filter_nil, if_true, Bool.false_eq_true, if_false] at this ⊢
            rw [Nat.add_right_comm _ 1 k, Nat.add_assoc _ 1 ns.length, Nat.add_comm 1 ns.length] at this
            exact this
        | inr y =>
          cases q with
          | zero => exact .inr ⟨by simp, .inr (.inr ⟨⟨y, hc seen y h⟩, rfl⟩)⟩
          | succ q =>
            have := ih q ns (seen ++ [.cipher (x.2.2 y)])
            simp only [List.length_append, List.length_cons, List.length_nil, List.filter_append,
              List.filter_cons, List.filter_nil, if_true, Bool.false_eq_true, if_false] at this ⊢
            rw [Nat.add_right_comm _ 1 k, Nat.add_assoc _ 1 q, Nat.add_comm 1 q] at this
            exact this
  have h2 := h k q (List.ofFn x.1) []
  simp only [List.length_ofFn, List.filter_nil, List.length_nil, Nat.zero_add] at h2
  exact h2

/-! ### A case -/

/-- In turn, a cipher key is tried and something is hidden: left, the first key encrypts as many zeros as
there are answers; right, the second encrypts ones. -/
example (P : Prims) (a b : BytesN 32) (k n q : Nat) (hk : k < 2 ^ 63)
    (guess : List (Calculated v k) → BytesN 32) (A : Res (List (Calculated v k)) → Prop) :
    let ask : List (Calculated v k) → Option (Calc v) := fun seen =>
      if seen.length < k then
        if seen.length % 2 = 0 then some (.cipher (guess seen)) else
        some (.hide ⟨fun s => match s with | .left => a | .right => b,
          .token Bytes Unit Sample.Raw inferInstance inferInstance inferInstance (fun _ => ⟨⟩)
            (fun s => match s with
              | .left => List.replicate seen.length 0
              | .right => List.replicate seen.length 1) () []⟩)
      else none
    |Drawn.chance (fun x : Drawn v n k => A (x.view P {a, b} ask k q .left)) -
        Drawn.chance (fun x : Drawn v n k => A (x.view P {a, b} ask k q .right))| ≤
      n * (n - 1) / 2 ^ 255 + n * q / 2 ^ 256 := by
  intro ask
  refine advantage P {a, b} k n q k ask ?_ A
  intro seen r hr
  simp only [ask] at hr
  split at hr
  · rename_i hl
    split at hr
    · cases hr
    · cases hr
      refine ⟨⟨⟨fun s => match s with
        | .left => List.replicate seen.length 0
        | .right => List.replicate seen.length 1, ?_, by simp, by simp; omega, ?_⟩, [], rfl⟩, ?_⟩
      · intro s; cases s <;> rfl
      · show (List.replicate seen.length (0 : UInt8)).length < _
        rw [List.length_replicate]; omega
      · intro s; cases s <;> simp
  · cases hr

end Pasta.C99
