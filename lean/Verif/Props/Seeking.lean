import Mathlib.Tactic.Positivity
import Mathlib.Tactic.NormNum
import Mathlib.Logic.Equiv.Basic
import Mathlib.Algebra.Order.Field.Rat
import Mathlib.Algebra.Order.Field.Basic
import Verif.Spec.Seeking
import Verif.Props.Distinguish

/-!
# C84: a password is found by hashing passwords, one at a time
-/

namespace Pasta.C84

open C82 (count count_eq count_prod count_prod')

variable {P : Prims} {v : Ver} {W : Finset Bytes}

/-! ### What the operations see of the password -/

/-- `pwKdf` for one password. -/
def hashOf : {v : Ver} → PwHash v → BytesN (pwSaltLen v) → KdfState v → Res (BytesN 32)
  | .V3, g, salt, state => .ok (g (salt, state.iterations))
  | .V4, g, salt, state => do
    let m := state.mem / 1024
    let _ ← Res.unwrap (if argon2ParamsOk m state.time state.para then some () else none)
    .ok (g (salt, m, state.time, state.para))

theorem pwKdf_mem (hW : ∀ pw ∈ W, pw.length < 2 ^ 32) (f : W → PwHash v) (pw : W)
    (salt : BytesN (pwSaltLen v)) (st : KdfState v) :
    pwKdf (P.withPwHash W v f) v pw.1 salt st = hashOf (f pw) salt st := by
  cases v with
  | V3 =>
    have hs : salt.1.length = 32 := salt.2
    unfold pwKdf hashOf Prims.withPwHash
    dsimp only
    rw [dif_pos ⟨pw.2, hs⟩]
    rfl
  | V4 =>
    have hs : salt.1.length = 16 := salt.2
    have hl : pw.1.length ≤ 0xFFFFFFFF := by have := hW pw.1 pw.2; omega
    unfold pwKdf hashOf Prims.withPwHash
    dsimp only
    rw [dif_pos ⟨pw.2, hs⟩, if_pos hl]
    rfl

theorem pwKdf_not_mem (f : W → PwHash v) {pw : Bytes} (h : pw ∉ W) (salt : BytesN (pwSaltLen v))
    (st : KdfState v) : pwKdf (P.withPwHash W v f) v pw salt st = pwKdf P v pw salt st := by
  cases v with
  | V3 =>
    unfold pwKdf Prims.withPwHash
    dsimp only
    rw [dif_neg fun h' => h h'.1]
  | V4 =>
    unfold pwKdf Prims.withPwHash
    dsimp only
    rw [dif_neg fun h' => h h'.1]

/-- The requests that use the unknown password, given its hash. -/
def serve (P : Prims) (kdf : BytesN (pwSaltLen v) → KdfState v → Res (BytesN 32)) : Seek v → Res Bytes
  | .wrap k hidden settings rng => do
    let bytes ← Key.fromBytes P v k.kind hidden >>= fun key => (.ok key.toBytes : Res (BytesN _))
    let (salt, rng) ← fillBytes (pwSaltLen v) rng
    let kk ← kdf salt settings
    let ek := splitEk v (pwKeyHash P v ([0xff] ++ kk.1))
    let ak := pwKeyHash P v ([0xfe] ++ kk.1)
    let (n, _) ← fillBytes (ivLen v) rng
    let edk := applyKeystreamN (stream P v ek n) bytes
    let tag ← pwTagMac P v ak.1 (pwTagInput v k salt.1 settings n.1 edk.1)
    PwWrappedKey.display (k := k) { salt, state := settings, nonce := n, edk, tag }
  | .unwrap k text => do
    let w ← PwWrappedKey.parse v k text
    let kk ← kdf w.salt w.state
    let ak := pwKeyHash P v ([0xfe] ++ kk.1)
    let tag ← pwTagMac P v ak.1 (pwTagInput v k w.salt.1 w.state w.nonce.1 w.edk.1)
    if ctNe tag.1 w.tag.1 then .err .cryptoError
    else do
      let ek := splitEk v (pwKeyHash P v ([0xff] ++ kk.1))
      let edk := applyKeystreamN (stream P v ek w.nonce) w.edk
      let bytes ← Key.fromBytes P v k.kind edk >>= fun key => (.ok key.toBytes : Res (BytesN _))
      return bytes.1
  | .hash .. => .panic

theorem run_serve (Q : Prims) (secret : Bytes) (a : Seek v) (h : a.tried = none) :
    a.run Q secret = serve Q (pwKdf Q v secret) a := by
  cases a with
  | hash => cases h
  | wrap k hidden settings rng =>
    unfold Seek.run serve Key.pwWrapWithSettings
    simp only [Res.bind_assoc', Res.pure_def, Res.ok_bind]
  | unwrap k text =>
    unfold Seek.run serve PwWrappedKey.unwrapKey
    simp only [Res.bind_assoc']
    congr 1
    funext w
    congr 1
    funext kk
    congr 1
    funext tag
    split
    · rfl
    · simp only [Res.ok_bind]

theorem edFromKeypair_with (f : W → PwHash .V4) (b : BytesN 64) :
    Key.edFromKeypair (P.withPwHash W .V4 f) b = Key.edFromKeypair P b := by
  unfold Key.edFromKeypair
  generalize BytesN.split 32 32 _ b = sp
  obtain ⟨s, p⟩ := sp
  dsimp only
  cases h : P.edParse p with
  | none =>
    have h' : (P.withPwHash W .V4 f).edParse p = none := h
    rw [h']
  | some pk =>
    have h' : (P.withPwHash W .V4 f).edParse p = some pk := h
    rw [h']
    rfl

theorem fromBytes_with (f : W → PwHash v) (k : WKind) (b : BytesN (keyLen v k.kind)) :
    (Key.fromBytes (P.withPwHash W v f) v k.kind b >>= fun key => (.ok key.toBytes : Res (BytesN _))) =
      (Key.fromBytes P v k.kind b >>= fun key => (.ok key.toBytes : Res (BytesN _))) := by
  have okOr : ∀ {α κ κ' β : Type} (o : Option α) (f : α → κ) (f' : α → κ') (g : κ → β)
      (g' : κ' → β) (_ : ∀ x, g (f x) = g' (f' x)),
      ((Res.okOr .invalidKey o >>= fun x => pure (f x)) >>= fun k => (Res.ok (g k) : Res β)) =
      ((Res.okOr .invalidKey o >>= fun x => pure (f' x)) >>= fun k => (Res.ok (g' k) : Res β)) := by
    intro α κ κ' β o f f' g g' h
    cases o with
    | none => rfl
    | some x => exact congrArg Res.ok (h x)
  cases v <;> cases k
  · rfl
  · exact okOr (Key.p384ScalarFromSlice P b.1) _ _ _ _ fun _ => rfl
  · rfl
  · have e := edFromKeypair_with (P := P) f b
    show ((Res.okOr .invalidKey (Key.edFromKeypair (P.withPwHash W .V4 f) b) >>= fun s =>
      pure (Key.mk s : Key (P.withPwHash W .V4 f) .V4 .Secret)) >>= _) = _
    rw [e]
    exact okOr (Key.edFromKeypair P b)
      (fun s : BytesN 32 => (Key.mk s : Key (P.withPwHash W .V4 f) .V4 .Secret))
      (fun s : BytesN 32 => (Key.mk s : Key P .V4 .Secret))
      (fun k => k.toBytes) (fun k => k.toBytes) fun _ => rfl

theorem serve_with (f : W → PwHash v) (kdf : BytesN (pwSaltLen v) → KdfState v → Res (BytesN 32))
    (a : Seek v) : serve (P.withPwHash W v f) kdf a = serve P kdf a := by
  cases a with
  | hash => rfl
  | wrap k hidden =>
    unfold serve
    dsimp only
    rw [fromBytes_with f k hidden]
    cases v <;> rfl
  | unwrap k =>
    unfold serve
    simp only [fromBytes_with f k]
    cases v <;> rfl

/-- The answer, given the hash of the unknown password and that of the others. -/
def answer (P : Prims) (W : Finset Bytes) (f : W → PwHash v) (g : PwHash v) (a : Seek v) : Res Bytes :=
  match a with
  | .hash pw salt settings => do
    let b ← if h : pw ∈ W then hashOf (f ⟨pw, h⟩) salt settings else pwKdf P v pw salt settings
    return b.1
  | a => serve P (hashOf g) a

theorem run_eq (hW : ∀ pw ∈ W, pw.length < 2 ^ 32) (f : W → PwHash v) (pw : W) (a : Seek v) :
    a.run (P.withPwHash W v f) pw.1 = answer P W f (f pw) a := by
  have hk : pwKdf (P.withPwHash W v f) v pw.1 = hashOf (f pw) := by
    funext salt st; exact pwKdf_mem hW f pw salt st
  cases a with
  | hash w salt settings =>
    unfold Seek.run answer
    dsimp only
    by_cases h : w ∈ W
    · rw [dif_pos h, pwKdf_mem hW f ⟨w, h⟩]
    · rw [dif_neg h, pwKdf_not_mem f h]
  | wrap => rw [run_serve _ _ _ rfl, serve_with, hk]; rfl
  | unwrap => rw [run_serve _ _ _ rfl, serve_with, hk]; rfl

/-- The answers do not depend on the hash of a password that is not asked for. -/
theorem answer_update [DecidableEq W] (f f' : W → PwHash v) (g : PwHash v) (pw : W)
    (h : ∀ w, w ≠ pw → f w = f' w) (a : Seek v) (ha : a.tried ≠ some pw.1) :
    answer P W f g a = answer P W f' g a := by
  cases a with
  | wrap => rfl
  | unwrap => rfl
  | hash w salt settings =>
    unfold answer
    dsimp only
    by_cases hw : w ∈ W
    · rw [dif_pos hw, dif_pos hw, h ⟨w, hw⟩]
      intro e
      exact ha (congrArg some (congrArg Subtype.val e))
    · rw [dif_neg hw, dif_neg hw]

/-! ### The game with any answers -/

/-- The game when requests are answered like this. -/
def played (ans : Seek v → Res Bytes) (ask : List (Res Bytes) → Option (Seek v)) :
    (k q : Nat) → List (Res Bytes) → List (Res Bytes) × List Bytes
  | 0, _, answers => (answers, [])
  | k + 1, q, answers =>
    match ask answers with
    | none => (answers, [])
    | some a =>
      match a.tried with
      | none => played ans ask k q (answers ++ [ans a])
      | some pw =>
        match q with
        | 0 => (answers, [])
        | q + 1 =>
          let r := played ans ask k q (answers ++ [ans a])
          (r.1, pw :: r.2)

theorem seeking_played (Q : Prims) (secret : Bytes) (ask : List (Res Bytes) → Option (Seek v)) :
    ∀ k q answers, seeking Q secret ask k q answers = played (Seek.run Q secret) ask k q answers := by
  intro k
  induction k with
  | zero => intros; rfl
  | succ k ih =>
    intro q answers
    unfold seeking played
    simp only [ih]
    cases ask answers with
    | none => rfl
    | some a => cases a.tried <;> cases q <;> rfl

theorem played_le (ans : Seek v → Res Bytes) (ask : List (Res Bytes) → Option (Seek v)) :
    ∀ k q answers, (played ans ask k q answers).2.length ≤ q := by
  intro k
  induction k with
  | zero => intros; exact Nat.zero_le _
  | succ k ih =>
    intro q answers
    unfold played
    cases ask answers with
    | none => exact Nat.zero_le _
    | some a =>
      cases ht : a.tried with
      | none => simp only [ht]; exact ih _ _
      | some pw =>
        simp only [ht]
        cases q with
        | zero => exact Nat.zero_le _
        | succ q => exact Nat.succ_le_succ (ih _ _)

/-- Answers that differ only on hashing `pw` do not change whether `pw` is ever hashed. -/
theorem played_hit {ans ans' : Seek v → Res Bytes} (pw : Bytes)
    (h : ∀ a : Seek v, a.tried ≠ some pw → ans a = ans' a)
    (ask : List (Res Bytes) → Option (Seek v)) :
    ∀ k q answers, pw ∈ (played ans ask k q answers).2 ↔ pw ∈ (played ans' ask k q answers).2 := by
  intro k
  induction k with
  | zero => intros; exact Iff.rfl
  | succ k ih =>
    intro q answers
    unfold played
    cases ask answers with
    | none => exact Iff.rfl
    | some a =>
      cases ht : a.tried with
      | none =>
        simp only [ht]
        rw [h a (by rw [ht]; exact nofun)]
        exact ih _ _
      | some w =>
        simp only [ht]
        cases q with
        | zero => exact Iff.rfl
        | succ q =>
          by_cases e : w = pw
          · subst e
            exact ⟨fun _ => List.mem_cons_self, fun _ => List.mem_cons_self⟩
          · rw [h a (by rw [ht]; exact fun e' => e (Option.some.inj e'))]
            rw [List.mem_cons, List.mem_cons, ih]

/-- If `pw` is not hashed, everything is the same. -/
theorem played_same {ans ans' : Seek v → Res Bytes} (pw : Bytes)
    (h : ∀ a : Seek v, a.tried ≠ some pw → ans a = ans' a)
    (ask : List (Res Bytes) → Option (Seek v)) :
    ∀ k q answers, pw ∉ (played ans ask k q answers).2 →
      played ans' ask k q answers = played ans ask k q answers := by
  intro k
  induction k with
  | zero => intros; rfl
  | succ k ih =>
    intro q answers
    unfold played
    cases ask answers with
    | none => intro _; rfl
    | some a =>
      cases ht : a.tried with
      | none =>
        simp only [ht]
        rw [h a (by rw [ht]; exact nofun)]
        exact ih _ _
      | some w =>
        simp only [ht]
        cases q with
        | zero => intro _; rfl
        | succ q =>
          intro hm
          rw [List.mem_cons, not_or] at hm
          have e := h a (by rw [ht]; exact fun e' => hm.1 (Option.some.inj e').symm)
          rw [e] at hm ⊢
          simp only [ih _ _ hm.2]

/-- Nor, if `pw` is never hashed, the answers seen. -/
theorem played_congr {ans ans' : Seek v → Res Bytes} (ask : List (Res Bytes) → Option (Seek v))
    (h : ∀ answers a, ask answers = some a → ans a = ans' a) :
    ∀ k q answers, played ans ask k q answers = played ans' ask k q answers := by
  intro k
  induction k with
  | zero => intros; rfl
  | succ k ih =>
    intro q answers
    unfold played
    cases ha : ask answers with
    | none => rfl
    | some a => simp only [h _ _ ha, ih]

/-! ### Counting -/

theorem count_le {α : Type} [Fintype α] {A B : α → Prop} (h : ∀ x, A x → B x) : count A ≤ count B := by
  classical
  unfold count
  refine Finset.card_le_card fun x hx => ?_
  exact Finset.mem_filter.2 ⟨Finset.mem_univ _, h x (Finset.mem_filter.1 hx).2⟩

/-- A function and a value for `pw` can be exchanged. -/
theorem exchange {G : Type} [Fintype G] [DecidableEq W] (pw : W) (A : (W → G) → G → Prop)
    (hA : ∀ f g h, A f h → A (Function.update f pw g) h) :
    count (fun f : W → G => A f (f pw)) * Fintype.card G =
      count fun x : (W → G) × G => A x.1 x.2 := by
  classical
  have e1 : count (fun f : W → G => A f (f pw)) * Fintype.card G =
      count fun x : (W → G) × G => A x.1 (x.1 pw) := by
    rw [count_prod]
    have : ∀ f : W → G, count (fun _ : G => A f (f pw)) =
        if A f (f pw) then Fintype.card G else 0 := by
      intro f
      unfold count
      by_cases h : A f (f pw)
      · simp [h]
      · simp [h]
    simp only [this]
    rw [← Finset.sum_filter, Finset.sum_const, Nat.nsmul_eq_mul]
    rfl
  rw [e1]
  unfold count
  refine Finset.card_bij' (fun x _ => (Function.update x.1 pw x.2, x.1 pw))
    (fun x _ => (Function.update x.1 pw x.2, x.1 pw)) ?_ ?_ ?_ ?_
  · intro x hx
    rw [Finset.mem_filter] at hx ⊢
    exact ⟨Finset.mem_univ _, hA _ _ _ hx.2⟩
  · intro x hx
    rw [Finset.mem_filter] at hx ⊢
    refine ⟨Finset.mem_univ _, ?_⟩
    simp only [Function.update_self]
    exact hA _ _ _ hx.2
  · intro x _
    simp
  · intro x _
    simp

theorem counted [DecidableEq Bytes] (q : Nat) {F G : Type} [Fintype F] [Fintype G]
    (tried : F → G → List Bytes) (h : ∀ f g, (tried f g).length ≤ q) :
    ∑ pw : W, count (fun x : F × G => pw.1 ∈ tried x.1 x.2) ≤ q * (Fintype.card F * Fintype.card G) := by
  classical
  have e := count_prod (α := W) (β := F × G) fun y => y.1.1 ∈ tried y.2.1 y.2.2
  rw [← e, count_prod', ← Fintype.card_prod]
  refine le_trans (Finset.sum_le_card_nsmul _ _ q fun x _ => ?_) (by
    rw [Finset.card_univ, Nat.nsmul_eq_mul, Nat.mul_comm])
  unfold count
  refine le_trans ?_ (h x.1 x.2)
  refine le_trans ?_ (List.toFinset_card_le (tried x.1 x.2))
  refine Finset.card_le_card_of_injOn Subtype.val (fun w hw => ?_) (fun a _ b _ e => Subtype.ext e)
  simp only [Finset.coe_filter, Finset.mem_univ, true_and, Set.mem_ofPred_eq] at hw
  simpa using hw

theorem bound (q : Nat) (tried : (W → PwHash v) → PwHash v → List Bytes)
    (hq : ∀ f g, (tried f g).length ≤ q)
    (hu : ∀ (pw : W) (f f' : W → PwHash v) g, (∀ w, w ≠ pw → f w = f' w) →
      pw.1 ∈ tried f g → pw.1 ∈ tried f' g) :
    pwChance (fun (pw : W) f => pw.1 ∈ tried f (f pw)) ≤ q / W.card := by
  classical
  unfold pwChance
  rw [count_eq, count_prod]
  have hG : 0 < Fintype.card (PwHash v) := Fintype.card_pos_iff.2 ⟨fun _ => ⟨List.replicate 32 0, rfl⟩⟩
  have hF : 0 < Fintype.card (W → PwHash v) :=
    Fintype.card_pos_iff.2 ⟨fun _ _ => ⟨List.replicate 32 0, rfl⟩⟩
  have hc : (∑ pw : W, count fun f : W → PwHash v => pw.1 ∈ tried f (f pw)) ≤
      q * Fintype.card (W → PwHash v) := by
    refine Nat.le_of_mul_le_mul_right ?_ hG
    rw [Finset.sum_mul, Nat.mul_assoc]
    refine le_trans (le_of_eq (Finset.sum_congr rfl fun pw _ => exchange pw
      (fun f g => pw.1 ∈ tried f g) ?_)) (counted q tried hq)
    intro f g h hm
    exact hu pw f _ h (fun w hw => (Function.update_of_ne hw _ _).symm) hm
  rw [Fintype.card_prod, Fintype.card_coe, Nat.cast_mul, ← div_div]
  rcases Nat.eq_zero_or_pos W.card with h0 | h0
  · rw [h0]; simp
  have hF' : (0 : ℚ) < Fintype.card (W → PwHash v) := by exact_mod_cast hF
  have h0' : (0 : ℚ) < W.card := by exact_mod_cast h0
  rw [div_right_comm, div_le_div_iff_of_pos_right h0', div_le_iff₀ hF']
  exact_mod_cast hc

/-- The bound: however many keys are wrapped and texts unwrapped with the password, the chance that
it is among `q` passwords hashed is at most `q / N` for a password chosen from `N`. -/
theorem found (P : Prims) (W : Finset Bytes) (hW : ∀ pw ∈ W, pw.length < 2 ^ 32)
    (ask : List (Res Bytes) → Option (Seek v)) (k q : Nat) :
    pwChance (fun (pw : W) f => pw.1 ∈ (seeking (P.withPwHash W v f) pw.1 ask k q []).2) ≤
      q / W.card := by
  classical
  have hs : ∀ (pw : W) f, (pw.1 ∈ (seeking (P.withPwHash W v f) pw.1 ask k q []).2) =
      (pw.1 ∈ (played (answer P W f (f pw)) ask k q []).2) := by
    intro pw f
    rw [seeking_played, funext (run_eq hW f pw)]
  simp only [hs]
  refine bound q (fun f g => (played (answer P W f g) ask k q []).2)
    (fun f g => played_le _ _ _ _ _) fun pw f f' g h hm => ?_
  exact (played_hit pw.1 (fun a ha => answer_update f f' g pw h a ha) ask k q []).1 hm

/-- So is, with one more, the chance to name it in the end, from all the answers. -/
theorem named (P : Prims) (W : Finset Bytes) (hW : ∀ pw ∈ W, pw.length < 2 ^ 32)
    (ask : List (Res Bytes) → Option (Seek v)) (k q : Nat) (guess : List (Res Bytes) → Bytes) :
    pwChance (fun (pw : W) f =>
        guess (seeking (P.withPwHash W v f) pw.1 ask k q []).1 = pw.1) ≤
      (q + 1) / W.card := by
  classical
  let tried : (W → PwHash v) → PwHash v → List Bytes := fun f g =>
    guess (played (answer P W f g) ask k q []).1 :: (played (answer P W f g) ask k q []).2
  have h1 : pwChance (fun (pw : W) f => pw.1 ∈ tried f (f pw)) ≤ (q + 1 : Nat) / W.card := by
    refine bound (q + 1) tried (fun f g => Nat.succ_le_succ (played_le _ _ _ _ _))
      fun pw f f' g h hm => ?_
    have ha := fun a ha => answer_update (P := P) f f' g pw h a ha
    by_cases hm' : pw.1 ∈ (played (answer P W f g) ask k q []).2
    · exact List.mem_cons_of_mem _ ((played_hit pw.1 ha ask k q []).1 hm')
    · have e := played_same pw.1 ha ask k q [] hm'
      have : tried f' g = tried f g := by
        show guess _ :: _ = _
        rw [e]
      rw [this]
      exact hm
  rw [Nat.cast_add, Nat.cast_one] at h1
  refine le_trans ?_ h1
  have hm : ∀ x : W × (W → PwHash v),
      guess (seeking (P.withPwHash W v x.2) x.1.1 ask k q []).1 = x.1.1 →
      x.1.1 ∈ tried x.2 (x.2 x.1) := by
    intro x h2
    rw [seeking_played, funext (run_eq hW x.2 x.1)] at h2
    refine List.mem_cons.2 (Or.inl ?_)
    exact h2.symm
  unfold pwChance
  rw [count_eq, count_eq]
  refine div_le_div_of_nonneg_right (Nat.cast_le.2 ?_) (Nat.cast_nonneg _)
  exact count_le hm

/-- No more is possible, and this much is: hashing the first `q` passwords of the set. -/
theorem attained (P : Prims) (W : Finset Bytes) (salt : BytesN (pwSaltLen v)) (settings : KdfState v)
    (q : Nat) (hq : q ≤ W.card) :
    ∃ ask : List (Res Bytes) → Option (Seek v),
      pwChance (fun (pw : W) f => pw.1 ∈ (seeking (P.withPwHash W v f) pw.1 ask q q []).2) =
        q / W.card := by
  classical
  let ask : List (Res Bytes) → Option (Seek v) := fun answers =>
    (W.toList[answers.length]?).map fun pw => .hash pw salt settings
  have h : ∀ (ans : Seek v → Res Bytes) n answers, answers.length + n ≤ W.card →
      (played ans ask n n answers).2 = (W.toList.drop answers.length).take n := by
    intro ans n
    induction n with
    | zero => intros; rfl
    | succ n ih =>
      intro answers hl
      have hlt : answers.length < W.toList.length := by rw [Finset.length_toList]; omega
      have ha : ask answers = some (.hash W.toList[answers.length] salt settings) := by
        show Option.map _ _ = _
        rw [List.getElem?_eq_getElem hlt]
        rfl
      unfold played
      rw [ha]
      simp only [Seek.tried]
      rw [ih _ (by rw [List.length_append, List.length_singleton]; omega),
        List.drop_eq_getElem_cons hlt, List.take_succ_cons, List.length_append, List.length_singleton]
  refine ⟨ask, ?_⟩
  have hs : ∀ (pw : W) f, (pw.1 ∈ (seeking (P.withPwHash W v f) pw.1 ask q q []).2) =
      (pw.1 ∈ W.toList.take q) := by
    intro pw f
    rw [seeking_played, h _ q [] (by rw [List.length_nil]; omega)]
    rfl
  unfold pwChance
  simp only [hs]
  rw [count_eq, count_prod]
  have hF : 0 < Fintype.card (W → PwHash v) :=
    Fintype.card_pos_iff.2 ⟨fun _ _ => ⟨List.replicate 32 0, rfl⟩⟩
  have hc : (∑ pw : W, count fun _ : W → PwHash v => pw.1 ∈ W.toList.take q) =
      q * Fintype.card (W → PwHash v) := by
    have e : ∀ pw : W, count (fun _ : W → PwHash v => pw.1 ∈ W.toList.take q) =
        if pw.1 ∈ W.toList.take q then Fintype.card (W → PwHash v) else 0 := by
      intro pw
      unfold count
      by_cases h : pw.1 ∈ W.toList.take q
      · simp [h]
      · simp [h]
    simp only [e]
    rw [← Finset.sum_filter, Finset.sum_const, Nat.nsmul_eq_mul]
    congr 1
    have hn : (W.toList.take q).Nodup := W.nodup_toList.sublist (List.take_sublist _ _)
    have hl : (W.toList.take q).toFinset.card = q := by
      rw [List.toFinset_card_of_nodup hn, List.length_take, Finset.length_toList]
      omega
    refine Eq.trans ?_ hl
    refine Finset.card_bij (fun w _ => w.1) ?_ (fun a _ b _ e => Subtype.ext e) ?_
    · intro w hw
      simpa using hw
    · intro b hb
      have hb' : b ∈ W.toList.take q := by simpa using hb
      refine ⟨⟨b, Finset.mem_toList.1 (List.mem_of_mem_take hb')⟩, ?_, rfl⟩
      rw [Finset.mem_filter]
      exact ⟨Finset.mem_univ _, hb'⟩
  rw [hc, Fintype.card_prod, Fintype.card_coe, Nat.cast_mul, Nat.cast_mul]
  have hF' : (Fintype.card (W → PwHash v) : ℚ) ≠ 0 := by exact_mod_cast hF.ne'
  rw [mul_div_mul_right _ _ hF']

/-- Whoever hashes neither of two passwords learns nothing about which of them is used: every event
has the same chance. -/
theorem untried_alike (P : Prims) (W : Finset Bytes) (hW : ∀ pw ∈ W, pw.length < 2 ^ 32)
    (ask : List (Res Bytes) → Option (Seek v)) (k q : Nat) (pw pw' : W)
    (hask : ∀ answers a, ask answers = some a → a.tried ≠ some pw.1 ∧ a.tried ≠ some pw'.1)
    (D : List (Res Bytes) → Prop) [DecidablePred D] :
    (Finset.univ.filter fun f : W → PwHash v =>
        D (seeking (P.withPwHash W v f) pw.1 ask k q []).1).card =
      (Finset.univ.filter fun f : W → PwHash v =>
        D (seeking (P.withPwHash W v f) pw'.1 ask k q []).1).card := by
  classical
  have key : ∀ (pw pw' : W) (f : W → PwHash v),
      (∀ answers a, ask answers = some a → a.tried ≠ some pw.1 ∧ a.tried ≠ some pw'.1) →
      seeking (P.withPwHash W v (f ∘ Equiv.swap pw pw')) pw'.1 ask k q [] =
        seeking (P.withPwHash W v f) pw.1 ask k q [] := by
    intro pw pw' f hask
    rw [seeking_played, seeking_played, funext (run_eq hW f pw), funext (run_eq hW _ pw')]
    have e : (f ∘ Equiv.swap pw pw') pw' = f pw := by simp
    rw [e]
    refine played_congr ask (fun answers a ha => ?_) k q []
    obtain ⟨h1, h2⟩ := hask answers a ha
    cases a with
    | wrap => rfl
    | unwrap => rfl
    | hash w salt settings =>
      unfold answer
      dsimp only
      by_cases hw : w ∈ W
      · rw [dif_pos hw, dif_pos hw, Function.comp_apply, Equiv.swap_apply_of_ne_of_ne]
        · intro e; exact h1 (congrArg some (congrArg Subtype.val e))
        · intro e; exact h2 (congrArg some (congrArg Subtype.val e))
      · rw [dif_neg hw, dif_neg hw]
  refine Finset.card_bij' (fun f _ => f ∘ Equiv.swap pw pw') (fun f _ => f ∘ Equiv.swap pw pw')
    ?_ ?_ ?_ ?_
  · intro f hf
    rw [Finset.mem_filter] at hf ⊢
    rw [key pw pw' f hask]
    exact ⟨Finset.mem_univ _, hf.2⟩
  · intro f hf
    rw [Finset.mem_filter] at hf ⊢
    rw [Equiv.swap_comm, key pw' pw f fun l a h => (hask l a h).symm]
    exact ⟨Finset.mem_univ _, hf.2⟩
  · intro f _
    funext w; simp
  · intro f _
    funext w; simp

/-- One of two passwords, one hash: the right one with chance a half, whatever else is asked. -/
example (P : Prims) (ask : List (Res Bytes) → Option (Seek v)) (k : Nat) :
    pwChance (fun (pw : ({[97], [98]} : Finset Bytes)) f =>
      pw.1 ∈ (seeking (P.withPwHash _ v f) pw.1 ask k 1 []).2) ≤ 1 / 2 := by
  have h := found P {[97], [98]} (by
    intro pw h
    simp only [Finset.mem_insert, Finset.mem_singleton] at h
    rcases h with rfl | rfl <;> simp) ask k 1
  have hc : Finset.card ({[97], [98]} : Finset Bytes) = 2 := rfl
  rw [hc] at h
  simpa using h

/-- Wrapping a key ten times over tells nothing about which of the two it is. -/
example (P : Prims) (hidden : BytesN 32) (settings : KdfState .V4) (rng : Rng)
    (D : List (Res Bytes) → Prop) [DecidablePred D] (pw pw' : ({[97], [98]} : Finset Bytes)) :
    (Finset.univ.filter fun f => D (seeking (P.withPwHash {[97], [98]} .V4 f) pw.1
        (fun _ => some (.wrap .Local hidden settings rng)) 10 0 []).1).card =
      (Finset.univ.filter fun f => D (seeking (P.withPwHash {[97], [98]} .V4 f) pw'.1
        (fun _ => some (.wrap .Local hidden settings rng)) 10 0 []).1).card :=
  untried_alike P _ (by
    intro pw h
    simp only [Finset.mem_insert, Finset.mem_singleton] at h
    rcases h with rfl | rfl <;> simp) _ 10 0 pw pw' (by
      rintro answers a ⟨⟩
      exact ⟨nofun, nofun⟩) D

end Pasta.C84
