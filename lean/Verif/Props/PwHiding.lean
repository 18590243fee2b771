import Mathlib.Algebra.BigOperators.Field
import Mathlib.Tactic.Positivity
import Mathlib.Tactic.NormNum
import Verif.Spec.PwHiding
import Verif.Lemmas.OneCipher
import Verif.Lemmas.RandomTags
import Verif.Props.Seeking
import Verif.Props.Birthday
import Verif.Props.Pbkw

/-!
# C89: telling which key was wrapped with a password is guessing the password

With a random password hash, a random hash for deriving keys and a random cipher.
-/

namespace Pasta.C89

open Plug (k0 stream1 outAt fixAt out_fixAt fixAt_fixAt flat_length)
open C82 (count count_eq count_prod count_prod')
open C84 (hashOf serve)

variable {P : Prims} {v : Ver} {L : Nat} {W : Finset Bytes}

/-! ### What wrapping and unwrapping use of hashes and cipher -/

variable (P) in
/-- `P` with hash and cipher. -/
abbrev base (h : KeyHash v) (c : CipherOf v L) : Prims := (P.withKeyHash v h).withCiphers (c.ciphers P)

/-- An input of the key hash. -/
def kdfIn (d : UInt8) (p : BytesN 32) : BytesN 33 := ⟨d :: p.1, by rw [List.length_cons, p.2]⟩

theorem kdfIn_inj {d d' : UInt8} {p p' : BytesN 32} (h : kdfIn d p = kdfIn d' p') : d = d' ∧ p = p' := by
  have e := congrArg Subtype.val h
  exact ⟨(List.cons.inj e).1, Subtype.ext (List.cons.inj e).2⟩

theorem base_hash (h : KeyHash v) (c : CipherOf v L) (d : UInt8) (p : BytesN 32) :
    pwKeyHash (base P h c) v ([d] ++ p.1) = h (kdfIn d p) := by
  have hl : ([d] ++ p.1).length = 33 := (kdfIn d p).2
  cases v with
  | V3 => exact dif_pos hl
  | V4 => exact (dif_pos (show 32 = 32 ∧ _ from ⟨rfl, hl⟩)).trans rfl

theorem base_stream (h : KeyHash v) (c : CipherOf v L) (k : BytesN 32) (iv : BytesN (ivLen v)) :
    stream (base P h c) v k iv = stream1 P (c k) iv := by
  cases v <;> rfl

theorem mac_ok (h : KeyHash v) (c : CipherOf v L) (ak : BytesN (pwKeyHashLen v)) (k : WKind)
    (salt : BytesN (pwSaltLen v)) (st : KdfState v) (n : BytesN (ivLen v)) (e : BytesN (keyLen v k.kind)) :
    pwTagMac (base P h c) v ak.1 (pwTagInput v k salt.1 st n.1 e.1) = .ok (pwMac P ak k salt st n e) := by
  cases v with
  | V3 => rfl
  | V4 =>
    show (base P h c).blakeMac 32 _ _ = _
    unfold Prims.blakeMac
    rw [if_pos (by rw [ak.2]; decide)]
    rfl

theorem base_keypair (h : KeyHash .V4) (c : CipherOf .V4 L) (b : BytesN 64) :
    Key.edFromKeypair (base P h c) b = Key.edFromKeypair P b := by
  unfold Key.edFromKeypair
  generalize BytesN.split 32 32 _ b = sp
  obtain ⟨s, p⟩ := sp
  dsimp only
  cases h' : P.edParse p with
  | none =>
    have h'' : (base P h c).edParse p = none := h'
    rw [h'']
  | some pk =>
    have h'' : (base P h c).edParse p = some pk := h'
    rw [h'']
    rfl

variable (P) in
/-- The bytes of the key with these bytes. -/
def keyBytes (k : WKind) (b : BytesN (keyLen v k.kind)) : Res (BytesN (keyLen v k.kind)) :=
  Key.fromBytes P v k.kind b >>= fun key => (.ok key.toBytes : Res (BytesN _))

theorem base_keyBytes (h : KeyHash v) (c : CipherOf v L) (k : WKind) (b : BytesN (keyLen v k.kind)) :
    keyBytes (base P h c) k b = keyBytes P k b := by
  have okOr : ∀ {α κ κ' β : Type} (o : Option α) (f : α → κ) (f' : α → κ') (g : κ → β)
      (g' : κ' → β) (_ : ∀ x, g (f x) = g' (f' x)),
      ((Res.okOr .invalidKey o >>= fun x => pure (f x)) >>= fun k => (Res.ok (g k) : Res β)) =
      ((Res.okOr .invalidKey o >>= fun x => pure (f' x)) >>= fun k => (Res.ok (g' k) : Res β)) := by
    intro α κ κ' β o f f' g g' h
    cases o with
    | none => rfl
    | some x => exact congrArg Res.ok (h x)
  unfold keyBytes
  cases v <;> cases k
  · rfl
  · exact okOr (Key.p384ScalarFromSlice P b.1) _ _ _ _ fun _ => rfl
  · rfl
  · have e := base_keypair (P := P) h c b
    show ((Res.okOr .invalidKey (Key.edFromKeypair (base P h c) b) >>= fun s =>
      pure (Key.mk s : Key (base P h c) .V4 .Secret)) >>= _) = _
    rw [e]
    exact okOr (Key.edFromKeypair P b)
      (fun s : BytesN 32 => (Key.mk s : Key (base P h c) .V4 .Secret))
      (fun s : BytesN 32 => (Key.mk s : Key P .V4 .Secret))
      (fun k => k.toBytes) (fun k => k.toBytes) fun _ => rfl

variable (P) in
/-- Wrapping and unwrapping in terms of hashes and cipher. -/
def served (h : KeyHash v) (c : CipherOf v L) (kdf : BytesN (pwSaltLen v) → KdfState v → Res (BytesN 32)) :
    Seek v → Res Bytes
  | .wrap k hidden settings rng => do
    let bytes ← keyBytes P k hidden
    let (salt, rng) ← fillBytes (pwSaltLen v) rng
    let kk ← kdf salt settings
    let (n, _) ← fillBytes (ivLen v) rng
    return (randomWrap P k settings salt n (outAt P n bytes (c (splitEk v (h (kdfIn 0xff kk)))))
      (h (kdfIn 0xfe kk))).text
  | .unwrap k text => do
    let w ← PwWrappedKey.parse v k text
    let kk ← kdf w.salt w.state
    if w.tag = pwMac P (h (kdfIn 0xfe kk)) k w.salt w.state w.nonce w.edk then do
      let bytes ← keyBytes P k (outAt P w.nonce w.edk (c (splitEk v (h (kdfIn 0xff kk)))))
      return bytes.1
    else .err .cryptoError
  | .hash .. => .panic

theorem text_display {k : WKind} (w : PwWrappedKey v k) : w.display = .ok w.text := by
  rw [PwWrappedKey.display_eq, ← encodeState_eq]
  rfl

theorem serve_eq (h : KeyHash v) (c : CipherOf v L)
    (kdf : BytesN (pwSaltLen v) → KdfState v → Res (BytesN 32)) (a : Seek v) :
    serve (base P h c) kdf a = served P h c kdf a := by
  cases a with
  | hash => rfl
  | wrap k hidden st rng =>
    have e := base_keyBytes (P := P) h c k hidden
    unfold keyBytes at e
    unfold serve served keyBytes
    dsimp only
    rw [e]
    congr 1
    funext bytes
    congr 1
    funext ⟨salt, r⟩
    dsimp only
    congr 1
    funext kk
    congr 1
    funext ⟨n, r'⟩
    dsimp only
    rw [base_hash, base_hash, base_stream, mac_ok, Res.ok_bind, text_display]
    rfl
  | unwrap k text =>
    unfold serve served
    dsimp only
    congr 1
    funext w
    congr 1
    funext kk
    rw [base_hash, base_hash, base_stream, mac_ok, Res.ok_bind]
    by_cases ht : w.tag = pwMac P (h (kdfIn 0xfe kk)) k w.salt w.state w.nonce w.edk
    · rw [if_pos ht, if_neg (by rw [← ht, ctNe_self]; simp)]
      have e := base_keyBytes (P := P) h c k (outAt P w.nonce w.edk (c (splitEk v (h (kdfIn 0xff kk)))))
      unfold keyBytes at e ⊢
      rw [← e]
      rfl
    · rw [if_neg ht, if_pos]
      exact ctNe_eq_true.2 fun h' => ht (Subtype.ext h'.symm)

/-- With a password in `W`. -/
theorem run_eq (hW : ∀ pw ∈ W, pw.length < 2 ^ 32) (f : W → PwHash v) (h : KeyHash v) (c : CipherOf v L)
    (pw : W) (a : Seek v) (ha : a.tried = none) :
    a.run (P.withPw W f h c) pw.1 = served P h c (hashOf (f pw)) a := by
  rw [← serve_eq]
  have := C84.run_eq (P := base P h c) hW f pw a
  cases a with
  | hash => cases ha
  | wrap => exact this
  | unwrap => exact this

theorem ideal_run (g : PwHash v) (h : KeyHash v) (c : CipherOf v L) (a : Seek v) (ha : a.tried = none) :
    a.run (P.withPw {[]} (fun _ => g) h c) [] = served P h c (hashOf g) a :=
  run_eq (W := {[]}) (fun pw hpw => by rw [Finset.mem_singleton.1 hpw]; decide) (fun _ => g) h c
    ⟨[], Finset.mem_singleton.2 rfl⟩ a ha

theorem hash_run (hW : ∀ pw ∈ W, pw.length < 2 ^ 32) (f : W → PwHash v) (h : KeyHash v) (c : CipherOf v L)
    (s : Bytes) (w : Bytes) (salt : BytesN (pwSaltLen v)) (st : KdfState v) :
    (Seek.hash w salt st).run (P.withPw W f h c) s =
      (if hw : w ∈ W then hashOf (f ⟨w, hw⟩) salt st else pwKdf P v w salt st) >>= fun b => .ok b.1 := by
  by_cases hw : w ∈ W
  · have := C84.run_eq (P := base P h c) hW f ⟨w, hw⟩ (.hash w salt st)
    rw [dif_pos hw]
    unfold C84.answer at this
    simp only [dif_pos hw] at this
    exact this
  · rw [dif_neg hw]
    have e : pwKdf (P.withPw W f h c) v w salt st = pwKdf (base P h c) v w salt st :=
      C84.pwKdf_not_mem f hw salt st
    have e' : pwKdf (base P h c) v w salt st = pwKdf P v w salt st := by cases v <;> rfl
    show (pwKdf (P.withPw W f h c) v w salt st >>= fun b => (pure b.1 : Res Bytes)) = _
    rw [e, e']
    rfl

theorem hashOf_eq (g : PwHash v) (salt : BytesN (pwSaltLen v)) (st : KdfState v) :
    (StateOk st → hashOf g salt st = .ok (g (hashPoint salt st))) ∧ (¬ StateOk st → hashOf g salt st = .panic) := by
  cases v with
  | V3 => exact ⟨fun _ => rfl, fun h => absurd trivial h⟩
  | V4 =>
    constructor
    · intro h
      show (Res.unwrap (if argon2ParamsOk _ _ _ then some () else none) >>= fun _ => Res.ok _) = _
      have h : argon2ParamsOk (st.mem / 1024) st.time st.para := h
      rw [if_pos h]
      rfl
    · intro h
      have h : ¬ argon2ParamsOk (st.mem / 1024) st.time st.para := h
      show (Res.unwrap (if argon2ParamsOk _ _ _ then some () else none) >>= fun _ => Res.ok _) = _
      rw [if_neg h]
      rfl

theorem stateOk_point {salt salt' : BytesN (pwSaltLen v)} {st st' : KdfState v}
    (h : hashPoint salt st = hashPoint salt' st') : StateOk st ↔ StateOk st' := by
  cases v with
  | V3 => exact Iff.rfl
  | V4 =>
    have h : (salt, st.mem / 1024, st.time, st.para) = (salt', st'.mem / 1024, st'.time, st'.para) := h
    have h1 : st.mem / 1024 = st'.mem / 1024 := congrArg (fun x => x.2.1) h
    have h2 : st.time = st'.time := congrArg (fun x => x.2.2.1) h
    have h3 : st.para = st'.para := congrArg (fun x => x.2.2.2) h
    show argon2ParamsOk _ _ _ ↔ argon2ParamsOk _ _ _
    rw [h1, h2, h3]

/-! ### The two games -/

theorem play_congr (ans ans' : PwAsk v → PwAnswer v L)
    (ask : List (PwAnswer v L) → Option (PwAsk v)) (n : Nat) :
    ∀ q seen, (∀ a ∈ (pwPlay ans ask n q seen).2, ans' a = ans a) →
      pwPlay ans' ask n q seen = pwPlay ans ask n q seen := by
  induction n with
  | zero => intro q seen _; rfl
  | succ n ih =>
    intro q seen h
    unfold pwPlay at h ⊢
    cases ha : ask seen with
    | none => rfl
    | some a =>
      cases ht : a.tried with
      | none =>
        simp only [ha, ht] at h ⊢
        have h1 : ans' a = ans a := h a List.mem_cons_self
        rw [h1, ih q (seen ++ [ans a]) fun b hb => h b (List.mem_cons_of_mem _ hb)]
      | some pw =>
        cases q with
        | zero => simp only [ht]
        | succ q =>
          simp only [ha, ht] at h ⊢
          have h1 : ans' a = ans a := h a List.mem_cons_self
          rw [h1, ih q (seen ++ [ans a]) fun b hb => h b (List.mem_cons_of_mem _ hb)]

theorem play_length (ans : PwAsk v → PwAnswer v L)
    (ask : List (PwAnswer v L) → Option (PwAsk v)) (n : Nat) :
    ∀ q seen, (pwPlay ans ask n q seen).2.length ≤ n := by
  induction n with
  | zero => intro q seen; exact Nat.le_refl _
  | succ n ih =>
    intro q seen
    unfold pwPlay
    cases ha : ask seen with
    | none => exact Nat.zero_le _
    | some a =>
      cases ht : a.tried with
      | none => simp only [ht]; exact Nat.succ_le_succ (ih _ _)
      | some pw =>
        cases q with
        | zero => simp only [ht]; exact Nat.zero_le _
        | succ q => simp only [ht]; exact Nat.succ_le_succ (ih _ _)

theorem play_tried (ans : PwAsk v → PwAnswer v L)
    (ask : List (PwAnswer v L) → Option (PwAsk v)) (n : Nat) :
    ∀ q seen, ((pwPlay ans ask n q seen).2.filterMap PwAsk.tried).length ≤ q := by
  induction n with
  | zero => intro q seen; exact Nat.zero_le _
  | succ n ih =>
    intro q seen
    unfold pwPlay
    cases ha : ask seen with
    | none => exact Nat.zero_le _
    | some a =>
      cases ht : a.tried with
      | none => simp only [ht, List.filterMap_cons_none ht]; exact ih _ _
      | some pw =>
        cases q with
        | zero => simp only [ht]; exact Nat.zero_le _
        | succ q => simp only [ht, List.filterMap_cons_some ht]; exact Nat.succ_le_succ (ih _ _)

/-- Where a request evaluates the password hash of the unknown password. -/
def pointAsked : Seek v → Option (BytesN (pwSaltLen v) × KdfState v)
  | .wrap _ _ settings rng =>
    match fillBytes (pwSaltLen v) rng with
    | .ok (salt, _) => some (salt, settings)
    | _ => none
  | .unwrap k s =>
    match PwWrappedKey.parse v k s with
    | .ok w => some (w.salt, w.state)
    | _ => none
  | .hash .. => none

/-- The values of the password hash that answering uses. -/
def usesPre (g : PwHash v) : PwAsk v → List (BytesN 32)
  | .seek a => ((pointAsked a).map fun x => g (hashPoint x.1 x.2)).toList
  | .keyHash m => [⟨m.1.drop 1, by rw [List.length_drop, m.2]⟩]
  | .cipher _ => []
  | .mac .. => []

/-- The cipher keys that answering uses. -/
def usesKey (g : PwHash v) (h : KeyHash v) : PwAsk v → List (BytesN 32)
  | .seek a => ((pointAsked a).map fun x => splitEk v (h (kdfIn 0xff (g (hashPoint x.1 x.2))))).toList
  | .keyHash _ => []
  | .cipher k => [k]
  | .mac .. => []

theorem usesPre_length (g : PwHash v) (a : PwAsk v) : (usesPre g a).length ≤ 1 := by
  cases a with
  | seek a =>
    unfold usesPre
    dsimp only
    cases pointAsked a with
    | none => exact Nat.zero_le _
    | some x => exact Nat.le_refl _
  | keyHash m => exact Nat.le_refl _
  | cipher k => exact Nat.zero_le _
  | mac => exact Nat.zero_le _

theorem usesKey_length (g : PwHash v) (h : KeyHash v) (a : PwAsk v) : (usesKey g h a).length ≤ 1 := by
  cases a with
  | seek a =>
    unfold usesKey
    dsimp only
    cases pointAsked a with
    | none => exact Nat.zero_le _
    | some x => exact Nat.le_refl _
  | keyHash m => exact Nat.zero_le _
  | cipher k => exact Nat.le_refl _
  | mac => exact Nat.zero_le _

/-- Wrapping and unwrapping use hashes and cipher only there. -/
theorem served_congr (g g' : PwHash v) (h h' : KeyHash v) (c c' : CipherOf v L) (a : Seek v)
    (hag : ∀ salt st, pointAsked a = some (salt, st) →
      g' (hashPoint salt st) = g (hashPoint salt st) ∧
      (∀ d, h' (kdfIn d (g (hashPoint salt st))) = h (kdfIn d (g (hashPoint salt st)))) ∧
      c' (splitEk v (h (kdfIn 0xff (g (hashPoint salt st))))) =
        c (splitEk v (h (kdfIn 0xff (g (hashPoint salt st)))))) :
    served P h' c' (hashOf g') a = served P h c (hashOf g) a := by
  cases a with
  | hash => rfl
  | wrap k hidden st rng =>
    unfold served
    dsimp only
    cases hk : keyBytes P k hidden with
    | err e => rw [Res.err_bind, Res.err_bind]
    | panic => rw [Res.panic_bind, Res.panic_bind]
    | ok bytes =>
      rw [Res.ok_bind, Res.ok_bind]
      cases hs : fillBytes (pwSaltLen v) rng with
      | err e => rw [Res.err_bind, Res.err_bind]
      | panic => rw [Res.panic_bind, Res.panic_bind]
      | ok x =>
        obtain ⟨salt, r⟩ := x
        rw [Res.ok_bind, Res.ok_bind]
        dsimp only
        obtain ⟨h1, h2, h3⟩ := hag salt st (by unfold pointAsked; simp only [hs])
        by_cases hok : StateOk st
        · rw [(hashOf_eq g' salt st).1 hok, (hashOf_eq g salt st).1 hok, Res.ok_bind, Res.ok_bind, h1, h2,
            h2, h3]
        · rw [(hashOf_eq g' salt st).2 hok, (hashOf_eq g salt st).2 hok, Res.panic_bind, Res.panic_bind]
  | unwrap k text =>
    unfold served
    dsimp only
    cases hw : PwWrappedKey.parse v k text with
    | err e => rw [Res.err_bind, Res.err_bind]
    | panic => rw [Res.panic_bind, Res.panic_bind]
    | ok w =>
      rw [Res.ok_bind, Res.ok_bind]
      obtain ⟨h1, h2, h3⟩ := hag w.salt w.state (by unfold pointAsked; simp only [hw])
      by_cases hok : StateOk w.state
      · rw [(hashOf_eq g' _ _).1 hok, (hashOf_eq g _ _).1 hok, Res.ok_bind, Res.ok_bind, h1, h2, h2, h3]
      · rw [(hashOf_eq g' _ _).2 hok, (hashOf_eq g _ _).2 hok, Res.panic_bind, Res.panic_bind]

section

variable (hW : ∀ pw ∈ W, pw.length < 2 ^ 32) {k : WKind} (st : KdfState v) (salt : BytesN (pwSaltLen v))
  (nonce : BytesN (ivLen v)) (hst : StateOk st)

include hW hst in
theorem answer_eq (pw : W) (f : W → PwHash v) (g : PwHash v) (h : KeyHash v) (c : CipherOf v L)
    (p0 : BytesN 32) (e : BytesN (keyLen v k.kind)) (t1 t2 : BytesN (pwKeyHashLen v)) (s : OneCipher v L)
    (a : PwAsk v) (h1 : a.tried ≠ some pw.1) (h2 : p0 ∉ usesPre g a) (h3 : splitEk v t1 ∉ usesKey g h a)
    (h4 : ¬ PwForged P k st salt nonce e t2 [a]) :
    pwAnswer P pw.1 (hashPoint salt st)
        (Function.update f pw (Function.update g (hashPoint salt st) p0))
        (Function.update (Function.update h (kdfIn 0xff p0) t1) (kdfIn 0xfe p0) t2)
        (Function.update c (splitEk v t1) s) (randomWrap P k st salt nonce e t2).text a =
      idealPwAnswer P (hashPoint salt st) f g h c (randomWrap P k st salt nonce e t2).text a := by
  cases a with
  | keyHash m =>
    show PwAnswer.keyHash _ = PwAnswer.keyHash (h m)
    have ne : ∀ d, m ≠ kdfIn d p0 := by
      rintro d rfl
      exact h2 (List.mem_singleton.2 (Subtype.ext rfl))
    rw [Function.update_of_ne (ne _), Function.update_of_ne (ne _)]
  | cipher key =>
    show PwAnswer.cipher _ = PwAnswer.cipher (c key)
    have ne : key ≠ splitEk v t1 := fun h => h3 (List.mem_singleton.2 h.symm)
    rw [Function.update_of_ne ne]
  | mac ak m => rfl
  | seek a =>
    by_cases ht : a.tried = none
    swap
    · cases a with
      | wrap => exact absurd rfl ht
      | unwrap => exact absurd rfl ht
      | hash w sa se =>
        unfold pwAnswer idealPwAnswer
        dsimp only
        rw [if_neg (show ¬ Barred _ _ (Seek.hash w sa se) from fun hb => hb), hash_run hW, hash_run hW]
        congr 2
        by_cases hw : w ∈ W
        · rw [dif_pos hw, dif_pos hw, Function.update_of_ne]
          rintro rfl
          exact h1 rfl
        · rw [dif_neg hw, dif_neg hw]
    · have hid : idealPwAnswer P (hashPoint salt st) f g h c (randomWrap P k st salt nonce e t2).text (.seek a) =
          open Classical in if Barred (hashPoint salt st) (randomWrap P k st salt nonce e t2).text a then .refused
          else if ∃ k s, a = .unwrap k s ∧ ∃ w, PwWrappedKey.parse v k s = .ok w ∧
              hashPoint w.salt w.state = hashPoint salt st then .bytes (.err .cryptoError)
          else .bytes (a.run (P.withPw {[]} (fun _ => g) h c) []) := by
        cases a with
        | hash => cases ht
        | wrap => rfl
        | unwrap => rfl
      rw [hid]
      unfold pwAnswer
      dsimp only
      by_cases hb : Barred (hashPoint salt st) (randomWrap P k st salt nonce e t2).text a
      · rw [if_pos hb, if_pos hb]
      rw [if_neg hb, if_neg hb, run_eq hW _ _ _ _ _ ht, ideal_run _ _ _ _ ht, Function.update_self]
      by_cases hx : ∃ k s, a = .unwrap k s ∧ ∃ w, PwWrappedKey.parse v k s = .ok w ∧
          hashPoint w.salt w.state = hashPoint salt st
      · rw [if_pos hx]
        obtain ⟨k', x, rfl, w, hw, hp⟩ := hx
        unfold served
        dsimp only
        rw [hw, Res.ok_bind, (hashOf_eq _ _ _).1 ((stateOk_point hp).2 hst), Res.ok_bind, hp,
          Function.update_self, Function.update_self, if_neg]
        intro htag
        exact h4 ⟨k', x, w, List.mem_singleton.2 rfl, hw, hp, fun hd => hb ⟨w, hw, hd⟩, htag⟩
      · rw [if_neg hx]
        congr 1
        apply served_congr
        intro sa se hpt
        have hne : hashPoint sa se ≠ hashPoint salt st := by
          intro he
          cases a with
          | hash => cases ht
          | wrap k' hidden set rng =>
            unfold pointAsked at hpt
            dsimp only at hpt
            cases hs : fillBytes (pwSaltLen v) rng with
            | err er => rw [hs] at hpt; cases hpt
            | panic => rw [hs] at hpt; cases hpt
            | ok y =>
              rw [hs] at hpt
              cases hpt
              exact hb ⟨y.1, y.2, hs, he⟩
          | unwrap k' x =>
            unfold pointAsked at hpt
            dsimp only at hpt
            cases hw : PwWrappedKey.parse v k' x with
            | err er => rw [hw] at hpt; cases hpt
            | panic => rw [hw] at hpt; cases hpt
            | ok w =>
              rw [hw] at hpt
              cases hpt
              exact hx ⟨k', x, rfl, w, hw, he⟩
        have hp0 : g (hashPoint sa se) ≠ p0 := by
          rintro rfl
          apply h2
          unfold usesPre
          dsimp only
          rw [hpt]
          exact List.mem_singleton.2 rfl
        refine ⟨Function.update_of_ne hne _ _, fun d => ?_, ?_⟩
        · rw [Function.update_of_ne fun h' => hp0 (kdfIn_inj h').2,
            Function.update_of_ne fun h' => hp0 (kdfIn_inj h').2]
        · rw [Function.update_of_ne]
          intro h'
          apply h3
          unfold usesKey
          dsimp only
          rw [hpt]
          exact List.mem_singleton.2 h'.symm

include hW hst in
theorem game_eq (hL : keyLen v k.kind ≤ L) (key : BytesN (keyLen v k.kind))
    (hkb : keyBytes P k key = .ok key)
    (ask : Bytes → List (PwAnswer v L) → Option (PwAsk v)) (n q : Nat) (pw : W) (f : W → PwHash v)
    (g : PwHash v) (h : KeyHash v) (c : CipherOf v L)
    (p0 : BytesN 32) (e : BytesN (keyLen v k.kind)) (t1 t2 : BytesN (pwKeyHashLen v)) (s : OneCipher v L)
    (h1 : pw.1 ∉ (idealPwAsked P k st salt nonce ask n q f g h c e t2).filterMap PwAsk.tried)
    (h2 : p0 ∉ (idealPwAsked P k st salt nonce ask n q f g h c e t2).flatMap (usesPre g))
    (h3 : splitEk v t1 ∉ (idealPwAsked P k st salt nonce ask n q f g h c e t2).flatMap (usesKey g h))
    (h4 : ¬ PwForged P k st salt nonce e t2 (idealPwAsked P k st salt nonce ask n q f g h c e t2)) :
    pwGame P pw.1 key st salt nonce ask n q
        (Function.update f pw (Function.update g (hashPoint salt st) p0))
        (Function.update (Function.update h (kdfIn 0xff p0) t1) (kdfIn 0xfe p0) t2)
        (Function.update c (splitEk v t1) (fixAt P nonce key s e)) =
      .ok ((randomWrap P k st salt nonce e t2).text,
        (pwPlay (idealPwAnswer P (hashPoint salt st) f g h c (randomWrap P k st salt nonce e t2).text)
          (ask (randomWrap P k st salt nonce e t2).text) n q []).1) := by
  have ne : kdfIn 0xff p0 ≠ kdfIn 0xfe p0 := fun h' => absurd (kdfIn_inj h').1 (by decide)
  have hm : keyLen v k.kind ≤ 2 ^ 64 := by cases v <;> cases k <;> decide
  have ho := out_fixAt (P := P) hL hm nonce key s e
  unfold pwGame
  rw [run_eq hW _ _ _ _ _ rfl]
  unfold served
  dsimp only
  rw [hkb, Res.ok_bind, fillBytes_eq_ok.2 rfl, Res.ok_bind]
  dsimp only
  rw [(hashOf_eq _ _ _).1 hst, Res.ok_bind, Function.update_self, Function.update_self]
  have hn : fillBytes (ivLen v) nonce.1 = .ok (nonce, []) := fillBytes_eq_ok.2 (List.append_nil _).symm
  rw [hn, Res.ok_bind, Function.update_self, Function.update_of_ne ne, Function.update_self,
    Function.update_self, ho]
  rw [Res.pure_def, Res.ok_bind, Res.pure_def]
  rw [play_congr (idealPwAnswer P (hashPoint salt st) f g h c (randomWrap P k st salt nonce e t2).text) _
    (ask (randomWrap P k st salt nonce e t2).text) n q []]
  intro b hb
  refine answer_eq hW st salt nonce hst pw f g h c p0 e t1 t2 _ b ?_ ?_ ?_ ?_
  · intro h'
    exact h1 (List.mem_filterMap.2 ⟨b, hb, h'⟩)
  · intro h'
    exact h2 (List.mem_flatMap.2 ⟨b, hb, h'⟩)
  · intro h'
    exact h3 (List.mem_flatMap.2 ⟨b, hb, h'⟩)
  · rintro ⟨k', x, w, hx, hr⟩
    exact h4 ⟨k', x, w, by rw [List.mem_singleton.1 hx]; exact hb, hr⟩

theorem splitEk_val (t : BytesN (pwKeyHashLen v)) : (splitEk v t).1 = t.1.take 32 := by
  cases v with
  | V3 => rfl
  | V4 =>
    have ht : t.1.length = 32 := t.2
    show t.1 = _
    rw [List.take_of_length_le (Nat.le_of_eq ht)]

theorem splitEk_count (key : BytesN 32) :
    count (fun t : BytesN (pwKeyHashLen v) => splitEk v t = key) ≤ 256 ^ (pwKeyHashLen v - 32) := by
  classical
  rw [← C75.card_bytes]
  unfold count
  rw [← Finset.card_univ]
  refine Finset.card_le_card_of_injOn
    (fun t => (⟨t.1.drop 32, by rw [List.length_drop, t.2]⟩ : BytesN (pwKeyHashLen v - 32)))
    (fun _ _ => Finset.mem_coe.2 (Finset.mem_univ _)) ?_
  intro t ht t' ht' h
  have ht : splitEk v t = key := by simpa using ht
  have ht' : splitEk v t' = key := by simpa using ht'
  have e1 : t.1.take 32 = t'.1.take 32 := by rw [← splitEk_val, ← splitEk_val, ht, ht']
  have e2 : t.1.drop 32 = t'.1.drop 32 := congrArg Subtype.val h
  exact Subtype.ext (by rw [← List.take_append_drop 32 t.1, e1, e2, List.take_append_drop])

theorem split_card (v : Ver) :
    256 ^ (pwKeyHashLen v - 32) * 256 ^ 32 = Fintype.card (BytesN (pwKeyHashLen v)) := by
  rw [C75.card_bytes, ← Nat.pow_add]
  cases v <;> rfl

/-- What goes wrong, for one password and one password hash. -/
def Bad (P : Prims) (k : WKind) (ask : Bytes → List (PwAnswer v L) → Option (PwAsk v)) (n q : Nat)
    (r : W × (W → PwHash v) × PwHash v × BytesN 32)
    (y : KeyHash v × CipherOf v L × BytesN (keyLen v k.kind) × BytesN (pwKeyHashLen v)) : Prop :=
  let asked := idealPwAsked P k st salt nonce ask n q r.2.1 r.2.2.1 y.1 y.2.1 y.2.2.1 y.2.2.2
  (r.1.1 ∈ asked.filterMap PwAsk.tried ∨ r.2.2.2 ∈ asked.flatMap (usesPre r.2.2.1)) ∨
    PwForged P k st salt nonce y.2.2.1 y.2.2.2 asked

include hW hst in
theorem one_hash (hL : keyLen v k.kind ≤ L) (keys : Side → BytesN (keyLen v k.kind))
    (hkb : ∀ a, keyBytes P k (keys a) = .ok (keys a))
    (ask : Bytes → List (PwAnswer v L) → Option (PwAsk v)) (n q : Nat)
    (D : Res (Bytes × List (PwAnswer v L)) → Prop) (r : W × (W → PwHash v) × PwHash v × BytesN 32) :
    |(count (fun x : KeyHash v × CipherOf v L => D (pwGame P r.1.1 (keys .left) st salt nonce ask n q
            (Function.update r.2.1 r.1 (Function.update r.2.2.1 (hashPoint salt st) r.2.2.2)) x.1 x.2)) : ℚ) /
          Fintype.card (KeyHash v × CipherOf v L) -
        count (fun x : KeyHash v × CipherOf v L => D (pwGame P r.1.1 (keys .right) st salt nonce ask n q
            (Function.update r.2.1 r.1 (Function.update r.2.2.1 (hashPoint salt st) r.2.2.2)) x.1 x.2)) /
          Fintype.card (KeyHash v × CipherOf v L)| ≤
      count (Bad st salt nonce P k ask n q r) /
        Fintype.card (KeyHash v × CipherOf v L × BytesN (keyLen v k.kind) × BytesN (pwKeyHashLen v)) +
      n / (256 ^ 32 : Nat) := by
  obtain ⟨pw, f, g, p0⟩ := r
  have hm : keyLen v k.kind ≤ 2 ^ 64 := by cases v <;> cases k <;> decide
  refine Plug.close (I := BytesN 33) (T := BytesN (pwKeyHashLen v)) (K := BytesN 32)
    (S := OneCipher v L) (E := BytesN (keyLen v k.kind)) (kdfIn 0xff p0) (kdfIn 0xfe p0) (splitEk v)
    (256 ^ (pwKeyHashLen v - 32)) (256 ^ 32) n
    (fun a _ s e => fixAt P nonce (keys a) s e) (fun a _ s => outAt P nonce (keys a) s)
    (fun a _ s e => out_fixAt hL hm _ _ s e) (fun a _ s e => fixAt_fixAt hL hm _ _ s e)
    splitEk_count (split_card v) (Nat.pow_pos (by decide)) (Nat.pow_pos (by decide)) Fintype.card_pos
    (Fintype.card_pos_iff.2 ⟨⟨List.replicate _ 0, List.length_replicate⟩⟩)
    (fun a x => D (pwGame P pw.1 (keys a) st salt nonce ask n q
      (Function.update f pw (Function.update g (hashPoint salt st) p0)) x.1 x.2))
    (fun y => D (.ok ((randomWrap P k st salt nonce y.2.2.1 y.2.2.2).text,
        (pwPlay (idealPwAnswer P (hashPoint salt st) f g y.1 y.2.1
            (randomWrap P k st salt nonce y.2.2.1 y.2.2.2).text)
          (ask (randomWrap P k st salt nonce y.2.2.1 y.2.2.2).text) n q []).1))) _
    (fun y => (idealPwAsked P k st salt nonce ask n q f g y.1 y.2.1 y.2.2.1 y.2.2.2).flatMap
      (usesKey g y.1)) ?_ ?_
  · intro y
    exact Nat.le_trans (flat_length _ (usesKey_length g y.1) _) (play_length _ _ _ _ _)
  · intro a h c e t2 t1 s hb ht
    have hg := game_eq hW st salt nonce hst hL (keys a) (hkb a) ask n q pw f g h c p0 e t1 t2 s
      (fun h => hb (.inl (.inl h))) (fun h => hb (.inl (.inr h))) ht (fun h => hb (.inr h))
    show D (pwGame P pw.1 (keys a) st salt nonce ask n q _ _ _) ↔ _
    rw [← hg]
    exact Iff.rfl

/-- Draw the hash of the one password anew, and its value at the one point. -/
theorem redraw_bijective (x0 : HashPoint v) :
    Function.Bijective fun z : (W × (W → PwHash v) × PwHash v × BytesN 32) × KeyHash v × CipherOf v L =>
      (((z.1.1, Function.update z.1.2.1 z.1.1 (Function.update z.1.2.2.1 x0 z.1.2.2.2), z.2) :
          W × (W → PwHash v) × KeyHash v × CipherOf v L),
        (z.1.2.1 z.1.1, z.1.2.2.1 x0)) := by
  classical
  refine Function.bijective_iff_has_inverse.2 ⟨fun w =>
    ((w.1.1, Function.update w.1.2.1 w.1.1 w.2.1, Function.update (w.1.2.1 w.1.1) x0 w.2.2,
      w.1.2.1 w.1.1 x0), w.1.2.2), ?_, ?_⟩
  · rintro ⟨⟨pw, f, g, p0⟩, hc⟩
    simp
  · rintro ⟨⟨pw, f, hc⟩, g, b⟩
    simp

theorem chance_eq (x0 : HashPoint v) (A : W → (W → PwHash v) → KeyHash v → CipherOf v L → Prop) :
    pwHidingChance A = (∑ r : W × (W → PwHash v) × PwHash v × BytesN 32,
      (count (fun x : KeyHash v × CipherOf v L =>
        A r.1 (Function.update r.2.1 r.1 (Function.update r.2.2.1 x0 r.2.2.2)) x.1 x.2) : ℚ) /
      Fintype.card (KeyHash v × CipherOf v L)) /
        Fintype.card (W × (W → PwHash v) × PwHash v × BytesN 32) := by
  have e := Plug.count_bij (redraw_bijective (W := W) (L := L) x0)
    (A := fun z => A z.1.1 (Function.update z.1.2.1 z.1.1 (Function.update z.1.2.2.1 x0 z.1.2.2.2)) z.2.1 z.2.2)
    (B := fun y => A y.1.1 y.1.2.1 y.1.2.2.1 y.1.2.2.2) (fun _ => Iff.rfl)
  rw [Plug.count_fst (fun y : W × (W → PwHash v) × KeyHash v × CipherOf v L => A y.1 y.2.1 y.2.2.1 y.2.2.2),
    count_prod] at e
  unfold pwHidingChance
  rw [count_eq, ← Finset.sum_div, ← Nat.cast_sum]
  have e' : (((∑ r : W × (W → PwHash v) × PwHash v × BytesN 32, count (fun x : KeyHash v × CipherOf v L =>
        A r.1 (Function.update r.2.1 r.1 (Function.update r.2.2.1 x0 r.2.2.2)) x.1 x.2)) : Nat) : ℚ) = _ :=
    congrArg (Nat.cast (R := ℚ)) e
  rw [e', div_div, Nat.cast_mul, ← Nat.cast_mul, ← Nat.cast_mul]
  have hc : Fintype.card (KeyHash v × CipherOf v L) *
      Fintype.card (W × (W → PwHash v) × PwHash v × BytesN 32) =
      Fintype.card (W × (W → PwHash v) × KeyHash v × CipherOf v L) * Fintype.card (PwHash v × BytesN 32) := by
    simp only [Fintype.card_prod]
    ring
  have : Nonempty (PwHash v × BytesN 32) := ⟨(fun _ => k0, k0)⟩
  rw [hc, Nat.cast_mul, Nat.cast_mul, mul_div_mul_right]
  exact_mod_cast Fintype.card_ne_zero

/-- The average of what goes wrong. -/
theorem count_bad (ask : Bytes → List (PwAnswer v L) → Option (PwAsk v)) (n q : Nat) :
    count (fun z : (W × (W → PwHash v) × PwHash v × BytesN 32) ×
        (KeyHash v × CipherOf v L × BytesN (keyLen v k.kind) × BytesN (pwKeyHashLen v)) =>
      Bad st salt nonce P k ask n q z.1 z.2) ≤
    q * Fintype.card (((W → PwHash v) × PwHash v × BytesN 32) ×
        (KeyHash v × CipherOf v L × BytesN (keyLen v k.kind) × BytesN (pwKeyHashLen v))) +
    n * Fintype.card ((W × (W → PwHash v) × PwHash v) ×
        (KeyHash v × CipherOf v L × BytesN (keyLen v k.kind) × BytesN (pwKeyHashLen v))) +
    count (fun x : ((W → PwHash v) × PwHash v) × KeyHash v × CipherOf v L × BytesN (keyLen v k.kind) ×
        BytesN (pwKeyHashLen v) => PwForged P k st salt nonce x.2.2.2.1 x.2.2.2.2
          (idealPwAsked P k st salt nonce ask n q x.1.1 x.1.2 x.2.1 x.2.2.1 x.2.2.2.1 x.2.2.2.2)) *
      Fintype.card (W × BytesN 32) := by
  classical
  let Y := KeyHash v × CipherOf v L × BytesN (keyLen v k.kind) × BytesN (pwKeyHashLen v)
  let F := W → PwHash v
  let asked : F → PwHash v → Y → List (PwAsk v) := fun f g y =>
    idealPwAsked P k st salt nonce ask n q f g y.1 y.2.1 y.2.2.1 y.2.2.2
  have one : ∀ {α β : Type} [Fintype α] (i : α → β), Function.Injective i →
      ∀ b, count (fun t : α => i t = b) ≤ 1 := by
    intro α β _ i hi b
    unfold count
    refine Finset.card_le_one.2 fun x hx y hy => hi ?_
    rw [Plug.mem_count.1 hx, Plug.mem_count.1 hy]
  refine le_trans (Plug.count_or _ _) (Nat.add_le_add (le_trans (Plug.count_or _ _) (Nat.add_le_add ?_ ?_)) ?_)
  · let re : (W × F × PwHash v × BytesN 32) × Y ≃ ((F × PwHash v × BytesN 32) × Y) × W :=
      { toFun := fun z => ((z.1.2, z.2), z.1.1)
        invFun := fun z => ((z.2, z.1.1), z.1.2)
        left_inv := fun _ => rfl
        right_inv := fun _ => rfl }
    have h := Plug.count_touched (fun w : W => w.1) 1 q (one _ Subtype.val_injective)
      (α := (F × PwHash v × BytesN 32) × Y)
      (fun z => (asked z.1.1 z.1.2.1 z.2).filterMap PwAsk.tried) fun z => play_tried _ _ _ _ _
    rw [Nat.mul_one, ← Plug.count_bij re.bijective (fun _ => Iff.rfl)] at h
    exact h
  · let re : (W × F × PwHash v × BytesN 32) × Y ≃ ((W × F × PwHash v) × Y) × BytesN 32 :=
      { toFun := fun z => (((z.1.1, z.1.2.1, z.1.2.2.1), z.2), z.1.2.2.2)
        invFun := fun z => ((z.1.1.1, z.1.1.2.1, z.1.1.2.2, z.2), z.1.2)
        left_inv := fun _ => rfl
        right_inv := fun _ => rfl }
    have h := Plug.count_touched (fun p : BytesN 32 => p) 1 n (one _ fun _ _ h => h)
      (α := (W × F × PwHash v) × Y)
      (fun z => (asked z.1.2.1 z.1.2.2 z.2).flatMap (usesPre z.1.2.2)) fun z =>
        Nat.le_trans (flat_length _ (usesPre_length _) _) (play_length _ _ _ _ _)
    rw [Nat.mul_one, ← Plug.count_bij re.bijective (fun _ => Iff.rfl)] at h
    exact h
  · let re : (W × F × PwHash v × BytesN 32) × Y ≃ ((F × PwHash v) × Y) × (W × BytesN 32) :=
      { toFun := fun z => (((z.1.2.1, z.1.2.2.1), z.2), (z.1.1, z.1.2.2.2))
        invFun := fun z => ((z.2.1, z.1.1.1, z.1.1.2, z.2.2), z.1.2)
        left_inv := fun _ => rfl
        right_inv := fun _ => rfl }
    rw [← Plug.count_fst (β := W × BytesN 32), ← Plug.count_bij re.bijective (fun _ => Iff.rfl)]
    exact Nat.le_refl _

theorem final {q n C bad cW cF cG cB cY : ℚ} (hW : 0 < cW) (hF : 0 < cF) (hG : 0 < cG) (hB : 0 < cB)
    (hY : 0 < cY)
    (h : bad ≤ q * ((cF * (cG * cB)) * cY) + n * ((cW * (cF * cG)) * cY) + C * (cW * cB)) :
    (bad / cY + (cW * (cF * (cG * cB))) * (n / cB)) / (cW * (cF * (cG * cB))) ≤
      q / cW + C / ((cF * cG) * cY) + 2 * n / cB := by
  have e : q / cW + C / ((cF * cG) * cY) + 2 * n / cB =
      ((q * ((cF * (cG * cB)) * cY) + n * ((cW * (cF * cG)) * cY) + C * (cW * cB)) / cY +
        (cW * (cF * (cG * cB))) * (n / cB)) / (cW * (cF * (cG * cB))) := by
    field_simp
    ring
  rw [e]
  gcongr

include hW hst in
/-- `which_key`, with the bytes of the keys. -/
theorem which_bytes (hL : keyLen v k.kind ≤ L) (keys : Side → BytesN (keyLen v k.kind))
    (hkb : ∀ a, keyBytes P k (keys a) = .ok (keys a))
    (ask : Bytes → List (PwAnswer v L) → Option (PwAsk v)) (n q : Nat)
    (D : Res (Bytes × List (PwAnswer v L)) → Prop) :
    |pwHidingChance (W := W) (fun pw f h c => D (pwGame P pw.1 (keys .left) st salt nonce ask n q f h c)) -
        pwHidingChance (W := W) (fun pw f h c => D (pwGame P pw.1 (keys .right) st salt nonce ask n q f h c))| ≤
      q / W.card +
        idealPwChance (W := W) (fun f g h c edk ak => PwForged P k st salt nonce edk ak
          (idealPwAsked P k st salt nonce ask n q f g h c edk ak)) +
        2 * n / 2 ^ 256 := by
  classical
  have e256 : ((256 ^ 32 : Nat) : ℚ) = 2 ^ 256 := by norm_num
  have hB : (Fintype.card (BytesN 32) : ℚ) = 2 ^ 256 := by rw [C75.card_bytes, e256]
  have hWc : Fintype.card W = W.card := Fintype.card_coe W
  rw [chance_eq (hashPoint salt st), chance_eq (hashPoint salt st), ← sub_div, ← Finset.sum_sub_distrib, abs_div,
    abs_of_nonneg (Nat.cast_nonneg (α := ℚ) _)]
  unfold idealPwChance
  rw [count_eq]
  by_cases h0 : W.card = 0
  · have : Fintype.card (W × (W → PwHash v) × PwHash v × BytesN 32) = 0 := by
      rw [Fintype.card_prod, hWc, h0, Nat.zero_mul]
    rw [this, Nat.cast_zero, div_zero]
    refine add_nonneg (add_nonneg (div_nonneg (Nat.cast_nonneg _) (Nat.cast_nonneg _))
      (div_nonneg (Nat.cast_nonneg _) (Nat.cast_nonneg _))) (div_nonneg ?_ ?_)
    · exact mul_nonneg (by norm_num) (Nat.cast_nonneg _)
    · exact pow_nonneg (by norm_num) _
  have hsum := Finset.sum_le_sum (s := Finset.univ) fun r (_ : r ∈ Finset.univ) =>
    one_hash (W := W) hW st salt nonce hst hL keys hkb ask n q D r
  rw [Finset.sum_add_distrib, ← Finset.sum_div, ← Nat.cast_sum, ← count_prod (fun z : (W × (W → PwHash v) ×
      PwHash v × BytesN 32) × (KeyHash v × CipherOf v L × BytesN (keyLen v k.kind) × BytesN (pwKeyHashLen v)) =>
      Bad st salt nonce P k ask n q z.1 z.2), Finset.sum_const, Finset.card_univ, nsmul_eq_mul] at hsum
  have hb := Nat.cast_le (α := ℚ).2 (count_bad (P := P) (W := W) (k := k) st salt nonce ask n q)
  have : Nonempty (PwHash v) := ⟨fun _ => k0⟩
  have nb : ∀ m, Nonempty (BytesN m) := fun m => ⟨⟨List.replicate _ 0, List.length_replicate⟩⟩
  have : Nonempty (KeyHash v) := ⟨fun _ => (nb _).some⟩
  have hFc : (0 : ℚ) < Fintype.card (W → PwHash v) := by exact_mod_cast Fintype.card_pos
  have hGc : (0 : ℚ) < Fintype.card (PwHash v) := by exact_mod_cast Fintype.card_pos
  have hBc : (0 : ℚ) < Fintype.card (BytesN 32) := by exact_mod_cast Fintype.card_pos
  have hWp : (0 : ℚ) < Fintype.card W := by rw [hWc]; exact_mod_cast Nat.pos_of_ne_zero h0
  have hYc : (0 : ℚ) < Fintype.card (KeyHash v × CipherOf v L × BytesN (keyLen v k.kind) ×
      BytesN (pwKeyHashLen v)) := by exact_mod_cast Fintype.card_pos
  refine le_trans (div_le_div_of_nonneg_right (le_trans (Finset.abs_sum_le_sum_abs _ _) hsum)
    (Nat.cast_nonneg _)) ?_
  rw [e256, ← hWc, ← hB]
  have c1 := Fintype.card_prod W ((W → PwHash v) × PwHash v × BytesN 32)
  have c2 := Fintype.card_prod (W → PwHash v) (PwHash v × BytesN 32)
  have c3 := Fintype.card_prod (PwHash v) (BytesN 32)
  have c4 := Fintype.card_prod W ((W → PwHash v) × PwHash v)
  have c5 := Fintype.card_prod (W → PwHash v) (PwHash v)
  have c6 := Fintype.card_prod W (BytesN 32)
  rw [Fintype.card_prod ((W → PwHash v) × PwHash v × BytesN 32), Fintype.card_prod (W × (W → PwHash v) × PwHash v),
    c2, c3, c4, c5, c6] at hb
  rw [Fintype.card_prod ((W → PwHash v) × PwHash v), c1, c2, c3, c5]
  simp only [Nat.cast_mul, Nat.cast_add] at hb ⊢
  exact final hWp hFc hGc hBc hYc hb

theorem bytes_ok (hP : P.Laws) (key : Key P v k.kind) : keyBytes P k key.toBytes = .ok key.toBytes := by
  unfold keyBytes
  rw [Key.fromBytes_toBytes hP key]
  rfl

include hW hst in
/-- C89. Whoever sees a key wrapped with an unknown password and may run the password hash `q` times,
and have other keys wrapped and unwrapped with the same password, learns which of two keys it was at
most as well as they guess the password in `q` guesses, or make another right tag for the same hash of
the password. -/
theorem which_key (hP : P.Laws) (hL : keyLen v k.kind ≤ L) (keys : Side → Key P v k.kind)
    (ask : Bytes → List (PwAnswer v L) → Option (PwAsk v)) (n q : Nat)
    (D : Res (Bytes × List (PwAnswer v L)) → Prop) :
    |pwHidingChance (W := W) (fun pw f h c => D (pwGame P pw.1 (keys .left).toBytes st salt nonce ask n q f h c)) -
        pwHidingChance (W := W) (fun pw f h c => D (pwGame P pw.1 (keys .right).toBytes st salt nonce ask n q f h c))| ≤
      q / W.card +
        idealPwChance (W := W) (fun f g h c edk ak => PwForged P k st salt nonce edk ak
          (idealPwAsked P k st salt nonce ask n q f g h c edk ak)) +
        2 * n / 2 ^ 256 :=
  which_bytes hW st salt nonce hst hL (fun a => (keys a).toBytes) (fun a => bytes_ok hP (keys a)) ask n q D

/-- Whoever has nothing unwrapped makes no other right tag. -/
theorem no_forging (ask : Bytes → List (PwAnswer v L) → Option (PwAsk v))
    (hask : ∀ text seen k' s, ask text seen ≠ some (.seek (.unwrap k' s))) (n q : Nat) (f : W → PwHash v)
    (g : PwHash v) (h : KeyHash v) (c : CipherOf v L) (e : BytesN (keyLen v k.kind))
    (t : BytesN (pwKeyHashLen v)) :
    ¬ PwForged P k st salt nonce e t (idealPwAsked P k st salt nonce ask n q f g h c e t) := by
  have no : ∀ (ans : PwAsk v → PwAnswer v L) (text : Bytes) (k' : WKind) (s : Bytes) (n q : Nat) (seen),
      PwAsk.seek (.unwrap k' s) ∉ (pwPlay ans (ask text) n q seen).2 := by
    intro ans text k' s n
    induction n with
    | zero => intro q seen h; cases h
    | succ n ih =>
      intro q seen h
      unfold pwPlay at h
      cases ha : ask text seen with
      | none => rw [ha] at h; cases h
      | some a =>
        cases ht : a.tried with
        | none =>
          simp only [ha, ht] at h
          rcases List.mem_cons.1 h with h | h
          · exact hask text seen k' s (by rw [ha, h])
          · exact ih _ _ h
        | some w =>
          cases q with
          | zero => simp only [ha, ht] at h; cases h
          | succ q =>
            simp only [ha, ht] at h
            rcases List.mem_cons.1 h with h | h
            · exact hask text seen k' s (by rw [ha, h])
            · exact ih _ _ h
  rintro ⟨k', s, w, hm, -⟩
  exact no _ _ k' s n q _ hm

include hW hst in
/-- Whoever has nothing unwrapped learns it at most as well as they guess the password. -/
theorem which_key_guess (hP : P.Laws) (hL : keyLen v k.kind ≤ L) (keys : Side → Key P v k.kind)
    (ask : Bytes → List (PwAnswer v L) → Option (PwAsk v))
    (hask : ∀ text seen k' s, ask text seen ≠ some (.seek (.unwrap k' s))) (n q : Nat)
    (D : Res (Bytes × List (PwAnswer v L)) → Prop) :
    |pwHidingChance (W := W) (fun pw f h c => D (pwGame P pw.1 (keys .left).toBytes st salt nonce ask n q f h c)) -
        pwHidingChance (W := W) (fun pw f h c => D (pwGame P pw.1 (keys .right).toBytes st salt nonce ask n q f h c))| ≤
      q / W.card + 2 * n / 2 ^ 256 := by
  classical
  have h := which_key hW st salt nonce hst hP hL keys ask n q D
  have hz : idealPwChance (W := W) (fun f g h c edk ak => PwForged P k st salt nonce edk ak
      (idealPwAsked P k st salt nonce ask n q f g h c edk ak)) = 0 := by
    unfold idealPwChance
    rw [Finset.filter_eq_empty_iff.2, Finset.card_empty, Nat.cast_zero, zero_div]
    intro x _
    exact no_forging st salt nonce ask hask n q _ _ _ _ _ _
  rwa [hz, add_zero] at h

end

/-! ### Random tags -/

section tags

variable {M : Nat}

theorem tag_with (T : PwMac v M) (ak : BytesN (pwKeyHashLen v)) (m : Bytes) (hm : m.length ≤ M) :
    pwTag (P.withPwMac v T) ak m = T ak ⟨m, hm⟩ := by
  cases v with
  | V3 => exact dif_pos ⟨ak.2, hm⟩
  | V4 => exact (dif_pos (show 32 = 32 ∧ ak.1.length = 32 ∧ m.length ≤ M from ⟨rfl, ak.2, hm⟩)).trans rfl

theorem tag_congr (T T' : PwMac v M) (ak : BytesN (pwKeyHashLen v)) (h : T' ak = T ak) (m : Bytes) :
    pwTag (P.withPwMac v T') ak m = pwTag (P.withPwMac v T) ak m := by
  by_cases hm : m.length ≤ M
  · rw [tag_with _ _ _ hm, tag_with _ _ _ hm, h]
  · cases v with
    | V3 =>
      have hn : ¬ (ak.1.length = 48 ∧ m.length ≤ M) := fun h => hm h.2
      have e : ∀ T : PwMac .V3 M, pwTag (P.withPwMac .V3 T) ak m = P.hmacSha384 ak.1 m := fun T => dif_neg hn
      rw [e, e]
    | V4 =>
      have hn : ¬ (32 = 32 ∧ ak.1.length = 32 ∧ m.length ≤ M) := fun h => hm h.2.2
      have e : ∀ T : PwMac .V4 M, pwTag (P.withPwMac .V4 T) ak m = P.blake2bMac 32 ak.1 m := fun T => dif_neg hn
      rw [e, e]

theorem keypair_with (T : PwMac .V4 M) (b : BytesN 64) :
    Key.edFromKeypair (P.withPwMac .V4 T) b = Key.edFromKeypair P b := by
  unfold Key.edFromKeypair
  generalize BytesN.split 32 32 _ b = sp
  obtain ⟨s, p⟩ := sp
  dsimp only
  cases h' : P.edParse p with
  | none =>
    have h'' : (P.withPwMac .V4 T).edParse p = none := h'
    rw [h'']
  | some pk =>
    have h'' : (P.withPwMac .V4 T).edParse p = some pk := h'
    rw [h'']
    rfl

theorem keyBytes_with (T : PwMac v M) (k : WKind) (b : BytesN (keyLen v k.kind)) :
    keyBytes (P.withPwMac v T) k b = keyBytes P k b := by
  have okOr : ∀ {α κ κ' β : Type} (o : Option α) (f : α → κ) (f' : α → κ') (g : κ → β)
      (g' : κ' → β) (_ : ∀ x, g (f x) = g' (f' x)),
      ((Res.okOr .invalidKey o >>= fun x => pure (f x)) >>= fun k => (Res.ok (g k) : Res β)) =
      ((Res.okOr .invalidKey o >>= fun x => pure (f' x)) >>= fun k => (Res.ok (g' k) : Res β)) := by
    intro α κ κ' β o f f' g g' h
    cases o with
    | none => rfl
    | some x => exact congrArg Res.ok (h x)
  unfold keyBytes
  cases v <;> cases k
  · rfl
  · exact okOr (Key.p384ScalarFromSlice P b.1) _ _ _ _ fun _ => rfl
  · rfl
  · have e := keypair_with (P := P) T b
    show ((Res.okOr .invalidKey (Key.edFromKeypair (P.withPwMac .V4 T) b) >>= fun s =>
      pure (Key.mk s : Key (P.withPwMac .V4 T) .V4 .Secret)) >>= _) = _
    rw [e]
    exact okOr (Key.edFromKeypair P b)
      (fun s : BytesN 32 => (Key.mk s : Key (P.withPwMac .V4 T) .V4 .Secret))
      (fun s : BytesN 32 => (Key.mk s : Key P .V4 .Secret))
      (fun k => k.toBytes) (fun k => k.toBytes) fun _ => rfl

theorem outAt_with (T : PwMac v M) {m : Nat} (n : BytesN (ivLen v)) (b : BytesN m) (s : OneCipher v L) :
    outAt (P.withPwMac v T) n b s = outAt P n b s := by
  cases v <;> rfl

/-- The authentication keys that answering uses. -/
def usesAk (g : PwHash v) (h : KeyHash v) : PwAsk v → List (BytesN (pwKeyHashLen v))
  | .seek a => ((pointAsked a).map fun x => h (kdfIn 0xfe (g (hashPoint x.1 x.2)))).toList
  | .keyHash _ => []
  | .cipher _ => []
  | .mac ak _ => [ak]

theorem usesAk_length (g : PwHash v) (h : KeyHash v) (a : PwAsk v) : (usesAk g h a).length ≤ 1 := by
  cases a with
  | seek a =>
    unfold usesAk
    dsimp only
    cases pointAsked a with
    | none => exact Nat.zero_le _
    | some x => exact Nat.le_refl _
  | keyHash m => exact Nat.zero_le _
  | cipher k => exact Nat.zero_le _
  | mac => exact Nat.le_refl _

theorem served_tags (T T' : PwMac v M) (g : PwHash v) (h : KeyHash v) (c : CipherOf v L) (a : Seek v)
    (hag : ∀ salt st, pointAsked a = some (salt, st) →
      T' (h (kdfIn 0xfe (g (hashPoint salt st)))) = T (h (kdfIn 0xfe (g (hashPoint salt st))))) :
    served (P.withPwMac v T') h c (hashOf g) a = served (P.withPwMac v T) h c (hashOf g) a := by
  cases a with
  | hash => rfl
  | wrap k hidden st rng =>
    unfold served
    dsimp only
    rw [keyBytes_with, keyBytes_with]
    cases hk : keyBytes P k hidden with
    | err e => rw [Res.err_bind, Res.err_bind]
    | panic => rw [Res.panic_bind, Res.panic_bind]
    | ok bytes =>
      rw [Res.ok_bind, Res.ok_bind]
      cases hs : fillBytes (pwSaltLen v) rng with
      | err e => rw [Res.err_bind, Res.err_bind]
      | panic => rw [Res.panic_bind, Res.panic_bind]
      | ok x =>
        obtain ⟨salt, r⟩ := x
        rw [Res.ok_bind, Res.ok_bind]
        dsimp only
        have h1 := hag salt st (by unfold pointAsked; simp only [hs])
        by_cases hok : StateOk st
        · rw [(hashOf_eq g salt st).1 hok, Res.ok_bind, Res.ok_bind]
          unfold randomWrap pwMac
          simp only [outAt_with, tag_congr T T' _ h1]
        · rw [(hashOf_eq g salt st).2 hok, Res.panic_bind, Res.panic_bind]
  | unwrap k text =>
    unfold served
    dsimp only
    cases hw : PwWrappedKey.parse v k text with
    | err e => rw [Res.err_bind, Res.err_bind]
    | panic => rw [Res.panic_bind, Res.panic_bind]
    | ok w =>
      rw [Res.ok_bind, Res.ok_bind]
      have h1 := hag w.salt w.state (by unfold pointAsked; simp only [hw])
      by_cases hok : StateOk w.state
      · rw [(hashOf_eq g _ _).1 hok, Res.ok_bind, Res.ok_bind, keyBytes_with, keyBytes_with, outAt_with,
          outAt_with]
        unfold pwMac
        rw [tag_congr T T' _ h1]
      · rw [(hashOf_eq g _ _).2 hok, Res.panic_bind, Res.panic_bind]

theorem tags_congr (hW : ∀ pw ∈ W, pw.length < 2 ^ 32) (T : PwMac v M) (x : HashPoint v) (f : W → PwHash v)
    (g : PwHash v) (h : KeyHash v) (c : CipherOf v L) (text : Bytes) (ak : BytesN (pwKeyHashLen v))
    (row : ShortBytes M → BytesN (pwTagLen v)) (a : PwAsk v) (ha : ak ∉ usesAk g h a) :
    idealPwAnswer (P.withPwMac v (Function.update T ak row)) x f g h c text a =
      idealPwAnswer (P.withPwMac v T) x f g h c text a := by
  cases a with
  | keyHash m => rfl
  | cipher key => rfl
  | mac key m =>
    show PwAnswer.mac _ = PwAnswer.mac _
    rw [tag_congr]
    exact Function.update_of_ne (fun h => ha (List.mem_singleton.2 h.symm)) _ _
  | seek a =>
    have hkdf : ∀ (T : PwMac v M) w sa se, pwKdf (P.withPwMac v T) v w sa se = pwKdf P v w sa se := by
      intro T w sa se
      cases v <;> rfl
    by_cases ht : a.tried = none
    swap
    · cases a with
      | wrap => exact absurd rfl ht
      | unwrap => exact absurd rfl ht
      | hash w sa se =>
        unfold idealPwAnswer
        dsimp only
        rw [hash_run hW, hash_run hW, hkdf, hkdf]
    · have hid : ∀ T : PwMac v M, idealPwAnswer (P.withPwMac v T) x f g h c text (.seek a) =
          open Classical in if Barred x text a then .refused
          else if ∃ k s, a = .unwrap k s ∧ ∃ w, PwWrappedKey.parse v k s = .ok w ∧
              hashPoint w.salt w.state = x then .bytes (.err .cryptoError)
          else .bytes (a.run ((P.withPwMac v T).withPw {[]} (fun _ => g) h c) []) := by
        intro T
        cases a with
        | hash => cases ht
        | wrap => rfl
        | unwrap => rfl
      rw [hid, hid, ideal_run _ _ _ _ ht, ideal_run _ _ _ _ ht, served_tags T]
      intro sa se hpt
      refine Function.update_of_ne (fun h' => ha ?_) _ _
      unfold usesAk
      dsimp only
      rw [hpt]
      exact List.mem_singleton.2 h'.symm

theorem tagInput_length (k : WKind) (salt : BytesN (pwSaltLen v)) (st : KdfState v) (nonce : BytesN (ivLen v))
    (edk : BytesN (keyLen v k.kind)) : (pwTagInput v k salt.1 st nonce.1 edk.1).length ≤ 133 := by
  have e1 := salt.2
  have e2 := (encodeState v st).2
  have e3 := nonce.2
  have e4 := edk.2
  unfold pwTagInput
  simp only [List.length_append, e1, e2, e3, e4]
  cases v <;> cases k <;> decide

/-- What is authenticated says everything about the wrapped key but the tag. -/
theorem tagInput_text {k k' : WKind} (w : PwWrappedKey v k) (w' : PwWrappedKey v k') (ht : w.tag = w'.tag)
    (h : pwTagInput v k w.salt.1 w.state w.nonce.1 w.edk.1 =
      pwTagInput v k' w'.salt.1 w'.state w'.nonce.1 w'.edk.1) : w.text = w'.text := by
  unfold pwTagInput at h
  simp only [List.append_assoc] at h
  have h := List.append_cancel_left (List.append_cancel_left h)
  have ek : k = k' := by
    cases k <;> cases k'
    · rfl
    · exact absurd (congrArg List.head? h) (by
        intro h
        have h : some (108 : UInt8) = some 115 := h
        cases h)
    · exact absurd (congrArg List.head? h) (by
        intro h
        have h : some (115 : UInt8) = some 108 := h
        cases h)
    · rfl
  subst ek
  have h := List.append_cancel_left h
  unfold PwWrappedKey.text
  simp only [List.append_assoc]
  rw [ht]
  have h' := congrArg (· ++ w'.tag.1) h
  simp only [List.append_assoc] at h'
  rw [h']

/-- The guess at a tag that a request makes. -/
def guess (hM : 133 ≤ M) : PwAsk v → List (ShortBytes M × BytesN (pwTagLen v))
  | .seek (.unwrap k s) =>
    match PwWrappedKey.parse v k s with
    | .ok w => [(⟨pwTagInput v k w.salt.1 w.state w.nonce.1 w.edk.1,
        Nat.le_trans (tagInput_length _ _ _ _ _) hM⟩, w.tag)]
    | _ => []
  | _ => []

theorem guess_length (hM : 133 ≤ M) (a : PwAsk v) : (guess hM a).length ≤ 1 := by
  unfold guess
  split
  · split
    · exact Nat.le_refl _
    · exact Nat.zero_le _
  · exact Nat.zero_le _

variable (hW : ∀ pw ∈ W, pw.length < 2 ^ 32) {k : WKind} (st : KdfState v) (salt : BytesN (pwSaltLen v))
  (nonce : BytesN (ivLen v)) (hst : StateOk st)

/-- The requests, when the tag and all other tags are given. -/
noncomputable def askedWith (P : Prims) (ask : Bytes → List (PwAnswer v L) → Option (PwAsk v)) (n q : Nat)
    (y : ((W → PwHash v) × PwHash v) × KeyHash v × CipherOf v L × BytesN (keyLen v k.kind))
    (z : BytesN (pwTagLen v)) (T : PwMac v M) : List (PwAsk v) :=
  let text := PwWrappedKey.text ⟨salt, st, nonce, y.2.2.2, z⟩
  (pwPlay (idealPwAnswer (P.withPwMac v T) (hashPoint salt st) y.1.1 y.1.2 y.2.1 y.2.2.1 text) (ask text) n q
    []).2

include hW in
/-- Other tags under the same key come out right only by chance. -/
theorem forging (hM : 133 ≤ M) (ask : Bytes → List (PwAnswer v L) → Option (PwAsk v)) (n q : Nat) :
    (count (fun x : (((W → PwHash v) × PwHash v) × KeyHash v × CipherOf v L × BytesN (keyLen v k.kind)) ×
          BytesN (pwKeyHashLen v) × PwMac v M =>
        PwForged (P.withPwMac v x.2.2) k st salt nonce x.1.2.2.2 x.2.1
          (idealPwAsked (P.withPwMac v x.2.2) k st salt nonce ask n q x.1.1.1 x.1.1.2 x.1.2.1 x.1.2.2.1
            x.1.2.2.2 x.2.1)) : ℚ) /
      Fintype.card ((((W → PwHash v) × PwHash v) × KeyHash v × CipherOf v L × BytesN (keyLen v k.kind)) ×
          BytesN (pwKeyHashLen v) × PwMac v M) ≤
    n / Fintype.card (BytesN (pwKeyHashLen v)) + n / Fintype.card (BytesN (pwTagLen v)) := by
  have nb : ∀ m, 0 < Fintype.card (BytesN m) := fun m =>
    Fintype.card_pos_iff.2 ⟨⟨List.replicate _ 0, List.length_replicate⟩⟩
  have hlen : ∀ e : BytesN (keyLen v k.kind), (pwTagInput v k salt.1 st nonce.1 e.1).length ≤ M :=
    fun e => Nat.le_trans (tagInput_length _ _ _ _ _) hM
  refine Plug.forged n (fun y => ⟨pwTagInput v k salt.1 st nonce.1 y.2.2.2.1, hlen _⟩)
    (fun y z T => (askedWith st salt nonce P ask n q y z T).flatMap (usesAk y.1.2 y.2.1))
    (fun y z T => (askedWith st salt nonce P ask n q y z T).flatMap (guess hM))
    (fun y z T => Nat.le_trans (flat_length _ (usesAk_length _ _) _) (play_length _ _ _ _ _))
    (fun y z T => Nat.le_trans (flat_length _ (guess_length hM) _) (play_length _ _ _ _ _)) _ ?_ (nb _) (nb _)
  rintro ⟨⟨f, g⟩, h, c, e⟩ ak T row hak ⟨k', s, w, hs, hp, hx, hd, htag⟩
  dsimp only at hak hs hd htag ⊢
  have ew : randomWrap (P.withPwMac v (Function.update T ak row)) k st salt nonce e ak =
      ⟨salt, st, nonce, e, row ⟨_, hlen e⟩⟩ := by
    unfold randomWrap pwMac
    rw [tag_with _ _ _ (hlen e), Function.update_self]
  have ea : idealPwAsked (P.withPwMac v (Function.update T ak row)) k st salt nonce ask n q f g h c e ak =
      askedWith st salt nonce P ask n q ((f, g), h, c, e) (row ⟨_, hlen e⟩) T := by
    unfold idealPwAsked askedWith
    dsimp only
    rw [ew, play_congr]
    intro a ha
    exact tags_congr hW T _ f g h c _ ak row a fun h' => hak (List.mem_flatMap.2 ⟨a, ha, h'⟩)
  rw [ea] at hs
  rw [ew, text_display] at hd
  unfold pwMac at htag
  rw [tag_with _ _ _ (Nat.le_trans (tagInput_length _ _ _ _ _) hM), Function.update_self] at htag
  refine ⟨(⟨pwTagInput v k' w.salt.1 w.state w.nonce.1 w.edk.1, Nat.le_trans (tagInput_length _ _ _ _ _) hM⟩, w.tag),
    List.mem_flatMap.2 ⟨_, hs, ?_⟩, ?_, htag.symm⟩
  · unfold guess
    dsimp only
    rw [hp]
    exact List.mem_singleton.2 rfl
  · intro he
    have he' := congrArg Subtype.val he
    apply hd
    rw [tagInput_text w ⟨salt, st, nonce, e, row ⟨_, hlen e⟩⟩ ?_ he']
    rw [htag]
    exact congrArg row he

theorem tagChance_eq (A : PwMac v M → W → (W → PwHash v) → KeyHash v → CipherOf v L → Prop) :
    pwTagChance A = (∑ T, pwHidingChance (A T)) / Fintype.card (PwMac v M) := by
  unfold pwTagChance pwHidingChance
  rw [count_eq, count_prod (fun x : PwMac v M × W × (W → PwHash v) × KeyHash v × CipherOf v L =>
    A x.1 x.2.1 x.2.2.1 x.2.2.2.1 x.2.2.2.2), ← Finset.sum_div, ← Nat.cast_sum, Fintype.card_prod, Nat.cast_mul,
    div_div, mul_comm (Fintype.card (PwMac v M) : ℚ)]
  simp only [count_eq]

theorem tags_final {c q w s n X : ℚ} (hc : 0 < c) (hs : s / c ≤ 2 * n / X) :
    (c * (q / w) + s + c * (2 * n / X)) / c ≤ q / w + 4 * n / X := by
  have e : (c * (q / w) + s + c * (2 * n / X)) / c = q / w + s / c + 2 * n / X := by
    rw [add_div, add_div, mul_div_cancel_left₀ _ hc.ne', mul_div_cancel_left₀ _ hc.ne']
  have e' : 4 * n / X = 2 * n / X + 2 * n / X := by rw [← add_div, ← add_mul]; norm_num
  rw [e, e']
  linarith

include hW hst in
/-- With a random MAC as well: whoever sees a key wrapped with an unknown password, may run the password
hash `q` times, and may have other keys wrapped and other texts unwrapped with the same password, learns
which of two keys it was at most as well as they guess the password in `q` guesses. -/
theorem which_key_random_tags (hM : 133 ≤ M) (hP : P.Laws) (hL : keyLen v k.kind ≤ L)
    (keys : Side → Key P v k.kind) (ask : Bytes → List (PwAnswer v L) → Option (PwAsk v)) (n q : Nat)
    (D : Res (Bytes × List (PwAnswer v L)) → Prop) :
    |pwTagChance (W := W) (M := M) (fun T pw f h c =>
          D (pwGame (P.withPwMac v T) pw.1 (keys .left).toBytes st salt nonce ask n q f h c)) -
        pwTagChance (W := W) (M := M) (fun T pw f h c =>
          D (pwGame (P.withPwMac v T) pw.1 (keys .right).toBytes st salt nonce ask n q f h c))| ≤
      q / W.card + 4 * n / 2 ^ 256 := by
  classical
  have : Nonempty (PwMac v M) := ⟨fun _ _ => ⟨List.replicate _ 0, List.length_replicate⟩⟩
  have hT : (0 : ℚ) < Fintype.card (PwMac v M) := by exact_mod_cast Fintype.card_pos
  rw [tagChance_eq, tagChance_eq, ← sub_div, ← Finset.sum_sub_distrib, abs_div,
    abs_of_nonneg (Nat.cast_nonneg (α := ℚ) _)]
  have hsum := Finset.sum_le_sum (s := Finset.univ) fun (T : PwMac v M) (_ : T ∈ Finset.univ) =>
    which_bytes (P := P.withPwMac v T) (W := W) hW st salt nonce hst hL (fun a => (keys a).toBytes)
      (fun a => by rw [keyBytes_with]; exact bytes_ok hP (keys a)) ask n q D
  rw [Finset.sum_add_distrib, Finset.sum_add_distrib, Finset.sum_const, Finset.sum_const, Finset.card_univ,
    nsmul_eq_mul, nsmul_eq_mul] at hsum
  have hf := forging (P := P) (W := W) (L := L) (k := k) hW st salt nonce hM ask n q
  have he : (∑ T : PwMac v M, idealPwChance (W := W) (fun f g h c edk ak =>
        PwForged (P.withPwMac v T) k st salt nonce edk ak
          (idealPwAsked (P.withPwMac v T) k st salt nonce ask n q f g h c edk ak))) /
        Fintype.card (PwMac v M) ≤ 2 * n / 2 ^ 256 := by
    let re : PwMac v M × (((W → PwHash v) × PwHash v) × KeyHash v × CipherOf v L ×
          BytesN (keyLen v k.kind) × BytesN (pwKeyHashLen v)) ≃
        (((W → PwHash v) × PwHash v) × KeyHash v × CipherOf v L × BytesN (keyLen v k.kind)) ×
          BytesN (pwKeyHashLen v) × PwMac v M :=
      { toFun := fun x => ((x.2.1, x.2.2.1, x.2.2.2.1, x.2.2.2.2.1), x.2.2.2.2.2, x.1)
        invFun := fun x => (x.2.2, x.1.1, x.1.2.1, x.1.2.2.1, x.1.2.2.2, x.2.1)
        left_inv := fun _ => rfl
        right_inv := fun _ => rfl }
    rw [← Plug.count_bij re.bijective
      (A := fun x => PwForged (P.withPwMac v x.1) k st salt nonce x.2.2.2.2.1 x.2.2.2.2.2
          (idealPwAsked (P.withPwMac v x.1) k st salt nonce ask n q x.2.1.1 x.2.1.2 x.2.2.1 x.2.2.2.1
            x.2.2.2.2.1 x.2.2.2.2.2)) (fun _ => Iff.rfl), ← Fintype.card_congr re, count_prod,
      Fintype.card_prod, Nat.cast_mul, Nat.cast_sum, mul_comm, ← div_div, Finset.sum_div] at hf
    simp only [idealPwChance, count_eq]
    refine le_trans hf ?_
    have hb : ∀ m, 32 ≤ m → (n : ℚ) / Fintype.card (BytesN m) ≤ n / 2 ^ 256 := by
      intro m hm
      have e256 : ((256 ^ 32 : Nat) : ℚ) = 2 ^ 256 := by norm_num
      have hc : ((256 ^ 32 : Nat) : ℚ) ≤ Fintype.card (BytesN m) := by
        rw [C75.card_bytes]
        exact Nat.cast_le.2 (Nat.pow_le_pow_right (by decide) hm)
      rw [← e256]
      exact div_le_div_of_nonneg_left (Nat.cast_nonneg _) (Nat.cast_pos.2 (Nat.pow_pos (by decide))) hc
    rw [two_mul, add_div]
    exact add_le_add (hb _ (by cases v <;> decide)) (hb _ (by cases v <;> decide))
  refine le_trans (div_le_div_of_nonneg_right (le_trans (Finset.abs_sum_le_sum_abs _ _) hsum) hT.le) ?_
  exact tags_final hT he

end tags

/-! ### Examples -/

/-- The default settings are such. -/
theorem default_ok (v : Ver) : StateOk (KdfState.default v) := by
  cases v with
  | V3 => trivial
  | V4 => show argon2ParamsOk _ _ _; decide

theorem two_short : ∀ pw ∈ ({[97], [98]} : Finset Bytes), pw.length < 2 ^ 32 := by
  intro pw h
  simp only [Finset.mem_insert, Finset.mem_singleton] at h
  rcases h with rfl | rfl <;> simp

/-- The hypotheses of `which_key` are met, -/
example (v : Ver) (keys : Side → Key Toy.prims v .Local) (salt : BytesN (pwSaltLen v)) (nonce : BytesN (ivLen v))
    (ask : Bytes → List (PwAnswer v 32) → Option (PwAsk v)) (n q : Nat)
    (D : Res (Bytes × List (PwAnswer v 32)) → Prop) :=
  which_key (k := .Local) two_short (KdfState.default v) salt nonce (default_ok v) Toy.laws
    (by cases v <;> exact Nat.le_refl 32) keys ask n q D

/-- … and those of `which_key_guess`: someone wraps a key of their own ten times, hashes one of the two
passwords, and learns at most half. -/
example (keys : Side → Key Toy.prims .V4 .Secret) (salt : BytesN 16) (nonce : BytesN 24) (own : BytesN 64)
    (rng : Rng) (D : Res (Bytes × List (PwAnswer .V4 64)) → Prop) :=
  which_key_guess (k := .Secret) two_short (KdfState.default .V4) salt nonce (default_ok .V4) Toy.laws
    (L := 64) (Nat.le_refl 64) keys
    (fun _ seen => if seen.length < 10 then some (.seek (.wrap .Secret own (KdfState.default .V4) rng))
      else some (.seek (.hash [97] salt (KdfState.default .V4))))
    (by
      intro text seen k' s h
      split at h <;> cases h) 11 1 D

/-- … and those of `which_key_random_tags`: someone has texts of their own unwrapped all the time. -/
example (v : Ver) (keys : Side → Key Toy.prims v .Local) (salt : BytesN (pwSaltLen v))
    (nonce : BytesN (ivLen v)) (own : List (PwAnswer v 32) → Bytes) (n : Nat)
    (D : Res (Bytes × List (PwAnswer v 32)) → Prop) :=
  which_key_random_tags (k := .Local) (M := 133) two_short (KdfState.default v) salt nonce (default_ok v)
    (Nat.le_refl _) Toy.laws (by cases v <;> exact Nat.le_refl 32) keys
    (fun _ seen => some (.seek (.unwrap .Local (own seen)))) n 0 D

end Pasta.C89
