import Verif.Spec.Chosen
import Verif.Lemmas.Secrecy
import Verif.Props.Secrecy
import Verif.Props.Auth
import Verif.Props.Pie
import Verif.Props.Pbkw
import Verif.Props.Pke

/-!
# C74: hidden contents stay hidden from someone who can have other things opened

The left-or-right game of C57 with an opening oracle and adaptive requests (Spec/Chosen.lean).
-/

namespace Pasta.C74

open Spec (header)

variable {P : Prims}

/-! ### Opening uses the ciphers under one key only, and only when the tag is right -/

theorem edFromKeypair_under (c : Ciphers) (b : BytesN 64) :
    Key.edFromKeypair (P.withCiphers c) b = Key.edFromKeypair P b := by
  unfold Key.edFromKeypair
  generalize BytesN.split 32 32 _ b = sp
  obtain ⟨s, p⟩ := sp
  dsimp only
  cases h : P.edParse p with
  | none =>
    have h' : (P.withCiphers c).edParse p = none := h
    rw [h']
  | some pk =>
    have h' : (P.withCiphers c).edParse p = some pk := h
    rw [h']
    rfl

theorem fromBytes_under (c : Ciphers) (v : Ver) (k : Kind) (b : BytesN (keyLen v k)) :
    (Key.fromBytes (P.withCiphers c) v k b >>= fun key => (pure key.toBytes.1 : Res Bytes)) =
      (Key.fromBytes P v k b >>= fun key => (pure key.toBytes.1 : Res Bytes)) := by
  have okOr : ∀ {α κ κ' : Type} (o : Option α) (f : α → κ) (f' : α → κ') (g : κ → Bytes)
      (g' : κ' → Bytes) (_ : ∀ x, g (f x) = g' (f' x)),
      ((Res.okOr .invalidKey o >>= fun x => pure (f x)) >>= fun k => (pure (g k) : Res Bytes)) =
      ((Res.okOr .invalidKey o >>= fun x => pure (f' x)) >>= fun k => (pure (g' k) : Res Bytes)) := by
    intro α κ κ' o f f' g g' h
    cases o with
    | none => rfl
    | some x => exact congrArg Res.ok (h x)
  cases v <;> cases k
  · rfl
  · exact okOr (P.p384Parse b.1) _ _ _ _ fun _ => rfl
  · exact okOr (Key.p384ScalarFromSlice P b.1) _ _ _ _ fun _ => rfl
  · rfl
  · exact okOr (P.edParse b) _ _ _ _ fun _ => rfl
  · have e := edFromKeypair_under (P := P) c b
    show ((Res.okOr .invalidKey (Key.edFromKeypair (P.withCiphers c) b) >>= fun s =>
      pure (Key.mk s : Key (P.withCiphers c) .V4 .Secret)) >>= _) = _
    rw [e]
    exact okOr (Key.edFromKeypair P b)
      (fun s : BytesN 32 => (Key.mk s : Key (P.withCiphers c) .V4 .Secret))
      (fun s : BytesN 32 => (Key.mk s : Key P .V4 .Secret))
      (fun k => k.toBytes.1) (fun k => k.toBytes.1) fun _ => rfl

theorem under_self {v : Ver} {k : Kind} (x : Key P v k) : x.under P.ciphers = x := by
  cases v <;> cases k <;> rfl

theorem token_local {v : Ver} {M F E : Type} [Payload E] [MessageDecoding E M]
    (t : SecuredToken v .Local F E) (key : Key P v .Local) (i : Bytes) (c : Ciphers)
    (h : t.decryptWithAssertions M P key i ≠ .err .cryptoError ∧
        t.decryptWithAssertions M P key i ≠ .panic →
      c.AgreeAt P.ciphers (v, (encPair P v key.key (t.payload.take 32)).1)) :
    t.decryptWithAssertions M (P.withCiphers c) (key.under c) i =
      t.decryptWithAssertions M P key i := by
  by_cases hs : t.payload.length < 32 + tagSize v
  · rw [decrypt_short _ _ _ hs, decrypt_short _ _ _ hs]
  · obtain ⟨n, x, g, hp, hn, hg⟩ := payload_split v t.payload (by omega)
    have e : t.payload.take 32 = n := by rw [hp, List.append_assoc, ← hn, List.take_left]
    rw [decrypt_split (M := M) t key i n x g hp hn hg] at h
    rw [decrypt_split (M := M) t (key.under c) i n x g hp hn hg,
      decrypt_split (M := M) t key i n x g hp hn hg]
    rw [localMac_withCiphers, localAuthKey_withCiphers, Key.under_local, codeStream_pair]
    split
    · rename_i ht
      rw [if_pos ht] at h
      have h := h ⟨by
        cases MessageDecoding.decode (M := M) t.encoding (applyKeystream (codeStream P v key.key n) x) <;>
          simp [Res.ofExcept], by
        cases MessageDecoding.decode (M := M) t.encoding (applyKeystream (codeStream P v key.key n) x) <;>
          simp [Res.ofExcept]⟩
      rw [e] at h
      rw [stream_agree h, ← codeStream_pair]
      rfl
    · rfl

theorem pie_local {v : Ver} {k : WKind} (w : PieWrappedKey v k) (wk : Key P v .Local) (c : Ciphers)
    (h : w.unwrapKey P wk ≠ .err .cryptoError ∧ w.unwrapKey P wk ≠ .panic →
      c.AgreeAt P.ciphers (v, (piePair P v wk.key w.nonce.1).1)) :
    (w.unwrapKey (P.withCiphers c) (wk.under c) >>= fun key => (pure key.toBytes.1 : Res Bytes)) =
      (w.unwrapKey P wk >>= fun key => (pure key.toBytes.1 : Res Bytes)) := by
  rw [PieWrappedKey.unwrapKey_eq] at h
  rw [PieWrappedKey.unwrapKey_eq, PieWrappedKey.unwrapKey_eq, pieTag_withCiphers, Key.under_local,
    pieCodeStream_pair]
  split
  · rename_i ht
    rw [if_pos ht] at h
    have h := h (by
      rcases Key.fromBytes_cases (P := P) (applyKeystreamN (pieCodeStream P v wk.key w.nonce.1)
        w.wrappedKey) with ⟨_, h⟩ | h <;> rw [h] <;> simp)
    rw [stream_agree h, ← pieCodeStream_pair, fromBytes_under]
    rfl
  · rfl

theorem pw_local {v : Ver} {k : WKind} (w : PwWrappedKey v k) (pw : Bytes) (c : Ciphers)
    (h : w.unwrapKey P pw ≠ .err .cryptoError ∧ w.unwrapKey P pw ≠ .panic →
      c.AgreeAt P.ciphers
        (v, Spec.pwEncKey P v (Spec.pwKey P (specParams w.state) pw w.salt.1))) :
    (w.unwrapKey (P.withCiphers c) pw >>= fun key => (pure key.toBytes.1 : Res Bytes)) =
      (w.unwrapKey P pw >>= fun key => (pure key.toBytes.1 : Res Bytes)) := by
  rw [PwWrappedKey.unwrapKey_eq] at h
  rw [PwWrappedKey.unwrapKey_eq, PwWrappedKey.unwrapKey_eq, pwTag_withCiphers]
  split
  · rename_i hk
    rw [if_pos hk] at h
    split
    · rename_i ht
      rw [if_pos ht] at h
      have h := h (by
        rcases Key.fromBytes_cases (P := P) (applyKeystreamN (pwCodeStream P w.state pw w.salt.1
          w.nonce) w.edk) with ⟨_, h⟩ | h <;> rw [h] <;> simp)
      unfold pwCodeStream
      rw [pwKey_withCiphers, pwEncKey_withCiphers, stream_agree h, fromBytes_under]
      rfl
    · rfl
  · rfl

/-- Cipher key and IV of a sealed key. -/
def sealPair (P : Prims) : (v : Ver) → (xk epk pk : Bytes) → BytesN 32 × BytesN (ivLen v)
  | .V3, xk, epk, pk => BytesN.split 32 16 rfl (P.sha384 (Spec.sealKdfInput .V3 1 xk epk pk))
  | .V4, xk, epk, pk => (P.blake2b 32 (Spec.sealKdfInput .V4 1 xk epk pk), P.blake2b 24 (epk ++ pk))

theorem pkeCodeStream_pair (c : Ciphers) (v : Ver) (xk epk pk : Bytes) :
    pkeCodeStream (P.withCiphers c) v xk epk pk =
      stream (P.withCiphers c) v (sealPair P v xk epk pk).1 (sealPair P v xk epk pk).2 := by
  cases v <;> rfl

theorem seal_local {v : Ver} (w : SealedKey v) (sk : Key P v .Secret) (c : Ciphers)
    (h : w.unsealKey P sk ≠ .err .cryptoError ∧ w.unsealKey P sk ≠ .panic →
      ∀ xk, Spec.unsealSecret P sk w.ephemeralPublicKey = some xk →
      c.AgreeAt P.ciphers
        (v, (sealPair P v xk w.ephemeralPublicKey.1 (Spec.sealPub P sk.publicKey)).1)) :
    (w.unsealKey (P.withCiphers c) (sk.under c) >>= fun key => (pure key.toBytes.1 : Res Bytes)) =
      (w.unsealKey P sk >>= fun key => (pure key.toBytes.1 : Res Bytes)) := by
  have e1 : Spec.unsealSecret (P.withCiphers c) (sk.under c) w.ephemeralPublicKey =
      Spec.unsealSecret P sk w.ephemeralPublicKey := by cases v <;> rfl
  have e2 : Spec.sealPub (P.withCiphers c) (sk.under c).publicKey = Spec.sealPub P sk.publicKey := by
    cases v <;> rfl
  have e3 : Spec.sealTag (P.withCiphers c) v = Spec.sealTag P v := by cases v <;> rfl
  rw [SealedKey.unsealKey_eq] at h
  rw [SealedKey.unsealKey_eq, SealedKey.unsealKey_eq, e1, e2, e3]
  cases hx : Spec.unsealSecret P sk w.ephemeralPublicKey with
  | none => rfl
  | some xk =>
    rw [hx] at h
    dsimp only at h ⊢
    split
    · rename_i ht
      rw [if_pos ht] at h
      have h := h ⟨by simp, by simp⟩ xk rfl
      rw [pkeCodeStream_pair, stream_agree h, ← pkeCodeStream_pair]
      cases v <;> rfl
    · rfl

theorem run_token {v : Ver} {M F E : Type} (iP : Payload E) (iM : MessageDecoding E M) (iF : Footer F)
    (text : Bytes) (look : ValidatedToken v .Local M F E → Bytes) (key : Key P v .Local) (i : Bytes)
    (c : Ciphers) :
    (Open.token v M F E iP iM iF text look key i).run c =
      (SecuredToken.parse v .Local F E text >>= fun t =>
        t.decryptWithAssertions M (P.withCiphers c) (key.under c) i >>= fun r => pure (look r)) := rfl

theorem run_pie {v : Ver} {k : WKind} (text : Bytes) (wk : Key P v .Local) (c : Ciphers) :
    (Open.pie v k text wk).run c =
      (PieWrappedKey.parse v k text >>= fun w => w.unwrapKey (P.withCiphers c) (wk.under c) >>=
        fun key => pure key.toBytes.1) := rfl

theorem run_pw {v : Ver} {k : WKind} (text : Bytes) (pw : Bytes) (c : Ciphers) :
    (Open.pw v k text pw : Open P).run c =
      (PwWrappedKey.parse v k text >>= fun w => w.unwrapKey (P.withCiphers c) pw >>=
        fun key => pure key.toBytes.1) := rfl

theorem run_sealing {v : Ver} (text : Bytes) (sk : Key P v .Secret) (c : Ciphers) :
    (Open.sealing v text sk).run c =
      (SealedKey.parse v text >>= fun w => w.unsealKey (P.withCiphers c) (sk.under c) >>=
        fun key => pure key.toBytes.1) := rfl

theorem self_token {v : Ver} {M F E : Type} (iP : Payload E) (iM : MessageDecoding E M)
    (iF : Footer F) (text : Bytes) (look : ValidatedToken v .Local M F E → Bytes)
    (key : Key P v .Local) (i : Bytes) :
    (Open.token v M F E iP iM iF text look key i).run P.ciphers =
      (SecuredToken.parse v .Local F E text >>= fun t =>
        t.decryptWithAssertions M P key i >>= fun r => pure (look r)) :=
  (run_token iP iM iF text look key i P.ciphers).trans
    (congrArg (fun k => SecuredToken.parse v .Local F E text >>= fun t =>
        t.decryptWithAssertions M P k i >>= fun r => pure (look r)) (under_self key))

theorem self_pie {v : Ver} {k : WKind} (text : Bytes) (wk : Key P v .Local) :
    (Open.pie v k text wk).run P.ciphers =
      (PieWrappedKey.parse v k text >>= fun w => w.unwrapKey P wk >>=
        fun key => pure key.toBytes.1) :=
  (run_pie text wk P.ciphers).trans (congrArg (fun x => PieWrappedKey.parse v k text >>= fun w =>
    w.unwrapKey P x >>= fun key => pure key.toBytes.1) (under_self wk))

theorem self_pw {v : Ver} {k : WKind} (text : Bytes) (pw : Bytes) :
    (Open.pw v k text pw : Open P).run P.ciphers =
      (PwWrappedKey.parse v k text >>= fun w => w.unwrapKey P pw >>=
        fun key => pure key.toBytes.1) := rfl

theorem self_sealing {v : Ver} (text : Bytes) (sk : Key P v .Secret) :
    (Open.sealing v text sk).run P.ciphers =
      (SealedKey.parse v text >>= fun w => w.unsealKey P sk >>= fun key => pure key.toBytes.1) :=
  (run_sealing text sk P.ciphers).trans (congrArg (fun x => SealedKey.parse v text >>= fun w =>
    w.unsealKey P x >>= fun key => pure key.toBytes.1) (under_self sk))

theorem key_token {v : Ver} {M F E : Type} (iP : Payload E) (iM : MessageDecoding E M) (iF : Footer F)
    (text : Bytes) (look : ValidatedToken v .Local M F E → Bytes) (key : Key P v .Local) (i : Bytes)
    (t : SecuredToken v .Local F E) (ht : SecuredToken.parse v .Local F E text = .ok t) :
    (Open.token v M F E iP iM iF text look key i).CipherKey
      (encPair P v key.key (t.payload.take 32)).1 := by
  cases v
  · exact ⟨t, ht, rfl⟩
  · exact ⟨t, ht, rfl⟩

theorem key_pie {v : Ver} {k : WKind} (text : Bytes) (wk : Key P v .Local) (w : PieWrappedKey v k)
    (hw : PieWrappedKey.parse v k text = .ok w) :
    (Open.pie v k text wk).CipherKey (piePair P v wk.key w.nonce.1).1 := by
  cases v
  · exact ⟨w, hw, rfl⟩
  · exact ⟨w, hw, rfl⟩

theorem key_pw {v : Ver} {k : WKind} (text : Bytes) (pw : Bytes) (w : PwWrappedKey v k)
    (hw : PwWrappedKey.parse v k text = .ok w) :
    (Open.pw v k text pw : Open P).CipherKey
      (Spec.pwEncKey P v (Spec.pwKey P (specParams w.state) pw w.salt.1)) := by
  cases v
  · exact ⟨w, hw, rfl⟩
  · exact ⟨w, hw, rfl⟩

theorem key_sealing {v : Ver} (text : Bytes) (sk : Key P v .Secret) (w : SealedKey v)
    (hw : SealedKey.parse v text = .ok w) (xk : Bytes)
    (hx : Spec.unsealSecret P sk w.ephemeralPublicKey = some xk) :
    (Open.sealing v text sk).CipherKey
      (sealPair P v xk w.ephemeralPublicKey.1 (Spec.sealPub P sk.publicKey)).1 := by
  cases v
  · exact ⟨w, xk, hw, hx, rfl⟩
  · exact ⟨w, xk, hw, hx, rfl⟩

/-- Opening something gives the same with other ciphers, if they agree under the cipher key it uses,
or if it is not authentic. -/
theorem run_local (o : Open P) (c : Ciphers)
    (h : o.Authentic → ∀ k, o.CipherKey k → c.AgreeAt P.ciphers (o.ver, k)) :
    o.run c = o.run P.ciphers := by
  cases o with
  | token v M F E iP iM iF text look key i =>
    rw [run_token, self_token]
    cases ht : SecuredToken.parse v .Local F E text with
    | err e => rw [Res.err_bind, Res.err_bind]
    | panic => rw [Res.panic_bind, Res.panic_bind]
    | ok t =>
      rw [Res.ok_bind, Res.ok_bind,
        token_local t key i c fun ha => h ⟨t, ht, ha⟩ _ (key_token iP iM iF text look key i t ht)]
  | pie v k text wk =>
    rw [run_pie, self_pie]
    cases ht : PieWrappedKey.parse v k text with
    | err e => rw [Res.err_bind, Res.err_bind]
    | panic => rw [Res.panic_bind, Res.panic_bind]
    | ok w =>
      rw [Res.ok_bind, Res.ok_bind]
      exact pie_local w wk c fun ha => h ⟨w, ht, ha⟩ _ (key_pie text wk w ht)
  | pw v k text pw =>
    rw [run_pw, self_pw]
    cases ht : PwWrappedKey.parse v k text with
    | err e => rw [Res.err_bind, Res.err_bind]
    | panic => rw [Res.panic_bind, Res.panic_bind]
    | ok w =>
      rw [Res.ok_bind, Res.ok_bind]
      exact pw_local w pw c fun ha => h ⟨w, ht, ha⟩ _ (key_pw text pw w ht)
  | sealing v text sk =>
    rw [run_sealing, self_sealing]
    cases ht : SealedKey.parse v text with
    | err e => rw [Res.err_bind, Res.err_bind]
    | panic => rw [Res.panic_bind, Res.panic_bind]
    | ok w =>
      rw [Res.ok_bind, Res.ok_bind]
      exact seal_local w sk c fun ha xk hx => h ⟨w, ht, ha⟩ _ (key_sealing text sk w ht xk hx)

/-! ### The game -/

/-- Which random bytes are left does not depend on candidates or ciphers. -/
theorem run_rng (a : Act P) (rng : Rng) (c d : Ciphers) (s s' : Side) (t t' : Bytes) (r r' : Rng)
    (h : a.run c s rng = .ok (t, r)) (h' : a.run d s' rng = .ok (t', r')) : r = r' := by
  cases a with
  | token v M F E iP iM iF encoding message footer key i =>
    unfold Act.run at h h'
    simp only [Res.bind_eq_ok, Res.pure_def, Res.ok.injEq, Prod.mk.injEq, Prod.exists,
      encrypt_ok_iff] at h h'
    obtain ⟨_, _, ⟨n, _, _, hn, rfl, -⟩, -, rfl⟩ := h
    obtain ⟨_, _, ⟨n', _, _, hn', e, -⟩, -, rfl⟩ := h'
    exact (List.append_inj e (by rw [hn, hn'])).2
  | pie v k hidden wk =>
    unfold Act.run at h h'
    simp only [Res.bind_eq_ok, Res.pure_def, Res.ok.injEq, Prod.mk.injEq, Prod.exists,
      Key.wrapPie_ok_iff] at h h'
    obtain ⟨w, _, ⟨rfl, -⟩, _, -, -, rfl⟩ := h
    obtain ⟨w', _, ⟨e, -⟩, _, -, -, rfl⟩ := h'
    exact (List.append_inj e (by rw [w.nonce.2, w'.nonce.2])).2
  | pw v k hidden pw st =>
    unfold Act.run at h h'
    simp only [Res.bind_eq_ok, Res.pure_def, Res.ok.injEq, Prod.mk.injEq, Prod.exists,
      Key.pwWrap_ok_iff] at h h'
    obtain ⟨w, _, ⟨-, rfl, -⟩, _, -, -, rfl⟩ := h
    obtain ⟨w', _, ⟨-, e, -⟩, _, -, -, rfl⟩ := h'
    exact (List.append_inj e (by simp [w.salt.2, w.nonce.2, w'.salt.2, w'.nonce.2])).2
  | sealing v hidden pk =>
    unfold Act.run at h h'
    simp only [Res.bind_eq_ok, Res.pure_def, Res.ok.injEq, Prod.mk.injEq, Prod.exists,
      Key.sealKey_ok_iff] at h h'
    obtain ⟨w, _, ⟨_, h, -⟩, _, -, -, rfl⟩ := h
    obtain ⟨w', _, ⟨_, h', -⟩, _, -, -, rfl⟩ := h'
    cases v with
    | V3 =>
      obtain ⟨_, h, -⟩ := h
      obtain ⟨_, h', -⟩ := h'
      rw [h] at h'
      cases h'
      rfl
    | V4 =>
      obtain ⟨b, h, -⟩ := h
      obtain ⟨b', h', -⟩ := h'
      rw [h] at h'
      exact (List.append_inj h' (by rw [b.2, b'.2])).2

/-- A game is determined by the texts and by what opening gives. -/
theorem play_replay (c : Ciphers) (s : Side) (ask : List Answer → Option (Query P)) :
    ∀ (n : Nat) (rng : Rng) (log₀ log : Log P), play c s ask n rng log₀ = some log →
      ∃ (new : Log P) (texts : List Bytes) (rng' : Rng), log = log₀ ++ new ∧
        Act.runAll c s new.hidden rng = .ok (texts, rng') ∧
        (∀ o r, (Query.reveal o, Answer.opened r) ∈ new → o.run c = r) ∧
        ∀ (d : Ciphers) (s' : Side), Act.runAll d s' new.hidden rng = .ok (texts, rng') →
          (∀ o r, (Query.reveal o, Answer.opened r) ∈ new → o.run d = r) →
          play d s' ask n rng log₀ = some log := by
  intro n
  induction n with
  | zero =>
    intro rng log₀ log h
    simp only [play, Option.some.injEq] at h
    exact ⟨[], [], rng, by simp [h], rfl, by simp, fun _ _ _ _ => by simp [play, h]⟩
  | succ n ih =>
    intro rng log₀ log h
    cases hask : ask (log₀.map Prod.snd) with
    | none =>
      simp only [play, hask, Option.some.injEq] at h
      subst h
      exact ⟨[], [], rng, by simp, rfl, by simp, fun _ _ _ _ => by simp only [play, hask]⟩
    | some q =>
      cases q with
      | hide a =>
        simp only [play, hask] at h
        cases ha : a.run c s rng with
        | err e => rw [ha] at h; cases h
        | panic => rw [ha] at h; cases h
        | ok x =>
          obtain ⟨t, r1⟩ := x
          rw [ha] at h
          dsimp only at h
          obtain ⟨new, ts, r2, e, hr, ho, hd⟩ := ih _ _ _ h
          refine ⟨(.hide a, .text t) :: new, t :: ts, r2, by simp [e], ?_, ?_, ?_⟩
          · show Act.runAll c s (a :: Log.hidden new) rng = _
            simp only [Act.runAll, ha, hr, Res.ok_bind, Res.pure_def]
          · intro o r hm
            simp only [List.mem_cons, Prod.mk.injEq, reduceCtorEq, false_and, false_or] at hm
            exact ho o r hm
          · intro d s' hrd hod
            have hrd : Act.runAll d s' (a :: Log.hidden new) rng = _ := hrd
            simp only [Act.runAll, Res.bind_eq_ok, Res.pure_def, Prod.exists, Res.ok.injEq,
              Prod.mk.injEq, List.cons.injEq] at hrd
            obtain ⟨t', r1', h1, ts', r2', h2, ⟨rfl, rfl⟩, rfl⟩ := hrd
            simp only [play, hask, h1]
            cases run_rng a rng c d s s' _ _ _ _ ha h1
            exact hd d s' h2 fun o r hm => hod o r (List.mem_cons_of_mem _ hm)
      | reveal o =>
        simp only [play, hask] at h
        obtain ⟨new, ts, r2, e, hr, ho, hd⟩ := ih _ _ _ h
        refine ⟨(.reveal o, log₀.answer c o) :: new, ts, r2, by simp [e], hr, ?_, ?_⟩
        · intro o' r hm
          simp only [List.mem_cons, Prod.mk.injEq, Query.reveal.injEq] at hm
          rcases hm with ⟨rfl, hm⟩ | hm
          · unfold Log.answer at hm
            split at hm
            · cases hm
            · injection hm with hm
              exact hm.symm
          · exact ho o' r hm
        · intro d s' hrd hod
          have e' : log₀.answer d o = log₀.answer c o := by
            unfold Log.answer
            split
            · rfl
            · rename_i hn
              refine congrArg _ (hod o (o.run c) ?_)
              rw [List.mem_cons]
              left
              unfold Log.answer
              rw [if_neg hn]
          simp only [play, hask, e']
          exact hd d s' hrd fun o' r hm => hod o' r (List.mem_cons_of_mem _ hm)

/-- Adaptively, with candidates hidden in tokens, wraps and seals under any keys, and with anything
else opened: every answer of the game played with the left candidates is also the answer with the
right candidates, with ciphers that differ from the actual ones only under the cipher keys of the
hidden texts. Provided nothing authentic was opened under one of these cipher keys. -/
theorem chosen_ciphertext (ask : List Answer → Option (Query P)) (n : Nat) (rng : Rng) (log : Log P)
    (h : play P.ciphers .left ask n rng [] = some log)
    (hcmp : ∀ a ∈ log.hidden, a.Comparable) (hkeys : (Act.cipherKeys log.hidden rng).Nodup)
    (hno : ∀ o r, (Query.reveal o, Answer.opened r) ∈ log → o.Authentic →
      ∀ k, o.CipherKey k → (o.ver, k) ∉ Act.cipherKeys log.hidden rng) :
    ∃ c : Ciphers, (∀ y, y ∉ Act.cipherKeys log.hidden rng → c.AgreeAt P.ciphers y) ∧
      play c .right ask n rng [] = some log := by
  obtain ⟨new, ts, r', e, hr, ho, hd⟩ := play_replay _ _ ask n rng [] log h
  rw [List.nil_append] at e
  subst e
  obtain ⟨c, hc, hr'⟩ := C57.left_or_right _ rng r' ts hr hcmp hkeys
  refine ⟨c, hc, hd c .right hr' fun o r hm => ?_⟩
  rw [run_local o c fun ha k hk => hc _ (hno o r hm ha k hk)]
  exact ho o r hm

/-! ### What it takes to be opened -/

/-- Two authentic things of one kind with the same MAC key and message have the same text. -/
theorem same_text (o o' : Open P) (x : Bytes × Bytes) (hop : o.opener = o'.opener)
    (ha : o.Authentic) (ha' : o'.Authentic) (hf : o.Fits) (hf' : o'.Fits) (hx : o.Tagged x)
    (hx' : o'.Tagged x) : o.printed = o'.printed := by
  cases o with
  | token v M F E iP iM iF text look key i =>
    cases o' <;> (try (cases hop; done))
    rename_i v' M' F' E' iP' iM' iF' text' look' key' i'
    have hv : v = v' := by injection hop
    subst hv
    obtain ⟨t, ht, ha⟩ := ha
    obtain ⟨t', ht', ha'⟩ := ha'
    obtain ⟨f1, f2, f3⟩ := hf
    obtain ⟨f1', f2', f3'⟩ := hf'
    obtain ⟨f3, f4⟩ := f3 t ht
    obtain ⟨f3', f4'⟩ := f3' t' ht'
    obtain ⟨_, n, c, g, h1, h2, h3, h4, rfl⟩ := hx
    obtain ⟨_, n', c', g', h1', h2', h3', h4', e⟩ := hx'
    cases ht.symm.trans h1
    cases ht'.symm.trans h1'
    obtain ⟨n1, c1, hn1, hp⟩ := (C03.decrypt_accepts_iff P t key i ⟨f1, f3, f4, f2⟩).1 ha
    obtain ⟨n1', c1', hn1', hp'⟩ := (C03.decrypt_accepts_iff P t' key' i' ⟨f1', f3', f4', f2'⟩).1 ha'
    rw [h2] at hp
    rw [h2'] at hp'
    obtain ⟨e1, e2⟩ := List.append_inj' hp (by rw [h4, localTag_length])
    obtain ⟨e1', e2'⟩ := List.append_inj' hp' (by rw [h4', localTag_length])
    obtain ⟨rfl, rfl⟩ := List.append_inj e1 (by rw [h3, hn1])
    obtain ⟨rfl, rfl⟩ := List.append_inj e1' (by rw [h3', hn1'])
    injection e with e3 e4
    have fp := fits_pieces f3 h2
    have fp' := fits_pieces f3' h2'
    obtain ⟨hh, rfl, rfl, hfo, rfl⟩ := localPreAuth_inj ⟨f1, fp.1, fp.2, f4, f2⟩
      ⟨f1', fp'.1, fp'.2, f4', f2'⟩ e4
    have hg : g = g' := by
      rw [e2, e2']
      unfold Spec.localTag
      rw [e3, e4]
    show (SecuredToken.parse v .Local F E text >>= fun t => (pure t.display : Res Bytes)) =
      (SecuredToken.parse v .Local F' E' text' >>= fun t => (pure t.display : Res Bytes))
    rw [ht, ht', Res.ok_bind, Res.ok_bind, SecuredToken.display_eq, SecuredToken.display_eq, h2, h2',
      hg, hfo, hh]
  | pie v k text wk =>
    cases o' <;> (try (cases hop; done))
    rename_i v' k' text' wk'
    have hv : v = v' := by injection hop
    subst hv
    obtain ⟨w, hw, ha, -⟩ := ha
    obtain ⟨w', hw', ha', -⟩ := ha'
    obtain ⟨_, h1, rfl⟩ := hx
    obtain ⟨_, h1', e⟩ := hx'
    cases hw.symm.trans h1
    cases hw'.symm.trans h1'
    have e1 := (C35.authentic_iff w wk).1 ha
    have e1' := (C35.authentic_iff w' wk').1 ha'
    injection e with e2 e3
    obtain ⟨-, rfl, h4, h5⟩ := C35.pieTagged_inj e3
    have h6 : w.tag = w'.tag := Subtype.ext (by
      rw [e1, e1', e2]
      exact congrArg _ e3)
    have hww : w = w' := by
      cases w; cases w'
      cases h4; cases h6; cases Subtype.ext h5
      rfl
    show (PieWrappedKey.parse v k text >>= fun w => w.display) =
      (PieWrappedKey.parse v k text' >>= fun w => w.display)
    rw [hw, hw', hww]
  | pw v k text pass =>
    cases o' <;> (try (cases hop; done))
    rename_i v' k' text' pass'
    have hv : v = v' := by injection hop
    subst hv
    obtain ⟨w, hw, ha⟩ := ha
    obtain ⟨w', hw', ha'⟩ := ha'
    have hx : x = (Spec.pwAuthKey P v (Spec.pwKey P (specParams w.settings) pass w.salt.1),
        Spec.pwTagged k.kind w.salt.1 (specParams w.settings) w.nonce.1 w.edk.1) := by
      cases v
      · obtain ⟨_, h1, hx⟩ := hx; cases hw.symm.trans h1; exact hx
      · obtain ⟨_, h1, hx⟩ := hx; cases hw.symm.trans h1; exact hx
    have hx' : x = (Spec.pwAuthKey P v (Spec.pwKey P (specParams w'.settings) pass' w'.salt.1),
        Spec.pwTagged k'.kind w'.salt.1 (specParams w'.settings) w'.nonce.1 w'.edk.1) := by
      cases v
      · obtain ⟨_, h1, hx⟩ := hx'; cases hw'.symm.trans h1; exact hx
      · obtain ⟨_, h1, hx⟩ := hx'; cases hw'.symm.trans h1; exact hx
    obtain ⟨-, e1⟩ := (C42.authentic_iff w pass).1 ha
    obtain ⟨-, e1'⟩ := (C42.authentic_iff w' pass').1 ha'
    have e := hx.symm.trans hx'
    injection e with e2 e3
    obtain ⟨rfl, h3, h4, h5, h6⟩ := C42.pwTagged_inj e3
    have h7 : w.tag = w'.tag := Subtype.ext (by
      rw [e1, e1', e2]
      exact congrArg _ e3)
    have hww : w = w' := by
      cases w; cases w'
      cases h3; cases h4; cases h5; cases h7; cases Subtype.ext h6
      rfl
    show (PwWrappedKey.parse v k text >>= fun w => w.display) =
      (PwWrappedKey.parse v k text' >>= fun w => w.display)
    rw [hw, hw', hww]
  | sealing v text sk =>
    cases o' <;> (try (cases hop; done))
    rename_i v' text' sk'
    have hv : v = v' := by injection hop
    subst hv
    obtain ⟨w, hw, ha, ha2⟩ := ha
    obtain ⟨w', hw', ha', ha2'⟩ := ha'
    obtain ⟨_, xk, h1, hx, rfl⟩ := hx
    obtain ⟨_, xk', h1', hx', e⟩ := hx'
    cases hw.symm.trans h1
    cases hw'.symm.trans h1'
    have tag : ∀ (w : SealedKey v) (sk : Key P v .Secret) xk,
        w.unsealKey P sk ≠ .err .cryptoError → w.unsealKey P sk ≠ .panic →
        Spec.unsealSecret P sk w.ephemeralPublicKey = some xk →
        w.tag.1 = Spec.sealTag P v xk w.ephemeralPublicKey.1 (Spec.sealPub P sk.publicKey)
          w.encryptedDataKey.1 := by
      intro w sk xk h h' hx
      rw [SealedKey.unsealKey_eq, hx] at h
      dsimp only at h
      split at h
      · assumption
      · exact absurd rfl h
    have e1 := tag w sk xk ha ha2 hx
    have e1' := tag w' sk' xk' ha' ha2' hx'
    injection e with e2 e3
    obtain ⟨h4, h5⟩ := C45.sealTagged_inj e3
    have h6 : w.tag = w'.tag := Subtype.ext (by
      rw [e1, e1']
      unfold Spec.sealTag
      rw [e2, e3])
    have hww : w = w' := by
      cases w; cases w'
      cases h4; cases h6; cases Subtype.ext h5
      rfl
    show (SealedKey.parse v text >>= fun w => w.display) =
      (SealedKey.parse v text' >>= fun w => w.display)
    rw [hw, hw', hww]

/-- Something authentic that is not refused is a forgery: with none of the texts hidden so far, as
opened by those who may, does it share the MAC key and message. -/
theorem opened_is_forgery (log : Log P) (o : Open P) (hno : ¬ log.Refused o) (ha : o.Authentic)
    (hf : o.Fits) (a : Act P) (t : Bytes) (hm : (Query.hide a, Answer.text t) ∈ log)
    (o' : Open P) (ht : o'.printed = .ok t) (ha' : o'.Authentic) (hf' : o'.Fits)
    (hop : o'.opener = a.opener) (ho : o.opener = a.opener) (x : Bytes × Bytes) (hx : o'.Tagged x) :
    ¬ o.Tagged x := by
  intro h
  refine hno ⟨a, t, hm, ?_, ho⟩
  rw [same_text o o' x (ho.trans hop.symm) ha ha' hf hf' h hx, ht]

/-! ### The hypotheses are met -/

/-- A vote is hidden in a token. -/
def vote (v : Ver) (key : Key P v .Local) : Act P :=
  .token v Bytes Bytes Sample.Raw inferInstance inferInstance inferInstance (fun _ => ⟨⟩)
    (fun s => match s with | .left => asc "yes" | .right => asc "no!") (asc "kid") key
    (asc "election")

/-- A text to be opened as a vote. -/
def ballot (v : Ver) (key : Key P v .Local) (text : Bytes) : Open P :=
  .token v Bytes Bytes Sample.Raw inferInstance inferInstance inferInstance text
    (fun r => r.message) key (asc "election")

/-- Ask for a vote to be hidden, then for the text received to be opened, then for another one. -/
def asker (v : Ver) (key : Key P v .Local) : List Answer → Option (Query P)
  | [] => some (.hide (vote v key))
  | [.text t] => some (.reveal (ballot v key t))
  | [_, _] => some (.reveal (ballot v key (header v .Local (asc "r") ++ asc "AAAA")))
  | _ => none

theorem vote_run (v : Ver) (key : Key P v .Local) :
    ∃ tok : SecuredToken v .Local Bytes Sample.Raw,
      (vote v key).run P.ciphers .left Toy.tape = .ok (tok.display, Toy.tape.drop 32) ∧
      tok.encodedFooter = asc "kid" ∧ tok.footer = asc "kid" ∧ tok.encoding = ⟨⟩ ∧
      (∃ r, tok.decryptWithAssertions Bytes P key (asc "election") = .ok r) ∧
      ∃ n c g, tok.payload = n ++ c ++ g ∧ n.length = 32 ∧ c.length = 3 ∧
        g.length = Spec.tagLen v := by
  obtain ⟨tok, h⟩ := ((C01.encrypt_outcome P
    (⟨{ encoding := ⟨⟩, message := asc "yes", footer := asc "kid" }⟩ :
      TokenBuilder v .Local Bytes Bytes Sample.Raw)
    key (asc "election") Toy.tape).2 Toy.tape_ok).2.2 (asc "yes") (asc "kid") rfl rfl
  refine ⟨tok, ?_, ?_, ?_, rfl, ⟨_, C01.local_roundtrip_direct P _ _ _ _ _ tok h
    (by intro m hm; cases hm; rfl)⟩, ?_⟩
  · have h' := h
    rw [← under_self key] at h'
    unfold vote Act.run
    simp only [Res.bind_eq_ok, Prod.exists]
    exact ⟨_, _, h', rfl⟩
  · obtain ⟨n, m, f, -, -, -, hf, rfl⟩ := (encrypt_ok_iff _ _ _ _ _ _).1 h
    cases hf
    rfl
  · obtain ⟨n, m, f, -, -, -, hf, rfl⟩ := (encrypt_ok_iff _ _ _ _ _ _).1 h
    rfl
  · obtain ⟨m, n, c, g, hm, hp, -, hn, hc, hg⟩ := C21.local_layout _ _ _ _ _ _ _ h
    cases hm
    exact ⟨n, c, g, hp, hn, hc, hg⟩

theorem ballot_printed (v : Ver) (key : Key P v .Local) (tok : SecuredToken v .Local Bytes Sample.Raw)
    (hf : tok.encodedFooter = tok.footer) : (ballot v key tok.display).printed = .ok tok.display := by
  show (SecuredToken.parse v .Local Bytes Sample.Raw tok.display >>= fun t =>
    (pure t.display : Res Bytes)) = _
  rw [SecuredToken.parse_display tok (by rw [hf]; rfl), Res.ok_bind]
  rfl

theorem garbage (v : Ver) (key : Key P v .Local) :
    ¬ (ballot v key (header v .Local (asc "r") ++ asc "AAAA")).Authentic := by
  rintro ⟨t, ht, -, h⟩
  refine h (decrypt_short _ _ _ ?_)
  have hp : (match SecuredToken.parse v .Local Bytes Sample.Raw
      (header v .Local (asc "r") ++ asc "AAAA") with
    | .ok t => decide (t.payload.length < 32) | _ => true) = true := by
    cases v <;> decide +kernel
  rw [ht] at hp
  have := of_decide_eq_true hp
  omega

/-- The game of `asker`, with any algorithms and any key. -/
example (v : Ver) (key : Key P v .Local) :
    ∃ log, play P.ciphers .left (asker v key) 5 Toy.tape [] = some log ∧
    log.length = 3 ∧ (∀ a ∈ log.hidden, a.Comparable) ∧
    (Act.cipherKeys log.hidden Toy.tape).Nodup ∧
    (∀ o r, (Query.reveal o, Answer.opened r) ∈ log → o.Authentic →
      ∀ k, o.CipherKey k → (o.ver, k) ∉ Act.cipherKeys log.hidden Toy.tape) := by
  obtain ⟨tok, h, hf, hf', -⟩ := vote_run v key
  have hf := hf.trans hf'.symm
  have href : Log.answer P.ciphers [(Query.hide (vote v key), Answer.text tok.display)]
      (ballot v key tok.display) = .refused := by
    unfold Log.answer
    exact if_pos ⟨_, _, List.mem_cons_self, ballot_printed v key tok hf, rfl⟩
  obtain ⟨log3, e3⟩ : ∃ x, x = Log.answer P.ciphers
      [(Query.hide (vote v key), Answer.text tok.display),
        (Query.reveal (ballot v key tok.display), Answer.refused)]
      (ballot v key (header v .Local (asc "r") ++ asc "AAAA")) := ⟨_, rfl⟩
  refine ⟨[(.hide (vote v key), .text tok.display), (.reveal (ballot v key tok.display), .refused),
    (.reveal (ballot v key (header v .Local (asc "r") ++ asc "AAAA")), log3)], ?_, rfl, ?_, ?_, ?_⟩
  · simp only [play, asker, List.map_nil, h, List.nil_append, List.map_cons, href, List.cons_append,
      ← e3]
  · intro a ha
    cases List.mem_singleton.1 ha
    exact ⟨asc "yes", asc "no!", rfl, rfl, rfl, by unfold Spec.Fits; decide⟩
  · have hl := (C57.one_key_each [vote v key] Toy.tape (Toy.tape.drop 32) [tok.display] (by
      simp only [Act.runAll, h, Res.ok_bind, Res.pure_def])).1
    show (Act.cipherKeys [vote v key] Toy.tape).Nodup
    match hk : Act.cipherKeys [vote v key] Toy.tape with
    | [] => exact List.nodup_nil
    | [x] => simp
    | x :: y :: l => rw [hk] at hl; simp at hl
  · intro o r hm ha
    simp only [List.mem_cons, Prod.mk.injEq, reduceCtorEq, and_false, Query.reveal.injEq,
      List.not_mem_nil, or_false, false_or] at hm
    obtain ⟨rfl, -⟩ := hm
    exact absurd ha (garbage v key)

/-- … and those of `opened_is_forgery`: the hidden text, opened by someone who may. -/
example (v : Ver) (key : Key P v .Local) : ∃ (t : Bytes) (x : Bytes × Bytes),
    (vote v key).run P.ciphers .left Toy.tape = .ok (t, Toy.tape.drop 32) ∧
    (ballot v key t).printed = .ok t ∧ (ballot v key t).opener = (vote v key).opener ∧
    (ballot v key t).Authentic ∧ (ballot v key t).Fits ∧ (ballot v key t).Tagged x := by
  obtain ⟨tok, h, hf, hf', he, ⟨r, hr⟩, n, c, g, hp, hn, hc, hg⟩ := vote_run v key
  have hparse : SecuredToken.parse v .Local Bytes Sample.Raw tok.display = .ok tok := by
    rw [SecuredToken.parse_display tok (by rw [hf, hf']; rfl)]
  refine ⟨tok.display, _, h, ballot_printed v key tok (hf.trans hf'.symm), rfl,
    ⟨tok, hparse, by rw [hr]; simp, by rw [hr]; simp⟩, ⟨?_, by unfold Spec.Fits; decide, ?_⟩,
    ⟨tok, n, c, g, hparse, hp, hn, hg, rfl⟩⟩
  · unfold Spec.Fits
    cases v <;> decide
  · intro t ht
    cases hparse.symm.trans ht
    unfold Spec.Fits
    rw [hp, hf]
    simp only [List.length_append, hn, hc, hg]
    cases v <;> decide

end Pasta.C74
