import Verif.Props.Auth

/-!
# C08, C14, C17: histories of issued tokens

A history is any sequence of successful encryptions (signatures) under one key, with arbitrary
message, footer and encoding types, messages, footers, assertions and RNG outputs. The recorded
events contain only what an observer sees: header suffix, encoded message, payload bytes, footer
bytes, assertion.
-/

namespace Pasta

open Spec (header Fits)

/-! ## C08 -/
namespace C08

/-- What is known of one issued local token. -/
structure Event where
  suffix : Bytes
  message : Bytes
  payload : Bytes
  footer : Bytes
  implicit : Bytes

/-- All parts of the event exist in memory. -/
structure Event.Fits (v : Ver) (e : Event) : Prop where
  parts : PartsFit (header v .Local e.suffix) e.payload e.footer e.implicit

/-- The event records the outcome of one call of `encrypt_with_assertions_and_rng` under `key`. -/
def IssuedBy (P : Prims) (v : Ver) (key : Key P v .Local) (e : Event) : Prop :=
  ∃ (M F E : Type) (_ : Payload E) (_ : MessageEncoding E M) (_ : Footer F)
    (b : TokenBuilder v .Local M F E) (rng rng' : Rng) (tok : SecuredToken v .Local F E),
    b.encryptWithAssertionsAndRng P key e.implicit rng = .ok (tok, rng') ∧
    MessageEncoding.encode b.tok.encoding b.tok.message = .ok e.message ∧
    e.suffix = Payload.suffix E ∧ e.payload = tok.payload ∧ e.footer = tok.encodedFooter

/-- The tokens issued under `key` so far, newest first. -/
inductive Issued (P : Prims) (v : Ver) (key : Key P v .Local) : List Event → Prop
  | start : Issued P v key []
  | encrypt {e hist} : Issued P v key hist → IssuedBy P v key e → Issued P v key (e :: hist)

/-- The MAC computation of an event according to the specification: authentication key and
authenticated bytes. -/
def Event.macQuery (P : Prims) (v : Ver) (key : Key P v .Local) (e : Event) : Bytes × Bytes :=
  let n := e.payload.take 32
  let c := (e.payload.drop 32).take (e.payload.length - 32 - Spec.tagLen v)
  (Spec.localAuthKey P v key.key n, Spec.localPreAuth (header v .Local e.suffix) n c e.footer e.implicit)

variable {v : Ver} {M F E : Type}

theorem issued_mem {P : Prims} {key : Key P v .Local} {hist : List Event}
    (h : Issued P v key hist) {e : Event} (he : e ∈ hist) : IssuedBy P v key e := by
  induction h with
  | start => cases he
  | encrypt _ h ih =>
    rcases List.mem_cons.1 he with rfl | he'
    · exact h
    · exact ih he'

theorem issuedBy_payload {P : Prims} {key : Key P v .Local} {e : Event} (h : IssuedBy P v key e)
    (hfit : e.Fits v) :
    ∃ n, n.length = 32 ∧
      e.payload = n ++ applyKeystream (codeStream P v key.key n) e.message ++
        Spec.localTag P v key.key (header v .Local e.suffix) n
          (applyKeystream (codeStream P v key.key n) e.message) e.footer e.implicit := by
  obtain ⟨M, F, E, _, _, _, b, rng, rng', tok, henc, hm, hs, hp, hf⟩ := h
  obtain ⟨n, m, f, hn, rfl, hm', hf', rfl⟩ := (encrypt_ok_iff _ _ _ _ _ _).1 henc
  rw [hm] at hm'
  cases hm'
  refine ⟨n, hn, ?_⟩
  have h1 := hfit.parts
  have hl := h1.message
  rw [hp] at hl ⊢
  rw [hs] at h1 ⊢
  rw [hf] at h1 ⊢
  simp only at hl h1 ⊢
  obtain ⟨h2, h3⟩ := fits_pieces hl rfl
  rw [localPreAuth_eq h1.header h2 h3 h1.footer h1.implicit]
  rfl

theorem macQuery_eq {P : Prims} {key : Key P v .Local} {e : Event} {n c g : Bytes}
    (hp : e.payload = n ++ c ++ g) (hn : n.length = 32) (hg : g.length = Spec.tagLen v) :
    e.macQuery P v key = (Spec.localAuthKey P v key.key n,
      Spec.localPreAuth (header v .Local e.suffix) n c e.footer e.implicit) := by
  have h1 : e.payload.take 32 = n := by rw [hp]; simp [← hn]
  have h2 : (e.payload.drop 32).take (e.payload.length - 32 - Spec.tagLen v) = c := by
    rw [hp]
    simp only [List.append_assoc, List.length_append, hn, hg]
    rw [show 32 + (c.length + Spec.tagLen v) - 32 - Spec.tagLen v = c.length by omega, ← hn]
    simp
  simp only [Event.macQuery, h1, h2]

/-- After any history, a local token that gets past authentication is an issued one (same payload,
footer bytes, suffix and assertion), or its tag is valid for a MAC input that was never queried: a
MAC forgery. -/
theorem unforgeable (P : Prims) (key : Key P v .Local) (hist : List Event)
    (hissued : Issued P v key hist) (hhist : ∀ e ∈ hist, e.Fits v)
    [Payload E] [MessageDecoding E M] (t : SecuredToken v .Local F E) (i : Bytes)
    (hfit : PartsFit (header v .Local (Payload.suffix E)) t.payload t.encodedFooter i)
    (hok : t.decryptWithAssertions M P key i ≠ .err .cryptoError ∧
      t.decryptWithAssertions M P key i ≠ .panic) :
    (∃ e ∈ hist, IssuedBy P v key e ∧ e.suffix = Payload.suffix E ∧ e.payload = t.payload ∧
      e.footer = t.encodedFooter ∧ e.implicit = i) ∨
    ∃ n c tag, t.payload = n ++ c ++ tag ∧ n.length = 32 ∧ tag.length = Spec.tagLen v ∧
      tag = Spec.localMac P v (Spec.localAuthKey P v key.key n)
        (Spec.localPreAuth (header v .Local (Payload.suffix E)) n c t.encodedFooter i) ∧
      (Spec.localAuthKey P v key.key n,
        Spec.localPreAuth (header v .Local (Payload.suffix E)) n c t.encodedFooter i) ∉
        hist.map (Event.macQuery P v key) := by
  obtain ⟨n, c, hn, hp⟩ := (C03.decrypt_accepts_iff P t key i hfit).1 hok
  by_cases hq : (Spec.localAuthKey P v key.key n,
        Spec.localPreAuth (header v .Local (Payload.suffix E)) n c t.encodedFooter i) ∈
        hist.map (Event.macQuery P v key)
  · left
    obtain ⟨e, he, hq⟩ := List.mem_map.1 hq
    have hby := issued_mem hissued he
    obtain ⟨n', hn', hp'⟩ := issuedBy_payload hby (hhist e he)
    rw [macQuery_eq hp' hn' (localTag_length _ _ _ _ _ _ _ _)] at hq
    have hq2 := (Prod.mk.inj hq).2
    have hfe := (hhist e he).parts
    obtain ⟨h1, h2⟩ := fits_pieces hfit.message hp
    obtain ⟨h3, h4⟩ := fits_pieces hfe.message hp'
    obtain ⟨e1, e2, e3, e4, e5⟩ := localPreAuth_inj
      ⟨hfe.header, h3, h4, hfe.footer, hfe.implicit⟩
      ⟨hfit.header, h1, h2, hfit.footer, hfit.implicit⟩ hq2
    refine ⟨e, he, hby, (header_inj e1).2.2, ?_, e4, e5⟩
    rw [hp, hp', e3, e4, e5, e2, (header_inj e1).2.2]
  · right
    exact ⟨n, c, _, hp, hn, localTag_length _ _ _ _ _ _ _ _, rfl, hq⟩

/-- And an issued token decrypts to what was encrypted: for a token matching an event, decryption
hands the event's message bytes to the decoder. -/
theorem issued_message (P : Prims) (key : Key P v .Local) (e : Event) (hby : IssuedBy P v key e)
    (hfe : e.Fits v) [Payload E] [MessageDecoding E M] (t : SecuredToken v .Local F E)
    (hs : e.suffix = Payload.suffix E) (hp : e.payload = t.payload)
    (hf : e.footer = t.encodedFooter) :
    t.decryptWithAssertions M P key e.implicit =
      match MessageDecoding.decode t.encoding e.message with
      | .ok message => .ok { encoding := t.encoding, message, footer := t.footer }
      | .error err => .err (.payloadError err) := by
  obtain ⟨n, hn, hpl⟩ := issuedBy_payload hby hfe
  have hfit := hfe.parts
  rw [hs, hp, hf] at hfit
  rw [hp] at hpl
  rw [C03.decrypt_aux P t key e.implicit hfit n _ _ hpl hn (by rw [localTag_length, tagSize_eq]),
    if_pos (by rw [hs, hf]), applyKeystream_twice]
  cases (MessageDecoding.decode t.encoding e.message : Except String M) <;> rfl

/-- A history of two tokens and an accepted token meet the hypotheses. -/
example (v : Ver) : ∃ (hist : List Event) (t : SecuredToken v .Local Bytes Sample.Raw),
    Issued Toy.prims v (Toy.localKey v) hist ∧ (∀ e ∈ hist, e.Fits v) ∧ hist.length = 2 ∧
    PartsFit (header v .Local (Payload.suffix Sample.Raw)) t.payload t.encodedFooter (asc "ia") ∧
    (t.decryptWithAssertions Bytes Toy.prims (Toy.localKey v) (asc "ia") ≠ .err .cryptoError ∧
      t.decryptWithAssertions Bytes Toy.prims (Toy.localKey v) (asc "ia") ≠ .panic) := by
  obtain ⟨t, r, h0, h1, h2, h3⟩ := sample_local v
  let e : Event := ⟨asc "r", asc "hello", t.payload, t.encodedFooter, asc "ia"⟩
  have he : IssuedBy Toy.prims v (Toy.localKey v) e :=
    ⟨Bytes, Bytes, Sample.Raw, _, _, _, _, _, _, _, h0, rfl, rfl, rfl, rfl⟩
  refine ⟨[e, e], t, .encrypt (.encrypt .start he) he, ?_, rfl, h1, by rw [h2]; simp⟩
  intro e' he'
  simp only [List.mem_cons, List.not_mem_nil, or_false, or_self] at he'
  subst he'
  exact ⟨h1⟩

end C08

/-! ## C14 -/
namespace C14

/-- What is known of one signed token. -/
structure Event where
  suffix : Bytes
  message : Bytes
  footer : Bytes
  implicit : Bytes

/-- The event records the inputs of one successful call of `sign_with_assertions` under `key`. -/
def SignedBy (P : Prims) (v : Ver) (key : Key P v .Secret) (e : Event) : Prop :=
  ∃ (M F E : Type) (_ : Payload E) (_ : MessageEncoding E M) (_ : Footer F)
    (b : TokenBuilder v .Public M F E) (tok : SecuredToken v .Public F E),
    b.signWithAssertions P key e.implicit = .ok tok ∧
    MessageEncoding.encode b.tok.encoding b.tok.message = .ok e.message ∧
    e.suffix = Payload.suffix E ∧ e.footer = tok.encodedFooter

/-- The tokens signed with `key` so far. -/
inductive Signed (P : Prims) (v : Ver) (key : Key P v .Secret) : List Event → Prop
  | start : Signed P v key []
  | sign {e hist} : Signed P v key hist → SignedBy P v key e → Signed P v key (e :: hist)

structure Event.Fits (v : Ver) (e : Event) : Prop where
  parts : PartsFit (header v .Public e.suffix) e.message e.footer e.implicit

variable {v : Ver} {M F E : Type}

theorem signed_mem {P : Prims} {key : Key P v .Secret} {hist : List Event}
    (h : Signed P v key hist) {e : Event} (he : e ∈ hist) : SignedBy P v key e := by
  induction h with
  | start => cases he
  | sign _ h ih =>
    rcases List.mem_cons.1 he with rfl | he'
    · exact h
    · exact ih he'

/-- After any history of signatures, a public token that gets past verification carries a message
that was signed with the same suffix, footer bytes and assertion, or a valid signature on bytes that
were never signed: a signature forgery. -/
theorem unforgeable (P : Prims) (key : Key P v .Secret) (hist : List Event)
    (hsigned : Signed P v key hist) (hhist : ∀ e ∈ hist, e.Fits v)
    [Payload E] [MessageDecoding E M] (t : SecuredToken v .Public F E) (i : Bytes)
    (hfit : PartsFit (header v .Public (Payload.suffix E)) t.payload t.encodedFooter i)
    (hok : t.verifyWithAssertions M P key.publicKey i ≠ .err .cryptoError ∧
      t.verifyWithAssertions M P key.publicKey i ≠ .panic) :
    (∃ e ∈ hist, SignedBy P v key e ∧ e.suffix = Payload.suffix E ∧
      e.footer = t.encodedFooter ∧ e.implicit = i ∧ ∃ sig, t.payload = e.message ++ sig ∧ sig.length = Spec.sigLen v) ∨
    ∃ m sig, t.payload = m ++ sig ∧
      Spec.sigValid P v key.publicKey.key (header v .Public (Payload.suffix E)) m t.encodedFooter i
        sig ∧
      signedBytes P v key.publicKey.key (header v .Public (Payload.suffix E)) m t.encodedFooter i ∉
        hist.map (fun e => signedBytes P v key.publicKey.key (header v .Public e.suffix) e.message
          e.footer e.implicit) := by
  obtain ⟨m, sig, hp, hv⟩ := (C04.verify_accepts_iff P t key.publicKey i hfit).1 hok
  by_cases hq : signedBytes P v key.publicKey.key (header v .Public (Payload.suffix E)) m
      t.encodedFooter i ∈
        hist.map (fun e => signedBytes P v key.publicKey.key (header v .Public e.suffix) e.message
          e.footer e.implicit)
  · left
    obtain ⟨e, he, hq⟩ := List.mem_map.1 hq
    have hfe := (hhist e he).parts
    have hm : Fits m := by
      have := hfit.message; unfold Fits at *; rw [hp] at this; simp at this; omega
    obtain ⟨e1, rfl, e3, e4⟩ := signedBytes_inj P key.publicKey.key
      ⟨hfe.header, hfe.message, hfe.footer, hfe.implicit⟩
      ⟨hfit.header, hm, hfit.footer, hfit.implicit⟩ hq
    exact ⟨e, he, signed_mem hsigned he, (header_inj e1).2.2, e3, e4, sig, hp,
      by rw [C04.sigValid_length P _ _ _ _ _ _ hv, sigSize_eq]⟩
  · exact .inr ⟨m, sig, hp, hv, hq⟩

/-- Every recorded event is a signature query on exactly the bytes used in `unforgeable`: the
issued payload is the message followed by the specification's signature of those bytes. -/
theorem event_is_query (P : Prims) (key : Key P v .Secret) (hist : List Event)
    (hsigned : Signed P v key hist) (hhist : ∀ e ∈ hist, e.Fits v) (e : Event) (he : e ∈ hist) :
    ∃ (F E : Type) (_ : Payload E) (tok : SecuredToken v .Public F E),
      e.suffix = Payload.suffix E ∧ tok.encodedFooter = e.footer ∧
      ∃ sig, Spec.sigOf P v key.key (header v .Public e.suffix) e.message e.footer e.implicit =
          some sig ∧ tok.payload = e.message ++ sig := by
  have hby := signed_mem hsigned he
  obtain ⟨M, F, E, i1, _, _, b, tok, hs, hm, hsuf, hf⟩ := hby
  refine ⟨F, E, i1, tok, hsuf, hf.symm, ?_⟩
  obtain ⟨m, f, s, hm', hf', hsg, rfl⟩ := (sign_ok_iff _ _ _ _).1 hs
  rw [hm] at hm'
  cases hm'
  have hfe := (hhist e he).parts
  simp only at hf ⊢
  rw [hsuf] at hfe ⊢
  rw [hf] at hfe ⊢
  exact ⟨s.1, signRaw_ok hsg hfe.header hfe.message hfe.footer hfe.implicit, rfl⟩

/-- A history with a signed token and an accepted token meet the hypotheses. -/
example (v : Ver) (key : Key Toy.prims v .Secret) :
    ∃ (hist : List Event) (t : SecuredToken v .Public Bytes Sample.Raw),
    Signed Toy.prims v key hist ∧ (∀ e ∈ hist, e.Fits v) ∧ hist.length = 1 ∧
    PartsFit (header v .Public (Payload.suffix Sample.Raw)) t.payload t.encodedFooter (asc "ia") ∧
    (t.verifyWithAssertions Bytes Toy.prims key.publicKey (asc "ia") ≠ .err .cryptoError ∧
      t.verifyWithAssertions Bytes Toy.prims key.publicKey (asc "ia") ≠ .panic) := by
  obtain ⟨t, h0, h1, h2, h3⟩ := sample_public v key
  let e : Event := ⟨asc "r", asc "hello", t.encodedFooter, asc "ia"⟩
  have he : SignedBy Toy.prims v key e :=
    ⟨Bytes, Bytes, Sample.Raw, _, _, _, _, _, h0, rfl, rfl, rfl⟩
  refine ⟨[e], t, .sign .start he, ?_, rfl, h1, by rw [h2]; simp⟩
  intro e' he'
  simp only [List.mem_cons, List.not_mem_nil, or_false] at he'
  subst he'
  exact ⟨h1.header, sample_partsFit v .Public (asc "hello") [] [] (by decide) (by decide)
    (by decide) |>.message, h1.footer, h1.implicit⟩

end C14

/-! ## C17 -/
namespace C17

/-- One encryption to perform: everything but the RNG. -/
structure Call (P : Prims) where
  v : Ver
  M : Type
  F : Type
  E : Type
  instP : Payload E
  instM : MessageEncoding E M
  instF : Footer F
  builder : TokenBuilder v .Local M F E
  key : Key P v .Local
  implicit : Bytes

/-- Perform the call: the payload and the RNG after it. -/
def Call.run {P : Prims} (c : Call P) (rng : Rng) : Res (Bytes × Rng) :=
  let _ := c.instP; let _ := c.instM; let _ := c.instF
  c.builder.encryptWithAssertionsAndRng P c.key c.implicit rng >>= fun (tok, rng') =>
    .ok (tok.payload, rng')

/-- Perform calls one after the other on the same RNG. -/
def runAll {P : Prims} : List (Call P) → Rng → Res (List Bytes × Rng)
  | [], rng => .ok ([], rng)
  | c :: cs, rng =>
    c.run rng >>= fun (p, rng') => runAll cs rng' >>= fun (ps, rng'') => .ok (p :: ps, rng'')

theorem run_ok {P : Prims} {c : Call P} {rng rng' : Rng} {p : Bytes}
    (h : c.run rng = .ok (p, rng')) : rng = p.take 32 ++ rng' ∧ (p.take 32).length = 32 := by
  unfold Call.run at h
  let _ := c.instP; let _ := c.instM; let _ := c.instF
  obtain ⟨⟨tok, r⟩, h1, h2⟩ := Res.bind_eq_ok.1 h
  simp only [Res.ok.injEq, Prod.mk.injEq] at h2
  obtain ⟨rfl, rfl⟩ := h2
  obtain ⟨n, m, f, hn, rfl, hm, hf, rfl⟩ := (encrypt_ok_iff _ _ _ _ _ _).1 h1
  have e : ∀ x y : Bytes, (n ++ x ++ y).take 32 = n := by intro x y; simp [← hn]
  simp only
  rw [e]
  exact ⟨rfl, hn⟩

/-- The nonces of a sequence of encryptions are, in order, consecutive 32-byte blocks of the RNG's
output, each used once. -/
theorem nonces (P : Prims) (calls : List (Call P)) (rng rng' : Rng) (payloads : List Bytes)
    (h : runAll calls rng = .ok (payloads, rng')) :
    payloads.length = calls.length ∧
    rng = (payloads.map (List.take 32)).flatten ++ rng' ∧
    ∀ k (hk : k < payloads.length),
      payloads[k].take 32 = (rng.drop (32 * k)).take 32 ∧ (payloads[k].take 32).length = 32 := by
  induction calls generalizing rng payloads with
  | nil =>
    simp only [runAll, Res.ok.injEq, Prod.mk.injEq] at h
    obtain ⟨rfl, rfl⟩ := h
    simp
  | cons c cs ih =>
    simp only [runAll] at h
    obtain ⟨⟨p, r⟩, h1, h2⟩ := Res.bind_eq_ok.1 h
    obtain ⟨⟨ps, r'⟩, h3, h4⟩ := Res.bind_eq_ok.1 h2
    simp only [Res.ok.injEq, Prod.mk.injEq] at h4
    obtain ⟨rfl, rfl⟩ := h4
    obtain ⟨i1, i2, i3⟩ := ih r ps h3
    obtain ⟨j1, j2⟩ := run_ok h1
    refine ⟨by simp [i1], ?_, ?_⟩
    · rw [List.map_cons, List.flatten_cons, List.append_assoc, ← i2]; exact j1
    · intro k hk
      cases k with
      | zero =>
        refine ⟨?_, j2⟩
        rw [List.getElem_cons_zero, Nat.mul_zero, List.drop_zero, j1, List.take_append_of_le_length
          (by omega), List.take_take, Nat.min_self]
      | succ k =>
        rw [List.getElem_cons_succ]
        obtain ⟨a, b⟩ := i3 k (by simpa using hk)
        refine ⟨?_, b⟩
        rw [a]
        congr 1
        rw [j1, show 32 * (k + 1) = (p.take 32).length + 32 * k by omega,
          List.drop_length_add_append]

/-- So two tokens of the sequence share a nonce exactly when the RNG repeated a block. -/
theorem nonce_reuse_iff (P : Prims) (calls : List (Call P)) (rng rng' : Rng) (payloads : List Bytes)
    (h : runAll calls rng = .ok (payloads, rng')) (j k : Nat) (hj : j < payloads.length)
    (hk : k < payloads.length) :
    payloads[j].take 32 = payloads[k].take 32 ↔
      (rng.drop (32 * j)).take 32 = (rng.drop (32 * k)).take 32 := by
  obtain ⟨-, -, h3⟩ := nonces P calls rng rng' payloads h
  rw [(h3 j hj).1, (h3 k hk).1]

/-- The nonce does not depend on anything but the RNG: two calls with whatever keys, messages and
assertions on the same RNG get the same nonce (and so encrypting twice from one RNG state is the
caller's mistake, not the library's). -/
theorem nonce_only_rng (P : Prims) (c c' : Call P) (rng r r' : Rng) (p p' : Bytes)
    (h : c.run rng = .ok (p, r)) (h' : c'.run rng = .ok (p', r')) :
    p.take 32 = p'.take 32 ∧ r = r' := by
  obtain ⟨h1, h2⟩ := run_ok h
  obtain ⟨h3, h4⟩ := run_ok h'
  rw [h1] at h3
  exact List.append_inj h3 (by rw [h2, h4])

/-- A call of each version with the sample builder; both run on the sample tape. -/
def sampleCall (v : Ver) : Call Toy.prims :=
  ⟨v, Bytes, Bytes, Sample.Raw, inferInstance, inferInstance, inferInstance,
    Sample.builder v .Local Sample.Raw, Toy.localKey v, asc "ia"⟩

theorem sampleCall_run (v : Ver) (rng : Rng) (h : 32 ≤ rng.length) :
    ∃ p, (sampleCall v).run rng = .ok (p, rng.drop 32) := by
  obtain ⟨t, ht⟩ := ((C01.encrypt_outcome Toy.prims (Sample.builder v .Local Sample.Raw)
    (Toy.localKey v) (asc "ia") rng).2 h).2.2 (asc "hello") (asc "kid") rfl rfl
  refine ⟨t.payload, ?_⟩
  show ((Sample.builder v .Local Sample.Raw).encryptWithAssertionsAndRng Toy.prims
    (Toy.localKey v) (asc "ia") rng >>= _) = _
  rw [ht]; rfl

example : ∃ payloads rng', runAll [sampleCall .V3, sampleCall .V4, sampleCall .V4] Toy.tape =
    .ok (payloads, rng') := by
  obtain ⟨p, hp⟩ := sampleCall_run .V3 Toy.tape Toy.tape_ok
  obtain ⟨q, hq⟩ := sampleCall_run .V4 (Toy.tape.drop 32) (by simp [Toy.tape_length])
  obtain ⟨r, hr⟩ := sampleCall_run .V4 ((Toy.tape.drop 32).drop 32) (by simp [Toy.tape_length])
  refine ⟨[p, q, r], ((Toy.tape.drop 32).drop 32).drop 32, ?_⟩
  simp only [runAll, hp, hq, hr, Res.ok_bind]

end C17
end Pasta
