import Verif.Lemmas.Public
import Verif.Props.Samples

/-!
# C01, C02, C19, C20, C21: tokens round-trip; contents, sizes and layout
-/

namespace Pasta

open Spec (header tokenText Fits)

/-! ## C01 -/
namespace C01

variable {v : Ver} {M F E : Type}

/-- Encrypt, print, parse, decrypt: the message and footer that went in come out. The codec
hypotheses only say that *this* message and *this* footer survive encoding and decoding. -/
theorem local_roundtrip (P : Prims) [Payload E] [MessageEncoding E M] [MessageDecoding E M]
    [Footer F] (b : TokenBuilder v .Local M F E) (key : Key P v .Local) (implicit : Bytes)
    (rng : Rng) (m f : Bytes)
    (hrng : 32 ≤ rng.length)
    (hm : MessageEncoding.encode b.tok.encoding b.tok.message = .ok m)
    (hm' : MessageDecoding.decode (Payload.default : E) m = .ok b.tok.message)
    (hf : Footer.encode b.tok.footer = some f)
    (hf' : Footer.decode f = .ok b.tok.footer) :
    (do
      let (tok, _) ← b.encryptWithAssertionsAndRng P key implicit rng
      let tok' ← SecuredToken.parse v .Local F E tok.display
      tok'.decryptWithAssertions M P key implicit) =
    .ok { encoding := Payload.default, message := b.tok.message, footer := b.tok.footer } := by
  obtain ⟨n, rng', hn, rfl⟩ : ∃ n r, n.length = 32 ∧ rng = n ++ r :=
    ⟨rng.take 32, rng.drop 32, by simp; omega, by simp⟩
  have henc := (encrypt_ok_iff b key implicit (n ++ rng') rng' _).2
    ⟨n, m, f, hn, rfl, hm, hf, rfl⟩
  rw [henc]
  simp only [Res.ok_bind]
  rw [SecuredToken.parse_display _ hf']
  simp only [Res.ok_bind]
  rw [decrypt_split _ key implicit n (applyKeystream (codeStream P v key.key n) m) _ rfl hn
    (by rw [localMac_length, tagSize_eq])]
  rw [if_pos rfl, applyKeystream_twice, hm']
  rfl

/-- The same without going through text. -/
theorem local_roundtrip_direct (P : Prims) [Payload E] [MessageEncoding E M] [MessageDecoding E M]
    [Footer F] (b : TokenBuilder v .Local M F E) (key : Key P v .Local) (implicit : Bytes)
    (rng rng' : Rng) (tok : SecuredToken v .Local F E)
    (henc : b.encryptWithAssertionsAndRng P key implicit rng = .ok (tok, rng'))
    (hcodec : ∀ m, MessageEncoding.encode b.tok.encoding b.tok.message = .ok m →
      MessageDecoding.decode b.tok.encoding m = .ok b.tok.message) :
    tok.decryptWithAssertions M P key implicit = .ok b.tok := by
  obtain ⟨n, m, f, hn, rfl, hm, hf, rfl⟩ := (encrypt_ok_iff _ _ _ _ _ _).1 henc
  rw [decrypt_split _ key implicit n (applyKeystream (codeStream P v key.key n) m) _ rfl hn
    (by rw [localMac_length, tagSize_eq])]
  rw [if_pos rfl, applyKeystream_twice, hcodec m hm]
  rfl

/-- Every outcome of encryption: it panics if the RNG has not 32 bytes; otherwise it fails with the
payload encoder's error if there is one, panics if the footer encoder does, and else gives a token. -/
theorem encrypt_outcome (P : Prims) [Payload E] [MessageEncoding E M] [Footer F]
    (b : TokenBuilder v .Local M F E) (key : Key P v .Local) (implicit : Bytes) (rng : Rng) :
    (rng.length < 32 → b.encryptWithAssertionsAndRng P key implicit rng = .panic) ∧
    (32 ≤ rng.length →
    (∀ e, MessageEncoding.encode b.tok.encoding b.tok.message = .error e →
      b.encryptWithAssertionsAndRng P key implicit rng = .err (.payloadError e)) ∧
    (∀ m, MessageEncoding.encode b.tok.encoding b.tok.message = .ok m →
      Footer.encode b.tok.footer = none →
      b.encryptWithAssertionsAndRng P key implicit rng = .panic) ∧
    (∀ m f, MessageEncoding.encode b.tok.encoding b.tok.message = .ok m →
      Footer.encode b.tok.footer = some f →
      ∃ tok, b.encryptWithAssertionsAndRng P key implicit rng = .ok (tok, rng.drop 32))) := by
  refine ⟨fun hs => ?_, fun hrng => ?_⟩
  · unfold TokenBuilder.encryptWithAssertionsAndRng fillBytes
    rw [dif_neg (by omega)]; rfl
  obtain ⟨n, rng', hn, rfl⟩ : ∃ n r, n.length = 32 ∧ rng = n ++ r :=
    ⟨rng.take 32, rng.drop 32, by simp; omega, by simp⟩
  refine ⟨?_, ?_, ?_⟩
  · intro e he
    unfold TokenBuilder.encryptWithAssertionsAndRng ValidatedToken.encryptInner
    have : fillBytes 32 (n ++ rng') = .ok (⟨n, hn⟩, rng') := fillBytes_eq_ok.2 rfl
    simp [this, he]
  · intro m hm hf
    unfold TokenBuilder.encryptWithAssertionsAndRng ValidatedToken.encryptInner
    have : fillBytes 32 (n ++ rng') = .ok (⟨n, hn⟩, rng') := fillBytes_eq_ok.2 rfl
    simp [this, hm, hf]
  · intro m f hm hf
    refine ⟨_, (encrypt_ok_iff b key implicit (n ++ rng') _ _).2 ⟨n, m, f, hn, ?_, hm, hf, rfl⟩⟩
    simp [← hn]

/-- The hypotheses are met, in both versions. -/
example (v : Ver) : ∃ (b : TokenBuilder v .Local Bytes Bytes Sample.Raw) (m f : Bytes),
    32 ≤ Toy.tape.length ∧
    MessageEncoding.encode b.tok.encoding b.tok.message = .ok m ∧
    MessageDecoding.decode (Payload.default : Sample.Raw) m = .ok b.tok.message ∧
    Footer.encode b.tok.footer = some f ∧ Footer.decode f = .ok b.tok.footer ∧ m ≠ [] ∧ f ≠ [] :=
  ⟨Sample.builder v .Local Sample.Raw, asc "hello", asc "kid", Toy.tape_ok, rfl, rfl, rfl, rfl,
    by decide, by decide⟩

end C01

/-! ## C02 -/
namespace C02

variable {v : Ver} {M F E : Type}

/-- A signature made by a secret key passes the code's verification under its public key. -/
theorem verifyRaw_signRaw {P : Prims} (L : P.Laws) (key : Key P v .Secret) (suf m f i : Bytes)
    (s : BytesN (sigSize v)) (hs : signRaw P v key.key suf m f i = .ok s) :
    verifyRaw P v key.publicKey.key suf m f i s = .ok true := by
  cases v
  · have hs := Res.unwrap_eq_ok.1 hs
    have h1 := L.p384SigOk_sign key.key
      (P.sha384 (v3PublicPreAuth (P.p384Compress (P.p384Public key.key)).1 suf m f i)) s hs
    have h2 := L.p384Verify_sign key.key
      (P.sha384 (v3PublicPreAuth (P.p384Compress (P.p384Public key.key)).1 suf m f i)) s hs
    simp only [verifyRaw, Key.publicKey, p384SigFromBytes]
    erw [if_pos h1]
    show Res.ok _ = _
    exact congrArg Res.ok h2
  · have := L.edVerify_sign key.key (v4PublicPreAuth suf m f i)
    cases hs
    simp only [verifyRaw, Key.publicKey]
    exact congrArg Res.ok this

/-- Signing an encodable message and footer gives a token or panics, and it panics exactly when
version 3 ECDSA has no signature for this key and these bytes. -/
theorem sign_outcome (P : Prims) [Payload E] [MessageEncoding E M] [Footer F]
    (b : TokenBuilder v .Public M F E) (key : Key P v .Secret) (i m f : Bytes)
    (hm : MessageEncoding.encode b.tok.encoding b.tok.message = .ok m)
    (hf : Footer.encode b.tok.footer = some f)
    (hh : Spec.Fits (Spec.header v .Public (Payload.suffix E))) (hmf : Spec.Fits m)
    (hff : Spec.Fits f) (hif : Spec.Fits i) :
    (∃ tok, b.signWithAssertions P key i = .ok tok) ∨
    b.signWithAssertions P key i = .panic ∧ v = .V3 ∧
      Spec.sigOf P v key.key (Spec.header v .Public (Payload.suffix E)) m f i = none := by
  rcases signRaw_eq key.key hh hmf hff hif with
    ⟨s, h1, -⟩ | ⟨h1, h2, h3⟩
  · exact .inl ⟨_, (sign_ok_iff b key i _).2 ⟨m, f, s, hm, hf, h1, rfl⟩⟩
  · refine .inr ⟨?_, h2, h3⟩
    unfold TokenBuilder.signWithAssertions
    rw [hm, hf]
    simp [Res.ofExcept, h1]

/-- In particular V4 signing succeeds. -/
theorem v4_sign_ok (P : Prims) [Payload E] [MessageEncoding E M] [Footer F]
    (b : TokenBuilder .V4 .Public M F E) (key : Key P .V4 .Secret) (i m f : Bytes)
    (hm : MessageEncoding.encode b.tok.encoding b.tok.message = .ok m)
    (hf : Footer.encode b.tok.footer = some f) :
    ∃ tok, b.signWithAssertions P key i = .ok tok :=
  ⟨_, (sign_ok_iff b key i _).2 ⟨m, f, _, hm, hf, rfl, rfl⟩⟩

/-- Sign, print, parse, verify: the message and footer that went in come out. -/
theorem public_roundtrip (P : Prims) (L : P.Laws) [Payload E] [MessageEncoding E M]
    [MessageDecoding E M] [Footer F] (b : TokenBuilder v .Public M F E) (key : Key P v .Secret)
    (implicit : Bytes) (m f : Bytes)
    (hm : MessageEncoding.encode b.tok.encoding b.tok.message = .ok m)
    (hm' : MessageDecoding.decode (Payload.default : E) m = .ok b.tok.message)
    (hf : Footer.encode b.tok.footer = some f)
    (hf' : Footer.decode f = .ok b.tok.footer)
    (hp : b.signWithAssertions P key implicit ≠ .panic) :
    (do
      let tok ← b.signWithAssertions P key implicit
      let tok' ← SecuredToken.parse v .Public F E tok.display
      tok'.verifyWithAssertions M P key.publicKey implicit) =
    .ok { encoding := Payload.default, message := b.tok.message, footer := b.tok.footer } := by
  obtain ⟨s, hs⟩ : ∃ s, signRaw P v key.key (Payload.suffix E) m f implicit = .ok s := by
    cases h : signRaw P v key.key (Payload.suffix E) m f implicit with
    | ok s => exact ⟨s, rfl⟩
    | err e => exact absurd h (signRaw_ne_err _ _ _ _ _ e)
    | panic =>
      refine absurd ?_ hp
      unfold TokenBuilder.signWithAssertions
      rw [hm, hf]
      simp [Res.ofExcept, h]
  have hsign := (sign_ok_iff b key implicit _).2 ⟨m, f, s, hm, hf, hs, rfl⟩
  rw [hsign]
  simp only [Res.ok_bind]
  rw [SecuredToken.parse_display _ hf']
  simp only [Res.ok_bind]
  rw [verify_split _ key.publicKey implicit m s rfl, verifyRaw_signRaw L _ _ _ _ _ _ hs]
  simp [hm']

/-- The same without going through text. -/
theorem public_roundtrip_direct (P : Prims) (L : P.Laws) [Payload E] [MessageEncoding E M]
    [MessageDecoding E M] [Footer F] (b : TokenBuilder v .Public M F E) (key : Key P v .Secret)
    (implicit : Bytes) (tok : SecuredToken v .Public F E)
    (hsign : b.signWithAssertions P key implicit = .ok tok)
    (hcodec : ∀ m, MessageEncoding.encode b.tok.encoding b.tok.message = .ok m →
      MessageDecoding.decode b.tok.encoding m = .ok b.tok.message) :
    tok.verifyWithAssertions M P key.publicKey implicit = .ok b.tok := by
  obtain ⟨m, f, s, hm, hf, hs, rfl⟩ := (sign_ok_iff _ _ _ _).1 hsign
  rw [verify_split _ key.publicKey implicit m s rfl, verifyRaw_signRaw L _ _ _ _ _ _ hs]
  simp [hcodec m hm]

example (v : Ver) (key : Key Toy.prims v .Secret) : Toy.prims.Laws ∧
    ∃ (b : TokenBuilder v .Public Bytes Bytes Sample.Raw) (m f : Bytes),
    MessageEncoding.encode b.tok.encoding b.tok.message = .ok m ∧
    MessageDecoding.decode (Payload.default : Sample.Raw) m = .ok b.tok.message ∧
    Footer.encode b.tok.footer = some f ∧ Footer.decode f = .ok b.tok.footer ∧ m ≠ [] ∧ f ≠ [] ∧
    b.signWithAssertions Toy.prims key (asc "ia") ≠ .panic := by
  refine ⟨Toy.laws, Sample.builder v .Public Sample.Raw, asc "hello", asc "kid", rfl, rfl, rfl, rfl,
    by decide, by decide, ?_⟩
  obtain ⟨t, h⟩ := Sample.sign_ok v key (Sample.builder v .Public Sample.Raw) (asc "ia") rfl rfl
  rw [h]; simp

/-- Signing can panic: nothing in the laws excludes it. -/
example : ∃ (P : Prims) (_ : P.Laws) (key : Key P .V3 .Secret),
    (Sample.builder .V3 .Public Sample.Raw).signWithAssertions P key (asc "ia") = .panic :=
  ⟨{ Toy.prims with p384Sign := fun _ _ => none },
    { edBytes_of_parse := Toy.laws.edBytes_of_parse
      edParse_bytes := Toy.laws.edParse_bytes
      edVerify_sign := Toy.laws.edVerify_sign
      x25519_comm := Toy.laws.x25519_comm
      montMulBase_mod := Toy.laws.montMulBase_mod
      montMul_mod := Toy.laws.montMul_mod
      montMul_mod_base := Toy.laws.montMul_mod_base
      p384Parse_compress := Toy.laws.p384Parse_compress
      p384Compress_tag := Toy.laws.p384Compress_tag
      p384Parse_form := Toy.laws.p384Parse_form
      p384SigOk_sign := fun _ _ _ h => by cases h
      p384Verify_sign := fun _ _ _ h => by cases h
      p384Dh_comm := Toy.laws.p384Dh_comm }, ⟨Toy.v3Scalar⟩, rfl⟩

end C02

/-! ## C19 -/
namespace C19

variable {v : Ver} {M F E : Type}

/-- Decryption returns the footer `unverified_footer` showed. -/
theorem decrypt_footer (P : Prims) [Payload E] [MessageDecoding E M] (t : SecuredToken v .Local F E)
    (key : Key P v .Local) (i : Bytes) (out : ValidatedToken v .Local M F E)
    (h : t.decryptWithAssertions M P key i = .ok out) : out.footer = t.unverifiedFooter := by
  by_cases hs : 32 + tagSize v ≤ t.payload.length
  · obtain ⟨n, c, g, hp, hn, hg⟩ := payload_split v t.payload hs
    rw [decrypt_split t key i n c g hp hn hg] at h
    split at h
    · obtain ⟨a, _, h2⟩ := Res.bind_eq_ok.1 h
      simp only [Res.ok.injEq] at h2
      rw [← h2]; rfl
    · simp at h
  · rw [decrypt_short t key i (by omega)] at h
    simp at h

/-- Verification returns the footer `unverified_footer` showed. -/
theorem verify_footer (P : Prims) [Payload E] [MessageDecoding E M] (t : SecuredToken v .Public F E)
    (key : Key P v .Public) (i : Bytes) (out : ValidatedToken v .Public M F E)
    (h : t.verifyWithAssertions M P key i = .ok out) : out.footer = t.unverifiedFooter := by
  by_cases hs : sigSize v ≤ t.payload.length
  · obtain ⟨m, s, hp⟩ := public_payload_split (sigSize v) t.payload hs
    rw [verify_split t key i m s hp] at h
    obtain ⟨b, _, h⟩ := Res.bind_eq_ok.1 h
    split at h
    · obtain ⟨a, _, h2⟩ := Res.bind_eq_ok.1 h
      simp only [Res.ok.injEq] at h2
      rw [← h2]; rfl
    · simp at h
  · rw [verify_short t key i (by omega)] at h
    simp at h

/-- Encrypting or signing keeps the footer value for `unverified_footer`. -/
theorem encrypt_footer (P : Prims) [Payload E] [MessageEncoding E M] [Footer F]
    (b : TokenBuilder v .Local M F E) (key : Key P v .Local) (i : Bytes) (rng rng' : Rng)
    (tok : SecuredToken v .Local F E)
    (h : b.encryptWithAssertionsAndRng P key i rng = .ok (tok, rng')) :
    tok.unverifiedFooter = b.tok.footer ∧ Footer.encode b.tok.footer = some tok.encodedFooter := by
  obtain ⟨n, m, f, hn, rfl, hm, hf, rfl⟩ := (encrypt_ok_iff _ _ _ _ _ _).1 h
  exact ⟨rfl, hf⟩

theorem sign_footer (P : Prims) [Payload E] [MessageEncoding E M] [Footer F]
    (b : TokenBuilder v .Public M F E) (key : Key P v .Secret) (i : Bytes)
    (tok : SecuredToken v .Public F E) (h : b.signWithAssertions P key i = .ok tok) :
    tok.unverifiedFooter = b.tok.footer ∧ Footer.encode b.tok.footer = some tok.encodedFooter := by
  obtain ⟨m, f, s, hm, hf, hs, rfl⟩ := (sign_ok_iff _ _ _ _).1 h
  exact ⟨rfl, hf⟩

/-- Builders: a new one holds the message and no footer; the two setters commute, and each changes
only its own field. -/
theorem builder_contents (p : Purpose) (msg : M) (f : F) (e : E) :
    (TokenBuilder.new v p msg).tok.message = msg ∧
    (((TokenBuilder.new v p msg).withFooter f).tok.message = msg ∧
      ((TokenBuilder.new v p msg).withFooter f).tok.footer = f) ∧
    (((TokenBuilder.new v p msg).withEncoding e).tok.message = msg ∧
      ((TokenBuilder.new v p msg).withEncoding e).tok.encoding = e) ∧
    ((TokenBuilder.new v p msg).withFooter f).withEncoding e =
      ((TokenBuilder.new v p msg).withEncoding e).withFooter f ∧
    (((TokenBuilder.new v p msg).withFooter f).withEncoding e).tok =
      { encoding := e, message := msg, footer := f } :=
  ⟨rfl, ⟨rfl, rfl⟩, ⟨rfl, rfl⟩, rfl, rfl⟩

/-- A token built without a footer prints without a footer section. -/
theorem no_footer_text (P : Prims) [Serialize M] (msg : M) (key : Key P v .Local) (i : Bytes)
    (rng rng' : Rng) (tok : SecuredToken v .Local Unit (Json Unit))
    (h : (TokenBuilder.new v .Local msg).encryptWithAssertionsAndRng P key i rng = .ok (tok, rng')) :
    tok.display = header v .Local [] ++ Spec.base64url tok.payload := by
  obtain ⟨n, m, f, hn, rfl, hm, hf, rfl⟩ := (encrypt_ok_iff _ _ _ _ _ _).1 h
  rw [SecuredToken.display_eq]
  have : f = [] := by
    have : some ([] : Bytes) = some f := hf
    simpa using this.symm
  subst this
  simp only [tokenText, if_true]
  rfl

example : ∃ out, (do
      let (tok, _) ← (Sample.builder .V4 .Local Sample.Raw).encryptWithAssertionsAndRng Toy.prims
        (Toy.localKey .V4) (asc "ia") Toy.tape
      tok.decryptWithAssertions Bytes Toy.prims (Toy.localKey .V4) (asc "ia")) = .ok out :=
  ⟨_, by
    have h := ((C01.encrypt_outcome Toy.prims (Sample.builder .V4 .Local Sample.Raw)
      (Toy.localKey .V4) (asc "ia") Toy.tape).2 Toy.tape_ok).2.2 (asc "hello") (asc "kid") rfl rfl
    obtain ⟨tok, h⟩ := h
    rw [h]
    exact C01.local_roundtrip_direct Toy.prims _ _ _ _ _ tok h (by
      intro m hm; cases hm; rfl)⟩

-- a signed token, in both versions
example (v : Ver) (key : Key Toy.prims v .Secret) : ∃ tok,
    (Sample.builder v .Public Sample.Raw).signWithAssertions Toy.prims key (asc "ia") = .ok tok ∧
    tok.unverifiedFooter = asc "kid" := by
  obtain ⟨tok, h⟩ := Sample.sign_ok v key (Sample.builder v .Public Sample.Raw) (asc "ia") rfl rfl
  exact ⟨tok, h, (sign_footer _ _ _ _ _ h).1⟩

end C19

/-! ## C21 -/
namespace C21

variable {v : Ver} {M F E : Type}

/-- A local payload is the nonce, a ciphertext of the message's length, and the tag (48 bytes in V3,
32 in V4). -/
theorem local_layout (P : Prims) [Payload E] [MessageEncoding E M] [Footer F]
    (b : TokenBuilder v .Local M F E) (key : Key P v .Local) (i : Bytes) (rng rng' : Rng)
    (tok : SecuredToken v .Local F E)
    (h : b.encryptWithAssertionsAndRng P key i rng = .ok (tok, rng')) :
    ∃ m n c t, MessageEncoding.encode b.tok.encoding b.tok.message = .ok m ∧
      tok.payload = n ++ c ++ t ∧ n = rng.take 32 ∧ n.length = 32 ∧ c.length = m.length ∧
      t.length = Spec.tagLen v := by
  obtain ⟨n, m, f, hn, rfl, hm, hf, rfl⟩ := (encrypt_ok_iff _ _ _ _ _ _).1 h
  refine ⟨m, n, _, _, hm, rfl, by simp [← hn], hn, applyKeystream_length _ _, ?_⟩
  rw [localMac_length]

/-- A public payload is the encoded message in clear, followed by the signature (96 bytes in V3, 64
in V4). -/
theorem public_layout (P : Prims) [Payload E] [MessageEncoding E M] [Footer F]
    (b : TokenBuilder v .Public M F E) (key : Key P v .Secret) (i : Bytes)
    (tok : SecuredToken v .Public F E) (h : b.signWithAssertions P key i = .ok tok) :
    ∃ m s, MessageEncoding.encode b.tok.encoding b.tok.message = .ok m ∧
      tok.payload = m ++ s ∧ s.length = Spec.sigLen v := by
  obtain ⟨m, f, s, hm, hf, hs, rfl⟩ := (sign_ok_iff _ _ _ _).1 h
  refine ⟨m, _, hm, rfl, ?_⟩
  rw [s.2]; cases v <;> rfl

example : ∃ tok rng', (Sample.builder .V3 .Local Sample.Raw).encryptWithAssertionsAndRng Toy.prims
    (Toy.localKey .V3) (asc "ia") Toy.tape = .ok (tok, rng') :=
  let ⟨t, h⟩ := ((C01.encrypt_outcome Toy.prims (Sample.builder .V3 .Local Sample.Raw)
    (Toy.localKey .V3) (asc "ia") Toy.tape).2 Toy.tape_ok).2.2 (asc "hello") (asc "kid") rfl rfl
  ⟨t, _, h⟩

example (v : Ver) (key : Key Toy.prims v .Secret) : ∃ tok,
    (Sample.builder v .Public Sample.Raw).signWithAssertions Toy.prims key (asc "ia") = .ok tok :=
  Sample.sign_ok v key (Sample.builder v .Public Sample.Raw) (asc "ia") rfl rfl

end C21
end Pasta
