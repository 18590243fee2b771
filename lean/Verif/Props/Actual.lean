import Verif.Curve.Card384
import Verif.Curve.Laws
import Verif.Curve.Order25519
import Verif.Props.Compose
import Verif.Props.Pbkw
import Verif.Props.Pie
import Verif.Props.Pke
import Verif.Props.TokenRoundtrip
import Verif.Real.AesPerm

/-!
# C62-C65, and C26, C34, C38, C44, C46: the actual algorithms

The other modules quantify over the primitives; where they need a fact about them (a signature
verifies, Diffie-Hellman agrees), it is a hypothesis. Here the primitives are `Real.prims`: SHA-2,
HMAC, HKDF, AES, PBKDF2, BLAKE2b, XChaCha20, Argon2id, Ed25519, X25519 and P-384 themselves, for
which those facts are theorems (`Real.laws`, `Real.aes256_injective`). So nothing is assumed.

C62: the round trips. C63: what can be changed in a signature. C64: weak V4 public keys. C65: V3 key
pairs. The remaining theorems are counterexamples with the actual algorithms.
-/

namespace Pasta

open Real (prims)
open Curve
open Spec (paserkText keyTypeText pieType pwType)

/-! ## C62 -/
namespace C62

variable {v : Ver} {M F E : Type}

/-- Sign, print, parse, verify under the public key. V4 always gets this far; V3 unless ECDSA has no
signature with the one nonce it tries. -/
theorem public_roundtrip [Payload E] [MessageEncoding E M] [MessageDecoding E M] [Footer F]
    (b : TokenBuilder v .Public M F E) (key : Key prims v .Secret) (implicit : Bytes) (m f : Bytes)
    (hm : MessageEncoding.encode b.tok.encoding b.tok.message = .ok m)
    (hm' : MessageDecoding.decode (Payload.default : E) m = .ok b.tok.message)
    (hf : Footer.encode b.tok.footer = some f)
    (hf' : Footer.decode f = .ok b.tok.footer)
    (hp : b.signWithAssertions prims key implicit ≠ .panic) :
    (do
      let tok ← b.signWithAssertions prims key implicit
      let tok' ← SecuredToken.parse v .Public F E tok.display
      tok'.verifyWithAssertions M prims key.publicKey implicit) =
    .ok { encoding := Payload.default, message := b.tok.message, footer := b.tok.footer } :=
  C02.public_roundtrip prims Real.laws b key implicit m f hm hm' hf hf' hp

/-- V4 signing always succeeds on encodable input, so for V4 no hypothesis about the outcome is left. -/
theorem v4_public_roundtrip [Payload E] [MessageEncoding E M] [MessageDecoding E M] [Footer F]
    (b : TokenBuilder .V4 .Public M F E) (key : Key prims .V4 .Secret) (implicit : Bytes)
    (m f : Bytes)
    (hm : MessageEncoding.encode b.tok.encoding b.tok.message = .ok m)
    (hm' : MessageDecoding.decode (Payload.default : E) m = .ok b.tok.message)
    (hf : Footer.encode b.tok.footer = some f)
    (hf' : Footer.decode f = .ok b.tok.footer) :
    (do
      let tok ← b.signWithAssertions prims key implicit
      let tok' ← SecuredToken.parse .V4 .Public F E tok.display
      tok'.verifyWithAssertions M prims key.publicKey implicit) =
    .ok { encoding := Payload.default, message := b.tok.message, footer := b.tok.footer } := by
  refine public_roundtrip b key implicit m f hm hm' hf hf' ?_
  obtain ⟨tok, h⟩ := C02.v4_sign_ok prims b key implicit m f hm hf
  rw [h]
  simp

/-- Print and parse a key of any kind. -/
theorem plaintext_roundtrip {k : Kind} (key : Key prims v k) :
    ∃ s, PlaintextKey.display ⟨key⟩ = .ok s ∧
      s = paserkText v (keyTypeText k) key.toBytes.1 ∧
      PlaintextKey.parse prims v k s = .ok ⟨key⟩ :=
  C25.plaintext_roundtrip Real.laws key

/-- Wrap with a key, print, parse, unwrap. -/
theorem pie_roundtrip {k : WKind} (key : Key prims v k.kind) (wk : Key prims v .Local) (rng : Rng)
    (hr : 32 ≤ rng.length) :
    ∃ w s, key.wrapPie wk rng = .ok (w, rng.drop 32) ∧ w.display = .ok s ∧
      PieWrappedKey.parse v k s = .ok w ∧ w.unwrapKey prims wk = .ok key :=
  C33.pie_roundtrip Real.laws key wk rng hr

/-- Wrap with a password, print, parse, unwrap. -/
theorem pw_roundtrip {k : WKind} (key : Key prims v k.kind) (pw : Bytes) (rng : Rng)
    (hp : v = .V4 → pw.length < 2 ^ 32) (hr : pwSaltLen v + ivLen v ≤ rng.length) :
    ∃ w s, key.pwWrap pw rng = .ok (w, rng.drop (pwSaltLen v + ivLen v)) ∧
      w.display = .ok s ∧ PwWrappedKey.parse v k s = .ok w ∧ w.unwrapKey prims pw = .ok key :=
  C37.default_roundtrip Real.laws key pw rng hp hr

/-- Seal to a public key, print, parse, unseal with its secret key. -/
theorem seal_roundtrip (key : Key prims v .Local) (sk : Key prims v .Secret) (rng : Rng)
    (hr : C43.Enough v rng) :
    ∃ w rng' s, key.sealKey sk.publicKey rng = .ok (w, rng') ∧ w.display = .ok s ∧
      SealedKey.parse v s = .ok w ∧ w.unsealKey prims sk = .ok key :=
  C43.seal_roundtrip Real.laws key sk rng hr

/-- A key that travelled through any sequence of prints, wraps and password wraps is the key. -/
theorem travel_eq {k : WKind} {a b : Key prims v k.kind} (h : C51.Travel prims v k a b) : b = a :=
  C51.travel_eq Real.laws h

/-- The random bytes in the hypotheses exist, for both versions. -/
example (v : Ver) : C43.Enough v C43.sampleRng ∧ 32 ≤ C43.sampleRng.length ∧
    pwSaltLen v + ivLen v ≤ C43.sampleRng.length :=
  ⟨C43.sampleRng_enough v, by decide, by cases v <;> decide⟩

end C62

/-! ## C63 -/
namespace C63

variable {M F E : Type}

theorem negSig_length (sig : Bytes) (h : sig.length = 96) : (E384.negSig sig).length = 96 := by
  unfold E384.negSig
  rw [List.length_append, E384.beBytes_length, List.length_take]
  omega

/-- The payload with the second number of the signature negated: computed from the payload alone -/
def negate (payload : Bytes) : Bytes :=
  payload.take (payload.length - 96) ++ E384.negSig (payload.drop (payload.length - 96))

theorem negate_append (m sig : Bytes) (h : sig.length = 96) :
    negate (m ++ sig) = m ++ E384.negSig sig := by
  unfold negate
  have : (m ++ sig).length - 96 = m.length := by rw [List.length_append]; omega
  rw [this, List.take_left, List.drop_left]

theorem negSig_ne (sig : Bytes) (h : sig.length = 96) (h0 : 0 < beNat (sig.drop 48))
    (_ : beNat (sig.drop 48) < p384Order) : E384.negSig sig ≠ sig := by
  intro e
  have e := congrArg (fun l => beNat (l.drop 48)) e
  unfold E384.negSig at e
  rw [List.drop_left' (by rw [List.length_take]; omega), beNat_beBytes] at e
  have hlt : Real.P384.n - beNat (sig.drop 48) < 256 ^ 48 :=
    Nat.lt_of_le_of_lt (Nat.sub_le _ _) E384.n_lt
  rw [Nat.mod_eq_of_lt hlt] at e
  have odd : p384Order % 2 = 1 := by decide
  have : Real.P384.n = p384Order := rfl
  omega

/-- What an accepted token is made of. -/
theorem accepted_raw {P : Prims} {v : Ver} [Payload E] [MessageDecoding E M]
    (t : SecuredToken v .Public F E) (key : Key P v .Public) (i : Bytes)
    (h : t.verifyWithAssertions M P key i ≠ .panic)
    (h' : t.verifyWithAssertions M P key i ≠ .err .cryptoError) :
    ∃ (m : Bytes) (s : BytesN (sigSize v)), t.payload = m ++ s.1 ∧
      verifyRaw P v key.key (Payload.suffix E) m t.encodedFooter i s = .ok true := by
  by_cases hl : t.payload.length < sigSize v
  · exact absurd (verify_short t key i hl) h
  · let m := t.payload.take (t.payload.length - sigSize v)
    let s : BytesN (sigSize v) := ⟨t.payload.drop (t.payload.length - sigSize v), by
      rw [List.length_drop]; omega⟩
    have hp : t.payload = m ++ s.1 := (List.take_append_drop _ _).symm
    refine ⟨m, s, hp, ?_⟩
    rw [verify_split t key i m s hp] at h h'
    cases hr : verifyRaw P v key.key (Payload.suffix E) m t.encodedFooter i s with
    | panic => rw [hr] at h; exact absurd rfl h
    | err e => exact absurd hr (verifyRaw_ne_err _ _ _ _ _ _ _)
    | ok b =>
      cases b with
      | true => rfl
      | false => rw [hr] at h'; exact absurd rfl h'

/-- The scalars of a signature that ECDSA accepts. -/
theorem v3_raw (k : Inner prims .V3 .Public) (h m f i : Bytes) (s : BytesN (sigSize .V3)) :
    verifyRaw prims .V3 k h m f i s = .ok true ↔ p384SigOk s ∧
      Real.P384.verify (Real.xy k) (prims.sha384 (v3PublicPreAuth (prims.p384Compress k).1 h m f i)).1
        s.1 = true := by
  simp only [verifyRaw, p384SigFromBytes]
  by_cases hs : p384SigOk s
  · erw [if_pos hs]
    exact ⟨fun h => ⟨hs, Res.ok.inj h⟩, fun h => congrArg Res.ok h.2⟩
  · erw [if_neg hs]
    constructor
    · intro h; cases h
    · intro h; exact absurd h.1 hs

/-- V3 tokens are malleable: there is a way to change the payload, without any key, such that every
accepted token gives another one, with the same footer, that has the same outcome. -/
theorem v3_malleable : ∃ f : Bytes → Bytes, ∀ (M F E : Type) [Payload E] [MessageDecoding E M]
    (t : SecuredToken .V3 .Public F E) (key : Key prims .V3 .Public) (i : Bytes),
    t.verifyWithAssertions M prims key i ≠ .panic →
    t.verifyWithAssertions M prims key i ≠ .err .cryptoError →
      f t.payload ≠ t.payload ∧
      { t with payload := f t.payload }.verifyWithAssertions M prims key i =
        t.verifyWithAssertions M prims key i := by
  refine ⟨negate, ?_⟩
  intro M F E _ _ t key i h h'
  obtain ⟨m, s, hp, hv⟩ := accepted_raw t key i h h'
  obtain ⟨hok, hver⟩ := (v3_raw _ _ _ _ _ _).1 hv
  obtain ⟨x, y, hn, hrep, _⟩ := E384.rep_xy key.key
  have hl : s.1.length = 96 := s.2
  have hneg := E384.verify_negSig hrep _ s.1 hl hver
  have hl' := negSig_length s.1 hl
  let s' : BytesN (sigSize .V3) := ⟨E384.negSig s.1, hl'⟩
  have hs0 : 0 < beNat (s.1.drop 48) ∧ beNat (s.1.drop 48) < p384Order := hok.2
  have hr := (E384.verify_iff hrep _ _).1 hneg
  have hok' : p384SigOk s' := ⟨hr.1, hr.2.1⟩
  have hf : negate t.payload = m ++ s'.1 := by rw [hp, negate_append m s.1 hl]
  refine ⟨?_, ?_⟩
  · rw [hf, hp]
    intro e
    exact negSig_ne s.1 hl hs0.1 hs0.2 (List.append_cancel_left e)
  · rw [verify_split t key i m s hp, hv,
      verify_split { t with payload := negate t.payload } key i m s' hf]
    rw [(v3_raw key.key (Payload.suffix E) m t.encodedFooter i s').2 ⟨hok', hneg⟩]

/-- The same for texts: beside every accepted V3 token text there is another one with the same
outcome. -/
theorem v3_malleable_text [Payload E] [MessageDecoding E M] [Footer F] (s : Bytes)
    (t : SecuredToken .V3 .Public F E) (key : Key prims .V3 .Public) (i : Bytes)
    (hs : SecuredToken.parse .V3 .Public F E s = .ok t)
    (h : t.verifyWithAssertions M prims key i ≠ .panic)
    (h' : t.verifyWithAssertions M prims key i ≠ .err .cryptoError) :
    ∃ s' t', s' ≠ s ∧ SecuredToken.parse .V3 .Public F E s' = .ok t' ∧ t'.footer = t.footer ∧
      t'.verifyWithAssertions M prims key i = t.verifyWithAssertions M prims key i := by
  obtain ⟨f, hf⟩ := v3_malleable
  obtain ⟨h1, h2⟩ := hf M F E t key i h h'
  obtain ⟨_, h3, h4⟩ := (SecuredToken.parse_ok_iff s t).1 hs
  let t' : SecuredToken .V3 .Public F E := { t with payload := f t.payload }
  have hp : SecuredToken.parse .V3 .Public F E t'.display = .ok t' := by
    rw [SecuredToken.parse_display t' h3]
    show Res.ok { t' with encoding := Payload.default } = _
    rw [← h4]
  refine ⟨t'.display, t', ?_, hp, rfl, h2⟩
  intro e
  rw [e, hs] at hp
  have : t.payload = f t.payload := congrArg SecuredToken.payload (Res.ok.inj hp)
  exact h1 this.symm

/-- An accepted V3 token exists (whenever signing succeeds). -/
example [Payload E] [MessageEncoding E M] [MessageDecoding E M] [Footer F]
    (b : TokenBuilder .V3 .Public M F E) (key : Key prims .V3 .Secret) (i : Bytes)
    (tok : SecuredToken .V3 .Public F E) (hs : b.signWithAssertions prims key i = .ok tok)
    (hc : ∀ m, MessageEncoding.encode b.tok.encoding b.tok.message = .ok m →
      MessageDecoding.decode b.tok.encoding m = .ok b.tok.message) :
    tok.verifyWithAssertions M prims key.publicKey i ≠ .panic ∧
    tok.verifyWithAssertions M prims key.publicKey i ≠ .err .cryptoError := by
  rw [C02.public_roundtrip_direct prims Real.laws b key i tok hs hc]
  exact ⟨by simp, by simp⟩

/-- V4 tokens are not malleable in this way: the second half of the signature is determined by the
rest of the token, the key and the assertion. -/
theorem v4_second_half [Payload E] [MessageDecoding E M] (t t' : SecuredToken .V4 .Public F E)
    (key : Key prims .V4 .Public) (i m R s s' : Bytes) (hR : R.length = 32) (hs : s.length = 32)
    (hs' : s'.length = 32) (hp : t.payload = m ++ R ++ s) (hp' : t'.payload = m ++ R ++ s')
    (hf : t.encodedFooter = t'.encodedFooter)
    (h : t.verifyWithAssertions M prims key i ≠ .err .cryptoError)
    (h' : t'.verifyWithAssertions M prims key i ≠ .err .cryptoError) : s = s' := by
  have key' : ∀ (u : SecuredToken .V4 .Public F E) (z : Bytes) (_ : z.length = 32)
      (_ : u.payload = m ++ R ++ z) (_ : u.verifyWithAssertions M prims key i ≠ .err .cryptoError),
      Real.Ed.verify key.key.1.1 (v4PublicPreAuth (Payload.suffix E) m u.encodedFooter i)
        (R ++ z) = true := by
    intro u z hz hu hv
    let sg : BytesN (sigSize .V4) := ⟨R ++ z, by rw [List.length_append, hR, hz]; rfl⟩
    rw [verify_split u key i m sg (by rw [hu, List.append_assoc])] at hv
    cases e : Real.Ed.verify key.key.1.1 (v4PublicPreAuth (Payload.suffix E) m u.encodedFooter i)
      (R ++ z) with
    | true => rfl
    | false =>
      have : verifyRaw prims .V4 key.key (Payload.suffix E) m u.encodedFooter i sg = .ok false :=
        congrArg Res.ok e
      rw [this] at hv
      exact absurd rfl hv
  have h1 := key' t s hs hp h
  have h2 := key' t' s' hs' hp' h'
  rw [← hf] at h2
  exact E25519.second_half _ _ R s s' hR (hs.trans hs'.symm) h1 h2

/-- A signed token has this shape and is accepted. -/
example (key : Key prims .V4 .Secret) (i : Bytes) :
    ∃ (t : SecuredToken .V4 .Public Bytes Sample.Raw) (m R s : Bytes), R.length = 32 ∧ s.length = 32 ∧
      t.payload = m ++ R ++ s ∧ m ≠ [] ∧
      t.verifyWithAssertions Bytes prims key.publicKey i ≠ .err .cryptoError := by
  let b : TokenBuilder .V4 .Public Bytes Bytes Sample.Raw := ⟨⟨Payload.default, asc "hi", []⟩⟩
  obtain ⟨t, ht⟩ := C02.v4_sign_ok prims b key i (asc "hi") [] rfl rfl
  obtain ⟨m, f, sg, hm, _, _, rfl⟩ := (sign_ok_iff _ _ _ _).1 ht
  have hl : sg.1.length = 64 := sg.2
  have hm' : m = asc "hi" := (Except.ok.inj hm).symm
  have hv := C02.public_roundtrip_direct prims Real.laws b key i _ ht (fun _ h => Except.ok.inj h ▸ rfl)
  refine ⟨⟨b.tok.encoding, m ++ sg.1, f, b.tok.footer⟩, m, sg.1.take 32, sg.1.drop 32, ?_, ?_, ?_,
    ?_, ?_⟩
  · rw [List.length_take, hl]; rfl
  · rw [List.length_drop, hl]
  · rw [List.append_assoc, List.take_append_drop]
  · rw [hm']; decide
  · rw [hv]; simp

end C63

/-! ## C64 -/
namespace C64

variable {M F E : Type}

/-- A public key that the parser takes: the encoding of the neutral element. -/
def weakText : Bytes := asc "k4.public.AQAAAAAAAAAAAAAAAAAAAAAAAAAAAAAAAAAAAAAAAAA"

theorem weakText_eq : weakText = paserkText .V4 (keyTypeText .Public) E25519.weak.1 := by
  decide +kernel

theorem edKey_of {b : BytesN 32} (h : Real.edOk b = true) : Real.edKey b = some ⟨b, h⟩ := by
  unfold Real.edKey
  rw [dif_pos h]

theorem parse_public (b : BytesN 32) (h : Real.edOk b = true) :
    PlaintextKey.parse prims .V4 .Public (paserkText .V4 (keyTypeText .Public) b.1) =
      .ok ⟨⟨⟨b, h⟩⟩⟩ :=
  PlaintextKey.parse_ok_iff.2 ⟨b, rfl, Key.fromBytes_eq_ok.2 (Res.okOr_eq_ok.2 (edKey_of h))⟩

theorem verify_all (key : Key prims .V4 .Public) (sig : BytesN (sigSize .V4))
    (hv : ∀ m, prims.edVerify key.key m sig = true) [Payload E] [MessageDecoding E M]
    (t : SecuredToken .V4 .Public F E) (m i : Bytes) (hp : t.payload = m ++ sig.1) :
    t.verifyWithAssertions M prims key i = match MessageDecoding.decode t.encoding m with
      | .ok x => .ok ⟨t.encoding, x, t.footer⟩
      | .error e => .err (.payloadError e) := by
  rw [verify_split (M := M) t key i m sig hp]
  have : verifyRaw prims .V4 key.key (Payload.suffix E) m t.encodedFooter i sig = .ok true :=
    congrArg Res.ok (hv (v4PublicPreAuth (Payload.suffix E) m t.encodedFooter i))
  rw [this]
  cases (MessageDecoding.decode t.encoding m : Except String M) <;> rfl

/-- The key with that text. -/
def weakKey : Key prims .V4 .Public := ⟨⟨E25519.weak, Real.basePoint_ok⟩⟩

theorem verifies_of (k : Real.EdKey) (sig : BytesN 64) (m : Bytes)
    (h : Real.Ed.verify k.1.1 m sig.1 = true) : prims.edVerify k m sig = true := h

theorem weakKey_verifies (m : Bytes) : prims.edVerify weakKey.key m E25519.weakSig = true :=
  verifies_of _ _ m (E25519.weak_verifies m)

/-- Under the key with that text, anyone can write accepted tokens: one fixed signature is good for
every message, footer, assertion and encoding. -/
theorem weak_key : ∃ pk : Key prims .V4 .Public,
    PlaintextKey.parse prims .V4 .Public weakText = .ok ⟨pk⟩ ∧
    ∃ sig : BytesN 64, ∀ (M F E : Type) [Payload E] [MessageDecoding E M]
      (t : SecuredToken .V4 .Public F E) (m i : Bytes), t.payload = m ++ sig.1 →
      t.verifyWithAssertions M prims pk i = match MessageDecoding.decode t.encoding m with
        | .ok x => .ok ⟨t.encoding, x, t.footer⟩
        | .error e => .err (.payloadError e) := by
  refine ⟨weakKey, ?_, E25519.weakSig, ?_⟩
  · rw [weakText_eq]
    exact parse_public _ _
  · intro M F E _ _ t m i hp
    exact verify_all weakKey E25519.weakSig weakKey_verifies t m i hp

/-- On text: for every message `m` and footer `f` that the receiver can decode, a text that is
accepted under that key with every assertion. -/
theorem weak_key_text [Payload E] [MessageDecoding E M] [Footer F] (m f : Bytes) (x : M) (y : F)
    (hm : MessageDecoding.decode (Payload.default : E) m = .ok x) (hf : Footer.decode f = .ok y) :
    ∃ pk s, PlaintextKey.parse prims .V4 .Public weakText = .ok ⟨pk⟩ ∧ ∀ i,
      (SecuredToken.parse .V4 .Public F E s >>= fun t => t.verifyWithAssertions M prims pk i) =
        .ok ⟨Payload.default, x, y⟩ := by
  obtain ⟨pk, h1, sig, h2⟩ := weak_key
  let t : SecuredToken .V4 .Public F E := ⟨Payload.default, m ++ sig.1, f, y⟩
  refine ⟨pk, t.display, h1, fun i => ?_⟩
  rw [SecuredToken.parse_display t hf]
  show t.verifyWithAssertions M prims pk i = _
  rw [h2 M F E t m i rfl]
  have : MessageDecoding.decode t.encoding m = .ok x := hm
  rw [this]

example : MessageDecoding.decode (Payload.default : Sample.Raw) (asc "admin") = .ok (asc "admin") ∧
    Footer.decode (asc "kid") = .ok (asc "kid") := ⟨rfl, rfl⟩

end C64

/-! ## C65 -/
namespace C65

/-- Different V3 secret keys have different public keys … -/
theorem v3_publicKey_inj (a b : Key prims .V3 .Secret) (h : a.publicKey = b.publicKey) : a = b := by
  cases a; cases b
  exact congrArg Key.mk (E384.public_inj (congrArg Key.key h))

/-- … and so different public key texts. -/
theorem v3_public_text_inj (a b : Key prims .V3 .Secret) (s : Bytes)
    (ha : (⟨a.publicKey⟩ : PlaintextKey prims .V3 .Public).display = .ok s)
    (hb : (⟨b.publicKey⟩ : PlaintextKey prims .V3 .Public).display = .ok s) : a = b := by
  obtain ⟨s1, h1, _, h2⟩ := C25.plaintext_roundtrip Real.laws a.publicKey
  obtain ⟨s3, h3, _, h4⟩ := C25.plaintext_roundtrip Real.laws b.publicKey
  rw [ha] at h1
  rw [hb] at h3
  rw [← Res.ok.inj h1] at h2
  rw [← Res.ok.inj h3, h2] at h4
  exact v3_publicKey_inj a b (congrArg PlaintextKey.key (Res.ok.inj h4))

end C65

/-! ## Counterexamples with the actual algorithms -/

namespace C26

theorem decode_compact (rest : Bytes) (hr : rest.length = 48) :
    Real.P384.decode (5 :: rest) = Real.P384.decode (2 :: rest) := by
  unfold Real.P384.decode
  dsimp only
  rw [hr, if_neg (by decide), if_neg (by decide), if_pos (by decide), if_pos (by decide)]

/-- The exception for V3 public keys is real: every V3 public key with an even `y` has a second text
that parses to it. -/
theorem v3_public_not_canonical (x : PlaintextKey prims .V3 .Public)
    (hx : (prims.p384Compress x.key.key).1.head? = some 2) :
    ∃ s s', s ≠ s' ∧ x.display = .ok s ∧ PlaintextKey.parse prims .V3 .Public s = .ok x ∧
      PlaintextKey.parse prims .V3 .Public s' = .ok x := by
  obtain ⟨s, h1, _, h2⟩ := C25.plaintext_roundtrip Real.laws x.key
  obtain ⟨b, hl, hs, hb⟩ := (v3_public_accepts_iff Real.laws s x).1.1 h2
  have hb2 : b = (prims.p384Compress x.key.key).1 := by
    have h := h1
    rw [PlaintextKey.display_eq, hs] at h
    exact (SecuredToken.base64url_inj (List.append_cancel_left (Res.ok.inj h))).symm
  obtain ⟨rest, rfl⟩ : ∃ rest, b = 2 :: rest := by
    cases b with
    | nil => rw [← hb2] at hx; cases hx
    | cons a r => rw [← hb2] at hx; exact ⟨r, by rw [Option.some.inj hx]⟩
  have hr : rest.length = 48 := by simpa using hl
  refine ⟨s, paserkText .V3 (asc "public") (5 :: rest), ?_, h1, h2, ?_⟩
  · intro e
    rw [hs] at e
    have := SecuredToken.base64url_inj (List.append_cancel_left e)
    simp at this
  · refine (v3_public_accepts_iff Real.laws _ _).1.2 ⟨5 :: rest, by simp [hr], rfl, ?_⟩
    rw [← hb]
    show Real.p384Parse (5 :: rest) = Real.p384Parse (2 :: rest)
    unfold Real.p384Parse
    rw [decode_compact rest hr]

/-- There is such a key. -/
example : ∃ x : PlaintextKey prims .V3 .Public,
    (prims.p384Compress x.key.key).1.head? = some 2 := by
  have h : ((Real.p384Parse (2 :: Real.p384G.1.tail)).any
    fun k => k.1.1.head? == some 2) = true := by decide +kernel
  obtain ⟨k, _, hk⟩ := (Option.any_eq_true _ _).1 h
  exact ⟨⟨⟨k⟩⟩, eq_of_beq hk⟩

end C26

namespace C44

/-- A point of order eight. -/
def low : BytesN 32 :=
  ⟨leBytes 32 0x7a03ac9277fdc74ec6cc392cfa53202a0f67100d760b3cba4fd84d3d706a17c7, by rfl⟩

theorem low_ok : Real.edOk low = true := by decide +kernel

/-- V4 sealing to a public key with a small-order component does not follow the specification: for
this public key (it parses), local key and randomness the printed text differs. -/
theorem v4_seal_refuted : ∃ (key : Key prims .V4 .Local) (pk : Key prims .V4 .Public)
    (s : Bytes) (esk : BytesN 32) (w : SealedKey .V4),
    PlaintextKey.parse prims .V4 .Public s = .ok ⟨pk⟩ ∧ key.sealKey pk (esk.1 ++ []) = .ok (w, []) ∧
      w.display ≠ .ok (paserkText .V4 (asc "seal") (Spec.v4Seal prims esk pk.key key.key.1)) := by
  let pk : Key prims .V4 .Public := ⟨⟨low, low_ok⟩⟩
  let esk : BytesN 32 := BytesN.fill 32 0
  let key : Key prims .V4 .Local := ⟨esk⟩
  have hx : ∃ w, key.sealKey pk (esk.1 ++ []) = .ok (w, []) := by
    rcases C43.seal_outcome key pk (esk.1 ++ []) with ⟨_, w, rng', h⟩ | ⟨h, _⟩
    · obtain ⟨xk, ⟨b, h1, _⟩, _⟩ := (Key.sealKey_ok_iff key pk _ rng' w).1 h
      have := congrArg List.length h1
      simp only [List.length_append, esk.2, b.2, List.length_nil] at this
      have hr : rng' = [] := List.length_eq_zero_iff.1 (by omega)
      exact ⟨w, by rw [h, hr]⟩
    · exact absurd (show 32 ≤ (esk.1 ++ []).length by simp [esk.2]) h
  obtain ⟨w, h⟩ := hx
  refine ⟨key, pk, _, esk, w, C64.parse_public low low_ok, h, ?_⟩
  obtain ⟨xk, ⟨b, h1, rfl, h2⟩, h3, h4⟩ := (Key.sealKey_ok_iff key pk _ [] w).1 h
  have e1 : esk = b := Subtype.ext (by simpa using h1)
  subst e1
  rw [SealedKey.display_eq]
  intro hd
  have hd := SecuredToken.base64url_inj (List.append_cancel_left (Res.ok.inj hd))
  unfold SealedKey.data Spec.v4Seal Spec.sealBytes at hd
  dsimp only at hd
  have hw := (List.append_inj' hd (by
    simp only [Spec.xorStream, w.encryptedDataKey.2, List.length_zipWith, List.length_map,
      List.length_range, key.key.2]
    rfl)).2
  rw [h3, h2] at hw
  revert hw
  decide +kernel

/-- The AES hypothesis of `v3_ctr_deviates` holds for AES. -/
theorem v3_ctr_deviates_aes (key : Key prims .V3 .Local) (pk : Key prims .V3 .Public)
    (rng rng' : Rng) (w : SealedKey .V3) (h : key.sealKey pk rng = .ok (w, rng')) (esk : P384Scalar)
    (he : p384Random rng = .ok (esk, rng'))
    (hc : ¬ CounterOk prims (prims.p384Dh esk pk.key).1 (prims.p384Compress (prims.p384Public esk)).1
          (prims.p384Compress pk.key).1) :
    w.display ≠ .ok (paserkText .V3 (asc "seal") (Spec.v3Seal prims esk pk.key key.key.1)) :=
  v3_ctr_deviates key pk rng rng' w h esk he Real.aes256_injective hc

end C44

namespace C34

/-- The AES hypothesis of `v3_ctr_deviates` holds for AES. -/
theorem v3_ctr_deviates_aes {k : WKind} (key : Key prims .V3 k.kind) (wk : Key prims .V3 .Local)
    (rng rng' : Rng) (w : PieWrappedKey .V3 k) (h : key.wrapPie wk rng = .ok (w, rng'))
    (hc : ¬ CounterOk prims wk.key (rng.take 32) (Spec.keyBytes .V3 k.kind) .V3) :
    w.display ≠ .ok (paserkText .V3 (pieType k.kind)
      (Spec.pieWrap prims .V3 k.kind wk.key (rng.take 32) key.toBytes.1)) :=
  v3_ctr_deviates key wk rng rng' w h Real.aes256_injective hc

end C34

namespace C38

/-- With the actual algorithms the deviation is reached, whatever the key, password, settings and
salt: when the nonce drawn is all ones, the printed text is not the specification's. -/
theorem v3_ctr_reached {k : WKind} (key : Key prims .V3 k.kind) (pw : Bytes) (st : Pbkdf2State)
    (salt : BytesN 32) (r rng' : Rng) (w : PwWrappedKey .V3 k)
    (h : key.pwWrapWithSettings pw st (salt.1 ++ (BytesN.fill 16 0xff).1 ++ r) = .ok (w, rng')) :
    w.display ≠ .ok (paserkText .V3 (pwType k.kind) (Spec.pwWrap prims k.kind pw salt.1
      (.pbkdf2 st.iterations) (BytesN.fill 16 0xff) key.toBytes.1)) :=
  v3_ctr_deviates key pw st salt _ r rng' w h Real.aes256_injective
    (by cases k <;> decide +kernel)

end C38

namespace C46

/-- With the actual algorithms: a text that parses and makes every V3 unsealing panic. -/
theorem panic_text : ∃ s w, SealedKey.parse .V3 s = .ok w ∧
    ∀ sk : Key prims .V3 .Secret, w.unsealKey prims sk = .panic :=
  no_panic_refuted prims (BytesN.fill 49 0) (by decide +kernel)

end C46
end Pasta
