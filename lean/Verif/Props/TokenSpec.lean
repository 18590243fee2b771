import Verif.Lemmas.Public
import Verif.Lemmas.Ctr
import Verif.Props.Samples

/-!
# C03, C04, C20: tokens are those of the PASETO specification
-/

namespace Pasta

open Spec (header tokenText Fits xorStream)

/-- The bytes hold `Fits` unless stated; a token's parts all exist in memory. -/
structure PartsFit (h m f i : Bytes) : Prop where
  header : Fits h
  message : Fits m
  footer : Fits f
  implicit : Fits i

/-! ## C03 -/
namespace C03

variable {v : Ver} {M F E : Type}

/-- No carry out of the low half of the CTR nonce while encrypting `len` bytes (V3); V4 has no such
condition. The nonce is the last 16 bytes of the specification's derived key material. -/
def CounterOk (P : Prims) (k : BytesN 32) (n : Bytes) (len : Nat) : Ver → Prop
  | .V3 => beNat ((Spec.v3EncKey P k n).2.1.drop 8) + (len + 15) / 16 ≤ 2 ^ 64
  | .V4 => True

theorem codeStream_eq (P : Prims) (k : BytesN 32) (n : Bytes) (len i : Nat) (hi : i < len)
    (h : CounterOk P k n len v) : codeStream P v k n i = Spec.localStream P v k n .be128 i := by
  cases v
  · simp only [CounterOk] at h
    exact aesCtr64_eq P _ _ i (by omega)
  · rfl

theorem applyKeystream_code (P : Prims) (k : BytesN 32) (n m : Bytes)
    (h : CounterOk P k n m.length v) :
    applyKeystream (codeStream P v k n) m = xorStream m (Spec.localStream P v k n) := by
  rw [applyKeystream_eq_xorStream]
  exact xorStream_congr fun i hi => codeStream_eq P k n m.length i hi h

theorem localEncrypt_eq (P : Prims) (k : BytesN 32) (h n m f i : Bytes) (ctr : Spec.Counter) :
    Spec.localEncrypt P v k h n m f i ctr =
      n ++ xorStream m (Spec.localStream P v k n ctr) ++
        Spec.localTag P v k h n (xorStream m (Spec.localStream P v k n ctr)) f i := by
  cases v <;> rfl

theorem xorStream_length (m : Bytes) (ks : Nat → UInt8) : (xorStream m ks).length = m.length := by
  simp [xorStream]

/-- The key stream of the code is the specification's with the 64-bit counter. -/
theorem codeStream_be64 (P : Prims) (k : BytesN 32) (n : Bytes) :
    codeStream P v k n = Spec.localStream P v k n .be64 := by
  cases v <;> rfl

theorem encrypt_be64 (P : Prims) [Payload E] [MessageEncoding E M] [Footer F]
    (b : TokenBuilder v .Local M F E) (key : Key P v .Local) (i : Bytes) (rng rng' : Rng)
    (tok : SecuredToken v .Local F E)
    (henc : b.encryptWithAssertionsAndRng P key i rng = .ok (tok, rng'))
    (m f : Bytes) (hm : MessageEncoding.encode b.tok.encoding b.tok.message = .ok m)
    (hf : Footer.encode b.tok.footer = some f)
    (hfit : PartsFit (header v .Local (Payload.suffix E)) m f i) :
    tok.display = tokenText (header v .Local (Payload.suffix E))
      (Spec.localEncrypt P v key.key (header v .Local (Payload.suffix E)) (rng.take 32) m f i .be64)
      f := by
  obtain ⟨n, m', f', hn, rfl, hm', hf', rfl⟩ := (encrypt_ok_iff _ _ _ _ _ _).1 henc
  have e1 : m' = m := by rw [hm] at hm'; simpa using hm'.symm
  have e2 : f' = f := by rw [hf] at hf'; simpa using hf'.symm
  subst e1; subst e2
  have e3 : (n ++ rng').take 32 = n := by simp [← hn]
  rw [e3, SecuredToken.display_eq, localEncrypt_eq]
  simp only
  rw [applyKeystream_eq_xorStream, codeStream_be64,
    localPreAuth_eq hfit.header (by simp [Fits, hn])
    (by have := hfit.message; simpa [Fits, xorStream_length] using this) hfit.footer hfit.implicit]
  rfl

/-- The payloads with the two counters are the same iff the key streams agree on the message. -/
theorem localEncrypt_be64_iff (P : Prims) (k : BytesN 32) (h n m f i : Bytes) :
    Spec.localEncrypt P v k h n m f i .be64 = Spec.localEncrypt P v k h n m f i ↔
      ∀ j < m.length, Spec.localStream P v k n .be64 j = Spec.localStream P v k n .be128 j := by
  rw [localEncrypt_eq, localEncrypt_eq, ← xorStream_eq_iff]
  constructor
  · intro he
    rw [List.append_assoc, List.append_assoc] at he
    exact (List.append_inj (List.append_cancel_left he) (by simp [xorStream_length])).1
  · intro he
    rw [he]

theorem localStream_be64_eq (P : Prims) (k : BytesN 32) (n : Bytes) (len : Nat)
    (h : CounterOk P k n len v) (j : Nat) (hj : j < len) :
    Spec.localStream P v k n .be64 j = Spec.localStream P v k n .be128 j := by
  rw [← codeStream_be64, codeStream_eq P k n len j hj h]

theorem tokenText_inj (h a b f : Bytes) (he : tokenText h a f = tokenText h b f) : a = b := by
  unfold tokenText at he
  split at he
  · exact SecuredToken.base64url_inj (List.append_cancel_left he)
  · exact SecuredToken.base64url_inj
      (List.append_cancel_left (List.append_cancel_right (List.append_cancel_right he)))

/-- V4: the printed token is the specification's, for every key, RNG output, message, footer and
assertion. -/
theorem v4_encrypt (P : Prims) [Payload E] [MessageEncoding E M] [Footer F]
    (b : TokenBuilder .V4 .Local M F E) (key : Key P .V4 .Local) (i : Bytes) (rng rng' : Rng)
    (tok : SecuredToken .V4 .Local F E)
    (henc : b.encryptWithAssertionsAndRng P key i rng = .ok (tok, rng'))
    (m f : Bytes) (hm : MessageEncoding.encode b.tok.encoding b.tok.message = .ok m)
    (hf : Footer.encode b.tok.footer = some f)
    (hfit : PartsFit (header .V4 .Local (Payload.suffix E)) m f i) :
    tok.display = tokenText (header .V4 .Local (Payload.suffix E))
      (Spec.localEncrypt P .V4 key.key (header .V4 .Local (Payload.suffix E)) (rng.take 32) m f i)
      f :=
  encrypt_be64 P b key i rng rng' tok henc m f hm hf hfit

/-- V3: the printed token is the specification's with the counter of CTR mode in the last 64 bits of
the nonce, for every key, RNG output, message, footer and assertion. -/
theorem v3_encrypt (P : Prims) [Payload E] [MessageEncoding E M] [Footer F]
    (b : TokenBuilder .V3 .Local M F E) (key : Key P .V3 .Local) (i : Bytes) (rng rng' : Rng)
    (tok : SecuredToken .V3 .Local F E)
    (henc : b.encryptWithAssertionsAndRng P key i rng = .ok (tok, rng'))
    (m f : Bytes) (hm : MessageEncoding.encode b.tok.encoding b.tok.message = .ok m)
    (hf : Footer.encode b.tok.footer = some f)
    (hfit : PartsFit (header .V3 .Local (Payload.suffix E)) m f i) :
    tok.display = tokenText (header .V3 .Local (Payload.suffix E))
      (Spec.localEncrypt P .V3 key.key (header .V3 .Local (Payload.suffix E)) (rng.take 32) m f i
        .be64) f :=
  encrypt_be64 P b key i rng rng' tok henc m f hm hf hfit

/-- V3: so it is the standard's token (128-bit counter) exactly when the two key streams agree on the
bytes of the message. -/
theorem v3_standard_iff (P : Prims) [Payload E] [MessageEncoding E M] [Footer F]
    (b : TokenBuilder .V3 .Local M F E) (key : Key P .V3 .Local) (i : Bytes) (rng rng' : Rng)
    (tok : SecuredToken .V3 .Local F E)
    (henc : b.encryptWithAssertionsAndRng P key i rng = .ok (tok, rng'))
    (m f : Bytes) (hm : MessageEncoding.encode b.tok.encoding b.tok.message = .ok m)
    (hf : Footer.encode b.tok.footer = some f)
    (hfit : PartsFit (header .V3 .Local (Payload.suffix E)) m f i) :
    tok.display = tokenText (header .V3 .Local (Payload.suffix E))
        (Spec.localEncrypt P .V3 key.key (header .V3 .Local (Payload.suffix E)) (rng.take 32) m f i) f ↔
      ∀ j < m.length, Spec.localStream P .V3 key.key (rng.take 32) .be64 j =
        Spec.localStream P .V3 key.key (rng.take 32) .be128 j := by
  rw [v3_encrypt P b key i rng rng' tok henc m f hm hf hfit, ← localEncrypt_be64_iff]
  exact ⟨tokenText_inj _ _ _ _, fun h => by rw [h]⟩

/-- V3: in particular it is the standard's token when the last 64 bits of the CTR nonce plus the number
of blocks do not overflow. -/
theorem v3_encrypt_standard (P : Prims) [Payload E] [MessageEncoding E M] [Footer F]
    (b : TokenBuilder .V3 .Local M F E) (key : Key P .V3 .Local) (i : Bytes) (rng rng' : Rng)
    (tok : SecuredToken .V3 .Local F E)
    (henc : b.encryptWithAssertionsAndRng P key i rng = .ok (tok, rng'))
    (m f : Bytes) (hm : MessageEncoding.encode b.tok.encoding b.tok.message = .ok m)
    (hf : Footer.encode b.tok.footer = some f)
    (hfit : PartsFit (header .V3 .Local (Payload.suffix E)) m f i)
    (hctr : beNat ((Spec.v3EncKey P key.key (rng.take 32)).2.1.drop 8) + (m.length + 15) / 16
      ≤ 2 ^ 64) :
    tok.display = tokenText (header .V3 .Local (Payload.suffix E))
      (Spec.localEncrypt P .V3 key.key (header .V3 .Local (Payload.suffix E)) (rng.take 32) m f i)
      f :=
  (v3_standard_iff P b key i rng rng' tok henc m f hm hf hfit).2
    (localStream_be64_eq P key.key (rng.take 32) m.length hctr)

/-- V3 when the counter does carry within a full block of the message: the printed token is *not*
the specification's (for an injective block cipher, as AES is). -/
theorem v3_ctr_deviates (P : Prims) [Payload E] [MessageEncoding E M] [Footer F]
    (b : TokenBuilder .V3 .Local M F E) (key : Key P .V3 .Local) (i : Bytes) (rng rng' : Rng)
    (tok : SecuredToken .V3 .Local F E)
    (henc : b.encryptWithAssertionsAndRng P key i rng = .ok (tok, rng'))
    (m f : Bytes) (hm : MessageEncoding.encode b.tok.encoding b.tok.message = .ok m)
    (hf : Footer.encode b.tok.footer = some f) (hfm : Fits m)
    (haes : ∀ x y, P.aes256 (Spec.v3EncKey P key.key (rng.take 32)).1 x =
      P.aes256 (Spec.v3EncKey P key.key (rng.take 32)).1 y → x = y)
    (j : Nat) (hj : 16 * (j + 1) ≤ m.length)
    (hctr : 2 ^ 64 ≤ beNat ((Spec.v3EncKey P key.key (rng.take 32)).2.1.drop 8) + j) :
    tok.display ≠ tokenText (header .V3 .Local (Payload.suffix E))
      (Spec.localEncrypt P .V3 key.key (header .V3 .Local (Payload.suffix E)) (rng.take 32) m f i)
      f := by
  obtain ⟨n, m', f', hn, rfl, hm', hf', rfl⟩ := (encrypt_ok_iff _ _ _ _ _ _).1 henc
  have e1 : m' = m := by rw [hm] at hm'; simpa using hm'.symm
  have e2 : f' = f := by rw [hf] at hf'; simpa using hf'.symm
  subst e1; subst e2
  have e3 : (n ++ rng').take 32 = n := by simp [← hn]
  rw [e3] at hctr haes ⊢
  unfold Fits at hfm
  obtain ⟨p, hp, hne⟩ := aesCtr64_ne P _ _ haes j (by omega) hctr
  intro h
  rw [SecuredToken.display_eq, localEncrypt_eq] at h
  simp only at h
  have hpl : ∀ a b f : Bytes, ∀ hd : Bytes, tokenText hd a f = tokenText hd b f → a = b := by
    intro a b f hd hh
    unfold tokenText at hh
    split at hh
    · exact SecuredToken.base64url_inj (List.append_cancel_left hh)
    · have := List.append_cancel_right (List.append_cancel_right hh)
      exact SecuredToken.base64url_inj (List.append_cancel_left this)
  have h2 := hpl _ _ _ _ h
  simp only [List.append_assoc] at h2
  have h3 := List.append_cancel_left h2
  have h4 := (List.append_inj h3 (by rw [applyKeystream_length, xorStream_length])).1
  rw [applyKeystream_eq_xorStream, xorStream_eq_iff] at h4
  exact hne (h4 p (by omega))

/-- Decryption, seen from the specification: what the code returns for a payload, in both versions.
(`V3` plaintexts are described with the code's key stream; see `v3_decrypt`.) -/
theorem decrypt_aux (P : Prims) [Payload E] [MessageDecoding E M]
    (t : SecuredToken v .Local F E) (key : Key P v .Local) (i : Bytes)
    (hfit : PartsFit (header v .Local (Payload.suffix E)) t.payload t.encodedFooter i) (n c g : Bytes)
    (hp : t.payload = n ++ c ++ g) (hn : n.length = 32) (hg : g.length = tagSize v) :
    t.decryptWithAssertions M P key i =
      if g = Spec.localTag P v key.key (header v .Local (Payload.suffix E)) n c t.encodedFooter i then
        (Res.ofExcept (MessageDecoding.decode t.encoding
          (applyKeystream (codeStream P v key.key n) c)) >>= fun message =>
          .ok { encoding := t.encoding, message, footer := t.footer })
      else .err .cryptoError := by
  have hl := hfit.message
  unfold Fits at hl
  rw [hp] at hl
  simp only [List.length_append] at hl
  rw [decrypt_split t key i n c g hp hn hg, localPreAuth_eq hfit.header (by unfold Fits; omega)
    (by unfold Fits; omega) hfit.footer hfit.implicit]
  rfl

/-- Both versions: decryption gets past authentication exactly on the payloads the specification
accepts. -/
theorem decrypt_accepts_iff (P : Prims) [Payload E] [MessageDecoding E M]
    (t : SecuredToken v .Local F E) (key : Key P v .Local) (i : Bytes)
    (hfit : PartsFit (header v .Local (Payload.suffix E)) t.payload t.encodedFooter i) :
    (t.decryptWithAssertions M P key i ≠ .err .cryptoError ∧
      t.decryptWithAssertions M P key i ≠ .panic) ↔
    Spec.LocalAuthentic P v key.key (header v .Local (Payload.suffix E)) t.payload
      t.encodedFooter i := by
  unfold Spec.LocalAuthentic
  by_cases hs : 32 + tagSize v ≤ t.payload.length
  · obtain ⟨n, c, g, hp, hn, hg⟩ := payload_split v t.payload hs
    rw [decrypt_aux P t key i hfit n c g hp hn hg]
    split
    · rename_i he
      simp only [ne_eq, Res.bind_eq_err, Res.ofExcept_eq_err, reduceCtorEq, and_false, exists_false,
        or_self, not_false_eq_true, Res.bind_eq_panic, Res.ofExcept_ne_panic, and_self, true_iff]
      exact ⟨n, c, hn, by rw [hp, ← he]⟩
    · rename_i he
      simp only [ne_eq, not_true_eq_false, false_and, false_iff]
      rintro ⟨n', c', hn', hp'⟩
      rw [hp, List.append_assoc, List.append_assoc] at hp'
      obtain ⟨rfl, h2⟩ := List.append_inj hp' (hn.trans hn'.symm)
      obtain ⟨rfl, h3⟩ := List.append_inj' h2 (by rw [hg, localTag_length, tagSize_eq])
      exact he h3
  · rw [decrypt_short t key i (by omega)]
    simp only [ne_eq, not_true_eq_false, and_false, false_iff]
    rintro ⟨n', c', hn', hp'⟩
    have := congrArg List.length hp'
    simp only [List.length_append, localTag_length, hn', ← tagSize_eq] at this
    omega

theorem decrypt_ok_aux (P : Prims) [Payload E] [MessageDecoding E M]
    (t : SecuredToken v .Local F E) (key : Key P v .Local) (i : Bytes)
    (hfit : PartsFit (header v .Local (Payload.suffix E)) t.payload t.encodedFooter i)
    (out : ValidatedToken v .Local M F E) :
    t.decryptWithAssertions M P key i = .ok out ↔
      ∃ n c, n.length = 32 ∧
        t.payload = n ++ c ++ Spec.localTag P v key.key (header v .Local (Payload.suffix E)) n c
          t.encodedFooter i ∧
        MessageDecoding.decode t.encoding (applyKeystream (codeStream P v key.key n) c) =
          .ok out.message ∧
        out.footer = t.footer ∧ out.encoding = t.encoding := by
  constructor
  · intro h
    by_cases hs : 32 + tagSize v ≤ t.payload.length
    · obtain ⟨n, c, g, hp, hn, hg⟩ := payload_split v t.payload hs
      rw [decrypt_aux P t key i hfit n c g hp hn hg] at h
      split at h
      · rename_i he
        obtain ⟨a, h1, h2⟩ := Res.bind_eq_ok.1 h
        rw [Res.ofExcept_eq_ok] at h1
        simp only [Res.ok.injEq] at h2
        subst h2
        exact ⟨n, c, hn, by rw [hp, ← he], h1, rfl, rfl⟩
      · simp at h
    · rw [decrypt_short t key i (by omega)] at h
      simp at h
  · rintro ⟨n, c, hn, hp, hd, hf, he⟩
    rw [decrypt_aux P t key i hfit n c _ hp hn (by rw [localTag_length, tagSize_eq]), if_pos rfl, hd]
    cases out
    simp_all

theorem decrypt_be64 (P : Prims) [Payload E] [MessageDecoding E M]
    (t : SecuredToken v .Local F E) (key : Key P v .Local) (i : Bytes)
    (hfit : PartsFit (header v .Local (Payload.suffix E)) t.payload t.encodedFooter i)
    (out : ValidatedToken v .Local M F E) :
    t.decryptWithAssertions M P key i = .ok out ↔
      ∃ m, Spec.LocalDecrypts P v key.key (header v .Local (Payload.suffix E)) t.payload
          t.encodedFooter i m .be64 ∧
        MessageDecoding.decode t.encoding m = .ok out.message ∧
        out.footer = t.footer ∧ out.encoding = t.encoding := by
  rw [decrypt_ok_aux P t key i hfit]
  constructor
  · rintro ⟨n, c, hn, hp, hd, hf⟩
    refine ⟨_, ⟨n, c, hn, hp, rfl⟩, ?_, hf⟩
    rw [← codeStream_be64, ← applyKeystream_eq_xorStream]; exact hd
  · rintro ⟨m, ⟨n, c, hn, hp, rfl⟩, hd, hf⟩
    refine ⟨n, c, hn, hp, ?_, hf⟩
    rw [applyKeystream_eq_xorStream, codeStream_be64]; exact hd

/-- V4: decryption returns a value exactly when the specification's decryption yields a plaintext
that the payload decoder maps to that value. -/
theorem v4_decrypt (P : Prims) [Payload E] [MessageDecoding E M]
    (t : SecuredToken .V4 .Local F E) (key : Key P .V4 .Local) (i : Bytes)
    (hfit : PartsFit (header .V4 .Local (Payload.suffix E)) t.payload t.encodedFooter i)
    (out : ValidatedToken .V4 .Local M F E) :
    t.decryptWithAssertions M P key i = .ok out ↔
      ∃ m, Spec.LocalDecrypts P .V4 key.key (header .V4 .Local (Payload.suffix E)) t.payload
          t.encodedFooter i m ∧
        MessageDecoding.decode t.encoding m = .ok out.message ∧
        out.footer = t.footer ∧ out.encoding = t.encoding :=
  decrypt_be64 P t key i hfit out

/-- V3: the same with the specification's decryption that counts in the last 64 bits of the nonce. -/
theorem v3_decrypt (P : Prims) [Payload E] [MessageDecoding E M]
    (t : SecuredToken .V3 .Local F E) (key : Key P .V3 .Local) (i : Bytes)
    (hfit : PartsFit (header .V3 .Local (Payload.suffix E)) t.payload t.encodedFooter i)
    (out : ValidatedToken .V3 .Local M F E) :
    t.decryptWithAssertions M P key i = .ok out ↔
      ∃ m, Spec.LocalDecrypts P .V3 key.key (header .V3 .Local (Payload.suffix E)) t.payload
          t.encodedFooter i m .be64 ∧
        MessageDecoding.decode t.encoding m = .ok out.message ∧
        out.footer = t.footer ∧ out.encoding = t.encoding :=
  decrypt_be64 P t key i hfit out

/-- V3: and so with the standard's decryption when the counter does not overflow. -/
theorem v3_decrypt_standard (P : Prims) [Payload E] [MessageDecoding E M]
    (t : SecuredToken .V3 .Local F E) (key : Key P .V3 .Local) (i : Bytes)
    (hfit : PartsFit (header .V3 .Local (Payload.suffix E)) t.payload t.encodedFooter i)
    (hctr : beNat ((Spec.v3EncKey P key.key (t.payload.take 32)).2.1.drop 8) +
      (t.payload.length - 80 + 15) / 16 ≤ 2 ^ 64)
    (out : ValidatedToken .V3 .Local M F E) :
    t.decryptWithAssertions M P key i = .ok out ↔
      ∃ m, Spec.LocalDecrypts P .V3 key.key (header .V3 .Local (Payload.suffix E)) t.payload
          t.encodedFooter i m ∧
        MessageDecoding.decode t.encoding m = .ok out.message ∧
        out.footer = t.footer ∧ out.encoding = t.encoding := by
  have hk : ∀ n c : Bytes, n.length = 32 →
      t.payload = n ++ c ++ Spec.localTag P .V3 key.key (header .V3 .Local (Payload.suffix E)) n c
          t.encodedFooter i → CounterOk P key.key n c.length .V3 := by
    intro n c hn hp
    have e1 : t.payload.take 32 = n := by rw [hp]; simp [← hn]
    have e2 : t.payload.length = 32 + c.length + 48 := by
      rw [hp]; simp only [List.length_append, localTag_length, Spec.tagLen, hn]
    rw [e1, e2] at hctr
    simp only [CounterOk]
    rw [show 32 + c.length + 48 - 80 = c.length by omega] at hctr
    exact hctr
  rw [decrypt_ok_aux P t key i hfit]
  constructor
  · rintro ⟨n, c, hn, hp, hd, hf⟩
    refine ⟨_, ⟨n, c, hn, hp, rfl⟩, ?_, hf⟩
    rw [← applyKeystream_code P key.key n c (v := .V3) (hk n c hn hp)]; exact hd
  · rintro ⟨m, ⟨n, c, hn, hp, rfl⟩, hd, hf⟩
    refine ⟨n, c, hn, hp, ?_, hf⟩
    rw [applyKeystream_code P key.key n c (v := .V3) (hk n c hn hp)]; exact hd

/-- The hypotheses are met (V3 and V4), with a non-empty message, footer and assertion. -/
example (v : Ver) : ∃ (tok : SecuredToken v .Local Bytes Sample.Raw) (rng' : Rng),
    (Sample.builder v .Local Sample.Raw).encryptWithAssertionsAndRng Toy.prims (Toy.localKey v)
      (asc "ia") Toy.tape = .ok (tok, rng') ∧
    PartsFit (header v .Local (Payload.suffix Sample.Raw)) (asc "hello") (asc "kid") (asc "ia") ∧
    CounterOk Toy.prims (Toy.localKey v).key (Toy.tape.take 32) (asc "hello").length v := by
  refine ⟨_, _, (encrypt_ok_iff (Sample.builder v .Local Sample.Raw) (Toy.localKey v) (asc "ia")
    Toy.tape (Toy.tape.drop 32) _).2 ⟨Toy.tape.take 32, asc "hello", asc "kid",
      by simp [Toy.tape_length], by simp, rfl, rfl, rfl⟩, ⟨?_, ?_, ?_, ?_⟩, ?_⟩
  · cases v <;> (unfold Fits; decide)
  · unfold Fits; decide
  · unfold Fits; decide
  · unfold Fits; decide
  · cases v
    · simp only [CounterOk]; decide +kernel
    · trivial

/-- Primitives whose HKDF gives the all-ones CTR nonce, and the toy (injective) block cipher: the
counter carries in block 1 of a 32-byte message, so `v3_ctr_deviates` applies. -/
def onesPrims : Prims := { Toy.prims with hkdfSha384 := fun n _ _ => BytesN.fill n 0xff }

example : ∃ (key : Key onesPrims .V3 .Local) (b : TokenBuilder .V3 .Local Bytes Bytes Sample.Raw)
    (tok : SecuredToken .V3 .Local Bytes Sample.Raw) (rng' : Rng) (m f : Bytes) (j : Nat),
    b.encryptWithAssertionsAndRng onesPrims key [] Toy.tape = .ok (tok, rng') ∧
    MessageEncoding.encode b.tok.encoding b.tok.message = .ok m ∧
    Footer.encode b.tok.footer = some f ∧ Fits m ∧
    (∀ x y, onesPrims.aes256 (Spec.v3EncKey onesPrims key.key (Toy.tape.take 32)).1 x =
      onesPrims.aes256 (Spec.v3EncKey onesPrims key.key (Toy.tape.take 32)).1 y → x = y) ∧
    16 * (j + 1) ≤ m.length ∧
    2 ^ 64 ≤ beNat ((Spec.v3EncKey onesPrims key.key (Toy.tape.take 32)).2.1.drop 8) + j := by
  have henc := (encrypt_ok_iff (P := onesPrims) (v := .V3)
    (⟨{ encoding := ⟨⟩, message := List.replicate 32 7, footer := asc "kid" }⟩ :
      TokenBuilder .V3 .Local Bytes Bytes Sample.Raw) ⟨Toy.key32⟩ [] Toy.tape (Toy.tape.drop 32) _).2
    ⟨Toy.tape.take 32, List.replicate 32 7, asc "kid", by simp [Toy.tape_length], by simp, rfl, rfl,
      rfl⟩
  refine ⟨_, _, _, _, List.replicate 32 7, asc "kid", 1, henc, rfl, rfl, by unfold Fits; decide,
    ?_, by decide, by decide +kernel⟩
  intro x y h
  apply Subtype.ext
  apply Sample.zipWith_xor_inj x.1 y.1 ((Spec.v3EncKey onesPrims ⟨Toy.key32.1, rfl⟩
    (Toy.tape.take 32)).1.1.take 16)
  · simp [x.2, (Spec.v3EncKey onesPrims ⟨Toy.key32.1, rfl⟩ (Toy.tape.take 32)).1.2]
  · simp [y.2, (Spec.v3EncKey onesPrims ⟨Toy.key32.1, rfl⟩ (Toy.tape.take 32)).1.2]
  · exact congrArg Subtype.val h

end C03

/-! ## C04 -/
namespace C04

variable {v : Ver} {M F E : Type}

/-- Both versions: the printed token is the specification's. -/
theorem sign_spec (P : Prims) [Payload E] [MessageEncoding E M] [Footer F]
    (b : TokenBuilder v .Public M F E) (key : Key P v .Secret) (i : Bytes)
    (tok : SecuredToken v .Public F E) (hsign : b.signWithAssertions P key i = .ok tok)
    (m f : Bytes) (hm : MessageEncoding.encode b.tok.encoding b.tok.message = .ok m)
    (hf : Footer.encode b.tok.footer = some f)
    (hfit : PartsFit (header v .Public (Payload.suffix E)) m f i) :
    ∃ payload, Spec.publicSign P v key.key (header v .Public (Payload.suffix E)) m f i =
        some payload ∧
      tok.display = tokenText (header v .Public (Payload.suffix E)) payload f := by
  obtain ⟨m', f', s, hm', hf', hs, rfl⟩ := (sign_ok_iff _ _ _ _).1 hsign
  have e1 : m' = m := by rw [hm] at hm'; simpa using hm'.symm
  have e2 : f' = f := by rw [hf] at hf'; simpa using hf'.symm
  subst e1; subst e2
  refine ⟨m' ++ s.1, ?_, SecuredToken.display_eq _⟩
  simp only [Spec.publicSign]
  rw [signRaw_ok hs hfit.header hfit.message hfit.footer hfit.implicit]
  rfl

theorem sigValid_length (P : Prims) (pk : Inner P v .Public) (h m f i sig : Bytes)
    (hv : Spec.sigValid P v pk h m f i sig) : sig.length = sigSize v := by
  cases v
  · obtain ⟨s, rfl, _⟩ := hv; exact s.2
  · obtain ⟨s, rfl, _⟩ := hv; exact s.2

/-- Verification returns a value exactly when the specification's verification accepts and the
payload decoder maps the signed message to that value. -/
theorem verify_spec (P : Prims) [Payload E] [MessageDecoding E M]
    (t : SecuredToken v .Public F E) (key : Key P v .Public) (i : Bytes)
    (hfit : PartsFit (header v .Public (Payload.suffix E)) t.payload t.encodedFooter i)
    (out : ValidatedToken v .Public M F E) :
    t.verifyWithAssertions M P key i = .ok out ↔
      ∃ m, Spec.PublicVerifies P v key.key (header v .Public (Payload.suffix E)) t.payload
          t.encodedFooter i m ∧
        MessageDecoding.decode t.encoding m = .ok out.message ∧
        out.footer = t.footer ∧ out.encoding = t.encoding := by
  have hl := hfit.message
  constructor
  · intro h
    by_cases hs : sigSize v ≤ t.payload.length
    · obtain ⟨m, s, hp⟩ := public_payload_split (sigSize v) t.payload hs
      rw [verify_split t key i m s hp] at h
      obtain ⟨b, hb, h⟩ := Res.bind_eq_ok.1 h
      split at h
      · rename_i hbt
        subst hbt
        obtain ⟨a, h1, h2⟩ := Res.bind_eq_ok.1 h
        rw [Res.ofExcept_eq_ok] at h1
        simp only [Res.ok.injEq] at h2
        subst h2
        rw [verifyRaw_true key.key s hfit.header
          (by unfold Fits at hl ⊢; rw [hp] at hl; simp at hl; omega) hfit.footer hfit.implicit] at hb
        exact ⟨m, ⟨s.1, hp, hb⟩, h1, rfl, rfl⟩
      · simp at h
    · rw [verify_short t key i (by omega)] at h
      simp at h
  · rintro ⟨m, ⟨sig, hp, hv⟩, hd, hf, he⟩
    have hlen := sigValid_length P _ _ _ _ _ _ hv
    rw [verify_split t key i m ⟨sig, hlen⟩ hp,
      (verifyRaw_true key.key ⟨sig, hlen⟩ hfit.header
        (by unfold Fits at hl ⊢; rw [hp] at hl; simp at hl; omega) hfit.footer hfit.implicit).2 hv]
    simp only [Res.ok_bind, if_true, hd, Res.ofExcept_ok]
    cases out
    simp_all

/-- Verification gets past authentication exactly on the payloads the specification accepts. -/
theorem verify_accepts_iff (P : Prims) [Payload E] [MessageDecoding E M]
    (t : SecuredToken v .Public F E) (key : Key P v .Public) (i : Bytes)
    (hfit : PartsFit (header v .Public (Payload.suffix E)) t.payload t.encodedFooter i) :
    (t.verifyWithAssertions M P key i ≠ .err .cryptoError ∧
      t.verifyWithAssertions M P key i ≠ .panic) ↔
    ∃ m, Spec.PublicVerifies P v key.key (header v .Public (Payload.suffix E)) t.payload
      t.encodedFooter i m := by
  have hl := hfit.message
  constructor
  · intro h
    by_cases hs : sigSize v ≤ t.payload.length
    · obtain ⟨m, s, hp⟩ := public_payload_split (sigSize v) t.payload hs
      rw [verify_split t key i m s hp] at h
      refine ⟨m, s.1, hp, ?_⟩
      rw [← verifyRaw_true key.key s hfit.header
        (by unfold Fits at hl ⊢; rw [hp] at hl; simp at hl; omega) hfit.footer hfit.implicit]
      cases hv : verifyRaw P v key.key (Payload.suffix E) m t.encodedFooter i s with
      | ok b =>
        rw [hv] at h
        cases b
        · simp at h
        · rfl
      | err e => exact absurd hv (verifyRaw_ne_err _ _ _ _ _ _ _)
      | panic => rw [hv] at h; simp at h
    · rw [verify_short t key i (by omega)] at h
      simp at h
  · rintro ⟨m, sig, hp, hv⟩
    have hlen := sigValid_length P _ _ _ _ _ _ hv
    rw [verify_split t key i m ⟨sig, hlen⟩ hp,
      (verifyRaw_true key.key ⟨sig, hlen⟩ hfit.header
        (by unfold Fits at hl ⊢; rw [hp] at hl; simp at hl; omega) hfit.footer hfit.implicit).2 hv]
    simp [Res.bind_eq_err, Res.ofExcept_eq_err, Res.bind_eq_panic, Res.ofExcept_ne_panic]

/-- The hypotheses are met in both versions, and a genuine token is accepted by the specification. -/
example (v : Ver) (key : Key Toy.prims v .Secret) : ∃ tok,
    (Sample.builder v .Public Sample.Raw).signWithAssertions Toy.prims key (asc "ia") = .ok tok ∧
    PartsFit (header v .Public (Payload.suffix Sample.Raw)) (asc "hello") (asc "kid") (asc "ia") ∧
    PartsFit (header v .Public (Payload.suffix Sample.Raw)) tok.payload tok.encodedFooter
      (asc "ia") := by
  obtain ⟨s, hs⟩ := Sample.signRaw_ok v key (Payload.suffix Sample.Raw) (asc "hello") (asc "kid")
    (asc "ia")
  refine ⟨_, (sign_ok_iff _ key _ _).2 ⟨asc "hello", asc "kid", s, rfl, rfl, hs, rfl⟩, ?_, ?_⟩
  · refine ⟨?_, ?_, ?_, ?_⟩
    · cases v <;> (unfold Fits; decide)
    all_goals (unfold Fits; decide)
  · refine ⟨?_, ?_, ?_, ?_⟩
    · cases v <;> (unfold Fits; decide)
    · have := s.2
      unfold Fits
      rw [List.length_append, this]
      cases v <;> decide
    · show Fits (asc "kid")
      unfold Fits; decide
    · unfold Fits; decide

end C04

/-! ## C20 -/
namespace C20

variable {v : Ver} {M F E : Type}

/-- `encrypt` is encryption with an empty assertion, and its output is decrypted by `decrypt` and by
`decrypt_with_assertions(b"")` alike. -/
theorem encrypt_is_empty_assertion (P : Prims) [Payload E] [MessageEncoding E M]
    [MessageDecoding E M] [Footer F] (b : TokenBuilder v .Local M F E) (key : Key P v .Local)
    (rng : Rng) :
    b.encrypt P key rng = b.encryptWithAssertionsAndRng P key [] rng ∧
    (∀ i, b.encryptWithAssertions P key i rng = b.encryptWithAssertionsAndRng P key i rng) ∧
    ∀ t : SecuredToken v .Local F E, t.decrypt M P key = t.decryptWithAssertions M P key [] :=
  ⟨rfl, fun _ => rfl, fun _ => rfl⟩

theorem sign_is_empty_assertion (P : Prims) [Payload E] [MessageEncoding E M]
    [MessageDecoding E M] [Footer F] (b : TokenBuilder v .Public M F E) (sk : Key P v .Secret)
    (pk : Key P v .Public) :
    b.sign P sk = b.signWithAssertions P sk [] ∧
    ∀ t : SecuredToken v .Public F E, t.verify M P pk = t.verifyWithAssertions M P pk [] :=
  ⟨rfl, fun _ => rfl⟩

/-- The text produced by `encrypt` and `sign` is the specification's for an empty assertion: V4. -/
theorem encrypt_spec (P : Prims) [Payload E] [MessageEncoding E M] [Footer F]
    (b : TokenBuilder .V4 .Local M F E) (key : Key P .V4 .Local) (rng rng' : Rng)
    (tok : SecuredToken .V4 .Local F E) (henc : b.encrypt P key rng = .ok (tok, rng'))
    (m f : Bytes) (hm : MessageEncoding.encode b.tok.encoding b.tok.message = .ok m)
    (hf : Footer.encode b.tok.footer = some f)
    (hfit : PartsFit (header .V4 .Local (Payload.suffix E)) m f []) :
    tok.display = tokenText (header .V4 .Local (Payload.suffix E))
      (Spec.localEncrypt P .V4 key.key (header .V4 .Local (Payload.suffix E)) (rng.take 32) m f [])
      f :=
  C03.v4_encrypt P b key [] rng rng' tok henc m f hm hf hfit

/-- The same for V3, with the counter of C03. -/
theorem encrypt_spec_v3 (P : Prims) [Payload E] [MessageEncoding E M] [Footer F]
    (b : TokenBuilder .V3 .Local M F E) (key : Key P .V3 .Local) (rng rng' : Rng)
    (tok : SecuredToken .V3 .Local F E) (henc : b.encrypt P key rng = .ok (tok, rng'))
    (m f : Bytes) (hm : MessageEncoding.encode b.tok.encoding b.tok.message = .ok m)
    (hf : Footer.encode b.tok.footer = some f)
    (hfit : PartsFit (header .V3 .Local (Payload.suffix E)) m f []) :
    tok.display = tokenText (header .V3 .Local (Payload.suffix E))
      (Spec.localEncrypt P .V3 key.key (header .V3 .Local (Payload.suffix E)) (rng.take 32) m f []
        .be64) f :=
  C03.v3_encrypt P b key [] rng rng' tok henc m f hm hf hfit

/-- And `decrypt` accepts exactly the payloads that the specification accepts for an empty
assertion, as `verify` does. -/
theorem decrypt_spec (P : Prims) [Payload E] [MessageDecoding E M]
    (t : SecuredToken v .Local F E) (key : Key P v .Local)
    (hfit : PartsFit (header v .Local (Payload.suffix E)) t.payload t.encodedFooter []) :
    (t.decrypt M P key ≠ .err .cryptoError ∧ t.decrypt M P key ≠ .panic) ↔
    Spec.LocalAuthentic P v key.key (header v .Local (Payload.suffix E)) t.payload
      t.encodedFooter [] :=
  C03.decrypt_accepts_iff P t key [] hfit

theorem verify_spec (P : Prims) [Payload E] [MessageDecoding E M]
    (t : SecuredToken v .Public F E) (key : Key P v .Public)
    (hfit : PartsFit (header v .Public (Payload.suffix E)) t.payload t.encodedFooter []) :
    (t.verify M P key ≠ .err .cryptoError ∧ t.verify M P key ≠ .panic) ↔
    ∃ m, Spec.PublicVerifies P v key.key (header v .Public (Payload.suffix E)) t.payload
      t.encodedFooter [] m :=
  C04.verify_accepts_iff P t key [] hfit

theorem sign_spec (P : Prims) [Payload E] [MessageEncoding E M] [Footer F]
    (b : TokenBuilder v .Public M F E) (key : Key P v .Secret)
    (tok : SecuredToken v .Public F E) (hsign : b.sign P key = .ok tok)
    (m f : Bytes) (hm : MessageEncoding.encode b.tok.encoding b.tok.message = .ok m)
    (hf : Footer.encode b.tok.footer = some f)
    (hfit : PartsFit (header v .Public (Payload.suffix E)) m f []) :
    ∃ payload, Spec.publicSign P v key.key (header v .Public (Payload.suffix E)) m f [] =
        some payload ∧
      tok.display = tokenText (header v .Public (Payload.suffix E)) payload f :=
  C04.sign_spec P b key [] tok hsign m f hm hf hfit

example : ∃ tok rng', (Sample.builder .V4 .Local Sample.Raw).encrypt Toy.prims (Toy.localKey .V4)
    Toy.tape = .ok (tok, rng') :=
  ⟨_, _, (encrypt_ok_iff (Sample.builder .V4 .Local Sample.Raw) (Toy.localKey .V4) [] Toy.tape
    (Toy.tape.drop 32) _).2 ⟨Toy.tape.take 32, asc "hello", asc "kid", by simp [Toy.tape_length],
      by simp, rfl, rfl, rfl⟩⟩

example (v : Ver) (key : Key Toy.prims v .Secret) : ∃ tok,
    (Sample.builder v .Public Sample.Raw).sign Toy.prims key = .ok tok :=
  Sample.sign_ok v key (Sample.builder v .Public Sample.Raw) [] rfl rfl

end C20
end Pasta
