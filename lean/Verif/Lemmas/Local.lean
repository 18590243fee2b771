import Verif.Model.Local
import Verif.Spec.Paseto
import Verif.Lemmas.Token
import Verif.Lemmas.Pae

/-! # Lemmas about local tokens -/

namespace Pasta

open Spec (Fits header xorStream)

theorem applyKeystream_eq_xorStream (ks : Nat → UInt8) (m : Bytes) :
    applyKeystream ks m = xorStream m ks := by
  unfold applyKeystream xorStream
  apply List.ext_getElem
  · simp
  · intro i h1 h2; simp

theorem tagSize_eq (v : Ver) : tagSize v = Spec.tagLen v := by cases v <;> rfl

/-- The key stream the code uses for the message. -/
def codeStream (P : Prims) : (v : Ver) → BytesN 32 → Bytes → Nat → UInt8
  | .V3, k, n => P.aesCtr64 (Spec.v3EncKey P k n).1 (Spec.v3EncKey P k n).2
  | .V4, k, n => P.xchacha20 (Spec.v4EncKey P k n).1 (Spec.v4EncKey P k n).2

/-- The bytes authenticated by the code. -/
theorem localPreAuth_eq {v : Ver} {suf n c f i : Bytes} (hh : Fits (header v .Local suf))
    (hn : Fits n) (hc : Fits c) (hf : Fits f) (hi : Fits i) :
    localPreAuth v suf n c f i = Spec.localPreAuth (header v .Local suf) n c f i := by
  have e : [v.pasetoHeader, suf, asc ".", Purpose.Local.header, asc "."].flatten =
      header v .Local suf := by
    rw [← header_eq]; simp
  unfold localPreAuth Spec.localPreAuth
  rw [pae_eq_PAE]
  · simp [e, ← header_eq']
  · simp
  · simp only [List.mem_cons, List.not_mem_nil, or_false]
    rintro p (rfl | rfl | rfl | rfl | rfl)
    · rw [e]; exact hh
    · simpa using hn
    · simpa using hc
    · simpa using hf
    · simpa using hi

theorem localMac_length (P : Prims) (v : Ver) (ak msg : Bytes) :
    (Spec.localMac P v ak msg).length = Spec.tagLen v := by
  cases v
  · exact (P.hmacSha384 ak msg).2
  · exact (P.blake2bMac 32 ak msg).2

theorem localTag_length (P : Prims) (v : Ver) (k : BytesN 32) (h n c f i : Bytes) :
    (Spec.localTag P v k h n c f i).length = Spec.tagLen v := localMac_length P v _ _

theorem localAuthKey_length (P : Prims) (v : Ver) (k : BytesN 32) (n : Bytes) :
    (Spec.localAuthKey P v k n).length ≤ 64 := by
  cases v
  · have := (Spec.v3AuthKey P k n).2; simp only [Spec.localAuthKey]; omega
  · have := (Spec.v4AuthKey P k n).2; simp only [Spec.localAuthKey]; omega

theorem localKdf_enc (P : Prims) (v : Ver) (k : BytesN 32) (n : Bytes) :
    ∃ x, localKdf P v (keyIvPair v) k.1 [asc "paseto-encryption-key", n] = .ok x ∧
      keyIvStream P v x = codeStream P v k n := by
  cases v
  · refine ⟨P.hkdfSha384 48 k.1 (asc "paseto-encryption-key" ++ n), ?_, rfl⟩
    simp [localKdf, Prims.hkdf, keyIvPair]
  · refine ⟨P.blake2bMac 56 k.1 (asc "paseto-encryption-key" ++ n), ?_, rfl⟩
    simp [localKdf, Prims.blakeMac, keyIvPair, k.2]

theorem localKdf_auth (P : Prims) (v : Ver) (k : BytesN 32) (n : Bytes) :
    ∃ x, localKdf P v (authKeySize v) k.1 [asc "paseto-auth-key-for-aead", n] = .ok x ∧
      x.1 = Spec.localAuthKey P v k n := by
  cases v
  · refine ⟨P.hkdfSha384 48 k.1 (asc "paseto-auth-key-for-aead" ++ n), ?_, rfl⟩
    simp [localKdf, Prims.hkdf, authKeySize]
  · refine ⟨P.blake2bMac 32 k.1 (asc "paseto-auth-key-for-aead" ++ n), ?_, rfl⟩
    simp [localKdf, Prims.blakeMac, authKeySize, k.2]

/-- The tag computed by the code, for any lengths. -/
theorem genericDigest_eq (P : Prims) (v : Ver) (k : BytesN 32) (ak : BytesN (authKeySize v))
    (suf n c f i : Bytes) (h : ak.1 = Spec.localAuthKey P v k n) :
    ∃ t, genericDigest P v ak suf n c f i = .ok t ∧
      t.1 = Spec.localMac P v (Spec.localAuthKey P v k n) (localPreAuth v suf n c f i) := by
  unfold genericDigest
  rw [h]
  have := localAuthKey_length P v k n
  cases v
  · exact ⟨_, rfl, rfl⟩
  · exact ⟨P.blake2bMac 32 (Spec.localAuthKey P .V4 k n) (localPreAuth .V4 suf n c f i),
      if_pos this, rfl⟩

theorem genericEncrypt_eq (P : Prims) (v : Ver) (k : BytesN 32) (suf n m f i : Bytes) :
    ∃ t, genericEncrypt P v k suf n m f i = .ok (applyKeystream (codeStream P v k n) m, t) ∧
      t.1 = Spec.localMac P v (Spec.localAuthKey P v k n)
        (localPreAuth v suf n (applyKeystream (codeStream P v k n) m) f i) := by
  obtain ⟨x, hx, hs⟩ := localKdf_enc P v k n
  obtain ⟨ak, ha, hak⟩ := localKdf_auth P v k n
  obtain ⟨t, ht, htt⟩ := genericDigest_eq P v k ak suf n (applyKeystream (codeStream P v k n) m) f i hak
  refine ⟨t, ?_, htt⟩
  unfold genericEncrypt
  simp [hx, ha, hs, ht]

theorem genericDecrypt_eq (P : Prims) (v : Ver) (k : BytesN 32) (suf n m tag f i : Bytes) :
    genericDecrypt P v k suf n m tag f i =
      .ok (if tag = Spec.localMac P v (Spec.localAuthKey P v k n) (localPreAuth v suf n m f i)
        then some (applyKeystream (codeStream P v k n) m) else none) := by
  obtain ⟨x, hx, hs⟩ := localKdf_enc P v k n
  obtain ⟨ak, ha, hak⟩ := localKdf_auth P v k n
  obtain ⟨t, ht, htt⟩ := genericDigest_eq P v k ak suf n m f i hak
  unfold genericDecrypt
  simp only [hx, ha, hs, ht, Res.ok_bind, Res.pure_def, ← htt]
  by_cases h : tag = t.1
  · rw [if_neg (by rw [ctNe_eq_false.2 h]; simp), if_pos h]
  · rw [if_pos (ctNe_eq_true.2 h), if_neg h]

section
variable {P : Prims} {v : Ver} {M F E : Type}

/-- What the whole encryption does. -/
theorem encrypt_ok_iff [Payload E] [MessageEncoding E M] [Footer F]
    (b : TokenBuilder v .Local M F E) (key : Key P v .Local) (i : Bytes) (rng rng' : Rng)
    (tok : SecuredToken v .Local F E) :
    b.encryptWithAssertionsAndRng P key i rng = .ok (tok, rng') ↔
      ∃ n m f, n.length = 32 ∧ rng = n ++ rng' ∧
        MessageEncoding.encode b.tok.encoding b.tok.message = .ok m ∧
        Footer.encode b.tok.footer = some f ∧
        tok = { encoding := b.tok.encoding, footer := b.tok.footer, encodedFooter := f,
                payload := n ++ applyKeystream (codeStream P v key.key n) m ++
                  Spec.localMac P v (Spec.localAuthKey P v key.key n)
                    (localPreAuth v (Payload.suffix E) n (applyKeystream (codeStream P v key.key n) m) f i) } := by
  unfold TokenBuilder.encryptWithAssertionsAndRng ValidatedToken.encryptInner
  simp only [Res.bind_eq_ok, Res.ofExcept_eq_ok, Res.unwrap_eq_ok, Res.pure_def, Res.ok.injEq,
    Prod.exists, Prod.mk.injEq]
  constructor
  · rintro ⟨n, r, h1, tok', ⟨m, hm, f, hf, c, t, hg, rfl⟩, rfl, rfl⟩
    obtain ⟨t', h2, h3⟩ := genericEncrypt_eq P v key.key (Payload.suffix E) n.1 m f i
    rw [h2] at hg
    simp only [Res.ok.injEq, Prod.mk.injEq] at hg
    obtain ⟨rfl, rfl⟩ := hg
    refine ⟨n.1, m, f, n.2, fillBytes_eq_ok.1 h1, hm, hf, ?_⟩
    simp [sandwich, h3]
  · rintro ⟨n, m, f, hn, hr, hm, hf, rfl⟩
    obtain ⟨t', h2, h3⟩ := genericEncrypt_eq P v key.key (Payload.suffix E) n m f i
    refine ⟨⟨n, hn⟩, rng', fillBytes_eq_ok.2 hr, _, ⟨m, hm, f, hf, _, _, h2, rfl⟩, ?_, rfl⟩
    simp [sandwich, h3]

/-- What decryption does to a payload long enough to hold nonce and tag. -/
theorem decrypt_split [Payload E] [MessageDecoding E M] (t : SecuredToken v .Local F E)
    (key : Key P v .Local) (i n c g : Bytes) (hp : t.payload = n ++ c ++ g) (hn : n.length = 32)
    (hg : g.length = tagSize v) :
    t.decryptWithAssertions M P key i =
      if g = Spec.localMac P v (Spec.localAuthKey P v key.key n)
          (localPreAuth v (Payload.suffix E) n c t.encodedFooter i) then
        (Res.ofExcept (MessageDecoding.decode t.encoding
          (applyKeystream (codeStream P v key.key n) c)) >>= fun message =>
          .ok { encoding := t.encoding, message, footer := t.footer })
      else .err .cryptoError := by
  unfold SecuredToken.decryptWithAssertions
  have e1 : splitAt 32 t.payload = .ok (n, c ++ g) := by
    rw [hp]; unfold splitAt
    rw [if_pos (by simp; omega)]
    simp [← hn]
  have e2 : usizeSub (c ++ g).length (tagSize v) = .ok c.length := by
    unfold usizeSub
    rw [if_pos (by simp; omega)]
    simp [hg]
  have e3 : splitAt c.length (c ++ g) = .ok (c, g) := by
    unfold splitAt
    rw [if_pos (by simp)]
    simp
  have e4 := genericDecrypt_eq P v key.key (Payload.suffix E) n c g t.encodedFooter i
  simp only [e1, e2, e3, Res.ok_bind, e4]
  split <;> simp

/-- Every long enough payload splits. -/
theorem payload_split (v : Ver) (p : Bytes) (h : 32 + tagSize v ≤ p.length) :
    ∃ n c g, p = n ++ c ++ g ∧ n.length = 32 ∧ g.length = tagSize v := by
  refine ⟨p.take 32, (p.drop 32).take (p.length - 32 - tagSize v),
    (p.drop 32).drop (p.length - 32 - tagSize v), ?_, ?_, ?_⟩
  · rw [List.append_assoc, List.take_append_drop, List.take_append_drop]
  · simp; omega
  · simp; omega

/-- Shorter payloads make decryption panic. -/
theorem decrypt_short [Payload E] [MessageDecoding E M] (t : SecuredToken v .Local F E)
    (key : Key P v .Local) (i : Bytes) (h : t.payload.length < 32 + tagSize v) :
    t.decryptWithAssertions M P key i = .panic := by
  unfold SecuredToken.decryptWithAssertions
  by_cases h1 : 32 ≤ t.payload.length
  · have e1 : splitAt 32 t.payload = .ok (t.payload.take 32, t.payload.drop 32) := by
      unfold splitAt; rw [if_pos h1]
    have e2 : usizeSub (t.payload.drop 32).length (tagSize v) = .panic := by
      unfold usizeSub; rw [if_neg (by simp; omega)]
    simp only [e1, e2, Res.ok_bind, Res.panic_bind]
  · have e1 : splitAt 32 t.payload = .panic := by
      unfold splitAt; rw [if_neg h1]
    simp only [e1, Res.panic_bind]

end
end Pasta
