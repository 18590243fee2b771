import Verif.Model.Limits
import Verif.Lemmas.Local
import Verif.Props.TokenRoundtrip
import Verif.Props.TokenSpec

/-!
# C80: how long a message may be

The other theorems are about messages of any length. The stream ciphers have an end. These theorems
are about the functions with that limit (Model/Limits.lean): below it they are the functions of the
other theorems, above it they panic, and nobody without the key can cause that panic.
-/

namespace Pasta.C80

open Spec (header)

/-- The longest message: V3 has `2 ^ 64 - 1` blocks of 16 bytes, which is more than any memory holds;
V4 has `2 ^ 32 - 1` blocks of 64 bytes, that is 256 GiB less 64 bytes. -/
def longest : Ver → Nat
  | .V3 => 16 * (2 ^ 64 - 1)
  | .V4 => 64 * (2 ^ 32 - 1)

theorem blocks_iff (n r : Nat) : ∀ b, b = 16 ∨ b = 64 →
    ((if n % b = 0 then n / b else n / b + 1) > r ↔ b * r < n) := by
  rintro b (rfl | rfl) <;> split <;> omega

theorem apply_eq (v : Ver) (ks : Nat → UInt8) (m : Bytes) :
    applyKeystreamL v ks m =
      if m.length ≤ longest v then .ok (applyKeystream ks m) else .panic := by
  have hb : streamBlockLen v = 16 ∨ streamBlockLen v = 64 := by cases v <;> simp [streamBlockLen]
  have hl : longest v = streamBlockLen v * remainingBlocks v := by cases v <;> rfl
  have h := blocks_iff m.length (remainingBlocks v) (streamBlockLen v) hb
  unfold applyKeystreamL
  by_cases h' : m.length ≤ longest v
  · rw [if_pos h', if_neg (fun hh => by have := h.1 hh; omega)]
  · rw [if_neg h', if_pos (h.2 (by omega))]

theorem genericEncryptL_eq (P : Prims) (v : Ver) (k : BytesN 32) (suf n m f i : Bytes) :
    genericEncryptL P v k suf n m f i =
      if m.length ≤ longest v then genericEncrypt P v k suf n m f i else .panic := by
  obtain ⟨x, hx, _⟩ := localKdf_enc P v k n
  obtain ⟨ak, ha, _⟩ := localKdf_auth P v k n
  unfold genericEncryptL genericEncrypt
  simp only [hx, ha, Res.ok_bind, apply_eq]
  by_cases h : m.length ≤ longest v
  · simp only [if_pos h, Res.ok_bind]
  · simp only [if_neg h, Res.panic_bind]

theorem genericDecryptL_eq (P : Prims) (v : Ver) (k : BytesN 32) (suf n m tag f i : Bytes) :
    genericDecryptL P v k suf n m tag f i =
      if tag = Spec.localMac P v (Spec.localAuthKey P v k n) (localPreAuth v suf n m f i) ∧
        ¬ m.length ≤ longest v then .panic
      else genericDecrypt P v k suf n m tag f i := by
  obtain ⟨x, hx, hs⟩ := localKdf_enc P v k n
  obtain ⟨ak, ha, hak⟩ := localKdf_auth P v k n
  obtain ⟨t, ht, htt⟩ := genericDigest_eq P v k ak suf n m f i hak
  unfold genericDecryptL genericDecrypt
  simp only [hx, ha, ht, Res.ok_bind, Res.pure_def, ← htt, apply_eq]
  by_cases h : tag = t.1
  · have hc : ¬ (ctNe tag t.1 = true) := by rw [ctNe_eq_false.2 h]; simp
    rw [if_neg hc, if_neg hc]
    by_cases hl : m.length ≤ longest v
    · rw [if_pos hl, if_neg (fun hh => hh.2 hl)]; rfl
    · rw [if_neg hl, if_pos ⟨h, hl⟩]; rfl
  · rw [if_pos (ctNe_eq_true.2 h), if_neg (fun hh => h hh.1), if_pos (ctNe_eq_true.2 h)]

section
variable {P : Prims} {v : Ver} {M F E : Type}

/-- Encrypting a message of up to that length is what the other theorems say. -/
theorem encrypt_within [Payload E] [MessageEncoding E M] [Footer F]
    (b : TokenBuilder v .Local M F E) (key : Key P v .Local) (i : Bytes) (rng : Rng)
    (h : ∀ m, MessageEncoding.encode b.tok.encoding b.tok.message = .ok m → m.length ≤ longest v) :
    b.encryptL P key i rng = b.encryptWithAssertionsAndRng P key i rng := by
  unfold TokenBuilder.encryptL TokenBuilder.encryptWithAssertionsAndRng
    ValidatedToken.encryptInnerL ValidatedToken.encryptInner
  rcases hm : MessageEncoding.encode b.tok.encoding b.tok.message with e | m
  · rfl
  · simp only [genericEncryptL_eq]
    have h := h m hm
    have e : (Res.ofExcept (Except.ok m : Except String Bytes)) = .ok m := rfl
    simp only [e, Res.ok_bind, if_pos h]

/-- Encrypting a longer message panics. -/
theorem encrypt_beyond [Payload E] [MessageEncoding E M] [Footer F]
    (b : TokenBuilder v .Local M F E) (key : Key P v .Local) (i : Bytes) (rng : Rng) (m : Bytes)
    (hm : MessageEncoding.encode b.tok.encoding b.tok.message = .ok m)
    (h : longest v < m.length) : b.encryptL P key i rng = .panic := by
  unfold TokenBuilder.encryptL ValidatedToken.encryptInnerL
  simp only [genericEncryptL_eq]
  rw [hm]
  rcases hr : fillBytes 32 rng with ⟨n, r⟩ | e | _
  · rcases hf : Footer.encode b.tok.footer with _ | f
    · rfl
    · have e : (Res.ofExcept (Except.ok m : Except String Bytes)) = .ok m := rfl
      have e' : Res.unwrap (some f) = .ok f := rfl
      simp only [e, e', Res.ok_bind, if_neg (show ¬ m.length ≤ longest v by omega), Res.panic_bind]
  · unfold fillBytes at hr; split at hr <;> simp at hr
  · rfl

/-- The length of the message in a token's payload. -/
def messageLen (v : Ver) (payload : Bytes) : Nat := payload.length - 32 - Spec.tagLen v

/-- Decrypting a token whose message is not too long is what the other theorems say. -/
theorem decrypt_within [Payload E] [MessageDecoding E M] (t : SecuredToken v .Local F E)
    (key : Key P v .Local) (i : Bytes) (h : messageLen v t.payload ≤ longest v) :
    t.decryptL M P key i = t.decryptWithAssertions M P key i := by
  unfold SecuredToken.decryptL SecuredToken.decryptWithAssertions
  by_cases hs : 32 + tagSize v ≤ t.payload.length
  · obtain ⟨n, c, g, hp, hn, hg⟩ := payload_split v t.payload hs
    have e1 : splitAt 32 t.payload = .ok (n, c ++ g) := by
      rw [hp]; unfold splitAt
      rw [if_pos (by simp; omega)]
      simp [← hn]
    have e2 : usizeSub (c ++ g).length (tagSize v) = .ok c.length := by
      unfold usizeSub
      rw [if_pos (by simp; omega)]
      simp [hg]
    have e3 : splitAt c.length (c ++ g) = .ok (c, g) := by
      unfold splitAt
      rw [if_pos (by simp)]
      simp
    have hl : c.length ≤ longest v := by
      have : c.length = messageLen v t.payload := by
        rw [hp, messageLen, ← tagSize_eq]; simp; omega
      omega
    simp only [e1, e2, e3, Res.ok_bind, genericDecryptL_eq]
    rw [if_neg (fun hh => hh.2 hl)]
  · by_cases h1 : 32 ≤ t.payload.length
    · have e1 : splitAt 32 t.payload = .ok (t.payload.take 32, t.payload.drop 32) := by
        unfold splitAt; rw [if_pos h1]
      have e2 : usizeSub (t.payload.drop 32).length (tagSize v) = .panic := by
        unfold usizeSub; rw [if_neg (by simp; omega)]
      simp only [e1, e2, Res.ok_bind, Res.panic_bind]
    · have e1 : splitAt 32 t.payload = .panic := by
        unfold splitAt; rw [if_neg h1]
      simp only [e1, Res.panic_bind]

/-- Decrypting a longer one: `CryptoError`, unless the specification finds the token authentic, and
then a panic. So nobody without the key can cause this panic, and nothing is released. -/
theorem decrypt_beyond [Payload E] [MessageDecoding E M] (t : SecuredToken v .Local F E)
    (key : Key P v .Local) (i : Bytes)
    (hfit : PartsFit (header v .Local (Payload.suffix E)) t.payload t.encodedFooter i)
    (h : longest v < messageLen v t.payload) :
    open Classical in
    t.decryptL M P key i =
      if Spec.LocalAuthentic P v key.key (header v .Local (Payload.suffix E)) t.payload
        t.encodedFooter i then .panic else .err .cryptoError := by
  have hs : 32 + tagSize v ≤ t.payload.length := by
    rw [messageLen, ← tagSize_eq] at h; omega
  obtain ⟨n, c, g, hp, hn, hg⟩ := payload_split v t.payload hs
  have hacc := C03.decrypt_accepts_iff (M := M) P t key i hfit
  rw [decrypt_split t key i n c g hp hn hg] at hacc
  have e1 : splitAt 32 t.payload = .ok (n, c ++ g) := by
    rw [hp]; unfold splitAt
    rw [if_pos (by simp; omega)]
    simp [← hn]
  have e2 : usizeSub (c ++ g).length (tagSize v) = .ok c.length := by
    unfold usizeSub
    rw [if_pos (by simp; omega)]
    simp [hg]
  have e3 : splitAt c.length (c ++ g) = .ok (c, g) := by
    unfold splitAt
    rw [if_pos (by simp)]
    simp
  have hl : ¬ c.length ≤ longest v := by
    have : c.length = messageLen v t.payload := by
      rw [hp, messageLen, ← tagSize_eq]; simp; omega
    omega
  unfold SecuredToken.decryptL
  simp only [e1, e2, e3, Res.ok_bind, genericDecryptL_eq]
  by_cases hg' : g = Spec.localMac P v (Spec.localAuthKey P v key.key n)
      (localPreAuth v (Payload.suffix E) n c t.encodedFooter i)
  · rw [if_pos hg'] at hacc
    rw [if_pos ⟨hg', hl⟩, if_pos]
    · rfl
    · refine hacc.1 ?_
      rcases MessageDecoding.decode (M := M) t.encoding
        (applyKeystream (codeStream P v key.key n) c) with e | m
      · exact ⟨(by intro hh; cases hh), (by intro hh; cases hh)⟩
      · exact ⟨(by intro hh; cases hh), (by intro hh; cases hh)⟩
  · rw [if_neg hg'] at hacc
    rw [if_neg (fun hh => hg' hh.1), if_neg (fun hh => (hacc.2 hh).1 rfl),
      genericDecrypt_eq, if_neg hg']
    rfl

/-- Whatever is encrypted can be decrypted: the round trip of C01, with the limit. -/
theorem roundtrip [Payload E] [MessageEncoding E M] [MessageDecoding E M] [Footer F]
    (b : TokenBuilder v .Local M F E) (key : Key P v .Local) (i : Bytes) (rng rng' : Rng)
    (tok : SecuredToken v .Local F E) (henc : b.encryptL P key i rng = .ok (tok, rng')) (m : Bytes)
    (hm : MessageEncoding.encode b.tok.encoding b.tok.message = .ok m)
    (hm' : MessageDecoding.decode b.tok.encoding m = .ok b.tok.message) :
    m.length ≤ longest v ∧ tok.decryptL M P key i = .ok b.tok := by
  have hl : m.length ≤ longest v := by
    refine Nat.le_of_not_lt fun hh => ?_
    rw [encrypt_beyond b key i rng m hm hh] at henc
    cases henc
  rw [encrypt_within b key i rng (fun m' h' => by rw [hm] at h'; cases h'; exact hl)] at henc
  refine ⟨hl, ?_⟩
  rw [decrypt_within tok key i]
  · exact C01.local_roundtrip_direct P b key i rng rng' tok henc
      (fun m' h' => by rw [hm] at h'; cases h'; exact hm')
  · obtain ⟨n, m', f, hn, _, h', _, rfl⟩ := (encrypt_ok_iff b key i rng rng' tok).1 henc
    rw [hm] at h'; cases h'
    simp only [messageLen, List.length_append, applyKeystream_length, localMac_length]
    omega

/-- In V3 no message that exists in memory is too long. -/
theorem v3_unlimited (m : Bytes) (h : m.length < 2 ^ 63) : m.length ≤ longest .V3 := by
  show m.length ≤ 16 * (2 ^ 64 - 1); omega

/-- Keys are never too long: wrapping and sealing, which apply key streams only to keys, never meet
the limit. -/
theorem keys (k : Kind) (ks : Nat → UInt8) (b : BytesN (keyLen v k)) :
    applyKeystreamL v ks b.1 = .ok (applyKeystreamN ks b).1 := by
  rw [apply_eq, if_pos, applyKeystreamN_val]
  rw [b.2]
  cases v <;> cases k <;> simp [keyLen, longest]

/-- The limit itself can be reached: a message of exactly that length is encrypted, and one byte more
is too long. -/
example (ks : Nat → UInt8) :
    applyKeystreamL .V4 ks (List.replicate 274877906880 0) =
      .ok (applyKeystream ks (List.replicate 274877906880 0)) ∧
    applyKeystreamL .V4 ks (List.replicate 274877906881 0) = .panic := by
  refine ⟨?_, ?_⟩
  · rw [apply_eq, if_pos (by rw [List.length_replicate]; simp [longest])]
  · rw [apply_eq, if_neg (by rw [List.length_replicate]; simp [longest])]

/-- A token that exists and whose encryption panics in V4: the message is made of 256 GiB of zeros. -/
example (key : Key Toy.prims .V4 .Local) (rng : Rng) :
    (((TokenBuilder.new .V4 .Local (List.replicate (2 ^ 38) 0 : Bytes)).withEncoding
      ({} : Sample.Raw))).encryptL Toy.prims key [] rng = .panic := by
  refine encrypt_beyond _ key [] rng (List.replicate (2 ^ 38) 0) rfl ?_
  rw [List.length_replicate]; simp [longest]

/-- And a short one is encrypted and decrypted. -/
example (v : Ver) (rng : Rng) (h : 32 ≤ rng.length) :
    ∃ tok rng', (Sample.builder v .Local Sample.Raw).encryptL Toy.prims (Toy.localKey v) [] rng =
      .ok (tok, rng') ∧
      tok.decryptL Bytes Toy.prims (Toy.localKey v) [] = .ok (Sample.builder v .Local Sample.Raw).tok := by
  obtain ⟨tok, htok⟩ := ((C01.encrypt_outcome Toy.prims (Sample.builder v .Local Sample.Raw)
    (Toy.localKey v) [] rng).2 h).2.2 (asc "hello") (asc "kid") rfl rfl
  rw [← encrypt_within _ _ _ _ (fun m hm => by
    have : m = asc "hello" := by cases hm; rfl
    subst this; cases v <;> decide)] at htok
  exact ⟨tok, _, htok, (roundtrip _ _ _ _ _ tok htok (asc "hello") rfl rfl).2⟩

end

end Pasta.C80
