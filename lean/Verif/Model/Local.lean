import Verif.Model.Token
import Verif.Model.Pae

/-! # Local (encrypted) tokens: src/purpose/local/ -/

namespace Pasta

/-- IV size of the stream cipher: 16 for AES-CTR, 24 for XChaCha20 -/
def ivLen : Ver → Nat
  | .V3 => 16
  | .V4 => 24

/-- The stream ciphers: `ctr::Ctr64BE<aes::Aes256>` (src/purpose/local/v3.rs:37,
src/paserk/wrap.rs:382, src/paserk/pbkw.rs:445, src/paserk/pke.rs:206,274) and `chacha20::XChaCha20`
(src/purpose/local/v4.rs:43, src/paserk/wrap.rs:399, src/paserk/pbkw.rs:476) -/
def stream (P : Prims) : (v : Ver) → BytesN 32 → BytesN (ivLen v) → Nat → UInt8
  | .V3, key, iv => P.aesCtr64 key iv
  | .V4, key, iv => P.xchacha20 key iv

/-- `LocalVersion::TagSize`, src/purpose/local/v3.rs:48, src/purpose/local/v4.rs:54 -/
def tagSize : Ver → Nat
  | .V3 => 48
  | .V4 => 32

/-- `LocalEncryption::AuthKeySize`, src/purpose/local/v3.rs:75, src/purpose/local/v4.rs:81 -/
def authKeySize : Ver → Nat
  | .V3 => 48
  | .V4 => 32

/-- `GenericCipher::KeyIvPair`, src/purpose/local/v3.rs:35, src/purpose/local/v4.rs:41 -/
def keyIvPair : Ver → Nat
  | .V3 => 48
  | .V4 => 56

theorem keyIvPair_eq (v : Ver) : keyIvPair v = 32 + ivLen v := by cases v <;> rfl

/-- `Kdf::mac` for `Hash`, src/purpose/local/v3.rs:21-32, src/purpose/local/v4.rs:26-38. The parts of `info` are
fed one after the other. -/
def localKdf (P : Prims) (v : Ver) (n : Nat) (key : Bytes) (info : List Bytes) : Res (BytesN n) :=
  match v with
  | .V3 => P.hkdf n key info.flatten
  | .V4 => P.blakeMac n key (info.foldl (· ++ ·) [])

/-- The MAC of `GenericMac`, src/purpose/local/v3.rs:17-19, src/purpose/local/v4.rs:18-24 -/
def localMac (P : Prims) : (v : Ver) → Bytes → Bytes → Res (BytesN (tagSize v))
  | .V3, key, msg => P.hmac key msg
  | .V4, key, msg => P.blakeMac 32 key msg

/-- `GenericCipher::key_iv_init(..).apply_keystream(..)`, src/purpose/local/v3.rs:39-42,
src/purpose/local/v4.rs:45-48 -/
def keyIvStream (P : Prims) (v : Ver) (pair : BytesN (keyIvPair v)) : Nat → UInt8 :=
  let (key, iv) := BytesN.split 32 (ivLen v) (keyIvPair_eq v) pair
  stream P v key iv

/-- The bytes fed to the MAC by `generic_digest`, src/purpose/local/mod.rs:133-148 -/
def localPreAuth (v : Ver) (encodingHeader nonce ciphertext footer implicit : Bytes) : Bytes :=
  pae [[v.pasetoHeader, encodingHeader, asc ".", Purpose.Local.header, asc "."],
    [nonce], [ciphertext], [footer], [implicit]] []

/-- `generic_digest`, src/purpose/local/mod.rs:122-150 -/
def genericDigest (P : Prims) (v : Ver) (authKey : BytesN (authKeySize v))
    (encodingHeader nonce ciphertext footer implicit : Bytes) : Res (BytesN (tagSize v)) :=
  localMac P v authKey.1 (localPreAuth v encodingHeader nonce ciphertext footer implicit)

/-- `generic_encrypt`, src/purpose/local/mod.rs:153-171. Returns the message buffer after the call
and the tag. -/
def genericEncrypt (P : Prims) (v : Ver) (key : BytesN 32)
    (encodingHeader nonce message footer implicit : Bytes) :
    Res (Bytes × BytesN (tagSize v)) := do
  let ekIv ← localKdf P v (keyIvPair v) key.1 [asc "paseto-encryption-key", nonce]
  let ak ← localKdf P v (authKeySize v) key.1 [asc "paseto-auth-key-for-aead", nonce]
  let message := applyKeystream (keyIvStream P v ekIv) message
  let tag ← genericDigest P v ak encodingHeader nonce message footer implicit
  return (message, tag)

/-- `generic_decrypt`, src/purpose/local/mod.rs:174-198. `none` is `Err(())`; otherwise the message
buffer after the call. -/
def genericDecrypt (P : Prims) (v : Ver) (key : BytesN 32)
    (encodingHeader nonce message tag footer implicit : Bytes) : Res (Option Bytes) := do
  let ekIv ← localKdf P v (keyIvPair v) key.1 [asc "paseto-encryption-key", nonce]
  let ak ← localKdf P v (authKeySize v) key.1 [asc "paseto-auth-key-for-aead", nonce]
  let tag2 ← genericDigest P v ak encodingHeader nonce message footer implicit
  if ctNe tag tag2.1 then
    return none
  else
    return some (applyKeystream (keyIvStream P v ekIv) message)

/-- `sandwich`, src/purpose/local/mod.rs:344-352 -/
def sandwich (v prepend append : Bytes) : Bytes :=
  let w : Bytes := []
  let w := w ++ prepend
  let w := w ++ v
  w ++ append

section
variable {v : Ver} {M F E : Type}

/-- `DecryptedToken::encrypt_inner`, src/purpose/local/mod.rs:200-231 -/
def ValidatedToken.encryptInner [Payload E] [MessageEncoding E M] [Footer F] (P : Prims)
    (t : ValidatedToken v .Local M F E) (key : Key P v .Local) (nonce : BytesN 32)
    (implicit : Bytes) : Res (SecuredToken v .Local F E) := do
  let m ← Res.ofExcept (MessageEncoding.encode t.encoding t.message)
  let f ← Res.unwrap (Footer.encode t.footer)
  let (m, tag) ← genericEncrypt P v key.key (Payload.suffix E) nonce.1 m f implicit
  let m := sandwich m nonce.1 tag.1
  return { encoding := t.encoding, payload := m, encodedFooter := f, footer := t.footer }

/-- `encrypt_with_assertions_and_rng`, src/purpose/local/mod.rs:274-283 -/
def TokenBuilder.encryptWithAssertionsAndRng [Payload E] [MessageEncoding E M] [Footer F]
    (P : Prims) (t : TokenBuilder v .Local M F E) (key : Key P v .Local) (implicit : Bytes)
    (rng : Rng) : Res (SecuredToken v .Local F E × Rng) := do
  let (nonce, rng) ← fillBytes 32 rng
  let tok ← t.tok.encryptInner P key nonce implicit
  return (tok, rng)

/-- `encrypt_with_assertions`, src/purpose/local/mod.rs:256-262; the argument `rng` stands for
`rand::thread_rng()` -/
def TokenBuilder.encryptWithAssertions [Payload E] [MessageEncoding E M] [Footer F]
    (P : Prims) (t : TokenBuilder v .Local M F E) (key : Key P v .Local) (implicit : Bytes)
    (threadRng : Rng) : Res (SecuredToken v .Local F E × Rng) :=
  t.encryptWithAssertionsAndRng P key implicit threadRng

/-- `encrypt`, src/purpose/local/mod.rs:242-244 -/
def TokenBuilder.encrypt [Payload E] [MessageEncoding E M] [Footer F]
    (P : Prims) (t : TokenBuilder v .Local M F E) (key : Key P v .Local)
    (threadRng : Rng) : Res (SecuredToken v .Local F E × Rng) :=
  t.encryptWithAssertions P key [] threadRng

/-- `slice::split_at(_mut)`: panics when the position is out of bounds -/
def splitAt (mid : Nat) (b : Bytes) : Res (Bytes × Bytes) :=
  if mid ≤ b.length then .ok (b.take mid, b.drop mid) else .panic

/-- `a - b` on `usize`: underflow panics (or, without overflow checks, wraps to a value that makes
the following `split_at` panic) -/
def usizeSub (a b : Nat) : Res Nat := if b ≤ a then .ok (a - b) else .panic

/-- `decrypt_with_assertions`, src/purpose/local/mod.rs:308-340 -/
def SecuredToken.decryptWithAssertions (M : Type) [Payload E] [MessageDecoding E M] (P : Prims)
    (t : SecuredToken v .Local F E) (key : Key P v .Local) (implicit : Bytes) :
    Res (ValidatedToken v .Local M F E) := do
  let (n, m) ← splitAt 32 t.payload
  let mid ← usizeSub m.length (tagSize v)
  let (m, tag) ← splitAt mid m
  let r ← genericDecrypt P v key.key (Payload.suffix E) n m tag t.encodedFooter implicit
  let m ← Res.okOr .cryptoError r
  let message ← Res.ofExcept (MessageDecoding.decode t.encoding m)
  return { encoding := t.encoding, message, footer := t.footer }

/-- `decrypt`, src/purpose/local/mod.rs:288-296 -/
def SecuredToken.decrypt (M : Type) [Payload E] [MessageDecoding E M] (P : Prims)
    (t : SecuredToken v .Local F E) (key : Key P v .Local) :
    Res (ValidatedToken v .Local M F E) :=
  t.decryptWithAssertions M P key []

end
end Pasta
