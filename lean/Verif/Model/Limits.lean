import Verif.Model.Local

/-!
# The length limit of the stream ciphers

`StreamCipher::apply_keystream` (cipher 0.4.4) is `try_apply_keystream(buf).unwrap()`: it panics when
the buffer needs more blocks than the cipher has left. Elsewhere in the model this is left out. Here
are the functions that apply a key stream to a message of any length, once more, with the limit.
-/

namespace Pasta

/-- Bytes of a block of the key stream: AES in V3, ChaCha in V4 -/
def streamBlockLen : Ver → Nat
  | .V3 => 16
  | .V4 => 64

/-- `StreamCipherCore::remaining_blocks` of a fresh cipher: `u64::MAX` for `Ctr64BE` (ctr 0.9.2),
`u32::MAX` for `XChaCha20` (chacha20 0.9.1) -/
def remainingBlocks : Ver → Nat
  | .V3 => 0xFFFFFFFFFFFFFFFF
  | .V4 => 0xFFFFFFFF

/-- `apply_keystream` on a fresh cipher, src/purpose/local/mod.rs:168,195: the number of blocks is
rounded up (cipher 0.4.4, `StreamCipherCoreWrapper::check_remaining`). -/
def applyKeystreamL (v : Ver) (ks : Nat → UInt8) (m : Bytes) : Res Bytes :=
  let blocks := if m.length % streamBlockLen v = 0 then m.length / streamBlockLen v
    else m.length / streamBlockLen v + 1
  if blocks > remainingBlocks v then .panic else .ok (applyKeystream ks m)

/-- `generic_encrypt`, src/purpose/local/mod.rs:153-171 (see `genericEncrypt`) -/
def genericEncryptL (P : Prims) (v : Ver) (key : BytesN 32)
    (encodingHeader nonce message footer implicit : Bytes) :
    Res (Bytes × BytesN (tagSize v)) := do
  let ekIv ← localKdf P v (keyIvPair v) key.1 [asc "paseto-encryption-key", nonce]
  let ak ← localKdf P v (authKeySize v) key.1 [asc "paseto-auth-key-for-aead", nonce]
  let message ← applyKeystreamL v (keyIvStream P v ekIv) message
  let tag ← genericDigest P v ak encodingHeader nonce message footer implicit
  return (message, tag)

/-- `generic_decrypt`, src/purpose/local/mod.rs:174-198 (see `genericDecrypt`) -/
def genericDecryptL (P : Prims) (v : Ver) (key : BytesN 32)
    (encodingHeader nonce message tag footer implicit : Bytes) : Res (Option Bytes) := do
  let ekIv ← localKdf P v (keyIvPair v) key.1 [asc "paseto-encryption-key", nonce]
  let ak ← localKdf P v (authKeySize v) key.1 [asc "paseto-auth-key-for-aead", nonce]
  let tag2 ← genericDigest P v ak encodingHeader nonce message footer implicit
  if ctNe tag tag2.1 then
    return none
  else do
    let message ← applyKeystreamL v (keyIvStream P v ekIv) message
    return some message

section
variable {v : Ver} {M F E : Type}

/-- `DecryptedToken::encrypt_inner`, src/purpose/local/mod.rs:200-231 (see
`ValidatedToken.encryptInner`) -/
def ValidatedToken.encryptInnerL [Payload E] [MessageEncoding E M] [Footer F] (P : Prims)
    (t : ValidatedToken v .Local M F E) (key : Key P v .Local) (nonce : BytesN 32)
    (implicit : Bytes) : Res (SecuredToken v .Local F E) := do
  let m ← Res.ofExcept (MessageEncoding.encode t.encoding t.message)
  let f ← Res.unwrap (Footer.encode t.footer)
  let (m, tag) ← genericEncryptL P v key.key (Payload.suffix E) nonce.1 m f implicit
  let m := sandwich m nonce.1 tag.1
  return { encoding := t.encoding, payload := m, encodedFooter := f, footer := t.footer }

/-- `encrypt_with_assertions_and_rng`, src/purpose/local/mod.rs:274-283 (see
`TokenBuilder.encryptWithAssertionsAndRng`) -/
def TokenBuilder.encryptL [Payload E] [MessageEncoding E M] [Footer F]
    (P : Prims) (t : TokenBuilder v .Local M F E) (key : Key P v .Local) (implicit : Bytes)
    (rng : Rng) : Res (SecuredToken v .Local F E × Rng) := do
  let (nonce, rng) ← fillBytes 32 rng
  let tok ← t.tok.encryptInnerL P key nonce implicit
  return (tok, rng)

/-- `decrypt_with_assertions`, src/purpose/local/mod.rs:308-340 (see
`SecuredToken.decryptWithAssertions`) -/
def SecuredToken.decryptL (M : Type) [Payload E] [MessageDecoding E M] (P : Prims)
    (t : SecuredToken v .Local F E) (key : Key P v .Local) (implicit : Bytes) :
    Res (ValidatedToken v .Local M F E) := do
  let (n, m) ← splitAt 32 t.payload
  let mid ← usizeSub m.length (tagSize v)
  let (m, tag) ← splitAt mid m
  let r ← genericDecryptL P v key.key (Payload.suffix E) n m tag t.encodedFooter implicit
  let m ← Res.okOr .cryptoError r
  let message ← Res.ofExcept (MessageDecoding.decode t.encoding m)
  return { encoding := t.encoding, message, footer := t.footer }

end
end Pasta
