import Verif.Model.Local

/-! # Public (signed) tokens: src/purpose/public/ -/

namespace Pasta

/-- `PublicVersion::Signature`, src/purpose/public/v3.rs:64, src/purpose/public/v4.rs:61 -/
def sigSize : Ver → Nat
  | .V3 => 96
  | .V4 => 64

/-- The bytes hashed by `digest`, src/purpose/public/v3.rs:14-33 -/
def v3PublicPreAuth (pk h m f i : Bytes) : Bytes :=
  pae [[pk], [Ver.V3.pasetoHeader, h, asc ".", Purpose.Public.header, asc "."], [m], [f], [i]] []

/-- `preauth`, src/purpose/public/v4.rs:9-28 -/
def v4PublicPreAuth (h m f i : Bytes) : Bytes :=
  pae [[Ver.V4.pasetoHeader, h, asc ".", Purpose.Public.header, asc "."], [m], [f], [i]] []

/-- `PublicVersion::sign`, src/purpose/public/v3.rs:66-80, src/purpose/public/v4.rs:63-75. `sign_digest` panics where
`try_sign_digest` returns an error. -/
def signRaw (P : Prims) : (v : Ver) → Inner P v .Secret → (h m f i : Bytes) →
    Res (BytesN (sigSize v))
  | .V3, sk, h, m, f, i =>
    let pk := (P.p384Compress (P.p384Public sk)).1
    let digest := P.sha384 (v3PublicPreAuth pk h m f i)
    Res.unwrap (P.p384Sign sk digest)
  | .V4, sk, h, m, f, i => .ok (P.edSign sk (v4PublicPreAuth h m f i))

/-- `p384::ecdsa::Signature::from_bytes` -/
def p384SigFromBytes (s : BytesN 96) : Option (BytesN 96) :=
  if p384SigOk s then some s else none

/-- `PublicVersion::verify`, src/purpose/public/v3.rs:82-96, src/purpose/public/v4.rs:77-89. `false` is
`Err(signature::Error)`. In V3 `Signature::from_bytes(sig).unwrap()` panics on out-of-range
signatures. -/
def verifyRaw (P : Prims) : (v : Ver) → Inner P v .Public → (h m f i : Bytes) →
    BytesN (sigSize v) → Res Bool
  | .V3, k, h, m, f, i, sig => do
    let pk := (P.p384Compress k).1
    let digest := P.sha384 (v3PublicPreAuth pk h m f i)
    let sig ← Res.unwrap (p384SigFromBytes sig)
    return P.p384Verify k digest sig
  | .V4, k, h, m, f, i, sig => .ok (P.edVerify k (v4PublicPreAuth h m f i) sig)

section
variable {v : Ver} {M F E : Type}

/-- `sign_with_assertions`, src/purpose/public/mod.rs:145-166 -/
def TokenBuilder.signWithAssertions [Payload E] [MessageEncoding E M] [Footer F] (P : Prims)
    (t : TokenBuilder v .Public M F E) (key : Key P v .Secret) (implicit : Bytes) :
    Res (SecuredToken v .Public F E) := do
  let m ← Res.ofExcept (MessageEncoding.encode t.tok.encoding t.tok.message)
  let f ← Res.unwrap (Footer.encode t.tok.footer)
  let sig ← signRaw P v key.key (Payload.suffix E) m f implicit
  let m := m ++ sig.1
  return { encoding := t.tok.encoding, payload := m, encodedFooter := f, footer := t.tok.footer }

/-- `sign`, src/purpose/public/mod.rs:131-133 -/
def TokenBuilder.sign [Payload E] [MessageEncoding E M] [Footer F] (P : Prims)
    (t : TokenBuilder v .Public M F E) (key : Key P v .Secret) :
    Res (SecuredToken v .Public F E) :=
  t.signWithAssertions P key []

/-- `verify_with_assertions`, src/purpose/public/mod.rs:195-228. The conversion `sig.into()` of a
slice to an array reference panics unless the length is right. -/
def SecuredToken.verifyWithAssertions (M : Type) [Payload E] [MessageDecoding E M] (P : Prims)
    (t : SecuredToken v .Public F E) (key : Key P v .Public) (implicit : Bytes) :
    Res (ValidatedToken v .Public M F E) := do
  let mid ← usizeSub t.payload.length (sigSize v)
  let (m, sig) ← splitAt mid t.payload
  let sig ← Res.unwrap (BytesN.ofBytes? (sigSize v) sig)
  let ok ← verifyRaw P v key.key (Payload.suffix E) m t.encodedFooter implicit sig
  if ok then
    let message ← Res.ofExcept (MessageDecoding.decode t.encoding m)
    return { encoding := t.encoding, message, footer := t.footer }
  else
    .err .cryptoError

/-- `verify`, src/purpose/public/mod.rs:178-183 -/
def SecuredToken.verify (M : Type) [Payload E] [MessageDecoding E M] (P : Prims)
    (t : SecuredToken v .Public F E) (key : Key P v .Public) :
    Res (ValidatedToken v .Public M F E) :=
  t.verifyWithAssertions M P key []

end
end Pasta
