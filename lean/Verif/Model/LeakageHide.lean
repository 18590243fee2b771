import Verif.Model.Leakage
import Verif.Model.Rng

/-!
# Instrumented versions of the functions that hide or sign something

The counterpart of Model/Leakage.lean: encryption, signing, wrapping and sealing, recording their
steps in the same way. Random bytes drawn and a message or footer encoded are recorded as primitive
calls with the length of what they return.
-/

namespace Pasta

/-- `RngCore::fill_bytes` (see `fillBytes`) -/
def fillBytesT (n : Nat) (rng : Rng) : Traced (BytesN n × Rng) :=
  Traced.prim "random" n 0 0 (fillBytes n rng)

/-- `generic_encrypt`, src/purpose/local/mod.rs:153-171 (see `genericEncrypt`) -/
def genericEncryptT (P : Prims) (v : Ver) (key : BytesN 32)
    (encodingHeader nonce message footer implicit : Bytes) :
    Traced (Bytes × BytesN (tagSize v)) := do
  let ekIv ← localKdfT P v (keyIvPair v) key.1 [asc "paseto-encryption-key", nonce]
  let ak ← localKdfT P v (authKeySize v) key.1 [asc "paseto-auth-key-for-aead", nonce]
  Traced.step (.stream message.length)
  let message := applyKeystream (keyIvStream P v ekIv) message
  let tag ← genericDigestT P v ak encodingHeader nonce message footer implicit
  return (message, tag)

/-- `encrypt_with_assertions_and_rng`, src/purpose/local/mod.rs:274-283, with `encrypt_inner`,
src/purpose/local/mod.rs:200-231 (see `TokenBuilder.encryptWithAssertionsAndRng`) -/
def TokenBuilder.encryptT {v : Ver} {M F E : Type} [Payload E] [MessageEncoding E M] [Footer F]
    (P : Prims) (t : TokenBuilder v .Local M F E) (key : Key P v .Local) (implicit : Bytes)
    (rng : Rng) : Traced (SecuredToken v .Local F E × Rng) := do
  let (nonce, rng) ← fillBytesT 32 rng
  let m ← Traced.lift (Res.ofExcept (MessageEncoding.encode t.tok.encoding t.tok.message))
  Traced.step (.prim "encode" m.length 0 0)
  let f ← Traced.lift (Res.unwrap (Footer.encode t.tok.footer))
  Traced.step (.prim "encode" f.length 0 0)
  let (m, tag) ← genericEncryptT P v key.key (Payload.suffix E) nonce.1 m f implicit
  let m := sandwich m nonce.1 tag.1
  return ({ encoding := t.tok.encoding, payload := m, encodedFooter := f, footer := t.tok.footer },
    rng)

/-- `PublicVersion::sign`, src/purpose/public/v3.rs:66-80, src/purpose/public/v4.rs:63-75 (see `signRaw`) -/
def signRawT (P : Prims) : (v : Ver) → Inner P v .Secret → (h m f i : Bytes) →
    Traced (BytesN (sigSize v))
  | .V3, sk, h, m, f, i => do
    let pk ← Traced.prim "public" 49 48 0 (.ok (P.p384Compress (P.p384Public sk)).1)
    let preAuth := v3PublicPreAuth pk h m f i
    let digest ← Traced.prim "sha384" 48 0 preAuth.length (.ok (P.sha384 preAuth))
    Traced.prim "sign" 96 48 48 (Res.unwrap (P.p384Sign sk digest))
  | .V4, sk, h, m, f, i =>
    let preAuth := v4PublicPreAuth h m f i
    Traced.prim "sign" 64 32 preAuth.length (.ok (P.edSign sk preAuth))

/-- `sign_with_assertions`, src/purpose/public/mod.rs:145-167 (see
`TokenBuilder.signWithAssertions`) -/
def TokenBuilder.signT {v : Ver} {M F E : Type} [Payload E] [MessageEncoding E M] [Footer F]
    (P : Prims) (t : TokenBuilder v .Public M F E) (key : Key P v .Secret) (implicit : Bytes) :
    Traced (SecuredToken v .Public F E) := do
  let m ← Traced.lift (Res.ofExcept (MessageEncoding.encode t.tok.encoding t.tok.message))
  Traced.step (.prim "encode" m.length 0 0)
  let f ← Traced.lift (Res.unwrap (Footer.encode t.tok.footer))
  Traced.step (.prim "encode" f.length 0 0)
  let sig ← signRawT P v key.key (Payload.suffix E) m f implicit
  let m := m ++ sig.1
  return { encoding := t.tok.encoding, payload := m, encodedFooter := f, footer := t.tok.footer }

/-- `wrap_pie_with_rng`, src/paserk/wrap.rs:150-201 (see `Key.wrapPie`) -/
def Key.wrapPieT {P : Prims} {v : Ver} {k : WKind} (key : Key P v k.kind)
    (wrappingKey : Key P v .Local) (rng : Rng) : Traced (PieWrappedKey v k × Rng) := do
  let (n, rng) ← fillBytesT 32 rng
  let wk : BytesN 32 := wrappingKey.key
  let ekInput := [0x80] ++ n.1
  let ek ← Traced.prim "encKeyMac" (pieEncKeyLen v) wk.1.length ekInput.length
    (pieEncKeyMac P v wk.1 ekInput)
  let (ek, n2) := BytesN.split 32 (ivLen v) (pieEncKeyLen_eq v) ek
  let akInput := [0x81] ++ n.1
  let ak ← Traced.prim "authKeyMac" (pieAuthKeyLen v) wk.1.length akInput.length
    (pieAuthKeyMac P v wk.1 akInput)
  Traced.step (.stream key.toBytes.1.length)
  let c := applyKeystreamN (stream P v ek n2) key.toBytes
  let tagInput := pieTagInput v k n.1 c.1
  let tag ← Traced.prim "tagMac" (pieTagLen v) (ak.1.take 32).length tagInput.length
    (pieTagMac P v (ak.1.take 32) tagInput)
  return ({ wrappedKey := c, nonce := n, tag := tag }, rng)

/-- `pw_wrap_with_settings_and_rng`, src/paserk/pbkw.rs:153-202 (see `Key.pwWrapWithSettings`) -/
def Key.pwWrapT {P : Prims} {v : Ver} {k : WKind} (key : Key P v k.kind)
    (password : Bytes) (settings : KdfState v) (rng : Rng) : Traced (PwWrappedKey v k × Rng) := do
  let (salt, rng) ← fillBytesT (pwSaltLen v) rng
  let kk ← pwKdfT P v password salt settings
  let ekh ← Traced.prim "keyHash" (pwKeyHashLen v) 0 33 (.ok (pwKeyHash P v ([0xff] ++ kk.1)))
  let ek := splitEk v ekh
  let ak ← Traced.prim "keyHash" (pwKeyHashLen v) 0 33 (.ok (pwKeyHash P v ([0xfe] ++ kk.1)))
  let (n, rng) ← fillBytesT (ivLen v) rng
  Traced.step (.stream key.toBytes.1.length)
  let edk := applyKeystreamN (stream P v ek n) key.toBytes
  let tagInput := pwTagInput v k salt.1 settings n.1 edk.1
  let tag ← Traced.prim "tagMac" (pwTagLen v) ak.1.length tagInput.length (pwTagMac P v ak.1 tagInput)
  return ({ salt, state := settings, nonce := n, edk, tag }, rng)

/-- `p384::NonZeroScalar::random` (see `p384Random`) -/
def p384RandomT (rng : Rng) : Traced (P384Scalar × Rng) :=
  if h : 48 ≤ rng.length then
    let b : BytesN 48 := ⟨rng.take 48, by simp; omega⟩
    if hb : p384ScalarOk b then
      ⟨[.prim "random" 48 0 0, .branch true], .ok (⟨b, hb⟩, rng.drop 48)⟩
    else
      let r := p384RandomT (rng.drop 48)
      ⟨.prim "random" 48 0 0 :: .branch false :: r.trace, r.res⟩
  else ⟨[.prim "random" 48 0 0], .panic⟩
termination_by rng.length
decreasing_by simp; omega

/-- `V3::seal`, src/paserk/pke.rs:168-222 (see `sealV3`) -/
def sealV3T (P : Prims) (plaintextKey : Key P .V3 .Local) (sealingKey : Key P .V3 .Public)
    (rng : Rng) : Traced (SealedKey .V3 × Rng) := do
  let pk : P.P384Point := sealingKey.key
  let pkBytes : BytesN 49 := sealingKey.toBytes
  let (esk, rng) ← p384RandomT rng
  let epk ← Traced.prim "public" 49 48 0 (.ok (P.p384Compress (P.p384Public esk)))
  let xk ← Traced.prim "dh" 48 48 49 (.ok (P.p384Dh esk pk))
  let ekInput := pkeKdfInput .V3 1 xk.1 epk.1 pkBytes.1
  let ekn ← Traced.prim "sha384" 48 0 ekInput.length (.ok (P.sha384 ekInput))
  let (ek, n) := BytesN.split 32 16 rfl ekn
  let akInput := pkeKdfInput .V3 2 xk.1 epk.1 pkBytes.1
  let ak ← Traced.prim "sha384" 48 0 akInput.length (.ok (P.sha384 akInput))
  Traced.step (.stream plaintextKey.toBytes.1.length)
  let edk : BytesN 32 := applyKeystreamN (P.aesCtr64 ek n) plaintextKey.toBytes
  let tagInput := pkeTagInput .V3 epk.1 edk.1
  let tag ← Traced.prim "hmac" 48 ak.1.length tagInput.length (P.hmac ak.1 tagInput)
  return ({ tag := tag, ephemeralPublicKey := epk, encryptedDataKey := edk }, rng)

/-- `V4::seal`, src/paserk/pke.rs:305-369 (see `sealV4`) -/
def sealV4T (P : Prims) (plaintextKey : Key P .V4 .Local) (sealingKey : Key P .V4 .Public)
    (rng : Rng) : Traced (SealedKey .V4 × Rng) := do
  let xpk := P.edToMontgomery sealingKey.key
  let (eskBytes, rng) ← fillBytesT 32 rng
  let esk := scalarModOrder (clampInteger eskBytes)
  let epk ← Traced.prim "public" 32 32 0 (.ok (P.montMulBase esk))
  let xk ← Traced.prim "dh" 32 32 32 (.ok (P.montMul esk xpk))
  let ekInput := pkeKdfInput .V4 1 xk.1 epk.1 xpk.1
  let ek ← Traced.prim "blake2b" 32 0 ekInput.length (.ok (P.blake2b 32 ekInput))
  let akInput := pkeKdfInput .V4 2 xk.1 epk.1 xpk.1
  let ak ← Traced.prim "blake2b" 32 0 akInput.length (.ok (P.blake2b 32 akInput))
  let n ← Traced.prim "blake2b" 24 0 (epk.1 ++ xpk.1).length (.ok (P.blake2b 24 (epk.1 ++ xpk.1)))
  Traced.step (.stream plaintextKey.toBytes.1.length)
  let edk : BytesN 32 := applyKeystreamN (P.xchacha20 ek n) plaintextKey.toBytes
  let tagInput := pkeTagInput .V4 epk.1 edk.1
  let tag ← Traced.prim "blake2bMac" 32 ak.1.length tagInput.length (P.blakeMac 32 ak.1 tagInput)
  return ({ tag := tag, ephemeralPublicKey := epk, encryptedDataKey := edk }, rng)

/-- `Key::seal_with_rng`, src/paserk/pke.rs:101-107 (see `Key.sealKey`) -/
def Key.sealKeyT {P : Prims} : {v : Ver} → Key P v .Local → Key P v .Public → Rng →
    Traced (SealedKey v × Rng)
  | .V3, key, pk, rng => sealV3T P key pk rng
  | .V4, key, pk, rng => sealV4T P key pk rng

end Pasta
