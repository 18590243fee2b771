import Verif.Model.Pke

/-!
# Instrumented versions of the functions that handle secrets

The same programs as `genericDecrypt`, `verifyRaw`, `PieWrappedKey.unwrapKey`,
`PwWrappedKey.unwrapKey` and `SealedKey.unsealKey`, which also record what they do: every call of a primitive with the lengths of
its inputs and outputs, every position looked at by a comparison, every branch, every key stream
applied, every payload decoded. What happens inside a primitive, inside a decoder, and in the
machine is not recorded.
-/

namespace Pasta

/-- One observable step -/
inductive Event where
  /-- a primitive is called: name, lengths of output, key and message -/
  | prim (name : String) (out key msg : Nat)
  /-- two lengths are compared -/
  | lengths (a b : Nat)
  /-- position `i` of two byte strings is compared -/
  | position (i : Nat)
  /-- a conditional jump -/
  | branch (taken : Bool)
  /-- a key stream is applied to a buffer -/
  | stream (len : Nat)
  /-- bytes are handed to the payload decoder or to the key parser -/
  | decode (len : Nat)
  /-- a password hash is computed, with this many KiB of memory (0 for PBKDF2), passes and lanes -/
  | cost (memory passes lanes : Nat)
  deriving DecidableEq, Repr

/-- A computation with its record of steps -/
structure Traced (α : Type) where
  trace : List Event
  res : Res α

namespace Traced

/-- Sequencing: an error or a panic stops the program. -/
def bind {α β : Type} (x : Traced α) (f : α → Traced β) : Traced β :=
  match x.res with
  | .ok a => ⟨x.trace ++ (f a).trace, (f a).res⟩
  | .err e => ⟨x.trace, .err e⟩
  | .panic => ⟨x.trace, .panic⟩

instance : Monad Traced where
  pure a := ⟨[], .ok a⟩
  bind := Traced.bind

/-- Record one step. -/
def step (e : Event) : Traced Unit := ⟨[e], .ok ()⟩

/-- A computation that is not looked into. -/
def lift {α : Type} (r : Res α) : Traced α := ⟨[], r⟩

/-- A primitive call. -/
def prim {α : Type} (name : String) (out key msg : Nat) (r : Res α) : Traced α :=
  ⟨[.prim name out key msg], r⟩

end Traced

/-- The loop of `subtle::ConstantTimeEq::ct_eq for [T]`, from position `i` -/
def ctEqLoopT : Nat → List (UInt8 × UInt8) → UInt8 → Traced UInt8
  | _, [], x => pure x
  | i, p :: ps, x => do
    Traced.step (.position i)
    ctEqLoopT (i + 1) ps (x &&& u8CtEq p.1 p.2)

/-- `subtle::ConstantTimeEq::ct_ne` on slices (see `ctNe`) -/
def ctNeT (a b : Bytes) : Traced Bool := do
  Traced.step (.lengths a.length b.length)
  Traced.step (.branch (decide (a.length ≠ b.length)))
  if a.length ≠ b.length then return (1 &&& ~~~ (0 : UInt8)) != 0
  else
    let x ← ctEqLoopT 0 (a.zip b) 1
    return (1 &&& ~~~ x) != 0

/-- For contrast, not in the repository's verification code: a comparison that stops at the first
difference, as `==` on slices may do. -/
def earlyNeT : Nat → Bytes → Bytes → Traced Bool
  | _, [], [] => pure false
  | i, x :: xs, y :: ys => do
    Traced.step (.position i)
    Traced.step (.branch (decide (x = y)))
    if x = y then earlyNeT (i + 1) xs ys else pure true
  | _, _, _ => pure true

/-- `Kdf::mac` for `Hash` (see `localKdf`) -/
def localKdfT (P : Prims) (v : Ver) (n : Nat) (key : Bytes) (info : List Bytes) :
    Traced (BytesN n) :=
  Traced.prim "kdf" n key.length (info.map List.length).sum (localKdf P v n key info)

/-- `generic_digest` (see `genericDigest`) -/
def genericDigestT (P : Prims) (v : Ver) (authKey : BytesN (authKeySize v))
    (encodingHeader nonce ciphertext footer implicit : Bytes) : Traced (BytesN (tagSize v)) :=
  Traced.prim "mac" (tagSize v) authKey.1.length
    (localPreAuth v encodingHeader nonce ciphertext footer implicit).length
    (genericDigest P v authKey encodingHeader nonce ciphertext footer implicit)

/-- `generic_decrypt`, src/purpose/local/mod.rs:174-198 (see `genericDecrypt`) -/
def genericDecryptT (P : Prims) (v : Ver) (key : BytesN 32)
    (encodingHeader nonce message tag footer implicit : Bytes) : Traced (Option Bytes) := do
  let ekIv ← localKdfT P v (keyIvPair v) key.1 [asc "paseto-encryption-key", nonce]
  let ak ← localKdfT P v (authKeySize v) key.1 [asc "paseto-auth-key-for-aead", nonce]
  let tag2 ← genericDigestT P v ak encodingHeader nonce message footer implicit
  let ne ← ctNeT tag tag2.1
  Traced.step (.branch ne)
  if ne then return none
  else do
    Traced.step (.stream message.length)
    return some (applyKeystream (keyIvStream P v ekIv) message)

/-- `decrypt_with_assertions`, src/purpose/local/mod.rs:308-340 (see
`SecuredToken.decryptWithAssertions`) -/
def SecuredToken.decryptWithAssertionsT {v : Ver} {F E : Type} (M : Type) [Payload E]
    [MessageDecoding E M] (P : Prims) (t : SecuredToken v .Local F E) (key : Key P v .Local)
    (implicit : Bytes) : Traced (ValidatedToken v .Local M F E) := do
  let (n, m) ← Traced.lift (splitAt 32 t.payload)
  let mid ← Traced.lift (usizeSub m.length (tagSize v))
  let (m, tag) ← Traced.lift (splitAt mid m)
  let r ← genericDecryptT P v key.key (Payload.suffix E) n m tag t.encodedFooter implicit
  let m ← Traced.lift (Res.okOr .cryptoError r)
  Traced.step (.decode m.length)
  let message ← Traced.lift (Res.ofExcept (MessageDecoding.decode t.encoding m))
  return { encoding := t.encoding, message, footer := t.footer }

/-- `PublicVersion::verify`, src/purpose/public/v3.rs:82-96, src/purpose/public/v4.rs:77-89 (see `verifyRaw`) -/
def verifyRawT (P : Prims) : (v : Ver) → Inner P v .Public → (h m f i : Bytes) →
    BytesN (sigSize v) → Traced Bool
  | .V3, k, h, m, f, i, sig => do
    let pk := (P.p384Compress k).1
    let preAuth := v3PublicPreAuth pk h m f i
    let digest ← Traced.prim "sha384" 48 0 preAuth.length (.ok (P.sha384 preAuth))
    let sig ← Traced.lift (Res.unwrap (p384SigFromBytes sig))
    Traced.prim "verify" 1 49 48 (.ok (P.p384Verify k digest sig))
  | .V4, k, h, m, f, i, sig =>
    Traced.prim "verify" 1 32 (v4PublicPreAuth h m f i).length
      (.ok (P.edVerify k (v4PublicPreAuth h m f i) sig))

/-- `verify_with_assertions`, src/purpose/public/mod.rs:195-228 (see
`SecuredToken.verifyWithAssertions`) -/
def SecuredToken.verifyWithAssertionsT {v : Ver} {F E : Type} (M : Type) [Payload E]
    [MessageDecoding E M] (P : Prims) (t : SecuredToken v .Public F E) (key : Key P v .Public)
    (implicit : Bytes) : Traced (ValidatedToken v .Public M F E) := do
  let mid ← Traced.lift (usizeSub t.payload.length (sigSize v))
  let (m, sig) ← Traced.lift (splitAt mid t.payload)
  let sig ← Traced.lift (Res.unwrap (BytesN.ofBytes? (sigSize v) sig))
  let ok ← verifyRawT P v key.key (Payload.suffix E) m t.encodedFooter implicit sig
  Traced.step (.branch ok)
  if ok then
    Traced.step (.decode m.length)
    let message ← Traced.lift (Res.ofExcept (MessageDecoding.decode t.encoding m))
    return { encoding := t.encoding, message, footer := t.footer }
  else
    Traced.lift (.err .cryptoError)

/-- PIE `unwrap_key`, src/paserk/wrap.rs:252-305 (see `PieWrappedKey.unwrapKey`) -/
def PieWrappedKey.unwrapKeyT {v : Ver} {k : WKind} (P : Prims) (w : PieWrappedKey v k)
    (wrappingKey : Key P v .Local) : Traced (Key P v k.kind) := do
  let wk : BytesN 32 := wrappingKey.key
  let akInput := [0x81] ++ w.nonce.1
  let ak ← Traced.prim "authKeyMac" (pieAuthKeyLen v) wk.1.length akInput.length
    (pieAuthKeyMac P v wk.1 akInput)
  let tagInput := pieTagInput v k w.nonce.1 w.wrappedKey.1
  let tag2 ← Traced.prim "tagMac" (pieTagLen v) (ak.1.take 32).length tagInput.length
    (pieTagMac P v (ak.1.take 32) tagInput)
  let ne ← ctNeT w.tag.1 tag2.1
  Traced.step (.branch ne)
  if ne then Traced.lift (.err .cryptoError)
  else do
    let ekInput := [0x80] ++ w.nonce.1
    let ek ← Traced.prim "encKeyMac" (pieEncKeyLen v) wk.1.length ekInput.length
      (pieEncKeyMac P v wk.1 ekInput)
    let (ek, n2) := BytesN.split 32 (ivLen v) (pieEncKeyLen_eq v) ek
    Traced.step (.stream w.wrappedKey.1.length)
    let ptk := applyKeystreamN (stream P v ek n2) w.wrappedKey
    Traced.step (.decode ptk.1.length)
    Traced.lift (Key.fromBytes P v k.kind ptk)

/-- `PwVersion::kdf`, src/paserk/pbkw.rs:456-458 and 487-497 (see `pwKdf`) -/
def pwKdfT (P : Prims) : (v : Ver) → (pw : Bytes) → BytesN (pwSaltLen v) → KdfState v →
    Traced (BytesN 32)
  | .V3, pw, salt, state => do
    Traced.step (.cost 0 state.iterations.toNat 1)
    Traced.prim "pwKdf" 32 pw.length salt.1.length (.ok (P.pbkdf2Sha384 pw salt.1 state.iterations))
  | .V4, pw, salt, state => do
    let m := state.mem / 1024
    let _ ← Traced.lift (Res.unwrap (if argon2ParamsOk m state.time state.para then some () else none))
    let _ ← Traced.lift (Res.unwrap (if pw.length ≤ 0xFFFFFFFF then some () else none))
    Traced.step (.cost m.toNat state.time.toNat state.para.toNat)
    Traced.prim "pwKdf" 32 pw.length salt.1.length
      (.ok (P.argon2id pw salt.1 m state.time state.para))

/-- Password `unwrap_key`, src/paserk/pbkw.rs:207-243 (see `PwWrappedKey.unwrapKey`) -/
def PwWrappedKey.unwrapKeyT {v : Ver} {k : WKind} (P : Prims) (w : PwWrappedKey v k)
    (password : Bytes) : Traced (Key P v k.kind) := do
  let kk ← pwKdfT P v password w.salt w.state
  let ak ← Traced.prim "keyHash" (pwKeyHashLen v) 0 33 (.ok (pwKeyHash P v ([0xfe] ++ kk.1)))
  let tagInput := pwTagInput v k w.salt.1 w.state w.nonce.1 w.edk.1
  let tag ← Traced.prim "tagMac" (pwTagLen v) ak.1.length tagInput.length (pwTagMac P v ak.1 tagInput)
  let ne ← ctNeT tag.1 w.tag.1
  Traced.step (.branch ne)
  if ne then Traced.lift (.err .cryptoError)
  else do
    let ekh ← Traced.prim "keyHash" (pwKeyHashLen v) 0 33 (.ok (pwKeyHash P v ([0xff] ++ kk.1)))
    let ek := splitEk v ekh
    Traced.step (.stream w.edk.1.length)
    let edk := applyKeystreamN (stream P v ek w.nonce) w.edk
    Traced.step (.decode edk.1.length)
    Traced.lift (Key.fromBytes P v k.kind edk)

/-- `V3::unseal`, src/paserk/pke.rs:224-280 (see `unsealV3`) -/
def unsealV3T (P : Prims) (w : SealedKey .V3) (unsealingKey : Key P .V3 .Secret) :
    Traced (Key P .V3 .Local) := do
  let sk : P384Scalar := unsealingKey.key
  let pk := P.p384Compress (P.p384Public sk)
  let epk ← Traced.prim "parsePoint" 0 0 w.ephemeralPublicKey.1.length
    (Res.unwrap (P.p384Parse w.ephemeralPublicKey.1))
  let xk ← Traced.prim "dh" 48 48 49 (.ok (P.p384Dh sk epk))
  let akInput := pkeKdfInput .V3 2 xk.1 w.ephemeralPublicKey.1 pk.1
  let ak ← Traced.prim "sha384" 48 0 akInput.length (.ok (P.sha384 akInput))
  let tagInput := pkeTagInput .V3 w.ephemeralPublicKey.1 w.encryptedDataKey.1
  let tag ← Traced.prim "hmac" 48 ak.1.length tagInput.length (P.hmac ak.1 tagInput)
  let ne ← ctNeT w.tag.1 tag.1
  Traced.step (.branch ne)
  if ne then Traced.lift (.err .cryptoError)
  else do
    let ekInput := pkeKdfInput .V3 1 xk.1 w.ephemeralPublicKey.1 pk.1
    let ekn ← Traced.prim "sha384" 48 0 ekInput.length (.ok (P.sha384 ekInput))
    let (ek, n) := BytesN.split 32 16 rfl ekn
    Traced.step (.stream w.encryptedDataKey.1.length)
    return ⟨applyKeystreamN (P.aesCtr64 ek n) w.encryptedDataKey⟩

/-- `V4::unseal`, src/paserk/pke.rs:371-428 (see `unsealV4`) -/
def unsealV4T (P : Prims) (w : SealedKey .V4) (unsealingKey : Key P .V4 .Secret) :
    Traced (Key P .V4 .Local) := do
  let epk : BytesN 32 := w.ephemeralPublicKey
  let xpk := P.edToMontgomery (P.edPublic unsealingKey.key)
  let xsk := P.edScalar unsealingKey.key
  let xk ← Traced.prim "dh" 32 32 32 (.ok (P.montMul xsk epk))
  let akInput := pkeKdfInput .V4 2 xk.1 epk.1 xpk.1
  let ak ← Traced.prim "blake2b" 32 0 akInput.length (.ok (P.blake2b 32 akInput))
  let tagInput := pkeTagInput .V4 epk.1 w.encryptedDataKey.1
  let t2 ← Traced.prim "blake2bMac" 32 ak.1.length tagInput.length (P.blakeMac 32 ak.1 tagInput)
  let ne ← ctNeT w.tag.1 t2.1
  Traced.step (.branch ne)
  if ne then Traced.lift (.err .cryptoError)
  else do
    let ekInput := pkeKdfInput .V4 1 xk.1 epk.1 xpk.1
    let ek ← Traced.prim "blake2b" 32 0 ekInput.length (.ok (P.blake2b 32 ekInput))
    let n ← Traced.prim "blake2b" 24 0 (epk.1 ++ xpk.1).length (.ok (P.blake2b 24 (epk.1 ++ xpk.1)))
    Traced.step (.stream w.encryptedDataKey.1.length)
    return ⟨applyKeystreamN (P.xchacha20 ek n) w.encryptedDataKey⟩

/-- `SealedKey::unseal`, src/paserk/pke.rs:112-114 (see `SealedKey.unsealKey`) -/
def SealedKey.unsealKeyT (P : Prims) : {v : Ver} → SealedKey v → Key P v .Secret →
    Traced (Key P v .Local)
  | .V3, w, sk => unsealV3T P w sk
  | .V4, w, sk => unsealV4T P w sk

end Pasta
