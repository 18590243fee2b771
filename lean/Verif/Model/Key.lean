import Verif.Model.Prims
import Verif.Model.Pem

/-! # Versions, purposes and keys: src/lib.rs:193-227, src/key/, src/purpose/*/mod.rs -/

namespace Pasta

/-- `version::V3`, `version::V4`, src/lib.rs:193-227 -/
inductive Ver where | V3 | V4
  deriving DecidableEq, Repr

/-- `Version::PASETO_HEADER`, src/lib.rs:215,220 -/
def Ver.pasetoHeader : Ver → Bytes
  | .V3 => asc "v3"
  | .V4 => asc "v4"

/-- `Version::PASERK_HEADER`, src/lib.rs:216,221 -/
def Ver.paserkHeader : Ver → Bytes
  | .V3 => asc "k3"
  | .V4 => asc "k4"

/-- `purpose::local::Local` and `purpose::public::Public` as token purposes -/
inductive Purpose where | Local | Public
  deriving DecidableEq, Repr

/-- `Purpose::HEADER`, src/purpose/local/mod.rs:42-44, src/purpose/public/mod.rs:34-36 -/
def Purpose.header : Purpose → Bytes
  | .Local => asc "local"
  | .Public => asc "public"

/-- Key types `Local`, `Public`, `Secret` -/
inductive Kind where | Local | Public | Secret
  deriving DecidableEq, Repr

/-- `KeyType::KEY_HEADER`, src/purpose/local/mod.rs:54, src/purpose/public/mod.rs:56,70 -/
def Kind.keyHeader : Kind → Bytes
  | .Local => asc "local."
  | .Public => asc "public."
  | .Secret => asc "secret."

/-- `KeyType::ID`, src/purpose/local/mod.rs:55, src/purpose/public/mod.rs:57,71 -/
def Kind.idHeader : Kind → Bytes
  | .Local => asc "lid."
  | .Public => asc "pid."
  | .Secret => asc "sid."

/-- `KeyType::KeyLen`: `KeySize` src/purpose/local/v3.rs:46, src/purpose/local/v4.rs:52; `PublicKeySize`,
`SecretKeySize` src/purpose/public/v3.rs:36-39, src/purpose/public/v4.rs:31-34 -/
def keyLen (v : Ver) : Kind → Nat
  | .Local => 32
  | .Public => match v with | .V3 => 49 | .V4 => 32
  | .Secret => match v with | .V3 => 48 | .V4 => 64

/-- `KeyType::InnerKeyType`: the byte array for local keys (src/purpose/local/mod.rs:57), the
library key types for the others (src/purpose/public/v3.rs:41-42, src/purpose/public/v4.rs:36-37). An Ed25519
`SigningKey` is determined by its seed. -/
abbrev Inner (P : Prims) (v : Ver) : Kind → Type
  | .Local => BytesN 32
  | .Public => match v with | .V3 => P.P384Point | .V4 => P.EdPoint
  | .Secret => match v with | .V3 => P384Scalar | .V4 => BytesN 32

/-- `Key<V, K>`, src/key/mod.rs:29-32 -/
structure Key (P : Prims) (v : Ver) (k : Kind) where
  key : Inner P v k

namespace Key

variable {P : Prims}

/-- `KeyType::to_bytes`: src/purpose/local/mod.rs:58-60,
src/purpose/public/v3.rs:56-62, src/purpose/public/v4.rs:53-59. An Ed25519 secret key is
written as seed followed by public key (`to_keypair_bytes`). -/
def innerToBytes (P : Prims) : (v : Ver) → (k : Kind) → Inner P v k → BytesN (keyLen v k)
  | _, .Local, b => b
  | .V3, .Public, pt => P.p384Compress pt
  | .V4, .Public, pt => P.edBytes pt
  | .V3, .Secret, s => s.1
  | .V4, .Secret, seed => BytesN.append 64 rfl seed (P.edBytes (P.edPublic seed))

/-- `Key::to_bytes`, src/key/convert.rs:145-150 -/
def toBytes {v : Ver} {k : Kind} (key : Key P v k) : BytesN (keyLen v k) :=
  innerToBytes P v k key.key

/-- `ed25519_dalek::SigningKey::from_keypair_bytes`: the second half must be a valid public key
and equal to the one derived from the first half. -/
def edFromKeypair (P : Prims) (b : BytesN 64) : Option (BytesN 32) :=
  let (s, p) := BytesN.split 32 32 rfl b
  match P.edParse p with
  | none => none
  | some pk => if P.edBytes (P.edPublic s) = P.edBytes pk then some s else none

/-- `p384::ecdsa::SigningKey::from_slice` -/
def p384ScalarFromSlice (P : Prims) (b : Bytes) : Option P384Scalar :=
  if h : b.length = 48 then
    if hb : p384ScalarOk ⟨b, h⟩ then some ⟨⟨b, h⟩, hb⟩ else none
  else P.p384ScalarOther b

/-- `KeyType::from_bytes`: src/purpose/local/mod.rs:61-63, src/purpose/public/v3.rs:44-54,
src/purpose/public/v4.rs:39-51 -/
def innerFromBytes (P : Prims) : (v : Ver) → (k : Kind) → BytesN (keyLen v k) → Res (Inner P v k)
  | _, .Local, b => .ok b
  | .V3, .Public, b => Res.okOr .invalidKey (P.p384Parse b.1)
  | .V4, .Public, b => Res.okOr .invalidKey (P.edParse b)
  | .V3, .Secret, b => Res.okOr .invalidKey (p384ScalarFromSlice P b.1)
  | .V4, .Secret, b => Res.okOr .invalidKey (edFromKeypair P b)

/-- `Key { key: Box::new(K::from_bytes(..)?) }` as used by the PASERK code -/
def fromBytes (P : Prims) (v : Ver) (k : Kind) (b : BytesN (keyLen v k)) : Res (Key P v k) := do
  let i ← innerFromBytes P v k b
  return ⟨i⟩

/-- `PartialEq for Key`, src/key/mod.rs:34-38 -/
def beq {v : Ver} {k : Kind} (a b : Key P v k) : Bool := decide (a.toBytes = b.toBytes)

/-- `Debug for Key` outside fuzzing reproduction builds, src/key/mod.rs:48-57
(`f.debug_struct("Key").finish_non_exhaustive()`) -/
def debug {v : Ver} {k : Kind} (_ : Key P v k) : Bytes := asc "Key { .. }"

/-- `SymmetricKey::<V3>::from_bytes`, `SymmetricKey::<V4>::from_bytes`,
src/key/convert.rs:152-171 -/
def localFromBytes (v : Ver) (b : BytesN 32) : Key P v .Local := ⟨b⟩

/-- `SymmetricKey::new_random`, src/key/convert.rs:179-183 (and `new_os_random`, lines 173-176, with
`OsRng`) -/
def localRandom (P : Prims) (v : Ver) (rng : Rng) : Res (Key P v .Local × Rng) := do
  let (b, rng) ← fillBytes 32 rng
  return (⟨b⟩, rng)

/-- `SecretKey::<V3>::from_bytes`, src/key/convert.rs:32-36 -/
def v3SecretFromBytes (P : Prims) (s : Bytes) : Res (Key P .V3 .Secret) := do
  let sk ← Res.okOr .invalidKey (p384ScalarFromSlice P s)
  return ⟨sk⟩

/-- `p384::SecretKey::from_sec1_pem` (elliptic-curve 0.13.5): a public key in the file must be the
compressed or the uncompressed form of the public key that belongs to the secret one
(`ValidatePublicKey`). -/
def p384SecretPem (P : Prims) (s : Bytes) : Option P384Scalar := do
  let d ← Pem.body (asc "EC PRIVATE KEY") s
  let (sk, pk) ← Pem.sec1 d
  let sk ← p384ScalarFromSlice P sk
  match pk with
  | none => return sk
  | some pk =>
    if pk = (P.p384Compress (P.p384Public sk)).1 ∨ pk = (P.p384Uncompressed (P.p384Public sk)).1 then
      some sk
    else none

/-- `p384::ecdsa::VerifyingKey::from_public_key_pem` (spki 0.7.2) -/
def p384PublicPem (P : Prims) (s : Bytes) : Option P.P384Point := do
  let d ← Pem.body (asc "PUBLIC KEY") s
  P.p384Parse (← Pem.spki d)

/-- `SecretKey::<V3>::from_sec1_pem`, src/key/convert.rs:24-29 -/
def v3SecretFromPem (P : Prims) (s : Bytes) : Res (Key P .V3 .Secret) := do
  let sk ← Res.okOr .invalidKey (p384SecretPem P s)
  return ⟨sk⟩

/-- `PublicKey::<V3>::from_public_key_pem`, src/key/convert.rs:61-68 -/
def v3PublicFromPem (P : Prims) (s : Bytes) : Res (Key P .V3 .Public) := do
  let pk ← Res.okOr .invalidKey (p384PublicPem P s)
  return ⟨pk⟩

/-- `PublicKey::<V3>::from_sec1_bytes`, src/key/convert.rs:71-76 -/
def v3PublicFromSec1 (P : Prims) (s : Bytes) : Res (Key P .V3 .Public) := do
  let pk ← Res.okOr .invalidKey (P.p384Parse s)
  return ⟨pk⟩

/-- `SecretKey::<V4>::from_keypair_bytes`, src/key/convert.rs:91-97 -/
def v4SecretFromKeypair (P : Prims) (b : Bytes) : Res (Key P .V4 .Secret) := do
  let b ← Res.okOr .invalidKey (BytesN.ofBytes? 64 b)
  let seed ← Res.okOr .invalidKey (edFromKeypair P b)
  return ⟨seed⟩

/-- `SecretKey::<V4>::from_secret_key`, src/key/convert.rs:110-114 -/
def v4SecretFromSeed (P : Prims) (b : BytesN 32) : Key P .V4 .Secret := ⟨b⟩

/-- `PublicKey::<V4>::from_public_key`, src/key/convert.rs:136-142 -/
def v4PublicFromBytes (P : Prims) (b : Bytes) : Res (Key P .V4 .Public) := do
  let b ← Res.okOr .invalidKey (BytesN.ofBytes? 32 b)
  let pk ← Res.okOr .invalidKey (P.edParse b)
  return ⟨pk⟩

/-- `SecretKey::new_random`: V4 src/key/convert.rs:194-200, V3 src/key/convert.rs:211-215 (and
`new_os_random`, lines 188-191 and 205-208, with `OsRng`) -/
def secretRandom (P : Prims) : (v : Ver) → Rng → Res (Key P v .Secret × Rng)
  | .V3, rng => do
    let (s, rng) ← p384Random rng
    return (⟨s⟩, rng)
  | .V4, rng => do
    let (b, rng) ← fillBytes 32 rng
    return (⟨b⟩, rng)

/-- `SecretKey::public_key`: V3 src/key/convert.rs:39-43, V4 src/key/convert.rs:117-121 -/
def publicKey : {v : Ver} → Key P v .Secret → Key P v .Public
  | .V3, sk => ⟨P.p384Public sk.key⟩
  | .V4, sk => ⟨P.edPublic sk.key⟩

end Key
end Pasta
