import Verif.Model.Pbkw

/-! # Public-key sealing of local keys: src/paserk/pke.rs -/

namespace Pasta

/-- `SealedVersion::TagLen`, src/paserk/pke.rs:147,285 -/
def pkeTagLen : Ver → Nat
  | .V3 => 48
  | .V4 => 32

/-- `SealedVersion::EpkLen`, src/paserk/pke.rs:148,286 -/
def pkeEpkLen : Ver → Nat
  | .V3 => 49
  | .V4 => 32

/-- `SealedVersion::TotalLen`, src/paserk/pke.rs:151,288 -/
def pkeTotalLen : Ver → Nat
  | .V3 => 129
  | .V4 => 96

theorem pkeTotalLen_eq (v : Ver) : pkeTotalLen v = pkeTagLen v + (pkeEpkLen v + 32) := by
  cases v <;> rfl

theorem pkeTotalLen_eq' (v : Ver) : pkeTotalLen v = (pkeTagLen v + pkeEpkLen v) + 32 := by
  cases v <;> rfl

/-- `SealedKey<V>`, src/paserk/pke.rs:62-66 -/
structure SealedKey (v : Ver) where
  tag : BytesN (pkeTagLen v)
  ephemeralPublicKey : BytesN (pkeEpkLen v)
  encryptedDataKey : BytesN 32
  deriving DecidableEq

/-- The key-derivation hash input of `seal`/`unseal`: V3 src/paserk/pke.rs:186-203 and 241-248,
264-272; V4 src/paserk/pke.rs:329-345 and 387-394, 410-417. `sep` is 1 for the encryption key and
2 for the authentication key. -/
def pkeKdfInput (v : Ver) (sep : UInt8) (xk epk pk : Bytes) : Bytes :=
  [sep] ++ v.paserkHeader ++ asc ".seal." ++ xk ++ epk ++ pk

/-- The tag input of `seal`/`unseal`: src/paserk/pke.rs:208-215, 250-257, 355-362, 396-403 -/
def pkeTagInput (v : Ver) (epk edk : Bytes) : Bytes :=
  v.paserkHeader ++ asc ".seal." ++ epk ++ edk

/-- `V3::seal`, src/paserk/pke.rs:168-222 -/
def sealV3 (P : Prims) (plaintextKey : Key P .V3 .Local) (sealingKey : Key P .V3 .Public)
    (rng : Rng) : Res (SealedKey .V3 × Rng) := do
  let pk : P.P384Point := sealingKey.key
  let pkBytes : BytesN 49 := sealingKey.toBytes
  let (esk, rng) ← p384Random rng
  let epk := P.p384Compress (P.p384Public esk)
  let xk := P.p384Dh esk pk
  let (ek, n) := BytesN.split 32 16 rfl (P.sha384 (pkeKdfInput .V3 1 xk.1 epk.1 pkBytes.1))
  let ak := P.sha384 (pkeKdfInput .V3 2 xk.1 epk.1 pkBytes.1)
  let edk : BytesN 32 := applyKeystreamN (P.aesCtr64 ek n) plaintextKey.toBytes
  let tag ← P.hmac ak.1 (pkeTagInput .V3 epk.1 edk.1)
  return ({ tag := tag, ephemeralPublicKey := epk, encryptedDataKey := edk }, rng)

/-- `V3::unseal`, src/paserk/pke.rs:224-280. (`SecretKey::from_bytes` on the bytes of a valid
secret key always succeeds.) -/
def unsealV3 (P : Prims) (w : SealedKey .V3) (unsealingKey : Key P .V3 .Secret) :
    Res (Key P .V3 .Local) := do
  let sk : P384Scalar := unsealingKey.key
  let pk := P.p384Compress (P.p384Public sk)
  let epk ← Res.unwrap (P.p384Parse w.ephemeralPublicKey.1)
  let xk := P.p384Dh sk epk
  let ak := P.sha384 (pkeKdfInput .V3 2 xk.1 w.ephemeralPublicKey.1 pk.1)
  let tag ← P.hmac ak.1 (pkeTagInput .V3 w.ephemeralPublicKey.1 w.encryptedDataKey.1)
  if ctNe w.tag.1 tag.1 then .err .cryptoError
  else
    let (ek, n) :=
      BytesN.split 32 16 rfl (P.sha384 (pkeKdfInput .V3 1 xk.1 w.ephemeralPublicKey.1 pk.1))
    return ⟨applyKeystreamN (P.aesCtr64 ek n) w.encryptedDataKey⟩

/-- `V4::seal`, src/paserk/pke.rs:305-369 -/
def sealV4 (P : Prims) (plaintextKey : Key P .V4 .Local) (sealingKey : Key P .V4 .Public)
    (rng : Rng) : Res (SealedKey .V4 × Rng) := do
  let xpk := P.edToMontgomery sealingKey.key
  let (eskBytes, rng) ← fillBytes 32 rng
  let esk := scalarModOrder (clampInteger eskBytes)
  let epk := P.montMulBase esk
  let xk := P.montMul esk xpk
  let ek := P.blake2b 32 (pkeKdfInput .V4 1 xk.1 epk.1 xpk.1)
  let ak := P.blake2b 32 (pkeKdfInput .V4 2 xk.1 epk.1 xpk.1)
  let n := P.blake2b 24 (epk.1 ++ xpk.1)
  let edk : BytesN 32 := applyKeystreamN (P.xchacha20 ek n) plaintextKey.toBytes
  let tag ← P.blakeMac 32 ak.1 (pkeTagInput .V4 epk.1 edk.1)
  return ({ tag := tag, ephemeralPublicKey := epk, encryptedDataKey := edk }, rng)

/-- `V4::unseal`, src/paserk/pke.rs:371-428 -/
def unsealV4 (P : Prims) (w : SealedKey .V4) (unsealingKey : Key P .V4 .Secret) :
    Res (Key P .V4 .Local) := do
  let epk : BytesN 32 := w.ephemeralPublicKey
  let xpk := P.edToMontgomery (P.edPublic unsealingKey.key)
  let xsk := P.edScalar unsealingKey.key
  let xk := P.montMul xsk epk
  let ak := P.blake2b 32 (pkeKdfInput .V4 2 xk.1 epk.1 xpk.1)
  let t2 ← P.blakeMac 32 ak.1 (pkeTagInput .V4 epk.1 w.encryptedDataKey.1)
  if ctNe w.tag.1 t2.1 then .err .cryptoError
  else
    let ek := P.blake2b 32 (pkeKdfInput .V4 1 xk.1 epk.1 xpk.1)
    let n := P.blake2b 24 (epk.1 ++ xpk.1)
    return ⟨applyKeystreamN (P.xchacha20 ek n) w.encryptedDataKey⟩

/-- `Key::seal_with_rng`, src/paserk/pke.rs:101-107 (and `Key::seal`, src/paserk/pke.rs:94-96, with
`OsRng`) -/
def Key.sealKey {P : Prims} : {v : Ver} → Key P v .Local → Key P v .Public → Rng →
    Res (SealedKey v × Rng)
  | .V3, key, pk, rng => sealV3 P key pk rng
  | .V4, key, pk, rng => sealV4 P key pk rng

namespace SealedKey

/-- `SealedKey::unseal`, src/paserk/pke.rs:112-114 -/
def unsealKey (P : Prims) : {v : Ver} → SealedKey v → Key P v .Secret → Res (Key P v .Local)
  | .V3, w, sk => unsealV3 P w sk
  | .V4, w, sk => unsealV4 P w sk

variable {v : Ver}

/-- `SealedVersion::split_total`, src/paserk/pke.rs:152-160 and 289-297 -/
def splitTotal (total : BytesN (pkeTotalLen v)) : SealedKey v :=
  let (tag, rest) := BytesN.split (pkeTagLen v) (pkeEpkLen v + 32) (pkeTotalLen_eq v) total
  let (ephemeralPublicKey, encryptedDataKey) := BytesN.split (pkeEpkLen v) 32 rfl rest
  { tag, ephemeralPublicKey, encryptedDataKey }

/-- `SealedVersion::join_total`, src/paserk/pke.rs:161-166 and 298-303 -/
def joinTotal (w : SealedKey v) : BytesN (pkeTotalLen v) :=
  BytesN.append (pkeTotalLen v) (pkeTotalLen_eq' v)
    (BytesN.append (pkeTagLen v + pkeEpkLen v) rfl w.tag w.ephemeralPublicKey) w.encryptedDataKey

/-- `FromStr for SealedKey`, src/paserk/pke.rs:431-444 -/
def parse (v : Ver) (s : Bytes) : Res (SealedKey v) := do
  let s ← Res.okOr .invalidToken (stripPrefix v.paserkHeader s)
  let s ← Res.okOr .invalidToken (stripPrefix (asc ".seal.") s)
  let total ← readB64 (pkeTotalLen v) s
  return splitTotal total

/-- `Display for SealedKey`, src/paserk/pke.rs:446-453 -/
def display (w : SealedKey v) : Res Bytes := do
  let b ← writeB64 w.joinTotal.1
  return v.paserkHeader ++ asc ".seal." ++ b

end SealedKey
end Pasta
