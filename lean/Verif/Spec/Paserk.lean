import Verif.Spec.Paseto

/-!
# Specification: PASERK versions k3 and k4

Transcribed from the PASERK specification (types/*.md, operations/{ID,PBKW,PKE,Wrap/pie}.md), not
from the code. The named algorithms are the fields of `Prims`.
-/

namespace Pasta.Spec

/-- The version part of a PASERK. -/
def paserkVersion : Ver → Bytes
  | .V3 => asc "k3"
  | .V4 => asc "k4"

/-- The type name of a plaintext key. -/
def keyTypeText : Kind → Bytes
  | .Local => asc "local"
  | .Public => asc "public"
  | .Secret => asc "secret"

/-- The type name of a key id. -/
def idTypeText : Kind → Bytes
  | .Local => asc "lid"
  | .Public => asc "pid"
  | .Secret => asc "sid"

/-- `version.type.` -/
def paserkHeader (v : Ver) (type : Bytes) : Bytes := paserkVersion v ++ asc "." ++ type ++ asc "."

/-- `version.type.data` -/
def paserkText (v : Ver) (type data : Bytes) : Bytes := paserkHeader v type ++ base64url data

/-- Number of bytes of a key: symmetric keys have 32; a compressed P-384 point 49, a P-384 scalar
48; an Ed25519 public key 32, an Ed25519 secret key (seed and public key) 64. -/
def keyBytes : Ver → Kind → Nat
  | _, .Local => 32
  | .V3, .Public => 49
  | .V3, .Secret => 48
  | .V4, .Public => 32
  | .V4, .Secret => 64

/-- The wrapped-key type names `local-wrap.pie` / `secret-wrap.pie`. -/
def pieType : Kind → Bytes
  | .Local => asc "local-wrap.pie"
  | .Secret => asc "secret-wrap.pie"
  | .Public => []

/-- The password-wrapped type names `local-pw` / `secret-pw`. -/
def pwType : Kind → Bytes
  | .Local => asc "local-pw"
  | .Secret => asc "secret-pw"
  | .Public => []

section
variable (P : Prims)

/-! ### ID

`d = H(h || p)` with `h` the id header and `p` the plaintext PASERK; H is BLAKE2b with 33 bytes of
output in k4, SHA-384 truncated to 33 bytes in k3. -/

def idHash (v : Ver) (m : Bytes) : Bytes :=
  match v with
  | .V3 => (P.sha384 m).1.take 33
  | .V4 => (P.blake2b 33 m).1

def idBytes (v : Ver) (k : Kind) (keyData : Bytes) : Bytes :=
  idHash P v (paserkHeader v (idTypeText k) ++ paserkText v (keyTypeText k) keyData)

def idText (v : Ver) (k : Kind) (keyData : Bytes) : Bytes :=
  paserkText v (idTypeText k) (idBytes P v k keyData)

/-! ### PIE wrapping -/

def pieEncInput (n : Bytes) : Bytes := 0x80 :: n
def pieAuthInput (n : Bytes) : Bytes := 0x81 :: n

/-- `Ek || n2 = HMAC-SHA384(msg = 0x80 || n, key = wk)`, split after 32 bytes -/
def v3PieEnc (wk : BytesN 32) (n : Bytes) : BytesN 32 × BytesN 16 :=
  let x := P.hmacSha384 wk.1 (pieEncInput n)
  (⟨x.1.take 32, by simp [x.2]⟩, ⟨x.1.drop 32, by simp [x.2]⟩)

/-- `Ek || n2 = BLAKE2b(msg = 0x80 || n, key = wk, length = 56)`, split after 32 bytes -/
def v4PieEnc (wk : BytesN 32) (n : Bytes) : BytesN 32 × BytesN 24 :=
  let x := P.blake2bMac 56 wk.1 (pieEncInput n)
  (⟨x.1.take 32, by simp [x.2]⟩, ⟨x.1.drop 32, by simp [x.2]⟩)

/-- `Ak`: the first 32 bytes of `HMAC-SHA384(msg = 0x81 || n, key = wk)`, or
`BLAKE2b(msg = 0x81 || n, key = wk, length = 32)` -/
def pieAuthKey (v : Ver) (wk : BytesN 32) (n : Bytes) : Bytes :=
  match v with
  | .V3 => (P.hmacSha384 wk.1 (pieAuthInput n)).1.take 32
  | .V4 => (P.blake2bMac 32 wk.1 (pieAuthInput n)).1

/-- The key stream that encrypts the key. -/
def pieStream (v : Ver) (wk : BytesN 32) (n : Bytes) (ctr : Counter := .be128) : Nat → UInt8 :=
  match v with
  | .V3 => aes256ctr P (v3PieEnc P wk n).1 (v3PieEnc P wk n).2 ctr
  | .V4 => P.xchacha20 (v4PieEnc P wk n).1 (v4PieEnc P wk n).2

/-- The MAC used by all PASERK operations: HMAC-SHA384 / keyed BLAKE2b with 32 bytes. -/
def mac (v : Ver) (ak msg : Bytes) : Bytes :=
  match v with
  | .V3 => (P.hmacSha384 ak msg).1
  | .V4 => (P.blake2bMac 32 ak msg).1

/-- The authenticated bytes `h || n || c` -/
def pieTagged (v : Ver) (k : Kind) (n c : Bytes) : Bytes := paserkHeader v (pieType k) ++ n ++ c

/-- `t = MAC(h || n || c, Ak)` -/
def pieTag (v : Ver) (k : Kind) (wk : BytesN 32) (n c : Bytes) : Bytes :=
  mac P v (pieAuthKey P v wk n) (pieTagged v k n c)

/-- The wrapped key `t || n || c` -/
def pieWrap (v : Ver) (k : Kind) (wk : BytesN 32) (n ptk : Bytes) (ctr : Counter := .be128) : Bytes :=
  let c := xorStream ptk (pieStream P v wk n ctr)
  pieTag P v k wk n c ++ n ++ c

/-- `t || n || c` unwraps to `ptk`. -/
def PieUnwraps (v : Ver) (k : Kind) (wk : BytesN 32) (t n c ptk : Bytes)
    (ctr : Counter := .be128) : Prop :=
  t = pieTag P v k wk n c ∧ ptk = xorStream c (pieStream P v wk n ctr)

/-! ### Password-based wrapping -/

/-- Unsigned big-endian integers of `k` bytes. -/
def BE (k n : Nat) : Bytes := (List.range k).map (fun i => UInt8.ofNat ((n >>> (8 * (k - 1 - i))) % 256))

/-- Parameters of the key derivation: iterations, or memory in bytes, passes, lanes. -/
inductive PwParams : Ver → Type where
  | pbkdf2 (iterations : UInt32) : PwParams .V3
  | argon2id (mem : Nat) (time para : UInt32) : PwParams .V4

/-- How the parameters are written: `i` as 32 bits; memory as 64 bits, passes and lanes as 32. -/
def PwParams.encode : {v : Ver} → PwParams v → Bytes
  | _, .pbkdf2 i => BE 4 i.toNat
  | _, .argon2id m t p => BE 8 m ++ BE 4 t.toNat ++ BE 4 p.toNat

/-- `k = PBKDF2-SHA384(pw, s, i)` / `k = Argon2id(pw, s, mem, time, para)` (memory is given to
Argon2 in KiB) -/
def pwKey : {v : Ver} → PwParams v → (pw s : Bytes) → BytesN 32
  | _, .pbkdf2 i, pw, s => P.pbkdf2Sha384 pw s i
  | _, .argon2id m t p, pw, s => P.argon2id pw s (UInt32.ofNat (m / 1024)) t p

/-- `Ek`: first 32 bytes of `SHA-384(0xFF || k)` / `BLAKE2b-256(0xFF || k)` -/
def pwEncKey (v : Ver) (k : BytesN 32) : BytesN 32 :=
  match v with
  | .V3 => let x := P.sha384 (0xff :: k.1); ⟨x.1.take 32, by simp [x.2]⟩
  | .V4 => P.blake2b 32 (0xff :: k.1)

/-- `Ak = SHA-384(0xFE || k)` / `BLAKE2b-256(0xFE || k)` -/
def pwAuthKey (v : Ver) (k : BytesN 32) : Bytes :=
  match v with
  | .V3 => (P.sha384 (0xfe :: k.1)).1
  | .V4 => (P.blake2b 32 (0xfe :: k.1)).1

/-- Length of the cipher nonce. -/
def cipherNonceLen : Ver → Nat
  | .V3 => 16
  | .V4 => 24

/-- Length of the salt. -/
def pwSaltBytes : Ver → Nat
  | .V3 => 32
  | .V4 => 16

/-- AES-256-CTR / XChaCha20 with an explicit nonce. -/
def cipher (v : Ver) (k : BytesN 32) (n : BytesN (cipherNonceLen v)) (ctr : Counter := .be128) :
    Nat → UInt8 :=
  match v with
  | .V3 => aes256ctr P k n ctr
  | .V4 => P.xchacha20 k n

/-- The authenticated bytes `h || s || params || n || edk` -/
def pwTagged {v : Ver} (k : Kind) (s : Bytes) (params : PwParams v) (n edk : Bytes) : Bytes :=
  paserkHeader v (pwType k) ++ s ++ params.encode ++ n ++ edk

/-- `t = MAC(h || s || params || n || edk, Ak)` -/
def pwTag {v : Ver} (k : Kind) (pw s : Bytes) (params : PwParams v) (n edk : Bytes) : Bytes :=
  mac P v (pwAuthKey P v (pwKey P params pw s)) (pwTagged k s params n edk)

/-- The wrapped key `s || params || n || edk || t` -/
def pwWrap {v : Ver} (k : Kind) (pw s : Bytes) (params : PwParams v) (n : BytesN (cipherNonceLen v))
    (ptk : Bytes) (ctr : Counter := .be128) : Bytes :=
  let edk := xorStream ptk (cipher P v (pwEncKey P v (pwKey P params pw s)) n ctr)
  s ++ params.encode ++ n.1 ++ edk ++ pwTag P k pw s params n.1 edk

/-- `s || params || n || edk || t` unwraps to `ptk`. -/
def PwUnwraps {v : Ver} (k : Kind) (pw s : Bytes) (params : PwParams v)
    (n : BytesN (cipherNonceLen v)) (edk t ptk : Bytes) (ctr : Counter := .be128) : Prop :=
  t = pwTag P k pw s params n.1 edk ∧
    ptk = xorStream edk (cipher P v (pwEncKey P v (pwKey P params pw s)) n ctr)

/-! ### Sealing -/

/-- The header `k3.seal.` / `k4.seal.` -/
def sealHeader (v : Ver) : Bytes := paserkHeader v (asc "seal")

/-- `Ek || n = SHA-384(0x01 || h || xk || epk || pk)`, `Ak = SHA-384(0x02 || h || xk || epk || pk)`
and the same over BLAKE2b-256 in k4 -/
def sealKdfInput (v : Ver) (b : UInt8) (xk epk pk : Bytes) : Bytes :=
  b :: (sealHeader v ++ xk ++ epk ++ pk)

def sealAuthKey (v : Ver) (xk epk pk : Bytes) : Bytes :=
  match v with
  | .V3 => (P.sha384 (sealKdfInput v 2 xk epk pk)).1
  | .V4 => (P.blake2b 32 (sealKdfInput v 2 xk epk pk)).1

/-- k3: `Ek || n` split after 32 bytes. k4: `Ek`, and `n = BLAKE2b-192(epk || pk)`. -/
def sealStream (v : Ver) (xk epk pk : Bytes) (ctr : Counter := .be128) : Nat → UInt8 :=
  match v with
  | .V3 =>
    let x := P.sha384 (sealKdfInput v 1 xk epk pk)
    aes256ctr P ⟨x.1.take 32, by simp [x.2]⟩ ⟨x.1.drop 32, by simp [x.2]⟩ ctr
  | .V4 => P.xchacha20 (P.blake2b 32 (sealKdfInput v 1 xk epk pk)) (P.blake2b 24 (epk ++ pk))

def sealTagged (v : Ver) (epk edk : Bytes) : Bytes := sealHeader v ++ epk ++ edk

def sealTag (v : Ver) (xk epk pk edk : Bytes) : Bytes :=
  mac P v (sealAuthKey P v xk epk pk) (sealTagged v epk edk)

/-- The sealed key `t || epk || edk`, from the shared secret `xk`, the ephemeral public key and the
recipient's public key (k3: compressed; k4: as X25519 key). -/
def sealBytes (v : Ver) (xk epk pk pdk : Bytes) (ctr : Counter := .be128) : Bytes :=
  let edk := xorStream pdk (sealStream P v xk epk pk ctr)
  sealTag P v xk epk pk edk ++ epk ++ edk

/-- `t || epk || edk` unseals to `pdk`. -/
def Unseals (v : Ver) (xk pk t epk edk pdk : Bytes) (ctr : Counter := .be128) : Prop :=
  t = sealTag P v xk epk pk edk ∧ pdk = xorStream edk (sealStream P v xk epk pk ctr)

/-- RFC 7748 `decodeScalar25519`: clear the low three bits and the top bit, set bit 254. -/
def decodeScalar25519 (k : BytesN 32) : Nat := 2 ^ 254 + 8 * (leNat k.1 % 2 ^ 254 / 8)

/-- X25519 scalar multiplication. -/
def x25519 (k u : BytesN 32) : BytesN 32 := P.montMul (decodeScalar25519 k) u

/-- X25519 public key. -/
def x25519Base (k : BytesN 32) : BytesN 32 := P.montMulBase (decodeScalar25519 k)

/-- k3 sealing with the ephemeral secret `esk`. -/
def v3Seal (esk : P384Scalar) (pk : P.P384Point) (pdk : Bytes) (ctr : Counter := .be128) : Bytes :=
  sealBytes P .V3 (P.p384Dh esk pk).1 (P.p384Compress (P.p384Public esk)).1 (P.p384Compress pk).1
    pdk ctr

/-- k4 sealing with the ephemeral X25519 secret `esk`; `pk` is an Ed25519 public key. -/
def v4Seal (esk : BytesN 32) (pk : P.EdPoint) (pdk : Bytes) : Bytes :=
  let xpk := P.edToMontgomery pk
  sealBytes P .V4 (x25519 P esk xpk).1 (x25519Base P esk).1 xpk.1 pdk

end
end Pasta.Spec
