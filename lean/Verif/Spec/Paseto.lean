import Verif.Model.Key
import Verif.Spec.Base64
import Verif.Spec.Pae

/-!
# Specification: PASETO version 3 and version 4 tokens

Transcribed from the PASETO specification (docs/01-Protocol-Versions/Version3.md and Version4.md),
not from the code. The named algorithms (HKDF-HMAC-SHA384, HMAC-SHA384, AES-256, BLAKE2b,
XChaCha20, ECDSA over P-384, Ed25519) are the fields of `Prims`. The payload-encoding suffix
(empty for JSON) extends the version in the header, as in `v4c.local.`.
-/

namespace Pasta.Spec

/-- Exclusive or with the beginning of a key stream. -/
def xorStream (m : Bytes) (ks : Nat → UInt8) : Bytes :=
  List.zipWith (fun a b => a ^^^ b) m ((List.range m.length).map ks)

/-- The version part of a header. -/
def versionText : Ver → Bytes
  | .V3 => asc "v3"
  | .V4 => asc "v4"

/-- The header `v3.local.`, `v4.public.`, ... -/
def header (v : Ver) (p : Purpose) (suffix : Bytes) : Bytes :=
  match p with
  | .Local => versionText v ++ suffix ++ asc ".local."
  | .Public => versionText v ++ suffix ++ asc ".public."

/-- The text of a token: the footer section is omitted when the footer is empty. -/
def tokenText (h payload footer : Bytes) : Bytes :=
  if footer = [] then h ++ base64url payload
  else h ++ base64url payload ++ asc "." ++ base64url footer

section
variable (P : Prims)

/-- How CTR mode counts: over the whole 128-bit nonce, as PASETO says, or over its last 64 bits
only. The two differ only when the last 64 bits overflow. Every definition below counts over the
whole nonce unless `.be64` is given. -/
inductive Counter where
  | be128
  | be64

/-- Counter block `j`: the nonce plus `j`, a big-endian number (`be128`, NIST SP 800-38A, as in
OpenSSL's `aes-256-ctr`); or the first half of the nonce, and its second half plus `j` (`be64`). -/
def ctrBlock (nonce : BytesN 16) (j : Nat) (ctr : Counter := .be128) : BytesN 16 :=
  match ctr with
  | .be128 => ⟨beBytes 16 (beNat nonce.1 + j), by simp [beBytes, Prims.leBytes_length]⟩
  | .be64 => ⟨nonce.1.take 8 ++ beBytes 8 (beNat (nonce.1.drop 8) + j),
      by simp [beBytes, Prims.leBytes_length, nonce.2]⟩

/-- AES-256-CTR: block `j` of the key stream is the encryption of counter block `j`. -/
def aes256ctr (key : BytesN 32) (nonce : BytesN 16) (ctr : Counter := .be128) : Nat → UInt8 :=
  fun i => (P.aes256 key (ctrBlock nonce (i / 16) ctr)).1[i % 16]?.getD 0

/-- `info` / message of the key derivations: a label followed by the nonce. -/
def encInfo (n : Bytes) : Bytes := asc "paseto-encryption-key" ++ n
def authInfo (n : Bytes) : Bytes := asc "paseto-auth-key-for-aead" ++ n

/-! ### Version 4, local -/

/-- Encryption key and nonce: `tmp = BLAKE2b-448(key = k, msg = "paseto-encryption-key" || n)`,
split after 32 bytes. -/
def v4EncKey (k : BytesN 32) (n : Bytes) : BytesN 32 × BytesN 24 :=
  let tmp := P.blake2bMac 56 k.1 (encInfo n)
  (⟨tmp.1.take 32, by simp [tmp.2]⟩, ⟨tmp.1.drop 32, by simp [tmp.2]⟩)

/-- `Ak = BLAKE2b-256(key = k, msg = "paseto-auth-key-for-aead" || n)` -/
def v4AuthKey (k : BytesN 32) (n : Bytes) : BytesN 32 :=
  P.blake2bMac 32 k.1 (authInfo n)

/-! ### Version 3, local -/

/-- `tmp = HKDF(length = 48, ikm = k, info = "paseto-encryption-key" || n, salt = NULL)` -/
def v3EncKey (k : BytesN 32) (n : Bytes) : BytesN 32 × BytesN 16 :=
  let tmp := P.hkdfSha384 48 k.1 (encInfo n)
  (⟨tmp.1.take 32, by simp [tmp.2]⟩, ⟨tmp.1.drop 32, by simp [tmp.2]⟩)

/-- `Ak = HKDF(length = 48, ikm = k, info = "paseto-auth-key-for-aead" || n, salt = NULL)` -/
def v3AuthKey (k : BytesN 32) (n : Bytes) : BytesN 48 :=
  P.hkdfSha384 48 k.1 (authInfo n)

/-! ### Both versions, local -/

/-- Length of the tag. -/
def tagLen : Ver → Nat
  | .V3 => 48
  | .V4 => 32

/-- The authentication key. -/
def localAuthKey (v : Ver) (k : BytesN 32) (n : Bytes) : Bytes :=
  match v with
  | .V3 => (v3AuthKey P k n).1
  | .V4 => (v4AuthKey P k n).1

/-- The MAC: HMAC-SHA384, or keyed BLAKE2b-256. -/
def localMac (v : Ver) (ak msg : Bytes) : Bytes :=
  match v with
  | .V3 => (P.hmacSha384 ak msg).1
  | .V4 => (P.blake2bMac 32 ak msg).1

/-- The authenticated bytes. -/
def localPreAuth (h n c f i : Bytes) : Bytes := PAE [h, n, c, f, i]

/-- The tag of a ciphertext. -/
def localTag (v : Ver) (k : BytesN 32) (h n c f i : Bytes) : Bytes :=
  localMac P v (localAuthKey P v k n) (localPreAuth h n c f i)

/-- `v3.local` encryption: the payload `n || c || t`. -/
def v3Encrypt (k : BytesN 32) (h n m f i : Bytes) (ctr : Counter := .be128) : Bytes :=
  let (ek, n2) := v3EncKey P k n
  let c := xorStream m (aes256ctr P ek n2 ctr)
  n ++ c ++ localTag P .V3 k h n c f i

/-- `v4.local` encryption: the payload `n || c || t`. -/
def v4Encrypt (k : BytesN 32) (h n m f i : Bytes) : Bytes :=
  let (ek, n2) := v4EncKey P k n
  let c := xorStream m (P.xchacha20 ek n2)
  n ++ c ++ localTag P .V4 k h n c f i

/-- The payload of an encrypted token. -/
def localEncrypt (v : Ver) (k : BytesN 32) (h n m f i : Bytes) (ctr : Counter := .be128) : Bytes :=
  match v with
  | .V3 => v3Encrypt P k h n m f i ctr
  | .V4 => v4Encrypt P k h n m f i

/-- The key stream that encrypts the message. -/
def localStream (v : Ver) (k : BytesN 32) (n : Bytes) (ctr : Counter := .be128) : Nat → UInt8 :=
  match v with
  | .V3 => aes256ctr P (v3EncKey P k n).1 (v3EncKey P k n).2 ctr
  | .V4 => P.xchacha20 (v4EncKey P k n).1 (v4EncKey P k n).2

/-- A payload is authentic when it splits as `n || c || t` with `t` the tag. -/
def LocalAuthentic (v : Ver) (k : BytesN 32) (h payload f i : Bytes) : Prop :=
  ∃ n c, n.length = 32 ∧ payload = n ++ c ++ localTag P v k h n c f i

/-- Decryption: the plaintext of an authentic payload. -/
def LocalDecrypts (v : Ver) (k : BytesN 32) (h payload f i m : Bytes) (ctr : Counter := .be128) :
    Prop :=
  ∃ n c, n.length = 32 ∧ payload = n ++ c ++ localTag P v k h n c f i ∧
    m = xorStream c (localStream P v k n ctr)

/-! ### Public -/

/-- Length of a signature. -/
def sigLen : Ver → Nat
  | .V3 => 96
  | .V4 => 64

/-- The signed bytes `m2`. Version 3 prepends the compressed public key. -/
def v3Signed (pk : P.P384Point) (h m f i : Bytes) : Bytes :=
  PAE [(P.p384Compress pk).1, h, m, f, i]

def v4Signed (h m f i : Bytes) : Bytes := PAE [h, m, f, i]

/-- The signature: ECDSA over P-384 with SHA-384 and a deterministic nonce, or Ed25519. ECDSA has no
signature when the nonce gives a zero in the pair. -/
def sigOf : (v : Ver) → Inner P v .Secret → (h m f i : Bytes) → Option Bytes
  | .V3, sk, h, m, f, i =>
    (P.p384Sign sk (P.sha384 (v3Signed P (P.p384Public sk) h m f i))).map (·.1)
  | .V4, seed, h, m, f, i => some (P.edSign seed (v4Signed h m f i)).1

/-- The payload `m || sig` of a signed token. -/
def publicSign (v : Ver) (sk : Inner P v .Secret) (h m f i : Bytes) : Option Bytes :=
  (sigOf P v sk h m f i).map (m ++ ·)

/-- Signature verification. An ECDSA signature is a pair of integers in `[1, n-1]`, 48 bytes each;
an Ed25519 signature has 64 bytes. -/
def sigValid : (v : Ver) → Inner P v .Public → (h m f i sig : Bytes) → Prop
  | .V3, pk, h, m, f, i, sig => ∃ s : BytesN 96, sig = s.1 ∧
    p384SigOk s ∧ P.p384Verify pk (P.sha384 (v3Signed P pk h m f i)) s = true
  | .V4, pk, h, m, f, i, sig => ∃ s : BytesN 64, sig = s.1 ∧
    P.edVerify pk (v4Signed h m f i) s = true

/-- A payload verifies with message `m` when it is `m || sig` with a valid signature. -/
def PublicVerifies (v : Ver) (pk : Inner P v .Public) (h payload f i m : Bytes) : Prop :=
  ∃ sig, payload = m ++ sig ∧ sigValid P v pk h m f i sig

end

/-! ### Grammar -/

/-- `s` is a token text for the header `h` with these payload and footer bytes: the footer section
may be absent (then the footer is empty). -/
def IsToken (h s payload footer : Bytes) : Prop :=
  (footer = [] ∧ s = h ++ base64url payload) ∨
  s = h ++ base64url payload ++ asc "." ++ base64url footer

end Pasta.Spec
