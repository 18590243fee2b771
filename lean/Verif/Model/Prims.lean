import Verif.Model.Basic

/-!
# Cryptographic primitives

The interface of the cryptographic crates the code calls. Every theorem quantifies over all
implementations of this interface; algebraic laws are collected in `Prims.Laws` and taken as an
explicit hypothesis where needed. No hardness is assumed anywhere.
-/

namespace Pasta

/-- The order `n` of the P-384 group (FIPS 186-4, D.1.2.4). -/
def p384Order : Nat :=
  39402006196394479212279040100143613805079739270465446667946905279627659399113263569398956308152294913554433653942643

/-- `p384::Scalar::from_bytes` succeeds with a non-zero value: `0 < x < n`. -/
def p384ScalarOk (b : BytesN 48) : Prop := 0 < beNat b.1 ∧ beNat b.1 < p384Order

instance (b : BytesN 48) : Decidable (p384ScalarOk b) := by unfold p384ScalarOk; infer_instance

/-- `p384::NonZeroScalar` in its 48-byte big-endian form; the content of a
`p384::ecdsa::SigningKey`. -/
abbrev P384Scalar := { b : BytesN 48 // p384ScalarOk b }

/-- The order `ℓ` of the prime-order subgroup of curve25519. -/
def ed25519Order : Nat :=
  7237005577332262213973186563042994240857116359379907606001950938285454250989

/-- The functions of the cryptographic dependencies. -/
structure Prims where
  /-- `sha2::Sha384` over the concatenation of all updates -/
  sha384 : Bytes → BytesN 48
  /-- `hmac::Hmac<Sha384>`: key, message -/
  hmacSha384 : Bytes → Bytes → BytesN 48
  /-- `hkdf::Hkdf::<Sha384>::new(None, ikm).expand(info, out)` with `out.len() = n` -/
  hkdfSha384 : (n : Nat) → (ikm info : Bytes) → BytesN n
  /-- `aes::Aes256` encryption of one block: key, block -/
  aes256 : BytesN 32 → BytesN 16 → BytesN 16
  /-- `pbkdf2::pbkdf2_hmac_array::<Sha384, 32>`: password, salt, rounds -/
  pbkdf2Sha384 : Bytes → Bytes → UInt32 → BytesN 32
  /-- `blake2::Blake2b<N>`: output length, message -/
  blake2b : (n : Nat) → Bytes → BytesN n
  /-- `blake2::Blake2bMac<N>`: output length, key (at most 64 bytes), message -/
  blake2bMac : (n : Nat) → Bytes → Bytes → BytesN n
  /-- key stream of `chacha20::XChaCha20`: key, nonce, position -/
  xchacha20 : BytesN 32 → BytesN 24 → Nat → UInt8
  /-- Argon2id v0x13, 32 bytes of output: password, salt, memory in KiB, passes, lanes -/
  argon2id : Bytes → Bytes → UInt32 → UInt32 → UInt32 → BytesN 32
  /-- `ed25519_dalek::VerifyingKey` -/
  EdPoint : Type
  /-- `VerifyingKey::from_bytes` -/
  edParse : BytesN 32 → Option EdPoint
  /-- `VerifyingKey::to_bytes` -/
  edBytes : EdPoint → BytesN 32
  /-- `SigningKey::from_bytes(seed).verifying_key()` -/
  edPublic : BytesN 32 → EdPoint
  /-- `SigningKey::from_bytes(seed).sign(msg)` -/
  edSign : BytesN 32 → Bytes → BytesN 64
  /-- `VerifyingKey::verify(msg, sig).is_ok()` -/
  edVerify : EdPoint → Bytes → BytesN 64 → Bool
  /-- `VerifyingKey::to_montgomery` -/
  edToMontgomery : EdPoint → BytesN 32
  /-- the first half of SHA-512 of the seed (the secret scalar before clamping) -/
  edSecretHalf : BytesN 32 → BytesN 32
  /-- `EdwardsPoint::mul_base(s).to_montgomery()` -/
  montMulBase : Nat → BytesN 32
  /-- `Scalar * MontgomeryPoint` -/
  montMul : Nat → BytesN 32 → BytesN 32
  /-- `p384::PublicKey` / `p384::ecdsa::VerifyingKey` -/
  P384Point : Type
  /-- `from_sec1_bytes` -/
  p384Parse : Bytes → Option P384Point
  /-- `to_encoded_point(true)` -/
  p384Compress : P384Point → BytesN 49
  /-- `to_encoded_point(false)` -/
  p384Uncompressed : P384Point → BytesN 97
  /-- `SigningKey::verifying_key` / `SecretKey::public_key` -/
  p384Public : P384Scalar → P384Point
  /-- `SigningKey::try_sign_digest` for a finished SHA-384 digest: an error when the RFC 6979 nonce
  makes one of the two numbers zero (the ecdsa crate tries one nonce only) -/
  p384Sign : P384Scalar → BytesN 48 → Option (BytesN 96)
  /-- `VerifyingKey::verify_digest(..).is_ok()` for an in-range signature -/
  p384Verify : P384Point → BytesN 48 → BytesN 96 → Bool
  /-- `diffie_hellman(sk, pk).raw_secret_bytes()` -/
  p384Dh : P384Scalar → P384Point → BytesN 48
  /-- `SigningKey::from_slice` on slices whose length is not 48 (the library pads short slices) -/
  p384ScalarOther : Bytes → Option P384Scalar

/-- `p384::ecdsa::Signature::from_bytes(sig).is_ok()`: both halves are scalars in `[1, n-1]`
(ecdsa crate, `Signature::from_bytes` → `from_scalars`). -/
def p384SigOk (s : BytesN 96) : Prop :=
  p384ScalarOk (s.split 48 48 rfl).1 ∧ p384ScalarOk (s.split 48 48 rfl).2

instance (s : BytesN 96) : Decidable (p384SigOk s) := by unfold p384SigOk; infer_instance

/-- `curve25519_dalek::scalar::clamp_integer` -/
def clampInteger (b : BytesN 32) : BytesN 32 :=
  ⟨(b.1.modify 0 (· &&& 248)).modify 31 (fun x => (x &&& 127) ||| 64), by simp [b.2]⟩

/-- `Scalar::from_bytes_mod_order` -/
def scalarModOrder (b : BytesN 32) : Nat := leNat b.1 % ed25519Order

/-- `ed25519_dalek::hazmat::ExpandedSecretKey::from(seed).scalar`: hash, clamp, reduce -/
def Prims.edScalar (P : Prims) (seed : BytesN 32) : Nat :=
  scalarModOrder (clampInteger (P.edSecretHalf seed))

/-- Algebraic facts about the primitives, used by correctness (round-trip) theorems only. -/
structure Prims.Laws (P : Prims) : Prop where
  /-- a valid encoding is kept as is by `ed25519_dalek::VerifyingKey` -/
  edBytes_of_parse : ∀ b k, P.edParse b = some k → P.edBytes k = b
  edParse_bytes : ∀ k, P.edParse (P.edBytes k) = some k
  edVerify_sign : ∀ seed m, P.edVerify (P.edPublic seed) m (P.edSign seed m) = true
  /-- X25519 Diffie-Hellman between an ephemeral scalar and a converted Ed25519 key agrees
  (a `Scalar` has at most 255 bits) -/
  x25519_comm : ∀ seed e, e < 2 ^ 255 →
    P.montMul e (P.edToMontgomery (P.edPublic seed)) = P.montMul (P.edScalar seed) (P.montMulBase e)
  /-- honest curve25519 points have order `ℓ` -/
  montMulBase_mod : ∀ e, P.montMulBase (e % ed25519Order) = P.montMulBase e
  montMul_mod : ∀ e seed, e < 2 ^ 255 →
    P.montMul (e % ed25519Order) (P.edToMontgomery (P.edPublic seed)) =
    P.montMul e (P.edToMontgomery (P.edPublic seed))
  montMul_mod_base : ∀ e e', e < 2 ^ 255 → P.montMul (e % ed25519Order) (P.montMulBase e') =
    P.montMul e (P.montMulBase e')
  p384Parse_compress : ∀ k, P.p384Parse (P.p384Compress k).1 = some k
  /-- SEC1: a compressed point starts with 2 or 3 -/
  p384Compress_tag : ∀ k, (P.p384Compress k).1.head? = some 2 ∨ (P.p384Compress k).1.head? = some 3
  /-- SEC1: the forms of 49 bytes are the compressed one and the compact one (tag 5), which gives the
  x coordinate only; the sec1 crate decodes both -/
  p384Parse_form : ∀ b k, b.length = 49 → P.p384Parse b = some k →
    (P.p384Compress k).1 = b ∨ (b.head? = some 5 ∧ (P.p384Compress k).1.tail = b.tail)
  p384SigOk_sign : ∀ sk d s, P.p384Sign sk d = some s → p384SigOk s
  p384Verify_sign : ∀ sk d s, P.p384Sign sk d = some s →
    P.p384Verify (P.p384Public sk) d s = true
  p384Dh_comm : ∀ a b, P.p384Dh a (P.p384Public b) = P.p384Dh b (P.p384Public a)

namespace Prims

variable (P : Prims)

/-- `Mac::new_from_slice(key).unwrap()` + updates + `finalize` for `hmac::Hmac<Sha384>`,
which accepts keys of any length. -/
def hmac (key msg : Bytes) : Res (BytesN 48) := .ok (P.hmacSha384 key msg)

/-- `Mac::new_from_slice(key).unwrap()` + updates + `finalize` for `blake2::Blake2bMac<N>`:
keys longer than 64 bytes are refused, and the code unwraps. -/
def blakeMac (n : Nat) (key msg : Bytes) : Res (BytesN n) :=
  if key.length ≤ 64 then .ok (P.blake2bMac n key msg) else .panic

/-- `Hkdf::new(None, ikm).expand_multi_info(info, out).unwrap()`: at most 255 blocks of 48 bytes. -/
def hkdf (n : Nat) (ikm info : Bytes) : Res (BytesN n) :=
  if n ≤ 255 * 48 then .ok (P.hkdfSha384 n ikm info) else .panic

/-- `ctr::Ctr64BE<Aes256>`: the counter block of block `j` is the IV with its low 64 bits
incremented by `j` modulo 2^64 (ctr crate, `flavors::ctr64`, big endian). -/
def ctr64Block (iv : BytesN 16) (j : Nat) : Bytes :=
  iv.1.take 8 ++ beBytes 8 (beNat (iv.1.drop 8) + j)

theorem leBytes_length (k n : Nat) : (leBytes k n).length = k := by
  induction k generalizing n with
  | zero => rfl
  | succ k ih => simp [leBytes, ih]

/-- The key stream of `Ctr64BE<Aes256>::new(key, iv)` at byte position `i`. -/
def aesCtr64 (key : BytesN 32) (iv : BytesN 16) (i : Nat) : UInt8 :=
  (P.aes256 key ⟨ctr64Block iv (i / 16), by
    have := iv.2; simp [ctr64Block, beBytes, leBytes_length]; omega⟩).1[i % 16]?.getD 0

end Prims

/-- `StreamCipher::apply_keystream` on a fresh cipher. -/
def applyKeystream (ks : Nat → UInt8) (m : Bytes) : Bytes :=
  m.mapIdx (fun i b => b ^^^ ks i)

theorem applyKeystream_length (ks : Nat → UInt8) (m : Bytes) :
    (applyKeystream ks m).length = m.length := by simp [applyKeystream]

/-- `apply_keystream` on a fixed-size array. -/
def applyKeystreamN {n : Nat} (ks : Nat → UInt8) (m : BytesN n) : BytesN n :=
  ⟨applyKeystream ks m.1, by rw [applyKeystream_length]; exact m.2⟩

/-- Rejection sampling of `p384::NonZeroScalar::random`: draw 48 bytes until they are a
non-zero scalar (primeorder `Field::random`, elliptic-curve `NonZeroScalar::random`). -/
def p384Random (rng : Rng) : Res (P384Scalar × Rng) :=
  if h : 48 ≤ rng.length then
    let b : BytesN 48 := ⟨rng.take 48, by simp; omega⟩
    if hb : p384ScalarOk b then .ok (⟨b, hb⟩, rng.drop 48)
    else p384Random (rng.drop 48)
  else .panic
termination_by rng.length
decreasing_by simp; omega

end Pasta
