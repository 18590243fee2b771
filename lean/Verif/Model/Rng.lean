import Verif.Model.Local
import Verif.Model.Pke

/-!
# Arbitrary random sources

The functions that take `impl RngCore + CryptoRng`, once more, with an arbitrary implementation of
`RngCore` instead of a tape. They call no method but `fill_bytes`. Also the crate's own `FakeRng`
(src/lib.rs:612-657) and the key generators of src/key/arbitrary.rs.
-/

namespace Pasta

/-- An implementation of `RngCore`, with state `ρ`, as far as the code uses it: `fill_bytes` on a
buffer of `n` bytes, which may panic -/
structure RngCore (ρ : Type) where
  fill : (n : Nat) → ρ → Res (BytesN n × ρ)

/-- The tape of `Model/Basic.lean` -/
def RngCore.tape : RngCore Rng where
  fill n rng := fillBytes n rng

/-- `FakeRng<N>`, src/lib.rs:614-617. Both fields are public. -/
structure FakeRng (N : Nat) where
  bytes : BytesN N
  start : Nat

/-- `fill_bytes for FakeRng<N>`, src/lib.rs:640-649. `N - self.start` underflows (a panic with
overflow checks; otherwise the wrapped value lets the request through and the slice
`bytes[start..start + requested]` is out of bounds, a panic too, for `requested > 0`). -/
def FakeRng.fillBytes {N : Nat} (n : Nat) (r : FakeRng N) : Res (BytesN n × FakeRng N) :=
  if N < r.start then .panic
  else
    let remaining := N - r.start
    if h : n > remaining then .panic
    else .ok (⟨(r.bytes.1.drop r.start).take n, by have := r.bytes.2; simp; omega⟩,
      { r with start := r.start + n })

/-- `RngCore for FakeRng<N>`, src/lib.rs:631-655 (`next_u32`, `next_u64` are unimplemented and never
called) -/
def FakeRng.core (N : Nat) : RngCore (FakeRng N) where
  fill n r := r.fillBytes n

/-- `NonZeroScalar::random`: rejection sampling. `none` when no result is reached within `t`
attempts (the Rust loop has no bound). -/
def p384RandomFrom {ρ : Type} (G : RngCore ρ) : (t : Nat) → ρ → Option (Res (P384Scalar × ρ))
  | 0, _ => none
  | t + 1, s =>
    match G.fill 48 s with
    | .ok (b, s) => if hb : p384ScalarOk b then some (.ok (⟨b, hb⟩, s)) else p384RandomFrom G t s
    | .err e => some (.err e)
    | .panic => some .panic

/-- `SymmetricKey::new_random`, src/key/convert.rs:179-183 -/
def Key.localRandomFrom {ρ : Type} (G : RngCore ρ) (P : Prims) (v : Ver) (s : ρ) :
    Res (Key P v .Local × ρ) := do
  let (b, s) ← G.fill 32 s
  return (⟨b⟩, s)

/-- `SecretKey::new_random`: V4 src/key/convert.rs:194-200, V3 src/key/convert.rs:211-215 -/
def Key.secretRandomFrom {ρ : Type} (G : RngCore ρ) (t : Nat) (P : Prims) :
    (v : Ver) → ρ → Option (Res (Key P v .Secret × ρ))
  | .V3, s => do
    let r ← p384RandomFrom G t s
    return (do
      let (sk, s) ← r
      return (⟨sk⟩, s))
  | .V4, s => some (do
    let (b, s) ← G.fill 32 s
    return (⟨b⟩, s))

/-- `encrypt_with_assertions_and_rng`, src/purpose/local/mod.rs:274-283 -/
def TokenBuilder.encryptFrom {ρ : Type} (G : RngCore ρ) {v : Ver} {M F E : Type} [Payload E]
    [MessageEncoding E M] [Footer F] (P : Prims) (t : TokenBuilder v .Local M F E)
    (key : Key P v .Local) (implicit : Bytes) (s : ρ) : Res (SecuredToken v .Local F E × ρ) := do
  let (nonce, s) ← G.fill 32 s
  let tok ← t.tok.encryptInner P key nonce implicit
  return (tok, s)

/-- `wrap_pie_with_rng`, src/paserk/wrap.rs:150-201 -/
def Key.wrapPieFrom {ρ : Type} (G : RngCore ρ) {P : Prims} {v : Ver} {k : WKind}
    (key : Key P v k.kind) (wrappingKey : Key P v .Local) (s : ρ) :
    Res (PieWrappedKey v k × ρ) := do
  let (n, s) ← G.fill 32 s
  let wk : BytesN 32 := wrappingKey.key
  let ek ← pieEncKeyMac P v wk.1 ([0x80] ++ n.1)
  let (ek, n2) := BytesN.split 32 (ivLen v) (pieEncKeyLen_eq v) ek
  let ak ← pieAuthKeyMac P v wk.1 ([0x81] ++ n.1)
  let c := applyKeystreamN (stream P v ek n2) key.toBytes
  let tag ← pieTagMac P v (ak.1.take 32) (pieTagInput v k n.1 c.1)
  return ({ wrappedKey := c, nonce := n, tag := tag }, s)

/-- `pw_wrap_with_settings_and_rng`, src/paserk/pbkw.rs:153-202 -/
def Key.pwWrapFrom {ρ : Type} (G : RngCore ρ) {P : Prims} {v : Ver} {k : WKind}
    (key : Key P v k.kind) (password : Bytes) (settings : KdfState v) (s : ρ) :
    Res (PwWrappedKey v k × ρ) := do
  let (salt, s) ← G.fill (pwSaltLen v) s
  let kk ← pwKdf P v password salt settings
  let ek := splitEk v (pwKeyHash P v ([0xff] ++ kk.1))
  let ak := pwKeyHash P v ([0xfe] ++ kk.1)
  let (n, s) ← G.fill (ivLen v) s
  let edk := applyKeystreamN (stream P v ek n) key.toBytes
  let tag ← pwTagMac P v ak.1 (pwTagInput v k salt.1 settings n.1 edk.1)
  return ({ salt, state := settings, nonce := n, edk, tag }, s)

/-- `V3::seal`, src/paserk/pke.rs:168-222 -/
def sealV3From {ρ : Type} (G : RngCore ρ) (t : Nat) (P : Prims) (plaintextKey : Key P .V3 .Local)
    (sealingKey : Key P .V3 .Public) (s : ρ) : Option (Res (SealedKey .V3 × ρ)) := do
  let pk : P.P384Point := sealingKey.key
  let pkBytes : BytesN 49 := sealingKey.toBytes
  let r ← p384RandomFrom G t s
  return (do
    let (esk, s) ← r
    let epk := P.p384Compress (P.p384Public esk)
    let xk := P.p384Dh esk pk
    let (ek, n) := BytesN.split 32 16 rfl (P.sha384 (pkeKdfInput .V3 1 xk.1 epk.1 pkBytes.1))
    let ak := P.sha384 (pkeKdfInput .V3 2 xk.1 epk.1 pkBytes.1)
    let edk : BytesN 32 := applyKeystreamN (P.aesCtr64 ek n) plaintextKey.toBytes
    let tag ← P.hmac ak.1 (pkeTagInput .V3 epk.1 edk.1)
    return ({ tag := tag, ephemeralPublicKey := epk, encryptedDataKey := edk }, s))

/-- `V4::seal`, src/paserk/pke.rs:305-369 -/
def sealV4From {ρ : Type} (G : RngCore ρ) (P : Prims) (plaintextKey : Key P .V4 .Local)
    (sealingKey : Key P .V4 .Public) (s : ρ) : Res (SealedKey .V4 × ρ) := do
  let xpk := P.edToMontgomery sealingKey.key
  let (eskBytes, s) ← G.fill 32 s
  let esk := scalarModOrder (clampInteger eskBytes)
  let epk := P.montMulBase esk
  let xk := P.montMul esk xpk
  let ek := P.blake2b 32 (pkeKdfInput .V4 1 xk.1 epk.1 xpk.1)
  let ak := P.blake2b 32 (pkeKdfInput .V4 2 xk.1 epk.1 xpk.1)
  let n := P.blake2b 24 (epk.1 ++ xpk.1)
  let edk : BytesN 32 := applyKeystreamN (P.xchacha20 ek n) plaintextKey.toBytes
  let tag ← P.blakeMac 32 ak.1 (pkeTagInput .V4 epk.1 edk.1)
  return ({ tag := tag, ephemeralPublicKey := epk, encryptedDataKey := edk }, s)

/-- `Key::seal_with_rng`, src/paserk/pke.rs:101-107 -/
def Key.sealKeyFrom {ρ : Type} (G : RngCore ρ) (t : Nat) {P : Prims} : {v : Ver} →
    Key P v .Local → Key P v .Public → ρ → Option (Res (SealedKey v × ρ))
  | .V3, key, pk, s => sealV3From G t P key pk s
  | .V4, key, pk, s => some (sealV4From G P key pk s)

/-- `<[u8; N]>::arbitrary` (arbitrary 1.x), that is `Unstructured::fill_buffer` byte by byte: the
next bytes of the input, padded with zeros when it runs out; it never fails -/
def arbitraryBytes (n : Nat) (u : Bytes) : BytesN n × Bytes :=
  (⟨u.take n ++ List.replicate (n - u.length) 0, by simp; omega⟩, u.drop n)

/-- `Arbitrary for FakeRng<N>`, src/lib.rs:619-629 -/
def FakeRng.arbitrary (N : Nat) (u : Bytes) : FakeRng N × Bytes :=
  let (b, u) := arbitraryBytes N u
  ({ bytes := b, start := 0 }, u)

/-- `Arbitrary for Key<V3, Local>` and `Key<V4, Local>`, src/key/arbitrary.rs:10-18, 33-41 -/
def Key.arbitraryLocal (P : Prims) (v : Ver) (u : Bytes) : Key P v .Local × Bytes :=
  let (b, u) := arbitraryBytes 32 u
  (⟨b⟩, u)

/-- `Arbitrary for Key<V3, Secret>` and `Key<V4, Secret>`, src/key/arbitrary.rs:20-31, 43-51; `none`
is `Error::IncorrectFormat` -/
def Key.arbitrarySecret (P : Prims) : (v : Ver) → Bytes → Option (Key P v .Secret × Bytes)
  | .V3, u => do
    let (b, u) := arbitraryBytes 48 u
    let k ← Key.p384ScalarFromSlice P b.1
    return (⟨k⟩, u)
  | .V4, u =>
    let (b, u) := arbitraryBytes 32 u
    some (⟨b⟩, u)

end Pasta
