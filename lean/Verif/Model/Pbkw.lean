import Verif.Model.Wrap

/-! # Password-based key wrapping: src/paserk/pbkw.rs -/

namespace Pasta

/-- `PwType::WRAP_HEADER`, src/paserk/pbkw.rs:400-412 -/
def WKind.pwHeader : WKind → Bytes
  | .Local => asc "local-pw."
  | .Secret => asc "secret-pw."

/-- `Pbkdf2State`, src/paserk/pbkw.rs:303-308 -/
structure Pbkdf2State where
  iterations : UInt32
  deriving DecidableEq, Repr

/-- `Argon2State`, src/paserk/pbkw.rs:321-328 -/
structure Argon2State where
  mem : UInt32
  time : UInt32
  para : UInt32
  deriving DecidableEq, Repr

/-- `PwVersion::KdfState`, src/paserk/pbkw.rs:450,481 -/
abbrev KdfState : Ver → Type
  | .V3 => Pbkdf2State
  | .V4 => Argon2State

/-- `Default for Pbkdf2State` (src/paserk/pbkw.rs:310-317), `Default for Argon2State`
(src/paserk/pbkw.rs:330-340) -/
def KdfState.default : (v : Ver) → KdfState v
  | .V3 => { iterations := 100000 }
  | .V4 => { mem := 0x04000000, time := 2, para := 1 }

/-- `PwVersion::Salt`, src/paserk/pbkw.rs:452,483 -/
def pwSaltLen : Ver → Nat
  | .V3 => 32
  | .V4 => 16

/-- `PwVersion::KdfStateLen`, src/paserk/pbkw.rs:449,480 -/
def pwStateLen : Ver → Nat
  | .V3 => 4
  | .V4 => 16

/-- `PwVersion::SaltState`, src/paserk/pbkw.rs:453,484 -/
def pwSaltStateLen : Ver → Nat
  | .V3 => 36
  | .V4 => 32

/-- `PwVersion::SaltStateIv`, src/paserk/pbkw.rs:454,485 -/
def pwSaltStateIvLen : Ver → Nat
  | .V3 => 52
  | .V4 => 56

/-- Output length of `PwVersion::TagMac`, src/paserk/pbkw.rs:447,478 -/
def pwTagLen : Ver → Nat
  | .V3 => 48
  | .V4 => 32

/-- Output length of `PwVersion::KeyHash`, src/paserk/pbkw.rs:446,477 -/
def pwKeyHashLen : Ver → Nat
  | .V3 => 48
  | .V4 => 32

/-- `PwWrapType::SaltStateIvEdk`, src/paserk/pbkw.rs:523-549 -/
def pwSaltStateIvEdkLen : Ver → WKind → Nat
  | .V4, .Local => 88
  | .V3, .Local => 84
  | .V4, .Secret => 120
  | .V3, .Secret => 100

/-- `PwWrapType::SaltStateIvEdkTag`, src/paserk/pbkw.rs:523-549 -/
def pwTotalLen : Ver → WKind → Nat
  | .V4, .Local => 120
  | .V3, .Local => 132
  | .V4, .Secret => 152
  | .V3, .Secret => 148

theorem pwSaltStateLen_eq (v : Ver) : pwSaltStateLen v = pwSaltLen v + pwStateLen v := by
  cases v <;> rfl
theorem pwSaltStateIvLen_eq (v : Ver) : pwSaltStateIvLen v = pwSaltStateLen v + ivLen v := by
  cases v <;> rfl
theorem pwSaltStateIvEdkLen_eq (v : Ver) (k : WKind) :
    pwSaltStateIvEdkLen v k = pwSaltStateIvLen v + keyLen v k.kind := by
  cases v <;> cases k <;> rfl
theorem pwTotalLen_eq (v : Ver) (k : WKind) :
    pwTotalLen v k = pwSaltStateIvEdkLen v k + pwTagLen v := by
  cases v <;> cases k <;> rfl

theorem beBytes_length (k n : Nat) : (beBytes k n).length = k := by
  simp [beBytes, Prims.leBytes_length]

/-- `u32::to_be_bytes` -/
def u32be (x : UInt32) : BytesN 4 := ⟨beBytes 4 x.toNat, beBytes_length _ _⟩

/-- `u32::from_be_bytes` -/
def u32ofBe (b : BytesN 4) : UInt32 := UInt32.ofNat (beNat b.1)

/-- `PwVersion::encode_state`, src/paserk/pbkw.rs:465-467 and 503-508 -/
def encodeState : (v : Ver) → KdfState v → BytesN (pwStateLen v)
  | .V3, s => u32be s.iterations
  | .V4, s =>
    let zero : BytesN 4 := BytesN.fill 4 0
    BytesN.append 16 rfl
      (BytesN.append 12 rfl (BytesN.append 8 rfl zero (u32be s.mem)) (u32be s.time)) (u32be s.para)

/-- `PwVersion::decode_state`, src/paserk/pbkw.rs:468-471 and 509-520. In V4 the first four bytes
are dropped (`_mem1`). -/
def decodeState : (v : Ver) → BytesN (pwStateLen v) → KdfState v
  | .V3, s => { iterations := u32ofBe s }
  | .V4, s =>
    let (_mem1, b) := BytesN.split 4 12 rfl s
    let (mem2, b) := BytesN.split 4 8 rfl b
    let (time, para) := BytesN.split 4 4 rfl b
    { mem := u32ofBe mem2, time := u32ofBe time, para := u32ofBe para }

/-- `argon2::Params::new(m, t, p, Some(32)).is_ok()` (argon2 0.5.2: memory at least 8 KiB and
8 KiB per lane, at least one pass, between 1 and 2^24-1 lanes) -/
def argon2ParamsOk (m t p : UInt32) : Prop :=
  8 ≤ m.toNat ∧ 8 * p.toNat ≤ m.toNat ∧ 1 ≤ t.toNat ∧ 1 ≤ p.toNat ∧ p.toNat ≤ 0xFFFFFF

instance (m t p : UInt32) : Decidable (argon2ParamsOk m t p) := by
  unfold argon2ParamsOk; infer_instance

/-- `PwVersion::kdf`, src/paserk/pbkw.rs:456-458 and 487-497. The V4 code unwraps
`Params::new` and `hash_password_into` (which refuses passwords of more than 2^32-1 bytes). -/
def pwKdf (P : Prims) : (v : Ver) → (pw : Bytes) → BytesN (pwSaltLen v) → KdfState v →
    Res (BytesN 32)
  | .V3, pw, salt, state => .ok (P.pbkdf2Sha384 pw salt.1 state.iterations)
  | .V4, pw, salt, state => do
    let m := state.mem / 1024
    let _ ← Res.unwrap (if argon2ParamsOk m state.time state.para then some () else none)
    Res.unwrap (if pw.length ≤ 0xFFFFFFFF then
      some (P.argon2id pw salt.1 m state.time state.para) else none)

/-- `PwVersion::KeyHash`, src/paserk/pbkw.rs:446,477 -/
def pwKeyHash (P : Prims) : (v : Ver) → Bytes → BytesN (pwKeyHashLen v)
  | .V3, m => P.sha384 m
  | .V4, m => P.blake2b 32 m

/-- `PwVersion::split_ek`, src/paserk/pbkw.rs:460-463 and 499-501 -/
def splitEk : (v : Ver) → BytesN (pwKeyHashLen v) → BytesN 32
  | .V3, ek => (BytesN.split 32 16 rfl ek).1
  | .V4, ek => ek

/-- `PwVersion::TagMac`, src/paserk/pbkw.rs:447,478 -/
def pwTagMac (P : Prims) : (v : Ver) → Bytes → Bytes → Res (BytesN (pwTagLen v))
  | .V3, key, msg => P.hmac key msg
  | .V4, key, msg => P.blakeMac 32 key msg

/-- `PwWrappedKey<V, K>`, src/paserk/pbkw.rs:78-84 -/
structure PwWrappedKey (v : Ver) (k : WKind) where
  salt : BytesN (pwSaltLen v)
  state : KdfState v
  nonce : BytesN (ivLen v)
  edk : BytesN (keyLen v k.kind)
  tag : BytesN (pwTagLen v)

/-- The updates of the tag MAC, src/paserk/pbkw.rs:183-193 and 215-225 -/
def pwTagInput (v : Ver) (k : WKind) (salt : Bytes) (state : KdfState v) (n edk : Bytes) : Bytes :=
  v.paserkHeader ++ asc "." ++ k.pwHeader ++ salt ++ (encodeState v state).1 ++ n ++ edk

/-- `pw_wrap_with_settings_and_rng`, src/paserk/pbkw.rs:153-202 (and `pw_wrap_with_settings`,
src/paserk/pbkw.rs:141-147, with `OsRng`) -/
def Key.pwWrapWithSettings {P : Prims} {v : Ver} {k : WKind} (key : Key P v k.kind)
    (password : Bytes) (settings : KdfState v) (rng : Rng) : Res (PwWrappedKey v k × Rng) := do
  let (salt, rng) ← fillBytes (pwSaltLen v) rng
  let kk ← pwKdf P v password salt settings
  let ek := splitEk v (pwKeyHash P v ([0xff] ++ kk.1))
  let ak := pwKeyHash P v ([0xfe] ++ kk.1)
  let (n, rng) ← fillBytes (ivLen v) rng
  let edk := applyKeystreamN (stream P v ek n) key.toBytes
  let tag ← pwTagMac P v ak.1 (pwTagInput v k salt.1 settings n.1 edk.1)
  return ({ salt, state := settings, nonce := n, edk, tag }, rng)

/-- `pw_wrap`, src/paserk/pbkw.rs:133-135 -/
def Key.pwWrap {P : Prims} {v : Ver} {k : WKind} (key : Key P v k.kind)
    (password : Bytes) (rng : Rng) : Res (PwWrappedKey v k × Rng) :=
  key.pwWrapWithSettings password (KdfState.default v) rng

namespace PwWrappedKey

variable {v : Ver} {k : WKind}

/-- `unwrap_key`, src/paserk/pbkw.rs:207-243 -/
def unwrapKey (P : Prims) (w : PwWrappedKey v k) (password : Bytes) : Res (Key P v k.kind) := do
  let kk ← pwKdf P v password w.salt w.state
  let ak := pwKeyHash P v ([0xfe] ++ kk.1)
  let tag ← pwTagMac P v ak.1 (pwTagInput v k w.salt.1 w.state w.nonce.1 w.edk.1)
  if ctNe tag.1 w.tag.1 then .err .cryptoError
  else
    let ek := splitEk v (pwKeyHash P v ([0xff] ++ kk.1))
    let edk := applyKeystreamN (stream P v ek w.nonce) w.edk
    Key.fromBytes P v k.kind edk

/-- `settings`, src/paserk/pbkw.rs:248-250 -/
def settings (w : PwWrappedKey v k) : KdfState v := w.state

/-- `FromStr for PwWrappedKey`, src/paserk/pbkw.rs:253-281 -/
def parse (v : Ver) (k : WKind) (s : Bytes) : Res (PwWrappedKey v k) := do
  let s ← Res.okOr .invalidToken (stripPrefix v.paserkHeader s)
  let s ← Res.okOr .invalidToken (stripPrefix (asc ".") s)
  let s ← Res.okOr .invalidToken (stripPrefix k.pwHeader s)
  let total ← readB64 (pwTotalLen v k) s
  let (saltStateNonceEdk, tag) :=
    BytesN.split (pwSaltStateIvEdkLen v k) (pwTagLen v) (pwTotalLen_eq v k) total
  let (saltStateNonce, edk) :=
    BytesN.split (pwSaltStateIvLen v) (keyLen v k.kind) (pwSaltStateIvEdkLen_eq v k) saltStateNonceEdk
  let (saltState, nonce) :=
    BytesN.split (pwSaltStateLen v) (ivLen v) (pwSaltStateIvLen_eq v) saltStateNonce
  let (salt, state) := BytesN.split (pwSaltLen v) (pwStateLen v) (pwSaltStateLen_eq v) saltState
  return { salt, state := decodeState v state, nonce, edk, tag }

/-- `Display for PwWrappedKey`, src/paserk/pbkw.rs:283-299 -/
def display (w : PwWrappedKey v k) : Res Bytes := do
  let o := BytesN.append (pwSaltStateLen v) (pwSaltStateLen_eq v) w.salt (encodeState v w.state)
  let o := BytesN.append (pwSaltStateIvLen v) (pwSaltStateIvLen_eq v) o w.nonce
  let o := BytesN.append (pwSaltStateIvEdkLen v k) (pwSaltStateIvEdkLen_eq v k) o w.edk
  let o := BytesN.append (pwTotalLen v k) (pwTotalLen_eq v k) o w.tag
  let b ← writeB64 o.1
  return v.paserkHeader ++ asc "." ++ k.pwHeader ++ b

end PwWrappedKey
end Pasta
