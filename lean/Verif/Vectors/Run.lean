import Verif.Real.Prims
import Verif.Model.Pke

/-!
# Running the model on the repository's test vectors

Model of `tests/paseto.rs` and `tests/paserk.rs`: each function returns whether the Rust test would
pass, with `Real.prims` for the cryptography. These are tests, not proofs; they check that the model
computes what the code is known to compute.

The token tests of the repository read and write payloads as `serde_json::Value`; here a payload is
kept as its bytes, which for the vectors (compact JSON, keys in order) is the same.
-/

namespace Pasta.Vectors

/-- A payload kept as bytes -/
structure Raw where
  bytes : Bytes

instance : Serialize Raw := ⟨fun r => .ok r.bytes⟩
instance : Deserialize Raw := ⟨fun b => .ok ⟨b⟩⟩

def hexVal (c : Char) : Option Nat :=
  if '0' ≤ c ∧ c ≤ '9' then some (c.toNat - 48)
  else if 'a' ≤ c ∧ c ≤ 'f' then some (c.toNat - 87)
  else none

def unhex : List Char → Option Bytes
  | [] => some []
  | a :: b :: rest => do
    let a ← hexVal a
    let b ← hexVal b
    let r ← unhex rest
    return UInt8.ofNat (16 * a + b) :: r
  | _ => none

/-- `hex::decode(s).unwrap()` -/
def hex (s : String) : Bytes := (unhex s.toList).getD []

def text (s : String) : Bytes := s.toUTF8.toList

def P : Prims := Real.prims

/-- `Result::ok` where a panic fails the test anyway -/
def Res.val? {α : Type} : Res α → Option α
  | .ok a => some a
  | _ => none

def isErr {α : Type} : Res α → Bool
  | .err _ => true
  | _ => false

def localKey (v : Ver) (s : String) : Option (Key P v .Local) := do
  let b ← BytesN.ofBytes? 32 (hex s)
  return Key.localFromBytes v b

def secretKey : (v : Ver) → (s : String) → Option (Key P v .Secret)
  | .V3, s => Res.val? (Key.v3SecretFromBytes P (hex s))
  | .V4, s => Res.val? (Key.v4SecretFromKeypair P (hex s))

def publicKey : (v : Ver) → (s : String) → Option (Key P v .Public)
  | .V3, s => Res.val? (Key.v3PublicFromSec1 P (hex s))
  | .V4, s => Res.val? (Key.v4PublicFromBytes P (hex s))

def newKey (v : Ver) : (k : Kind) → String → Option (Key P v k)
  | .Local, s => localKey v s
  | .Public, s => publicKey v s
  | .Secret, s => secretKey v s

/-- tests/paseto.rs:117-150 -/
def localOk (v : Ver) (key nonce token payload footer assertion : String) : Bool :=
  (do
    let key ← localKey v key
    let t ← Res.val? (SecuredToken.parse v .Local Bytes (Json Unit) (text token))
    if t.unverifiedFooter ≠ text footer then none
    let d ← Res.val? (t.decryptWithAssertions Raw P key (text assertion))
    if d.message.bytes ≠ text payload then none
    let (t2, _) ← Res.val? (((TokenBuilder.new v .Local d.message).withFooter
      d.footer).encryptWithAssertionsAndRng P key (text assertion) (hex nonce))
    if t2.display ≠ text token then none
    return ()).isSome

/-- tests/paseto.rs:88-110 -/
def localFails (v : Ver) (key token footer assertion : String) : Bool :=
  match SecuredToken.parse v .Local Bytes (Json Unit) (text token) with
  | .err _ => true
  | .panic => false
  | .ok t =>
    (do
      let key ← localKey v key
      if t.unverifiedFooter ≠ text footer then none
      if isErr (t.decryptWithAssertions Raw P key (text assertion)) then some () else none).isSome

/-- tests/paseto.rs:176-212 -/
def publicOk (v : Ver) (pk sk token payload footer assertion : String) : Bool :=
  (do
    let pk ← publicKey v pk
    let sk ← secretKey v sk
    let t ← Res.val? (SecuredToken.parse v .Public Bytes (Json Unit) (text token))
    if t.unverifiedFooter ≠ text footer then none
    let d ← Res.val? (t.verifyWithAssertions Raw P pk (text assertion))
    if d.message.bytes ≠ text payload then none
    let t2 ← Res.val? (((TokenBuilder.new v .Public d.message).withFooter
      d.footer).signWithAssertions P sk (text assertion))
    if t2.display ≠ text token then none
    return ()).isSome

/-- tests/paseto.rs:152-174 -/
def publicFails (v : Ver) (pk token footer assertion : String) : Bool :=
  match SecuredToken.parse v .Public Bytes (Json Unit) (text token) with
  | .err _ => true
  | .panic => false
  | .ok t =>
    (do
      let pk ← publicKey v pk
      if t.unverifiedFooter ≠ text footer then none
      if isErr (t.verifyWithAssertions Raw P pk (text assertion)) then some () else none).isSome

/-- tests/paserk.rs:81-101 -/
def idOk (v : Ver) (k : Kind) (key paserk : String) : Bool :=
  (do
    let key ← newKey v k key
    let kid ← Res.val? key.toId
    let kid2 ← Res.val? (KeyId.parse v k (text paserk))
    if !kid.beq kid2 then none
    let s ← Res.val? kid.display
    if s ≠ text paserk then none
    return ()).isSome

/-- tests/paserk.rs:130-146 -/
def keyOk (v : Ver) (k : Kind) (key paserk : String) : Bool :=
  (do
    let key2 ← Res.val? (PlaintextKey.parse P v k (text paserk))
    let key ← newKey v k key
    let s ← Res.val? (PlaintextKey.mk key).display
    if !key.beq key2.key then none
    if s ≠ text paserk then none
    return ()).isSome

/-- tests/paserk.rs:147-151 -/
def keyFails (v : Ver) (k : Kind) (paserk : String) : Bool :=
  isErr (PlaintextKey.parse P v k (text paserk))

/-- tests/paserk.rs:186-208 -/
def pwOk (v : Ver) (k : WKind) (password paserk unwrapped : String) : Bool :=
  (do
    let w ← Res.val? (PwWrappedKey.parse v k (text paserk))
    let key ← Res.val? (w.unwrapKey P (text password))
    if key.toBytes.1 ≠ hex unwrapped then none
    return ()).isSome

def pwFails (v : Ver) (k : WKind) (password paserk : String) : Bool :=
  match PwWrappedKey.parse v k (text paserk) with
  | .err _ => true
  | .panic => false
  | .ok w => isErr (w.unwrapKey P (text password))

/-- tests/paserk.rs:241-265, `from_key2` 382-394 -/
def sealKey : (v : Ver) → String → Option (Key P v .Secret)
  | .V3, s => Res.val? (Key.v3SecretFromPem P (text s))
  | .V4, s => secretKey .V4 s

def sealOk (v : Ver) (sk paserk unsealed : String) : Bool :=
  (do
    let w ← Res.val? (SealedKey.parse v (text paserk))
    let sk ← sealKey v sk
    let key ← Res.val? (w.unsealKey P sk)
    if key.toBytes.1 ≠ hex unsealed then none
    return ()).isSome

def sealFails (v : Ver) (sk paserk : String) : Bool :=
  match SealedKey.parse v (text paserk) with
  | .err _ => true
  | .panic => false
  | .ok w => (do
      let sk ← sealKey v sk
      if isErr (w.unsealKey P sk) then some () else none).isSome

/-- tests/paserk.rs:298-327 -/
def pieOk (v : Ver) (k : WKind) (wrapping paserk unwrapped : String) : Bool :=
  (do
    let wk ← localKey v wrapping
    let w ← Res.val? (PieWrappedKey.parse v k (text paserk))
    let key ← Res.val? (w.unwrapKey P wk)
    if key.toBytes.1 ≠ hex unwrapped then none
    return ()).isSome

def pieFails (v : Ver) (k : WKind) (wrapping paserk : String) : Bool :=
  match PieWrappedKey.parse v k (text paserk) with
  | .err _ => true
  | .panic => false
  | .ok w => (do
      let wk ← localKey v wrapping
      if isErr (w.unwrapKey P wk) then some () else none).isSome

end Pasta.Vectors
