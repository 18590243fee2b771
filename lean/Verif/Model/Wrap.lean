import Verif.Model.Paserk

/-! # PIE key wrapping: src/paserk/wrap.rs -/

namespace Pasta

/-- The key types that can be wrapped: `Local` and `Secret` -/
inductive WKind where | Local | Secret
  deriving DecidableEq, Repr

/-- The key type -/
def WKind.kind : WKind → Kind
  | .Local => .Local
  | .Secret => .Secret

/-- `WrapType::WRAP_HEADER`, src/paserk/wrap.rs:420-426 -/
def WKind.pieHeader : WKind → Bytes
  | .Local => asc "local-wrap."
  | .Secret => asc "secret-wrap."

/-- Length of `PieVersion::Tag`, the output of `TagMac`: src/paserk/wrap.rs:385-387 and 402-404 -/
def pieTagLen : Ver → Nat
  | .V3 => 48
  | .V4 => 32

/-- Length of the output of `AuthKeyMac`, src/paserk/wrap.rs:383,400 -/
def pieAuthKeyLen : Ver → Nat
  | .V3 => 48
  | .V4 => 32

/-- Length of the output of `EncKeyMac`, src/paserk/wrap.rs:384,401 -/
def pieEncKeyLen : Ver → Nat
  | .V3 => 48
  | .V4 => 56

/-- Length of `PieVersion::TagIv`, src/paserk/wrap.rs:388,405 -/
def pieTagIvLen : Ver → Nat
  | .V3 => 80
  | .V4 => 64

/-- Length of `PieWrapType::Output`, src/paserk/wrap.rs:443-469 -/
def pieOutputLen : Ver → WKind → Nat
  | .V3, .Local => 112
  | .V3, .Secret => 128
  | .V4, .Local => 96
  | .V4, .Secret => 128

theorem pieEncKeyLen_eq (v : Ver) : pieEncKeyLen v = 32 + ivLen v := by cases v <;> rfl
theorem pieTagIvLen_eq (v : Ver) : pieTagIvLen v = pieTagLen v + 32 := by cases v <;> rfl
theorem pieOutputLen_eq (v : Ver) (k : WKind) :
    pieOutputLen v k = pieTagIvLen v + keyLen v k.kind := by cases v <;> cases k <;> rfl

/-- `EncKeyMac` over the given updates, src/paserk/wrap.rs:384,401 -/
def pieEncKeyMac (P : Prims) : (v : Ver) → Bytes → Bytes → Res (BytesN (pieEncKeyLen v))
  | .V3, key, msg => P.hmac key msg
  | .V4, key, msg => P.blakeMac 56 key msg

/-- `AuthKeyMac` over the given updates, src/paserk/wrap.rs:383,400 -/
def pieAuthKeyMac (P : Prims) : (v : Ver) → Bytes → Bytes → Res (BytesN (pieAuthKeyLen v))
  | .V3, key, msg => P.hmac key msg
  | .V4, key, msg => P.blakeMac 32 key msg

/-- `TagMac` over the given updates, src/paserk/wrap.rs:385,402 -/
def pieTagMac (P : Prims) : (v : Ver) → Bytes → Bytes → Res (BytesN (pieTagLen v))
  | .V3, key, msg => P.hmac key msg
  | .V4, key, msg => P.blakeMac 32 key msg

/-- `PieWrappedKey<V, K>`, src/paserk/wrap.rs:76-80 -/
structure PieWrappedKey (v : Ver) (k : WKind) where
  tag : BytesN (pieTagLen v)
  nonce : BytesN 32
  wrappedKey : BytesN (keyLen v k.kind)
  deriving DecidableEq

/-- The updates of the tag MAC, src/paserk/wrap.rs:184-194 and 268-278 -/
def pieTagInput (v : Ver) (k : WKind) (n c : Bytes) : Bytes :=
  v.paserkHeader ++ asc "." ++ k.pieHeader ++ asc "pie." ++ n ++ c

/-- `wrap_pie_with_rng`, src/paserk/wrap.rs:150-201 (and `wrap_pie`, src/paserk/wrap.rs:143-145,
with `OsRng`) -/
def Key.wrapPie {P : Prims} {v : Ver} {k : WKind} (key : Key P v k.kind)
    (wrappingKey : Key P v .Local) (rng : Rng) : Res (PieWrappedKey v k × Rng) := do
  let (n, rng) ← fillBytes 32 rng
  let wk : BytesN 32 := wrappingKey.key
  let ek ← pieEncKeyMac P v wk.1 ([0x80] ++ n.1)
  let (ek, n2) := BytesN.split 32 (ivLen v) (pieEncKeyLen_eq v) ek
  let ak ← pieAuthKeyMac P v wk.1 ([0x81] ++ n.1)
  let c := applyKeystreamN (stream P v ek n2) key.toBytes
  let tag ← pieTagMac P v (ak.1.take 32) (pieTagInput v k n.1 c.1)
  return ({ wrappedKey := c, nonce := n, tag := tag }, rng)

namespace PieWrappedKey

variable {v : Ver} {k : WKind}

/-- `unwrap_key`, src/paserk/wrap.rs:252-305 -/
def unwrapKey (P : Prims) (w : PieWrappedKey v k) (wrappingKey : Key P v .Local) :
    Res (Key P v k.kind) := do
  let wk : BytesN 32 := wrappingKey.key
  let ak ← pieAuthKeyMac P v wk.1 ([0x81] ++ w.nonce.1)
  let tag2 ← pieTagMac P v (ak.1.take 32) (pieTagInput v k w.nonce.1 w.wrappedKey.1)
  if ctNe w.tag.1 tag2.1 then .err .cryptoError
  else do
    let ek ← pieEncKeyMac P v wk.1 ([0x80] ++ w.nonce.1)
    let (ek, n2) := BytesN.split 32 (ivLen v) (pieEncKeyLen_eq v) ek
    let ptk := applyKeystreamN (stream P v ek n2) w.wrappedKey
    Key.fromBytes P v k.kind ptk

/-- `FromStr for PieWrappedKey`, src/paserk/wrap.rs:308-332 -/
def parse (v : Ver) (k : WKind) (s : Bytes) : Res (PieWrappedKey v k) := do
  let s ← Res.okOr .invalidToken (stripPrefix v.paserkHeader s)
  let s ← Res.okOr .invalidToken (stripPrefix (asc ".") s)
  let s ← Res.okOr .invalidToken (stripPrefix k.pieHeader s)
  let s ← Res.okOr .invalidToken (stripPrefix (asc "pie.") s)
  let total ← readB64 (pieOutputLen v k) s
  let (tagiv, wrappedKey) := BytesN.split (pieTagIvLen v) (keyLen v k.kind) (pieOutputLen_eq v k) total
  let (tag, nonce) := BytesN.split (pieTagLen v) 32 (pieTagIvLen_eq v) tagiv
  return { wrappedKey, nonce, tag }

/-- `Display for PieWrappedKey`, src/paserk/wrap.rs:334-346 -/
def display (w : PieWrappedKey v k) : Res Bytes := do
  let tagiv := BytesN.append (pieTagIvLen v) (pieTagIvLen_eq v) w.tag w.nonce
  let output := BytesN.append (pieOutputLen v k) (pieOutputLen_eq v k) tagiv w.wrappedKey
  let b ← writeB64 output.1
  return v.paserkHeader ++ asc "." ++ k.pieHeader ++ asc "pie." ++ b

end PieWrappedKey
end Pasta
