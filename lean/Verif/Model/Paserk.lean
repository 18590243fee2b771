import Verif.Model.Public

/-! # PASERK helpers, plaintext keys and key ids: src/paserk/{mod,plaintext,id}.rs -/

namespace Pasta

/-- `slice::chunks(n)` -/
def chunks (n : Nat) (b : Bytes) : List Bytes :=
  if _h : n = 0 ∨ b = [] then []
  else b.take n :: chunks n (b.drop n)
termination_by b.length
decreasing_by
  have : 0 < b.length := by
    rcases b with _ | ⟨x, xs⟩
    · simp at _h
    · simp
  simp; omega

/-- `write_b64`, src/paserk/mod.rs:201-208. The result is the text appended to the formatter. -/
def writeB64 (b : Bytes) : Res Bytes :=
  (chunks 48 b).foldlM (fun w chunk => do
    let s ← Res.unwrap (B64.encodeInto 64 chunk)
    return w ++ s) []

/-- `read_b64`, src/paserk/mod.rs:210-231 -/
def readB64 (n : Nat) (s : Bytes) : Res (BytesN n) :=
  let expectedLen := (s.length + 3) / 4 * 3
  if expectedLen < n then .err .base64DecodeError
  else do
    let d ← Res.okOr .base64DecodeError (B64.decodeInto n s)
    if h : d.length = n then return ⟨d, h⟩ else .err .base64DecodeError

/-- `PlaintextKey<V, K>`, src/paserk/plaintext.rs:17-20 -/
structure PlaintextKey (P : Prims) (v : Ver) (k : Kind) where
  key : Key P v k

namespace PlaintextKey

/-- `Display for PlaintextKey`, src/paserk/plaintext.rs:22-29 -/
def display {P : Prims} {v : Ver} {k : Kind} (pk : PlaintextKey P v k) : Res Bytes := do
  let b ← writeB64 pk.key.toBytes.1
  return v.paserkHeader ++ asc "." ++ k.keyHeader ++ b

/-- `FromStr for PlaintextKey`, src/paserk/plaintext.rs:31-57 -/
def parse (P : Prims) (v : Ver) (k : Kind) (s : Bytes) : Res (PlaintextKey P v k) := do
  let s ← Res.okOr .invalidToken (stripPrefix v.paserkHeader s)
  let s ← Res.okOr .invalidToken (stripPrefix (asc ".") s)
  let s ← Res.okOr .invalidToken (stripPrefix k.keyHeader s)
  let d ← Res.okOr .base64DecodeError (B64.decodeInto (keyLen v k) s)
  if h : d.length = keyLen v k then do
    let key ← Key.fromBytes P v k ⟨d, h⟩
    return ⟨key⟩
  else .err .base64DecodeError

end PlaintextKey

/-- `KeyId<V, K>`, src/paserk/id.rs:57-60 -/
structure KeyId (v : Ver) (k : Kind) where
  id : BytesN 33

/-- Lexicographic comparison of byte slices, `Ord for [u8]` -/
def cmpBytes : Bytes → Bytes → Ordering
  | [], [] => .eq
  | [], _ :: _ => .lt
  | _ :: _, [] => .gt
  | a :: as, b :: bs => if a < b then .lt else if b < a then .gt else cmpBytes as bs

namespace KeyId

variable {v : Ver} {k : Kind}

/-- `Display for KeyId`, src/paserk/id.rs:67-74 -/
def display (i : KeyId v k) : Res Bytes := do
  let b ← writeB64 i.id.1
  return v.paserkHeader ++ asc "." ++ k.idHeader ++ b

/-- `Debug for KeyId`, src/paserk/id.rs:62-66 -/
def debug (i : KeyId v k) : Res Bytes := i.display

/-- `FromStr for KeyId`, src/paserk/id.rs:76-100 -/
def parse (v : Ver) (k : Kind) (s : Bytes) : Res (KeyId v k) := do
  let s ← Res.okOr .invalidToken (stripPrefix v.paserkHeader s)
  let s ← Res.okOr .invalidToken (stripPrefix (asc ".") s)
  let s ← Res.okOr .invalidToken (stripPrefix k.idHeader s)
  let d ← Res.okOr .base64DecodeError (B64.decodeInto 33 s)
  if h : d.length = 33 then return ⟨⟨d, h⟩⟩ else .err .base64DecodeError

/-- `Ord for KeyId`, src/paserk/id.rs:107-111 -/
def cmp (a b : KeyId v k) : Ordering := cmpBytes a.id.1 b.id.1

/-- `PartialOrd for KeyId`, src/paserk/id.rs:102-106 -/
def partialCmp (a b : KeyId v k) : Option Ordering := some (a.cmp b)

/-- `PartialEq for KeyId`, src/paserk/id.rs:112-116 -/
def beq (a b : KeyId v k) : Bool := decide (a.id = b.id)

/-- `Hash for KeyId`, src/paserk/id.rs:124-128: the data written to the hasher is that of the
array (`[u8]` hashing writes the length, then the bytes). -/
def hash (i : KeyId v k) : List Bytes := [leBytes 8 i.id.1.length, i.id.1]

end KeyId

/-- Size of the scratch buffer in `From<&Key> for KeyId`: `49 * 4 / 3 + 3` (src/paserk/id.rs:158)
and `64 * 4 / 3 + 3` (src/paserk/id.rs:187) -/
def idBuffer : Ver → Nat
  | .V3 => 49 * 4 / 3 + 3
  | .V4 => 64 * 4 / 3 + 3

/-- The bytes hashed by `From<&Key> for KeyId`, src/paserk/id.rs:161-168 and 190-197 -/
def idInput (v : Ver) (k : Kind) (p : Bytes) : Bytes :=
  let d : Bytes := []
  let d := d ++ v.paserkHeader
  let d := d ++ asc "."
  let d := d ++ k.idHeader
  let d := d ++ v.paserkHeader
  let d := d ++ asc "."
  let d := d ++ k.keyHeader
  d ++ p

/-- `Key::to_id` (src/paserk/id.rs:145-147) through `From<&Key<V3, K>>` (src/paserk/id.rs:151-177)
and `From<&Key<V4, K>>` (src/paserk/id.rs:180-205) -/
def Key.toId {P : Prims} {k : Kind} : {v : Ver} → Key P v k → Res (KeyId v k)
  | .V3, key => do
    let p ← Res.unwrap (B64.encodeInto (idBuffer .V3) key.toBytes.1)
    let d := P.sha384 (idInput .V3 k p)
    return ⟨d.prefixN 33 (by decide)⟩
  | .V4, key => do
    let p ← Res.unwrap (B64.encodeInto (idBuffer .V4) key.toBytes.1)
    return ⟨P.blake2b 33 (idInput .V4 k p)⟩

end Pasta
