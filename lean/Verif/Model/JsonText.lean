import Verif.Model.Serde

/-!
# serde_json for structs with one string field

The crate's `Json` payloads and footers go through `serde_json::{to_vec, from_slice}`
(src/lib.rs:267-277 and 309-320). Elsewhere in the model these are arbitrary functions (the classes
`Serialize` and `Deserialize`). Here they are modelled concretely for the structs that the crate's
own fuzz harnesses and documentation use: `struct Data { data: String }` (src/lib.rs:683-686),
`struct Footer { kid: String }` (fuzz/fuzz_targets/local_v4_parse.rs:7-10) and
`struct Footer { kid: KeyId<V, Public> }` (src/lib.rs:39-43), with derived implementations.

serde_json is a dependency whose source is not in the repository: this is its documented behaviour
(compact output; strings escaped as in `ESCAPE`; input: JSON text, unknown fields skipped, duplicate
and missing fields refused, a struct may also be given as an array). Error messages are not
modelled: every error is the string `json`.
-/

namespace Pasta.JsonText

/-- Lower-case hexadecimal digit. -/
def hexDigit (n : UInt8) : UInt8 := if n < 10 then 48 + n else 87 + n

/-- Escaping of a byte inside a string (serde_json `format_escaped_str`). -/
def escByte (b : UInt8) : Bytes :=
  if b = 0x22 then [0x5c, 0x22]
  else if b = 0x5c then [0x5c, 0x5c]
  else if b = 0x08 then [0x5c, 98]
  else if b = 0x09 then [0x5c, 116]
  else if b = 0x0a then [0x5c, 110]
  else if b = 0x0c then [0x5c, 102]
  else if b = 0x0d then [0x5c, 114]
  else if b < 0x20 then [0x5c, 117, 48, 48, hexDigit (b >>> 4), hexDigit (b &&& 15)]
  else [b]

/-- A string literal. -/
def writeStr (s : Bytes) : Bytes := 0x22 :: (s.flatMap escByte ++ [0x22])

/-- `{"name":"value"}` -/
def writeStruct (name value : Bytes) : Bytes :=
  123 :: (writeStr name ++ [58] ++ writeStr value ++ [125])

/-- The UTF-8 bytes of a Rust `String`, modelled by Lean's `String`, which is the same type:
bytes with a proof that they are UTF-8. -/
def strBytes (s : String) : Bytes := s.toByteArray.data.toList

/-- `str::from_utf8` -/
def fromUtf8 (b : Bytes) : Option String := String.fromUTF8? ⟨b.toArray⟩

/-- Skip white space. -/
def skipWs : Bytes → Bytes
  | [] => []
  | b :: s => if b = 0x20 ∨ b = 0x0a ∨ b = 0x09 ∨ b = 0x0d then skipWs s else b :: s

/-- Value of a hexadecimal digit, either case. -/
def hexVal (b : UInt8) : Option Nat :=
  if 48 ≤ b ∧ b ≤ 57 then some (b.toNat - 48)
  else if 97 ≤ b ∧ b ≤ 102 then some (b.toNat - 87)
  else if 65 ≤ b ∧ b ≤ 70 then some (b.toNat - 55)
  else none

/-- Four hexadecimal digits. -/
def hex4 : Bytes → Option (Nat × Bytes)
  | a :: b :: c :: d :: s => do
    let a ← hexVal a
    let b ← hexVal b
    let c ← hexVal c
    let d ← hexVal d
    return (((a * 16 + b) * 16 + c) * 16 + d, s)
  | _ => none

/-- What follows `\u`: a code unit, or a surrogate pair; unpaired surrogates are refused. -/
def unicodeEscape (s : Bytes) : Option (Bytes × Bytes) := do
  let (n, s) ← hex4 s
  if 0xdc00 ≤ n ∧ n ≤ 0xdfff then none
  else if 0xd800 ≤ n ∧ n ≤ 0xdbff then
    match s with
    | 0x5c :: 117 :: s => do
      let (m, s) ← hex4 s
      if 0xdc00 ≤ m ∧ m ≤ 0xdfff then
        return (String.utf8EncodeChar (Char.ofNat (0x10000 + (n - 0xd800) * 0x400 + (m - 0xdc00))), s)
      else none
    | _ => none
  else return (String.utf8EncodeChar (Char.ofNat n), s)

/-- What follows a backslash. -/
def escape : Bytes → Option (Bytes × Bytes)
  | [] => none
  | c :: s =>
    if c = 0x22 then some ([0x22], s)
    else if c = 0x5c then some ([0x5c], s)
    else if c = 47 then some ([47], s)
    else if c = 98 then some ([0x08], s)
    else if c = 102 then some ([0x0c], s)
    else if c = 110 then some ([0x0a], s)
    else if c = 114 then some ([0x0d], s)
    else if c = 116 then some ([0x09], s)
    else if c = 117 then unicodeEscape s
    else none

/-- The rest of a string after its opening quote: contents (unescaped) and remaining input. Raw
control characters are refused. The first argument bounds the number of characters. -/
def parseStr : Nat → Bytes → Option (Bytes × Bytes)
  | 0, _ => none
  | _ + 1, [] => none
  | n + 1, b :: s =>
    if b = 0x22 then some ([], s)
    else if b = 0x5c then do
      let (x, s) ← escape s
      let (y, s) ← parseStr n s
      return (x ++ y, s)
    else if b < 0x20 then none
    else do
      let (y, s) ← parseStr n s
      return (b :: y, s)

/-- A string value: white space, a quote, contents that are UTF-8. -/
def stringValue (s : Bytes) : Option (String × Bytes) :=
  match skipWs s with
  | 0x22 :: s => do
    let (b, s) ← parseStr (s.length + 1) s
    let x ← fromUtf8 b
    return (x, s)
  | _ => none

/-- Contents of a skipped string: escapes are only checked for form, and UTF-8 is not checked. -/
def ignoreStr : Nat → Bytes → Option Bytes
  | 0, _ => none
  | _ + 1, [] => none
  | n + 1, b :: s =>
    if b = 0x22 then some s
    else if b = 0x5c then
      match s with
      | [] => none
      | c :: s =>
        if c = 117 then do
          let (_, s) ← hex4 s
          ignoreStr n s
        else if c = 0x22 ∨ c = 0x5c ∨ c = 47 ∨ c = 98 ∨ c = 102 ∨ c = 110 ∨ c = 114 ∨ c = 116 then
          ignoreStr n s
        else none
    else if b < 0x20 then none
    else ignoreStr n s

/-- A decimal digit. -/
def isDigit (b : UInt8) : Bool := 48 ≤ b && b ≤ 57

/-- At least one digit. -/
def digits1 : Bytes → Option Bytes
  | [] => none
  | b :: s => if isDigit b then some (s.dropWhile isDigit) else none

/-- An exponent, if there is one. -/
def exponent (s : Bytes) : Option Bytes :=
  match s with
  | [] => some []
  | b :: s' =>
    if b = 101 ∨ b = 69 then
      match s' with
      | [] => none
      | c :: s'' => if c = 43 ∨ c = 45 then digits1 s'' else digits1 s'
    else some s

/-- A number without its sign: no leading zeros, optional fraction and exponent. -/
def ignoreNumber (s : Bytes) : Option Bytes := do
  let s ← match s with
    | [] => none
    | b :: s' =>
      if b = 48 then
        match s' with
        | [] => some s'
        | c :: _ => if isDigit c then none else some s'
      else digits1 s
  match s with
  | 46 :: s' => do
    let s' ← digits1 s'
    exponent s'
  | _ => exponent s

mutual
/-- A skipped value of any kind. The first argument bounds the number of steps. -/
def ignoreValue : Nat → Bytes → Option Bytes
  | 0, _ => none
  | n + 1, s =>
    match skipWs s with
    | [] => none
    | b :: s =>
      if b = 110 then stripPrefix (asc "ull") s
      else if b = 116 then stripPrefix (asc "rue") s
      else if b = 102 then stripPrefix (asc "alse") s
      else if b = 45 then ignoreNumber s
      else if isDigit b then ignoreNumber (b :: s)
      else if b = 0x22 then ignoreStr (s.length + 1) s
      else if b = 91 then
        match skipWs s with
        | 93 :: s => some s
        | _ => ignoreItems n s
      else if b = 123 then
        match skipWs s with
        | 125 :: s => some s
        | _ => ignoreMembers n s
      else none
/-- One or more items and the closing bracket. -/
def ignoreItems : Nat → Bytes → Option Bytes
  | 0, _ => none
  | n + 1, s => do
    let s ← ignoreValue n s
    match skipWs s with
    | 44 :: s => ignoreItems n s
    | 93 :: s => some s
    | _ => none
/-- One or more members and the closing brace. -/
def ignoreMembers : Nat → Bytes → Option Bytes
  | 0, _ => none
  | n + 1, s =>
    match skipWs s with
    | 0x22 :: s => do
      let s ← ignoreStr (s.length + 1) s
      match skipWs s with
      | 58 :: s => do
        let s ← ignoreValue n s
        match skipWs s with
        | 44 :: s => ignoreMembers n s
        | 125 :: s => some s
        | _ => none
      | _ => none
    | _ => none
end

/-- What precedes the next value of an object, or ends it: `none` for the closing brace, else the
name of a member, its colon also read. A comma must precede every member but the first. -/
def memberHead (first : Bool) (s : Bytes) : Option (Option String × Bytes) :=
  match skipWs s with
  | 125 :: s => some (none, s)
  | s => do
    let s ← if first then some s else match s with
      | 44 :: s => some (skipWs s)
      | _ => none
    match s with
    | 0x22 :: _ => do
      let (key, s) ← stringValue s
      match skipWs s with
      | 58 :: s => some (some key, s)
      | _ => none
    | _ => none

section
variable {α : Type} (name : Bytes) (field : String → Option α)

/-- The members of a struct given as an object, up to the closing brace: the value of the field, if
present. -/
def members : Nat → Bool → Option α → Bytes → Option (Option α × Bytes)
  | 0, _, _, _ => none
  | n + 1, first, acc, s => do
    let (head, s) ← memberHead first s
    match head with
    | none => some (acc, s)
    | some key =>
      if strBytes key = name then
        if acc.isSome then none
        else do
          let (x, s) ← stringValue s
          let a ← field x
          members n false (some a) s
      else do
        let s ← ignoreValue (2 * s.length + 1) s
        members n false acc s

/-- The struct, as an object or as an array with one item. -/
def structValue (s : Bytes) : Option (α × Bytes) :=
  match skipWs s with
  | 123 :: s => do
    let (a, s) ← members name field (s.length + 1) true none s
    let a ← a
    return (a, s)
  | 91 :: s => do
    let (x, s) ← stringValue s
    let a ← field x
    match skipWs s with
    | 93 :: s => return (a, s)
    | _ => none
  | _ => none

/-- `serde_json::from_slice`: one value, then only white space. -/
def fromSliceStruct (s : Bytes) : Except String α :=
  match structValue name field s with
  | some (a, s) => if skipWs s = [] then .ok a else .error "json"
  | none => .error "json"

end

end Pasta.JsonText

namespace Pasta

/-- `struct Data { data: String }`, src/lib.rs:683-686 -/
structure Data where
  data : String
  deriving DecidableEq

/-- derived `Serialize` -/
instance : Serialize Data where
  toVec d := .ok (JsonText.writeStruct (asc "data") (JsonText.strBytes d.data))

/-- derived `Deserialize` -/
instance : Deserialize Data where
  fromSlice := JsonText.fromSliceStruct (asc "data") (fun s => some ⟨s⟩)

/-- `struct Footer { kid: String }`, fuzz/fuzz_targets/local_v4_parse.rs:7-10 -/
structure StringFooter where
  kid : String
  deriving DecidableEq

instance : Serialize StringFooter where
  toVec d := .ok (JsonText.writeStruct (asc "kid") (JsonText.strBytes d.kid))
instance : Deserialize StringFooter where
  fromSlice := JsonText.fromSliceStruct (asc "kid") (fun s => some ⟨s⟩)

/-- `struct Footer { kid: KeyId<V, Public> }`, src/lib.rs:39-43 -/
structure KidFooter (v : Ver) where
  kid : KeyId v .Public

/-- derived `Serialize`; the field is serialized as a string by src/paserk/id.rs:214-221 -/
instance {v : Ver} : Serialize (KidFooter v) where
  toVec d := match d.kid.serialize with
    | .ok (.str s) => .ok (JsonText.writeStruct (asc "kid") s)
    | _ => .error "json"
/-- derived `Deserialize`; the field is deserialized from a string by src/paserk/id.rs:223-249 -/
instance {v : Ver} : Deserialize (KidFooter v) where
  fromSlice := JsonText.fromSliceStruct (asc "kid") (fun s =>
    match KeyId.deserialize v .Public (.str (JsonText.strBytes s)) with
    | .ok k => some ⟨k⟩
    | _ => none)

end Pasta
