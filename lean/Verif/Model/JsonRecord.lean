import Verif.Model.JsonText

/-!
# serde_json for structs with several string fields

The payload of the crate's documented usage has two fields, `exp` (a time, as text) and `sub` (a
UUID, as text): src/lib.rs:45-54, README.md:17-26. This is `Model/JsonText.lean` for any number of
fields that are JSON strings, with derived implementations.

Simplification: all fields are read as strings first and converted to their types after the text has
been read. serde converts each when it is met; as every error is the string `json`, the results are
the same.
-/

namespace Pasta.JsonText

/-- `"name":"value"` for each field, with commas between. -/
def writeMembers : List (String × String) → Bytes
  | [] => []
  | [f] => writeStr (strBytes f.1) ++ 58 :: writeStr (strBytes f.2)
  | f :: fs => writeStr (strBytes f.1) ++ 58 :: (writeStr (strBytes f.2) ++ 44 :: writeMembers fs)

/-- `{"name":"value",...}` -/
def writeRecord (fields : List (String × String)) : Bytes := 123 :: (writeMembers fields ++ [125])

section
variable (names : List String)

/-- The members of a struct given as an object, up to the closing brace. `acc` has the fields read so
far. A field that was read before is refused, other names are skipped. -/
def recordMembers : Nat → Bool → List (String × String) → Bytes →
    Option (List (String × String) × Bytes)
  | 0, _, _, _ => none
  | n + 1, first, acc, s => do
    let (head, s) ← memberHead first s
    match head with
    | none => some (acc, s)
    | some key =>
      if key ∈ names then
        if (acc.lookup key).isSome then none
        else do
          let (x, s) ← stringValue s
          recordMembers n false ((key, x) :: acc) s
      else do
        let s ← ignoreValue (2 * s.length + 1) s
        recordMembers n false acc s

/-- A comma precedes every item but the first. -/
def comma (first : Bool) (s : Bytes) : Option Bytes :=
  if first then some s
  else match skipWs s with
    | 44 :: s => some s
    | _ => none

/-- The fields given as an array, in order, up to the closing bracket. -/
def recordItems : List String → Bool → Bytes → Option (List String × Bytes)
  | [], _, s =>
    match skipWs s with
    | 93 :: s => some ([], s)
    | _ => none
  | _ :: names, first, s => do
    let s ← comma first s
    let (x, s) ← stringValue s
    let (xs, s) ← recordItems names false s
    return (x :: xs, s)

/-- The struct: the values of its fields, in the order of their declaration. -/
def recordValue (s : Bytes) : Option (List String × Bytes) :=
  match skipWs s with
  | 123 :: s => do
    let (acc, s) ← recordMembers names (s.length + 1) true [] s
    let xs ← names.mapM (fun name => acc.lookup name)
    return (xs, s)
  | 91 :: s => recordItems names true s
  | _ => none

/-- `serde_json::from_slice`: one value, then only white space. -/
def fromSliceRecord (s : Bytes) : Except String (List String) :=
  match recordValue names s with
  | some (xs, s) => if skipWs s = [] then .ok xs else .error "json"
  | none => .error "json"

end

end Pasta.JsonText

namespace Pasta

/-- A type that is serialized as a string: `time::serde::rfc3339` for `OffsetDateTime`, and `Uuid`
(src/lib.rs:48-53). The text formats are those of the dependencies `time` and `uuid` and are not
modelled. Writing may fail, for example for a year that RFC 3339 cannot express. -/
class TextField (α : Type) where
  write : α → Option String
  read : String → Option α

/-- `struct Payload`, src/lib.rs:45-54: `Time` is `time::OffsetDateTime`, `Id` is `uuid::Uuid`. -/
structure Claims (Time Id : Type) where
  expiration : Time
  userId : Id

section
variable {Time Id : Type} [TextField Time] [TextField Id]

/-- derived `Serialize`, with the names `exp` and `sub` -/
instance : Serialize (Claims Time Id) where
  toVec c := match TextField.write c.expiration, TextField.write c.userId with
    | some e, some s => .ok (JsonText.writeRecord [("exp", e), ("sub", s)])
    | _, _ => .error "json"

/-- derived `Deserialize` -/
instance : Deserialize (Claims Time Id) where
  fromSlice b := match JsonText.fromSliceRecord ["exp", "sub"] b with
    | .ok [e, s] =>
      match TextField.read e, TextField.read s with
      | some e, some s => .ok ⟨e, s⟩
      | _, _ => .error "json"
    | _ => .error "json"

end

end Pasta
