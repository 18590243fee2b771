import Verif.Model.Pke

/-! # serde implementations: every token and PASERK type is serialized as its text -/

namespace Pasta

/-- The data a serde format hands to a visitor: a string, or anything else. -/
inductive SerdeValue where
  | str (s : Bytes)
  | other
  deriving DecidableEq

/-- Result of deserialization: a value, the error produced by `Err::custom` from a `PasetoError`,
the error for input of the wrong type (the `expecting` text), or a panic. -/
inductive SerdeRes (α : Type) where
  | ok (a : α)
  | custom (msg : String)
  | invalidType
  | panic

/-- `serializer.collect_str(self)`: `Display` into a string. -/
def collectStr (display : Res Bytes) : Res SerdeValue := do
  let s ← display
  return .str s

/-- `deserializer.deserialize_str(FromStrVisitor)`: `visit_str` parses and maps the error with
`Err::custom`; the default methods of `Visitor` refuse other types. -/
def deserializeStr {α : Type} (parse : Bytes → Res α) : SerdeValue → SerdeRes α
  | .str s => match parse s with
    | .ok a => .ok a
    | .err e => .custom e.display
    | .panic => .panic
  | .other => .invalidType

/-- src/lib.rs:471-480 -/
def SecuredToken.serialize {v : Ver} {p : Purpose} {F E : Type} [Payload E]
    (t : SecuredToken v p F E) : Res SerdeValue := collectStr (.ok t.display)
/-- src/lib.rs:482-512 -/
def SecuredToken.deserialize (v : Ver) (p : Purpose) (F E : Type) [Footer F] [Payload E] :
    SerdeValue → SerdeRes (SecuredToken v p F E) := deserializeStr (SecuredToken.parse v p F E)

/-- src/paserk/plaintext.rs:59-66 -/
def PlaintextKey.serialize {P : Prims} {v : Ver} {k : Kind} (t : PlaintextKey P v k) :
    Res SerdeValue := collectStr t.display
/-- src/paserk/plaintext.rs:68-94 -/
def PlaintextKey.deserialize (P : Prims) (v : Ver) (k : Kind) :
    SerdeValue → SerdeRes (PlaintextKey P v k) := deserializeStr (PlaintextKey.parse P v k)

/-- src/paserk/id.rs:214-221 -/
def KeyId.serialize {v : Ver} {k : Kind} (t : KeyId v k) : Res SerdeValue := collectStr t.display
/-- src/paserk/id.rs:223-249 -/
def KeyId.deserialize (v : Ver) (k : Kind) : SerdeValue → SerdeRes (KeyId v k) :=
  deserializeStr (KeyId.parse v k)

/-- src/paserk/wrap.rs:512-519 -/
def PieWrappedKey.serialize {v : Ver} {k : WKind} (t : PieWrappedKey v k) : Res SerdeValue :=
  collectStr t.display
/-- src/paserk/wrap.rs:521-547 -/
def PieWrappedKey.deserialize (v : Ver) (k : WKind) : SerdeValue → SerdeRes (PieWrappedKey v k) :=
  deserializeStr (PieWrappedKey.parse v k)

/-- src/paserk/pbkw.rs:551-558 -/
def PwWrappedKey.serialize {v : Ver} {k : WKind} (t : PwWrappedKey v k) : Res SerdeValue :=
  collectStr t.display
/-- src/paserk/pbkw.rs:560-586 -/
def PwWrappedKey.deserialize (v : Ver) (k : WKind) : SerdeValue → SerdeRes (PwWrappedKey v k) :=
  deserializeStr (PwWrappedKey.parse v k)

/-- src/paserk/pke.rs:509-516 -/
def SealedKey.serialize {v : Ver} (t : SealedKey v) : Res SerdeValue := collectStr t.display
/-- src/paserk/pke.rs:518-539 -/
def SealedKey.deserialize (v : Ver) : SerdeValue → SerdeRes (SealedKey v) :=
  deserializeStr (SealedKey.parse v)

end Pasta
