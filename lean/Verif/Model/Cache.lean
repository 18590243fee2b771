import Verif.Model.Serde

/-! # The key cache of the crate's documented usage: src/lib.rs:82-97, README.md

`std::collections::HashMap<KeyId<V, Public>, Key<V, Public>>` is modelled as an association list
without duplicate keys. The standard library's map is correct for key types whose `Eq` is an
equivalence that agrees with `Hash`, which for `KeyId` is property C31; lookups here use
`KeyId`'s own `Eq`. -/

namespace Pasta

/-- `HashMap<KeyId<V, Public>, Key<V, Public>>` -/
abbrev KeyCache (P : Prims) (v : Ver) := List (KeyId v .Public × Key P v .Public)

namespace KeyCache

variable {P : Prims} {v : Ver}

/-- `HashMap::insert`: replace the value of an equal key, else add an entry. -/
def insert (m : KeyCache P v) (id : KeyId v .Public) (key : Key P v .Public) : KeyCache P v :=
  match m with
  | [] => [(id, key)]
  | e :: m => if e.1.beq id then (e.1, key) :: m else e :: insert m id key

/-- `HashMap::remove`: drop the entry. Not in the documented example, for the histories of C78. -/
def remove (m : KeyCache P v) (id : KeyId v .Public) : KeyCache P v :=
  m.filter fun e => !e.1.beq id

/-- `HashMap::get` -/
def get (m : KeyCache P v) (id : KeyId v .Public) : Option (Key P v .Public) :=
  match m with
  | [] => none
  | e :: m => if e.1.beq id then some e.2 else get m id

/-- `keys[&id]`, src/lib.rs:94: panics if absent. -/
def index (m : KeyCache P v) (id : KeyId v .Public) : Res (Key P v .Public) :=
  Res.unwrap (get m id)

/-- `HashMap::from([(public_key.to_id(), public_key), ...])`, src/lib.rs:86-88: each key is entered
under its id, in order. -/
def ofKeys (m : KeyCache P v) : List (Key P v .Public) → Res (KeyCache P v)
  | [] => .ok m
  | key :: keys => do
    let id ← key.toId
    ofKeys (m.insert id key) keys

end KeyCache

/-- The receiving side of the documented usage, src/lib.rs:90-97: parse the token, look up the key
named in the unverified footer, verify with it. `kid` reads the key id in the footer. -/
def verifyWithCache {P : Prims} {v : Ver} {F E : Type} (M : Type) [Footer F] [Payload E]
    [MessageDecoding E M] (kid : F → KeyId v .Public) (keys : KeyCache P v) (s : Bytes) :
    Res (ValidatedToken v .Public M F E) := do
  let t ← SecuredToken.parse v .Public F E s
  let key ← keys.index (kid t.unverifiedFooter)
  t.verify M P key

end Pasta
