import Mathlib.Data.Fintype.Pi
import Mathlib.Data.Fintype.Sigma
import Mathlib.Data.Rat.Defs
import Verif.Spec.Birthday
import Verif.Spec.Paserk
import Verif.Model.Paserk

/-!
# The game of finding two keys with the same id

Someone asks for the ids of keys of their choice, of any kind, one after the other, and chooses each
key from the ids so far. They want two different keys with the same id, or a key with the id of one of
the keys they were given at the start.

The hash that makes the ids is exchanged for a function on the texts it is given, everything else is
that of the primitives `P`. Probabilities are counted: all functions are equally likely.
-/

namespace Pasta

/-- A kind of key and the bytes of one. -/
abbrev KeyBytes (v : Ver) := Σ k : Kind, BytesN (keyLen v k)

/-- What is hashed for the id: the header of the id and the key as PASERK text. -/
def idHashed {v : Ver} (c : KeyBytes v) : Bytes :=
  Spec.paserkHeader v (Spec.idTypeText c.1) ++ Spec.paserkText v (Spec.keyTypeText c.1) c.2.1

instance : Fintype Kind := ⟨{.Local, .Public, .Secret}, fun k => by cases k <;> decide⟩

/-- All that can be hashed for an id. -/
abbrev IdInput (v : Ver) := {m : Bytes // ∃ c : KeyBytes v, idHashed c = m}

open Classical in
noncomputable instance (v : Ver) : Fintype (IdInput v) :=
  Fintype.ofSurjective (fun c : KeyBytes v => ⟨idHashed c, c, rfl⟩) fun ⟨_, c, h⟩ => ⟨c, Subtype.ext h⟩

/-- A function that makes ids. -/
abbrev Ids (v : Ver) := IdInput v → BytesN 33

open Classical in
/-- `P` with the ids made by `f`. -/
noncomputable def Prims.withIds (P : Prims) : (v : Ver) → Ids v → Prims
  | .V3, f => { P with
      sha384 := fun m =>
        if h : ∃ c : KeyBytes .V3, idHashed c = m then
          ⟨(f ⟨m, h⟩).1 ++ (P.sha384 m).1.drop 33, by simp [(f ⟨m, h⟩).2, (P.sha384 m).2]⟩
        else P.sha384 m }
  | .V4, f => { P with
      blake2b := fun n m =>
        if h : n = 33 ∧ ∃ c : KeyBytes .V4, idHashed c = m then
          ⟨(f ⟨m, h.2⟩).1, (f ⟨m, h.2⟩).2.trans h.1.symm⟩
        else P.blake2b n m }

/-- The key that the bytes stand for (a point of P-384 can be given in more than one way). -/
def theKey (P : Prims) (v : Ver) (x : KeyBytes v) : Res (KeyBytes v) := do
  let key ← Key.fromBytes P v x.1 x.2
  return ⟨x.1, key.toBytes⟩

/-- The id of the key, as text. -/
def idOf (P : Prims) (v : Ver) (x : KeyBytes v) : Res Bytes := do
  let key ← Key.fromBytes P v x.1 x.2
  let i ← key.toId
  i.display

/-- Keys and the answers. -/
abbrev Named (v : Ver) := List (KeyBytes v × Res Bytes)

/-- At most `q` keys, each chosen from the answers so far. -/
def naming (P : Prims) {v : Ver} (ask : List (Res Bytes) → Option (KeyBytes v)) :
    (q : Nat) → Named v → Named v
  | 0, log => log
  | q + 1, log =>
    match ask (log.map Prod.snd) with
    | none => log
    | some x => naming P ask q (log ++ [(x, idOf P v x)])

/-- The keys given at the start, with their ids. -/
def givenKeys (P : Prims) {v : Ver} (given : List (KeyBytes v)) : Named v :=
  given.map fun x => (x, idOf P v x)

/-- Two different keys have the same id. -/
def Collided (P : Prims) {v : Ver} (log : Named v) : Prop :=
  ∃ x y id, (x, .ok id) ∈ log ∧ (y, .ok id) ∈ log ∧ theKey P v x ≠ theKey P v y

/-- A key that was not given has the id of one that was. -/
def Matched (P : Prims) {v : Ver} (given : List (KeyBytes v)) (log : Named v) : Prop :=
  ∃ x ∈ given, ∃ y id, (y, .ok id) ∈ log ∧ idOf P v x = .ok id ∧ ∀ z ∈ given, theKey P v z ≠ theKey P v y

open Classical in
/-- The chance of an event, over the function that makes the ids. -/
noncomputable def idChance {v : Ver} (A : Ids v → Prop) : ℚ :=
  (Finset.univ.filter A).card / Fintype.card (Ids v)

end Pasta
