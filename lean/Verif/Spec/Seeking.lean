import Mathlib.Data.Fintype.Pi
import Mathlib.Data.Rat.Defs
import Verif.Spec.Birthday
import Verif.Model.Pbkw

/-!
# The game of finding a password

Someone has keys wrapped with a password they do not know, has texts unwrapped with it, and runs
the password hash on passwords of their own, choosing everything (also settings and random bytes) from
the answers so far. They win when one of the passwords they hashed is the right one; to name a
password is to hash it once more.

The password is one of a finite set `W`, and the password hash is exchanged for a function on `W`;
everything else is that of the primitives `P`. Probabilities are counted: all passwords in `W` and all
functions are equally likely.
-/

namespace Pasta

/-- The values of a `u32`. -/
def u32Equiv : Fin (2 ^ 32) ≃ UInt32 where
  toFun i := UInt32.ofFin i
  invFun b := b.toFin
  left_inv _ := rfl
  right_inv _ := rfl

instance : Fintype UInt32 := Fintype.ofEquiv _ u32Equiv

/-- What is hashed with the password: salt and rounds, or salt, memory, passes and lanes. -/
abbrev HashPoint : Ver → Type
  | .V3 => BytesN 32 × UInt32
  | .V4 => BytesN 16 × UInt32 × UInt32 × UInt32

instance : (v : Ver) → Fintype (HashPoint v)
  | .V3 => inferInstanceAs (Fintype (BytesN 32 × UInt32))
  | .V4 => inferInstanceAs (Fintype (BytesN 16 × UInt32 × UInt32 × UInt32))

instance : (v : Ver) → DecidableEq (HashPoint v)
  | .V3 => inferInstanceAs (DecidableEq (BytesN 32 × UInt32))
  | .V4 => inferInstanceAs (DecidableEq (BytesN 16 × UInt32 × UInt32 × UInt32))

/-- A password hash for one password. -/
abbrev PwHash (v : Ver) := HashPoint v → BytesN 32

/-- `P` with another password hash for the passwords in `W`. -/
def Prims.withPwHash (P : Prims) (W : Finset Bytes) : (v : Ver) → (W → PwHash v) → Prims
  | .V3, f => { P with
      pbkdf2Sha384 := fun pw salt rounds =>
        if h : pw ∈ W ∧ salt.length = 32 then f ⟨pw, h.1⟩ (⟨salt, h.2⟩, rounds)
        else P.pbkdf2Sha384 pw salt rounds }
  | .V4, f => { P with
      argon2id := fun pw salt m t p =>
        if h : pw ∈ W ∧ salt.length = 16 then f ⟨pw, h.1⟩ (⟨salt, h.2⟩, m, t, p)
        else P.argon2id pw salt m t p }

/-- One request. -/
inductive Seek (v : Ver) : Type
  /-- wrap the key with these bytes with the unknown password -/
  | wrap (k : WKind) (hidden : BytesN (keyLen v k.kind)) (settings : KdfState v) (rng : Rng)
  /-- parse a text and unwrap it with the unknown password -/
  | unwrap (k : WKind) (text : Bytes)
  /-- hash a password -/
  | hash (pw : Bytes) (salt : BytesN (pwSaltLen v)) (settings : KdfState v)

namespace Seek

variable {v : Ver}

/-- Serve the request, `secret` being the password. -/
def run (P : Prims) (secret : Bytes) : Seek v → Res Bytes
  | .wrap k hidden settings rng => do
    let key ← Key.fromBytes P v k.kind hidden
    let (w, _) ← key.pwWrapWithSettings secret settings rng
    w.display
  | .unwrap k text => do
    let w ← PwWrappedKey.parse v k text
    let key ← w.unwrapKey P secret
    return key.toBytes.1
  | .hash pw salt settings => do
    let b ← pwKdf P v pw salt settings
    return b.1

/-- The password hashed. -/
def tried : Seek v → Option Bytes
  | .hash pw _ _ => some pw
  | _ => none

end Seek

/-- At most `k` requests one after the other, each chosen from the answers so far, of them at most `q`
that hash a password: all answers, and all passwords hashed. -/
def seeking (P : Prims) {v : Ver} (secret : Bytes) (ask : List (Res Bytes) → Option (Seek v)) :
    (k q : Nat) → List (Res Bytes) → List (Res Bytes) × List Bytes
  | 0, _, answers => (answers, [])
  | k + 1, q, answers =>
    match ask answers with
    | none => (answers, [])
    | some a =>
      match a.tried with
      | none => seeking P secret ask k q (answers ++ [a.run P secret])
      | some pw =>
        match q with
        | 0 => (answers, [])
        | q + 1 =>
          let r := seeking P secret ask k q (answers ++ [a.run P secret])
          (r.1, pw :: r.2)

open Classical in
/-- The chance of an event, over password and password hash. -/
noncomputable def pwChance {v : Ver} {W : Finset Bytes} (A : W → (W → PwHash v) → Prop) : ℚ :=
  (Finset.univ.filter fun x : W × (W → PwHash v) => A x.1 x.2).card /
    Fintype.card (W × (W → PwHash v))

end Pasta
