import Verif.Spec.Anonymity

/-!
# The distinguishing game with many keys

As in the distinguishing game (Spec/Distinguish.lean) every request comes with two candidates for what
is to be hidden, and as in the game of telling keys apart (Spec/Anonymity.lean) with two keys. It is
always the left candidate under the left key, or always the right one under the right key. Counted are
the random bytes, what the keys in use derive from nonces, and the cipher.
-/

namespace Pasta

/-- A request: two keys, and two candidates for what is to be hidden. -/
structure Veiling (v : Ver) where
  key : Side → BytesN 32
  what : Hiding v

/-- At most `n` requests one after the other, each chosen from the texts so far; all texts. -/
def veilingGame (P : Prims) {v : Ver} (s : Side) (ask : List Bytes → Option (Veiling v)) :
    Nat → Rng → List Bytes → Res (List Bytes)
  | 0, _, texts => .ok texts
  | n + 1, rng, texts =>
    match ask texts with
    | none => .ok texts
    | some a => do
      let (text, rng) ← a.what.run P ⟨a.key s⟩ s rng
      veilingGame P s ask n rng (texts ++ [text])

/-- Everything that is idealised: `n` blocks of random bytes, what keys derive from nonces, the
cipher. -/
abbrev Veiled (v : Ver) (n L : Nat) := Blocks n × Derivation v × CipherFam v L

open Classical in
/-- The chance of an event. -/
noncomputable def Veiled.chance {v : Ver} {n L : Nat} (A : Veiled v n L → Prop) : ℚ :=
  (Finset.univ.filter A).card / Fintype.card (Veiled v n L)

/-- The texts seen with one of the two sides. -/
def Veiled.view (P : Prims) (K : Finset (BytesN 32)) {v : Ver} {n L : Nat}
    (ask : List Bytes → Option (Veiling v)) (s : Side) (x : Veiled v n L) : Res (List Bytes) :=
  veilingGame ((P.withDerived K v x.2.1).withCiphers (x.2.2.ciphers P)) s ask n x.1.tape []

end Pasta
