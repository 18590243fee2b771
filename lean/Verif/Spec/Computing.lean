import Verif.Spec.Veiling
import Verif.Spec.Sealing

/-!
# The distinguishing game with a known cipher

As in Spec/Veiling.lean every request to hide something comes with two keys and two candidates, and it is
always the left candidate under the left key or always the right one under the right key. In between
the cipher may be computed under any key: it is known to everyone, although it is drawn at random. So
someone could try cipher keys. Counted are the random bytes, what the keys in use derive from nonces, and
the cipher.
-/

namespace Pasta

/-- A request. -/
inductive Calc (v : Ver) : Type 1
  /-- hide one of two candidates -/
  | hide (a : Veiling v)
  /-- the cipher under a key -/
  | cipher (k : BytesN 32)

/-- An answer. -/
inductive Calculated (v : Ver) (L : Nat) : Type
  | text (t : Bytes)
  /-- everything about the cipher under the key asked for -/
  | cipher (c : OneCipher v L)

/-- At most `k` requests one after the other, each chosen from the answers so far, of them at most `n`
that hide something and at most `q` about the cipher `c`; all answers. -/
def calcGame (P : Prims) {v : Ver} {L : Nat} (c : CipherOf v L) (s : Side)
    (ask : List (Calculated v L) → Option (Calc v)) :
    (k n q : Nat) → Rng → List (Calculated v L) → Res (List (Calculated v L))
  | 0, _, _, _, seen => .ok seen
  | k + 1, n, q, rng, seen =>
    match ask seen with
    | none => .ok seen
    | some (.hide a) =>
      match n with
      | 0 => .ok seen
      | n + 1 => do
        let (text, rng) ← a.what.run P ⟨a.key s⟩ s rng
        calcGame P c s ask k n q rng (seen ++ [.text text])
    | some (.cipher x) =>
      match q with
      | 0 => .ok seen
      | q + 1 => calcGame P c s ask k n q rng (seen ++ [.cipher (c x)])

/-- Everything that is idealised: `n` blocks of random bytes, what keys derive from nonces, the
cipher. -/
abbrev Drawn (v : Ver) (n L : Nat) := Blocks n × Derivation v × CipherOf v L

open Classical in
/-- The chance of an event. -/
noncomputable def Drawn.chance {v : Ver} {n L : Nat} (A : Drawn v n L → Prop) : ℚ :=
  (Finset.univ.filter A).card / Fintype.card (Drawn v n L)

/-- All answers seen, with one of the two sides. -/
def Drawn.view (P : Prims) (K : Finset (BytesN 32)) {v : Ver} {n L : Nat}
    (ask : List (Calculated v L) → Option (Calc v)) (k q : Nat) (s : Side) (x : Drawn v n L) :
    Res (List (Calculated v L)) :=
  calcGame ((P.withDerived K v x.2.1).withCiphers (x.2.2.ciphers P)) x.2.2 s ask k n q x.1.tape []

end Pasta
