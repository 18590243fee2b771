import Verif.Spec.Probing
import Verif.Spec.Veiling

/-!
# The distinguishing game with many keys and openings

As in Spec/Veiling.lean every request to hide something comes with two candidates and two keys, and as
in Spec/Probing.lean texts may be handed in between to be decrypted or unwrapped, here under any key in
use that is named. Only what has been issued in the game is not opened, under whatever key.
-/

namespace Pasta

/-- A request. -/
inductive ProbeOf (v : Ver) : Type 1
  | hide (a : Veiling v)
  | look (key : BytesN 32) (a : Opening v)

/-- At most `k` requests one after the other, each chosen from the answers so far, of them at most `n`
that hide something and at most `q` openings; all answers. -/
def probingMany (P : Prims) {v : Ver} (s : Side) (ask : List Told → Option (ProbeOf v)) :
    (k n q : Nat) → Rng → List Item → List Told → Res (List Told)
  | 0, _, _, _, _, answers => .ok answers
  | k + 1, n, q, rng, issued, answers =>
    match ask answers with
    | none => .ok answers
    | some (.hide a) =>
      match n with
      | 0 => .ok answers
      | n + 1 => do
        let (text, rng) ← a.what.run P ⟨a.key s⟩ s rng
        probingMany P s ask k n q rng (a.what.item text :: issued) (answers ++ [some (.ok text)])
    | some (.look key a) =>
      match q with
      | 0 => .ok answers
      | q + 1 => probingMany P s ask k n q rng issued (answers ++ [a.answer P key issued])

/-- Everything that is idealised: random bytes, what keys derive from nonces, cipher, and the MAC on a
finite set of inputs. -/
abbrev Veiled' (v : Ver) (n L : Nat) (X : Finset (Bytes × Bytes)) :=
  Veiled v n L × (X → BytesN (Spec.tagLen v))

open Classical in
/-- The chance of an event. -/
noncomputable def Veiled'.chance {v : Ver} {n L : Nat} {X : Finset (Bytes × Bytes)}
    (A : Veiled' v n L X → Prop) : ℚ :=
  (Finset.univ.filter A).card / Fintype.card (Veiled' v n L X)

/-- The primitives with what has been drawn. -/
def Veiled.prims (P : Prims) (K : Finset (BytesN 32)) {v : Ver} {n L : Nat} (x : Veiled v n L) : Prims :=
  (P.withDerived K v x.2.1).withCiphers (x.2.2.ciphers P)

/-- All answers seen, with one of the two sides. -/
def Veiled'.view (P : Prims) (K : Finset (BytesN 32)) {v : Ver} {n L : Nat} {X : Finset (Bytes × Bytes)}
    (d : Tags v) (ask : List Told → Option (ProbeOf v)) (k q : Nat) (s : Side) (x : Veiled' v n L X) :
    Res (List Told) :=
  probingMany (x.1.prims (P.withTags v (d.on X x.2)) K) s ask k n q x.1.1.tape [] []

end Pasta
