import Verif.Spec.Computing
import Verif.Spec.ProbingMany

/-!
# The distinguishing game with openings, a known cipher and a known MAC

The games of Spec/Computing.lean and Spec/ProbingMany.lean in one, and in between the MAC may be computed
too, under any MAC key. So someone could try MAC keys as well as cipher keys. Counted are the random
bytes, what the keys in use derive from nonces, the cipher, and the function that makes the tags.
-/

namespace Pasta

/-- A request. -/
inductive Inquiry (v : Ver) : Type 1
  /-- hide one of two candidates -/
  | hide (a : Veiling v)
  /-- open a text under a key in use -/
  | look (key : BytesN 32) (a : Opening v)
  /-- the cipher under a key -/
  | cipher (k : BytesN 32)
  /-- the tag for a message under a MAC key -/
  | mac (k m : Bytes)

/-- An answer. -/
inductive Reply (v : Ver) (L : Nat) : Type
  /-- to a request to hide or to open something; none to an opening of something issued -/
  | told (t : Told)
  /-- everything about the cipher under the key asked for -/
  | cipher (c : OneCipher v L)
  | tag (t : BytesN (Spec.tagLen v))

/-- At most `k` requests one after the other, each chosen from the answers so far, of them at most `n`
that hide something, `o` openings, `q` about the cipher `c` and `m` about the MAC `f`; all answers. -/
def knowing (P : Prims) {v : Ver} {L : Nat} (c : CipherOf v L) (f : Tags v) (s : Side)
    (ask : List (Reply v L) → Option (Inquiry v)) :
    (k n o q m : Nat) → Rng → List Item → List (Reply v L) → Res (List (Reply v L))
  | 0, _, _, _, _, _, _, answers => .ok answers
  | k + 1, n, o, q, m, rng, issued, answers =>
    match ask answers with
    | none => .ok answers
    | some (.hide a) =>
      match n with
      | 0 => .ok answers
      | n + 1 => do
        let (text, rng) ← a.what.run P ⟨a.key s⟩ s rng
        knowing P c f s ask k n o q m rng (a.what.item text :: issued)
          (answers ++ [.told (some (.ok text))])
    | some (.look key a) =>
      match o with
      | 0 => .ok answers
      | o + 1 => knowing P c f s ask k n o q m rng issued (answers ++ [.told (a.answer P key issued)])
    | some (.cipher x) =>
      match q with
      | 0 => .ok answers
      | q + 1 => knowing P c f s ask k n o q m rng issued (answers ++ [.cipher (c x)])
    | some (.mac x y) =>
      match m with
      | 0 => .ok answers
      | m + 1 => knowing P c f s ask k n o q m rng issued (answers ++ [.tag (f (x, y))])

/-- Everything that is idealised: random bytes, what keys derive from nonces, the cipher, and the MAC on
a finite set of inputs. -/
abbrev Known (v : Ver) (n L : Nat) (X : Finset (Bytes × Bytes)) :=
  Drawn v n L × (X → BytesN (Spec.tagLen v))

open Classical in
/-- The chance of an event. -/
noncomputable def Known.chance {v : Ver} {n L : Nat} {X : Finset (Bytes × Bytes)}
    (A : Known v n L X → Prop) : ℚ :=
  (Finset.univ.filter A).card / Fintype.card (Known v n L X)

/-- The primitives with what has been drawn. -/
def Drawn.prims (P : Prims) (K : Finset (BytesN 32)) {v : Ver} {n L : Nat} (x : Drawn v n L) : Prims :=
  (P.withDerived K v x.2.1).withCiphers (x.2.2.ciphers P)

/-- All answers seen, with one of the two sides. At most `k` requests, `n` of them to hide something, `o`
openings, `q` about the cipher, `m` about the MAC. -/
def Known.view (P : Prims) (K : Finset (BytesN 32)) {v : Ver} {n L : Nat} {X : Finset (Bytes × Bytes)}
    (d : Tags v) (ask : List (Reply v L) → Option (Inquiry v)) (k o q m : Nat) (s : Side)
    (x : Known v n L X) : Res (List (Reply v L)) :=
  knowing (x.1.prims (P.withTags v (d.on X x.2)) K) x.1.2.2 (d.on X x.2) s ask k n o q m x.1.1.tape [] []

/-- Among the answers there is one that opens a text. -/
def Opened {v : Ver} {L : Nat} (ask : List (Reply v L) → Option (Inquiry v))
    (answers : List (Reply v L)) : Prop :=
  ∃ before after key a bytes, answers = before ++ .told (some (.ok bytes)) :: after ∧
    ask before = some (.look key a)

end Pasta
