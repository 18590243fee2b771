import Verif.Spec.Knowing

/-!
# The distinguishing game with nothing secret but the keys

As in Spec/Knowing.lean, but the keys in use are drawn at random, requests name them by number, and what
any key derives from nonces can be computed, like the cipher and the MAC. So someone could try keys as well
as cipher keys and MAC keys. Counted are the keys, the random bytes, what all keys derive from nonces, the
cipher, and the function that makes the tags.
-/

namespace Pasta

/-- A request, where `r` keys are in use. -/
inductive Attempt (v : Ver) (r : Nat) : Type 1
  /-- hide one of two candidates, each under a key of its own -/
  | hide (key : Side → Fin r) (what : Hiding v)
  /-- open a text under a key in use -/
  | look (key : Fin r) (a : Opening v)
  /-- what a key derives -/
  | derive (k : BytesN 32)
  /-- the cipher under a key -/
  | cipher (k : BytesN 32)
  /-- the tag for a message under a MAC key -/
  | mac (k m : Bytes)

/-- An answer. -/
inductive Found (v : Ver) (L : Nat) : Type
  /-- to a request to hide or to open something; none to an opening of something issued -/
  | told (t : Told)
  /-- everything that the key asked for derives from nonces -/
  | derived (d : EncInput → Derived v)
  /-- everything about the cipher under the key asked for -/
  | cipher (c : OneCipher v L)
  | tag (t : BytesN (Spec.tagLen v))

/-- At most `k` requests one after the other, each chosen from the answers so far, of them at most `n`
that hide something, `o` openings, `u` about what keys derive (`D`), `q` about the cipher `c` and `m` about
the MAC `f`; all answers. -/
def trying (P : Prims) {v : Ver} {r L : Nat} (keys : Fin r → BytesN 32) (D : Derivation v)
    (c : CipherOf v L) (f : Tags v) (s : Side) (ask : List (Found v L) → Option (Attempt v r)) :
    (k n o u q m : Nat) → Rng → List Item → List (Found v L) → Res (List (Found v L))
  | 0, _, _, _, _, _, _, _, answers => .ok answers
  | k + 1, n, o, u, q, m, rng, issued, answers =>
    match ask answers with
    | none => .ok answers
    | some (.hide i a) =>
      match n with
      | 0 => .ok answers
      | n + 1 => do
        let (text, rng) ← a.run P ⟨keys (i s)⟩ s rng
        trying P keys D c f s ask k n o u q m rng (a.item text :: issued)
          (answers ++ [.told (some (.ok text))])
    | some (.look i a) =>
      match o with
      | 0 => .ok answers
      | o + 1 => trying P keys D c f s ask k n o u q m rng issued
          (answers ++ [.told (a.answer P (keys i) issued)])
    | some (.derive x) =>
      match u with
      | 0 => .ok answers
      | u + 1 => trying P keys D c f s ask k n o u q m rng issued (answers ++ [.derived (D x)])
    | some (.cipher x) =>
      match q with
      | 0 => .ok answers
      | q + 1 => trying P keys D c f s ask k n o u q m rng issued (answers ++ [.cipher (c x)])
    | some (.mac x y) =>
      match m with
      | 0 => .ok answers
      | m + 1 => trying P keys D c f s ask k n o u q m rng issued (answers ++ [.tag (f (x, y))])

/-- Everything that is drawn: `r` keys, and what is idealised. -/
abbrev Tried (v : Ver) (r n L : Nat) (X : Finset (Bytes × Bytes)) :=
  (Fin r → BytesN 32) × Known v n L X

open Classical in
/-- The chance of an event. -/
noncomputable def Tried.chance {v : Ver} {r n L : Nat} {X : Finset (Bytes × Bytes)}
    (A : Tried v r n L X → Prop) : ℚ :=
  (Finset.univ.filter A).card / Fintype.card (Tried v r n L X)

/-- All answers seen, with one of the two sides. At most `k` requests, `n` of them to hide something, `o`
openings, `u` about what keys derive, `q` about the cipher, `m` about the MAC. -/
def Tried.view (P : Prims) {v : Ver} {r n L : Nat} {X : Finset (Bytes × Bytes)} (d : Tags v)
    (ask : List (Found v L) → Option (Attempt v r)) (k o u q m : Nat) (s : Side)
    (x : Tried v r n L X) : Res (List (Found v L)) :=
  trying (x.2.1.prims (P.withTags v (d.on X x.2.2)) Finset.univ) x.1 x.2.1.2.1 x.2.1.2.2 (d.on X x.2.2) s ask
    k n o u q m x.2.1.1.tape [] []

/-- Among the answers there is one that opens a text. -/
def TextOpened {v : Ver} {r L : Nat} (ask : List (Found v L) → Option (Attempt v r))
    (answers : List (Found v L)) : Prop :=
  ∃ before after i a bytes, answers = before ++ .told (some (.ok bytes)) :: after ∧
    ask before = some (.look i a)

/-- Among the answers there is one about what one of the keys in use derives. -/
def KeyFound {v : Ver} {r L : Nat} (keys : Fin r → BytesN 32)
    (ask : List (Found v L) → Option (Attempt v r)) (answers : List (Found v L)) : Prop :=
  ∃ before after d i, answers = before ++ .derived d :: after ∧ ask before = some (.derive (keys i))

end Pasta
