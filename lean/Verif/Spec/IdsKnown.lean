import Verif.Spec.KeyDependent
import Verif.Spec.Colliding

/-!
# The distinguishing game where the ids of the keys in use are known

As in Spec/KeyDependent.lean, but at the start the ids of all keys in use are told, as when the id of the key is put
into the footer of each token. Requests may be chosen from the ids, so footers may contain them. Requests for the hash
that makes the ids are added. The hash is drawn at random, with everything that is drawn in Spec/Trying.lean.
-/

namespace Pasta

/-- A request, where `r` keys are in use. -/
inductive IdWish (v : Ver) (r : Nat) : Type 1
  | demand (a : Demand v r)
  /-- what the hash makes of the text for the id of a key -/
  | hash (m : IdInput v)

/-- An answer. -/
inductive IdGot (v : Ver) (L : Nat) : Type
  | found (x : Found v L)
  | hash (b : BytesN 33)

/-- At most `k` requests one after the other, each chosen from the answers so far, of them at most `n`
that hide something, `o` openings, `u` about what keys derive (`D`) or about the hash `h`, `q` about the cipher `c`
and `m` about the MAC `f`; all answers. -/
def idInUse (P : Prims) {v : Ver} {r L : Nat} (keys : Fin r → BytesN 32) (D : Derivation v)
    (c : CipherOf v L) (f : Tags v) (h : Ids v) (s : Side) (ask : List (IdGot v L) → Option (IdWish v r)) :
    (k n o u q m : Nat) → Rng → List Item → List (IdGot v L) → Res (List (IdGot v L))
  | 0, _, _, _, _, _, _, _, answers => .ok answers
  | k + 1, n, o, u, q, m, rng, issued, answers =>
    match ask answers with
    | none => .ok answers
    | some (.demand (.hide i a)) =>
      match n with
      | 0 => .ok answers
      | n + 1 => do
        let (text, rng) ← (a.given keys).run P ⟨keys (i s)⟩ s rng
        idInUse P keys D c f h s ask k n o u q m rng ((a.given keys).item text :: issued)
          (answers ++ [.found (.told (some (.ok text)))])
    | some (.demand (.look i a)) =>
      match o with
      | 0 => .ok answers
      | o + 1 => idInUse P keys D c f h s ask k n o u q m rng issued
          (answers ++ [.found (.told (a.answer P (keys i) issued))])
    | some (.demand (.derive x)) =>
      match u with
      | 0 => .ok answers
      | u + 1 => idInUse P keys D c f h s ask k n o u q m rng issued (answers ++ [.found (.derived (D x))])
    | some (.demand (.cipher x)) =>
      match q with
      | 0 => .ok answers
      | q + 1 => idInUse P keys D c f h s ask k n o u q m rng issued (answers ++ [.found (.cipher (c x))])
    | some (.demand (.mac x y)) =>
      match m with
      | 0 => .ok answers
      | m + 1 => idInUse P keys D c f h s ask k n o u q m rng issued (answers ++ [.found (.tag (f (x, y)))])
    | some (.hash x) =>
      match u with
      | 0 => .ok answers
      | u + 1 => idInUse P keys D c f h s ask k n o u q m rng issued (answers ++ [.hash (h x)])

section views

variable (P : Prims) {v : Ver} {r n L : Nat} {X : Finset (Bytes × Bytes)} (d : Tags v)

/-- The primitives of the game: ids are made by `h`. -/
noncomputable def Tried.idPrims (h : Ids v) (x : Tried v r n L X) : Prims :=
  x.2.1.prims ((P.withIds v h).withTags v (d.on X x.2.2)) Finset.univ

/-- The ids of the keys in use, as text. -/
noncomputable def Tried.ids (h : Ids v) (x : Tried v r n L X) (i : Fin r) : Res Bytes :=
  idOf (x.idPrims P d h) v ⟨.Local, x.1 i⟩

/-- All answers seen, with one of the two sides. -/
noncomputable def Tried.idView (ask : (Fin r → Res Bytes) → List (IdGot v L) → Option (IdWish v r))
    (k o u q m : Nat) (s : Side) (h : Ids v) (x : Tried v r n L X) : Res (List (IdGot v L)) :=
  idInUse (x.idPrims P d h) x.1 x.2.1.2.1 x.2.1.2.2 (d.on X x.2.2) h s (ask (x.ids P d h)) k n o u q m
    x.2.1.1.tape [] []

end views

/-- Among the answers there is one that opens a text. -/
def IdOpened {v : Ver} {r L : Nat} (ask : List (IdGot v L) → Option (IdWish v r))
    (answers : List (IdGot v L)) : Prop :=
  ∃ before after i a bytes, answers = before ++ .found (.told (some (.ok bytes))) :: after ∧
    ask before = some (.demand (.look i a))

/-- Among the answers there is one about what one of the keys in use derives, or about what is hashed for the id of
one. -/
def IdKeyMet {v : Ver} {r L : Nat} (keys : Fin r → BytesN 32)
    (ask : List (IdGot v L) → Option (IdWish v r)) (answers : List (IdGot v L)) : Prop :=
  ∃ before after y i, answers = before ++ y :: after ∧
    (ask before = some (.demand (.derive (keys i))) ∨
      ∃ x, ask before = some (.hash x) ∧ x.1 = idHashed (v := v) ⟨.Local, keys i⟩)

end Pasta
