import Verif.Spec.IdsKnown

/-!
# The distinguishing game from the generation of the keys on

Everything comes from one random source: first `r` keys are generated, one after the other, then their ids are made and
told, and then the game of Spec/IdsKnown.lean is played with what is left of the source. Nothing is drawn but the
bytes of the source and what is idealised.
-/

namespace Pasta

/-- `r` keys, generated one after the other. -/
def generate (P : Prims) (v : Ver) : (r : Nat) → Rng → Res ((Fin r → Key P v .Local) × Rng)
  | 0, rng => .ok (Fin.elim0, rng)
  | r + 1, rng => do
    let (key, rng) ← Key.localRandom P v rng
    let (keys, rng) ← generate P v r rng
    return (Fin.cons key keys, rng)

/-- Everything that is drawn: the source, as `r + n` blocks of 32 bytes, with what is idealised (Spec/Knowing.lean), and
the hash that makes ids. -/
abbrev Life (v : Ver) (r n L : Nat) (X : Finset (Bytes × Bytes)) := Known v (r + n) L X × Ids v

namespace Life

variable (P : Prims) {v : Ver} {r n L : Nat} {X : Finset (Bytes × Bytes)} (d : Tags v)

/-- The primitives of the game. -/
noncomputable def prims (x : Life v r n L X) : Prims :=
  x.1.1.prims ((P.withIds v x.2).withTags v (d.on X x.1.2)) Finset.univ

/-- The keys, and what is left of the source. -/
noncomputable def keys (x : Life v r n L X) : Res ((Fin r → Key (x.prims P d) v .Local) × Rng) :=
  generate (x.prims P d) v r x.1.1.1.tape

/-- All that is seen, with one of the two sides: the ids and the answers. -/
noncomputable def view (ask : (Fin r → Res Bytes) → List (IdGot v L) → Option (IdWish v r)) (k o u q m : Nat) (s : Side)
    (x : Life v r n L X) : Res ((Fin r → Res Bytes) × List (IdGot v L)) := do
  let (keys, rng) ← x.keys P d
  let ids := fun i => do
    let id ← (keys i).toId
    id.display
  let answers ← idInUse (x.prims P d) (fun i => (keys i).key) x.1.1.2.1 x.1.1.2.2 (d.on X x.1.2) x.2 s (ask ids)
    k n o u q m rng [] []
  return (ids, answers)

end Life

end Pasta
