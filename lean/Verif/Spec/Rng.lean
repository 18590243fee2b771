import Verif.Model.Rng

/-! # What it means to draw from a random source -/

namespace Pasta.Spec

/-- Called repeatedly from state `s`, the source delivers these blocks and is then in state `s'`. -/
inductive Delivers {ρ : Type} (G : RngCore ρ) : ρ → List Bytes → ρ → Prop
  | done (s : ρ) : Delivers G s [] s
  | draw {s s₁ s₂ : ρ} {n : Nat} {b : BytesN n} {bs : List Bytes} :
      G.fill n s = .ok (b, s₁) → Delivers G s₁ bs s₂ → Delivers G s (b.1 :: bs) s₂

/-- The source delivers blocks of the given sizes, and on exactly these bytes, whatever follows
them, `f` returns `x`. -/
def DeliversFor {ρ α : Type} (G : RngCore ρ) (s s' : ρ) (sizes : List Nat)
    (f : Rng → Res (α × Rng)) (x : α) : Prop :=
  ∃ blocks, Delivers G s blocks s' ∧ blocks.map List.length = sizes ∧
    ∀ rest, f (blocks.flatten ++ rest) = .ok (x, rest)

/-- A use of the random bytes that takes a segment from the front, depends on nothing after it and
leaves the rest untouched. -/
def Consumer {α : Type} (f : Rng → Res (α × Rng)) : Prop :=
  ∀ tape x rest, f tape = .ok (x, rest) →
    ∃ used, tape = used ++ rest ∧ ∀ rest', f (used ++ rest') = .ok (x, rest')

/-- Perform operations one after the other. -/
def inOrder {α : Type} : List (Rng → Res (α × Rng)) → Rng → Res (List α × Rng)
  | [], rng => .ok ([], rng)
  | f :: fs, rng => do
    let (x, rng) ← f rng
    let (xs, rng) ← inOrder fs rng
    return (x :: xs, rng)

end Pasta.Spec
