import Verif.Model.Fmt

/-!
# What printing should do, independently of the printing code

A value is printed as a fixed text, cut into pieces; the pieces are handed over in order until one
is refused.
-/

namespace Pasta.Spec

/-- Hand over pieces in order; stop at the first refusal. -/
def feed {σ : Type} (w : Sink σ) : List Bytes → σ → FmtRes σ
  | [], s => .ok s
  | p :: ps, s =>
    match w.writeStr s p with
    | (s', true) => feed w ps s'
    | (s', false) => .err s'

/-- The printing code `fmt` prints `text`: the pieces do not depend on the receiver nor on the
format options. -/
def Prints (fmt : FmtOptions → {σ : Type} → Sink σ → σ → FmtRes σ) (text : Bytes) : Prop :=
  ∃ pieces : List Bytes, pieces.flatten = text ∧ ∀ o {σ : Type} (w : Sink σ) s, fmt o w s = feed w pieces s

/-- A receiver that keeps what it is given: `out` is what it has received so far. An accepted piece
is received whole, of a refused piece a prefix (possibly empty) is received. -/
structure Faithful {σ : Type} (w : Sink σ) (out : σ → Bytes) : Prop where
  accepted : ∀ s p s', w.writeStr s p = (s', true) → out s' = out s ++ p
  refused : ∀ s p s', w.writeStr s p = (s', false) → ∃ q, q <+: p ∧ out s' = out s ++ q

/-- A buffer of fixed size, like `&mut [u8]` behind `fmt::Write`: refuses a piece that does not
fit. -/
def bounded (cap : Nat) : Sink Bytes :=
  ⟨fun s b => if s.length + b.length ≤ cap then (s ++ b, true) else (s, false)⟩

end Pasta.Spec
