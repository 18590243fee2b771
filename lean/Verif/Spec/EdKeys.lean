import Verif.Model.Prims

/-!
# Points of the curve of Ed25519 and the bytes that stand for them (RFC 8032, 5.1)
-/

namespace Pasta.Spec.Ed

/-- The field. -/
def p : Nat := 2 ^ 255 - 19

/-- The point `(x, y)` is on the curve `-x² + y² = 1 - (121665/121666) x² y²`. -/
def OnCurve (x y : Nat) : Prop :=
  x < p ∧ y < p ∧
    (121666 * y ^ 2 + 121665 * x ^ 2 * y ^ 2) % p = (121666 + 121666 * x ^ 2) % p

instance (x y : Nat) : Decidable (OnCurve x y) := by unfold OnCurve; infer_instance

/-- The bytes stand for the point: the low 255 bits are `y`, or `y + p`, the top bit is the parity of `x`,
or anything if `x` is zero. (RFC 8032, 5.1.3 refuses `y + p`, and a top bit with `x` zero.) -/
def StandsFor (b : Bytes) (x y : Nat) : Prop :=
  b.length = 32 ∧ OnCurve x y ∧ leNat b % 2 ^ 255 % p = y ∧ (x = 0 ∨ x % 2 = leNat b / 2 ^ 255)

/-- The one encoding of RFC 8032. -/
def encoding (x y : Nat) : Bytes := leBytes 32 (y + x % 2 * 2 ^ 255)

end Pasta.Spec.Ed
