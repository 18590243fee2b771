import Verif.Curve.Field384

/-!
# `x³ - 3x + b` has no root in the field of P-384

Powers of `X` modulo the cubic, as triples of coefficients: for a root `r`, `r^p = r`, but
`X^p - X` is invertible modulo the cubic.
-/

namespace Pasta.Curve.E384

open Pasta.Real.P384 (p b)
open Pasta.Real

/-- A polynomial of degree at most two. -/
structure Quad where
  c0 : ℕ
  c1 : ℕ
  c2 : ℕ
deriving DecidableEq

/-- Product modulo `X³ - 3X + b`. -/
def Quad.mul (u v : Quad) : Quad :=
  let e3 := u.c1 * v.c2 + u.c2 * v.c1
  let e4 := u.c2 * v.c2
  { c0 := (u.c0 * v.c0 + (p - b) * e3) % p
    c1 := (u.c0 * v.c1 + u.c1 * v.c0 + 3 * e3 + (p - b) * e4) % p
    c2 := (u.c0 * v.c2 + u.c1 * v.c1 + u.c2 * v.c0 + 3 * e4) % p }

def Quad.eval (u : Quad) (r : F) : F := u.c0 + u.c1 * r + u.c2 * r ^ 2

theorem b_lt : b < p := by decide +kernel

theorem Quad.eval_mul (u v : Quad) {r : F} (hr : r ^ 3 - 3 * r + b = 0) :
    (u.mul v).eval r = u.eval r * v.eval r := by
  simp only [Quad.mul, Quad.eval, ZMod.natCast_mod]
  push_cast [Nat.cast_sub b_lt.le, ZMod.natCast_self]
  linear_combination (-((u.c1 : F) * v.c2 + u.c2 * v.c1) - u.c2 * v.c2 * r) * hr

/-- `X^p` modulo the cubic. -/
def frob : Quad := binLoop Quad.mul (fun q => q.mul q) (p.log2 + 1) ⟨1, 0, 0⟩ ⟨0, 1, 0⟩ p

theorem frob_eval {r : F} (hr : r ^ 3 - 3 * r + b = 0) : frob.eval r = r ^ p := by
  have := binLoop_spec (add := Quad.mul) (dbl := fun q => q.mul q) (fun q i => q.eval r = r ^ i)
    (by intro u v i j hu hv; rw [Quad.eval_mul u v hr, hu, hv, pow_add])
    (by intro u j hu; rw [Quad.eval_mul u u hr, hu, two_mul, pow_add])
    (p.log2 + 1) ⟨1, 0, 0⟩ ⟨0, 1, 0⟩ p 0 1 (lt_pow_log2 p) (by simp [Quad.eval])
    (by simp [Quad.eval])
  rw [zero_add, mul_one] at this
  exact this

/-- The inverse of `X^p - X` modulo the cubic. -/
def witness : Quad where
  c0 := 0x95adec811ebe8d4b9e2b41150d78f91a619189a415583b8f5e01888da3353b61765cde8cd6c12846310c3f0c10aae682
  c1 := 0x3581b884702fb0931c541a5cacefbe3bea864db86e01e048170560418dca3aa8689f246d9d11ccd2e145532dd48491af
  c2 := 0x4efcebfdccd7cb25d1b864228f0c32d3a83ec026134ae4753bdff5d3f1fa20b278b31dc3487beb792024fe436f36b43a

theorem witness_spec : witness.mul ⟨frob.c0, frob.c1 + (p - 1), frob.c2⟩ = ⟨1, 0, 0⟩ := by
  decide +kernel

theorem no_root (r : F) : r ^ 3 - 3 * r + b ≠ 0 := by
  intro hr
  have h1 := frob_eval hr
  rw [ZMod.pow_card] at h1
  have h2 := congrArg (fun q => Quad.eval q r) witness_spec
  simp only [Quad.eval_mul _ _ hr] at h2
  have h3 : Quad.eval ⟨frob.c0, frob.c1 + (p - 1), frob.c2⟩ r = 0 := by
    simp only [Quad.eval] at h1 ⊢
    push_cast [Nat.cast_sub one_lt_p.le, ZMod.natCast_self]
    linear_combination h1
  rw [h3] at h2
  simp [Quad.eval] at h2

end Pasta.Curve.E384
