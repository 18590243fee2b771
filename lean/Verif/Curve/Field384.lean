import Verif.Curve.Primes
import Mathlib.Tactic.LinearCombination
import Mathlib.FieldTheory.Finite.Basic

/-!
# The field arithmetic of `Real.P384` is that of `ZMod p`
-/

namespace Pasta.Curve.E384

open Pasta.Real (powMod)
open Pasta.Real.P384 (p)
open Pasta.Real

/-- The field of P-384. -/
abbrev F := ZMod p

instance : Fact (Nat.Prime p) := ⟨prime_p384⟩

theorem p_pos : 0 < p := prime_p384.pos
theorem one_lt_p : 1 < p := prime_p384.one_lt
theorem p_odd : p % 2 = 1 := by decide +kernel
theorem p_lt : p < 256 ^ 48 := by decide +kernel
theorem p_mod4 : p % 4 = 3 := by decide +kernel

theorem eq_of_cast {a b : ℕ} (ha : a < p) (hb : b < p) (h : (a : F) = b) : a = b := by
  rw [ZMod.natCast_eq_natCast_iff'] at h
  rwa [Nat.mod_eq_of_lt ha, Nat.mod_eq_of_lt hb] at h

theorem add_lt (a b : ℕ) : P384.add a b < p := Nat.mod_lt _ p_pos
theorem sub_lt (a b : ℕ) : P384.sub a b < p := Nat.mod_lt _ p_pos
theorem mul_lt (a b : ℕ) : P384.mul a b < p := Nat.mod_lt _ p_pos

theorem cast_add (a b : ℕ) : ((P384.add a b : ℕ) : F) = a + b := by
  unfold P384.add
  rw [ZMod.natCast_mod, Nat.cast_add]

theorem cast_mul (a b : ℕ) : ((P384.mul a b : ℕ) : F) = a * b := by
  unfold P384.mul
  rw [ZMod.natCast_mod, Nat.cast_mul]

theorem cast_sub (a : ℕ) {b : ℕ} (h : b ≤ p) : ((P384.sub a b : ℕ) : F) = a - b := by
  unfold P384.sub
  rw [ZMod.natCast_mod, Nat.cast_add, Nat.cast_sub h, ZMod.natCast_self]
  ring

theorem powMod_lt (a e : ℕ) : powMod p a e < p := by
  rw [powMod_eq one_lt_p]; exact Nat.mod_lt _ p_pos

theorem cast_powMod (a e : ℕ) : ((powMod p a e : ℕ) : F) = (a : F) ^ e := by
  rw [powMod_eq one_lt_p, ZMod.natCast_mod, Nat.cast_pow]

theorem fermat {a : F} (h : a ≠ 0) : a ^ (p - 1) = 1 := ZMod.pow_card_sub_one_eq_one h

theorem cast_inv (a : ℕ) : ((P384.inv a : ℕ) : F) = (a : F)⁻¹ := by
  unfold P384.inv
  rw [cast_powMod]
  by_cases h : (a : F) = 0
  · rw [h, inv_zero, zero_pow]
    have : 2 < p := by decide +kernel
    omega
  · apply eq_inv_of_mul_eq_one_left
    rw [← pow_succ, show p - 2 + 1 = p - 1 by have : 2 < p := by decide +kernel
                                              omega]
    exact fermat h

theorem inv_lt (a : ℕ) : P384.inv a < p := powMod_lt _ _

theorem ne_zero_of_lt {a : ℕ} (h0 : 0 < a) (h : a < p) : (a : F) ≠ 0 := by
  intro e
  have := eq_of_cast h p_pos (e.trans Nat.cast_zero.symm)
  omega

theorem two_ne : (2 : F) ≠ 0 := by
  have := ne_zero_of_lt (a := 2) (by decide) (by decide +kernel)
  simpa using this

theorem eq_zero_iff {a : ℕ} (h : a < p) : (a : F) = 0 ↔ a = 0 :=
  ⟨fun e => eq_of_cast h p_pos (e.trans Nat.cast_zero.symm), fun e => by rw [e, Nat.cast_zero]⟩

end Pasta.Curve.E384
