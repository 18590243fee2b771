import Verif.Curve.Primes
import Verif.Curve.Edwards

/-!
# The field arithmetic of `Real.Ed` is that of `ZMod p`; the curve is complete
-/

namespace Pasta.Curve.E25519

open Pasta.Real (powMod)
open Pasta.Real.Ed (p d)
open Pasta.Real

/-- The field of Curve25519. -/
abbrev F := ZMod p

instance : Fact (Nat.Prime p) := ⟨prime_25519⟩

theorem p_pos : 0 < p := prime_25519.pos
theorem one_lt_p : 1 < p := prime_25519.one_lt
theorem p_odd : p % 2 = 1 := by decide +kernel
theorem p_lt : p < 2 ^ 255 := by decide +kernel
theorem p_mod4 : p % 4 = 1 := by decide +kernel
theorem p_mod8 : p % 8 = 5 := by decide +kernel

theorem eq_of_cast {a b : ℕ} (ha : a < p) (hb : b < p) (h : (a : F) = b) : a = b := by
  rw [ZMod.natCast_eq_natCast_iff'] at h
  rwa [Nat.mod_eq_of_lt ha, Nat.mod_eq_of_lt hb] at h

theorem add_lt (a b : ℕ) : Ed.add a b < p := Nat.mod_lt _ p_pos
theorem sub_lt (a b : ℕ) : Ed.sub a b < p := Nat.mod_lt _ p_pos
theorem mul_lt (a b : ℕ) : Ed.mul a b < p := Nat.mod_lt _ p_pos

theorem cast_add (a b : ℕ) : ((Ed.add a b : ℕ) : F) = a + b := by
  unfold Ed.add
  rw [ZMod.natCast_mod, Nat.cast_add]

theorem cast_mul (a b : ℕ) : ((Ed.mul a b : ℕ) : F) = a * b := by
  unfold Ed.mul
  rw [ZMod.natCast_mod, Nat.cast_mul]

theorem cast_sub (a : ℕ) {b : ℕ} (h : b ≤ p) : ((Ed.sub a b : ℕ) : F) = a - b := by
  unfold Ed.sub
  rw [ZMod.natCast_mod, Nat.cast_add, Nat.cast_sub h, ZMod.natCast_self]
  ring

theorem powMod_lt (a e : ℕ) : powMod p a e < p := by
  rw [powMod_eq one_lt_p]; exact Nat.mod_lt _ p_pos

theorem cast_powMod (a e : ℕ) : ((powMod p a e : ℕ) : F) = (a : F) ^ e := by
  rw [powMod_eq one_lt_p, ZMod.natCast_mod, Nat.cast_pow]

theorem fermat {a : F} (h : a ≠ 0) : a ^ (p - 1) = 1 := ZMod.pow_card_sub_one_eq_one h

theorem cast_inv (a : ℕ) : ((Ed.inv a : ℕ) : F) = (a : F)⁻¹ := by
  unfold Ed.inv
  rw [cast_powMod]
  by_cases h : (a : F) = 0
  · rw [h, inv_zero, zero_pow]
    have : 2 < p := by decide +kernel
    omega
  · apply eq_inv_of_mul_eq_one_left
    rw [← pow_succ, show p - 2 + 1 = p - 1 by have : 2 < p := by decide +kernel
                                              omega]
    exact fermat h

theorem inv_lt (a : ℕ) : Ed.inv a < p := powMod_lt _ _

theorem d_lt : d < p := mul_lt _ _

theorem two_ne : (2 : F) ≠ 0 := by
  intro h
  have h : ((2 : ℕ) : F) = ((0 : ℕ) : F) := by simpa using h
  have := eq_of_cast (by decide +kernel) p_pos h
  omega

theorem sqrtM1_sq : ((Ed.sqrtM1 : ℕ) : F) * Ed.sqrtM1 = -1 := by
  have h : Ed.add (Ed.mul Ed.sqrtM1 Ed.sqrtM1) 1 = 0 := by decide +kernel
  have h := congrArg (Nat.cast (R := F)) h
  rw [cast_add, cast_mul] at h
  push_cast at h
  linear_combination h

theorem complete : EdComplete ((d : ℕ) : F) where
  sqrt_neg_one := ⟨_, sqrtM1_sq⟩
  two := two_ne
  nonsquare := by
    rintro ⟨s, hs⟩
    have h1 : ((powMod p d ((p - 1) / 2) : ℕ) : F) = ((p - 1 : ℕ) : F) := by
      rw [show powMod p d ((p - 1) / 2) = p - 1 by decide +kernel]
    rw [cast_powMod, Nat.cast_sub one_lt_p.le, ZMod.natCast_self] at h1
    have hs0 : s ≠ 0 := by
      rintro rfl
      rw [hs, mul_zero, zero_pow (by decide +kernel)] at h1
      simp at h1
    rw [hs, ← pow_two, ← pow_mul, show 2 * ((p - 1) / 2) = p - 1 by
      have := p_odd
      omega, fermat hs0] at h1
    apply two_ne
    push_cast at h1
    linear_combination h1

instance : Fact (EdComplete ((d : ℕ) : F)) := ⟨complete⟩

/-- The group of points. -/
abbrev G := EdPt ((d : ℕ) : F)

end Pasta.Curve.E25519
