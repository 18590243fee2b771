import Mathlib.FieldTheory.Finite.Basic
import Mathlib.GroupTheory.OrderOfElement
import Mathlib.Tactic.NormNum.Prime
import Verif.Curve.Loop

/-!
# Primality proofs

Pocklington's criterion, in the form used for the primes of Curve25519 and P-384: if `q` is a prime
power factor of `N - 1` with a witness, it divides `r - 1` for every prime factor `r` of `N`.
-/

namespace Pasta.Curve

/-- One step of Pocklington's criterion. -/
theorem dvd_of_witness {N q e a r : ℕ} (hq : q.Prime) (hr : r.Prime) (hrN : r ∣ N) (he : 0 < e)
    (hd : q ^ e ∣ N - 1) (h1 : a ^ (N - 1) % N = 1 % N)
    (h2 : Nat.gcd (a ^ ((N - 1) / q) % N + (N - 1)) N = 1) (hN : 1 < N) : q ^ e ∣ r - 1 := by
  have : Fact r.Prime := ⟨hr⟩
  have : Fact q.Prime := ⟨hq⟩
  obtain ⟨c, hc⟩ := hd
  have hcast : ∀ x : ℕ, ((x % N : ℕ) : ZMod r) = x := fun x => by
    rw [ZMod.natCast_eq_natCast_iff]
    exact (Nat.mod_modEq x N).of_dvd hrN
  have hNr : (N : ZMod r) = 0 := (ZMod.natCast_eq_zero_iff _ _).2 hrN
  have h1' : (a : ZMod r) ^ (N - 1) = 1 := by
    have := congrArg (Nat.cast (R := ZMod r)) h1
    rw [hcast, hcast] at this
    simpa using this
  have h2' : (a : ZMod r) ^ ((N - 1) / q) ≠ 1 := by
    intro h
    have h3 : r ∣ a ^ ((N - 1) / q) % N + (N - 1) := by
      rw [← ZMod.natCast_eq_zero_iff, Nat.cast_add, hcast, Nat.cast_pow, h, Nat.cast_sub hN.le, hNr]
      simp
    have := Nat.dvd_gcd h3 hrN
    rw [h2] at this
    exact hr.one_lt.ne' (Nat.dvd_one.1 this)
  have hpos : 0 < c := by
    rcases Nat.eq_zero_or_pos c with rfl | h
    · omega
    · exact h
  obtain ⟨e, rfl⟩ : ∃ e', e = e' + 1 := ⟨e - 1, by omega⟩
  have hdiv : (N - 1) / q = q ^ e * c := by
    rw [hc, pow_succ]
    rw [show q ^ e * q * c = q * (q ^ e * c) by ring]
    exact Nat.mul_div_cancel_left _ hq.pos
  have ho : orderOf ((a : ZMod r) ^ c) = q ^ (e + 1) := by
    apply orderOf_eq_prime_pow
    · rw [← pow_mul, mul_comm, ← hdiv]; exact h2'
    · rw [← pow_mul, mul_comm, ← hc]; exact h1'
  rw [← ho]
  apply orderOf_dvd_of_pow_eq_one
  have hne : (a : ZMod r) ≠ 0 := by
    intro h
    rw [h, zero_pow (by omega)] at h1'
    exact zero_ne_one h1'
  exact ZMod.pow_card_sub_one_eq_one (pow_ne_zero _ hne)

/-- If a number `F` with `F² > N` divides `r - 1` for every prime factor `r` of `N`, then `N` is
prime. -/
theorem prime_of_dvd {N F : ℕ} (hN : 1 < N) (hF : N < F * F)
    (h : ∀ r, r.Prime → r ∣ N → F ∣ r - 1) : N.Prime := by
  by_contra hnp
  have hm := Nat.minFac_prime (n := N) (by omega)
  have h1 := Nat.le_of_dvd (by have := hm.two_le; omega) (h _ hm (Nat.minFac_dvd N))
  have h2 := Nat.minFac_sq_le_self (by omega) hnp
  rw [sq] at h2
  have h3 : F ≤ N.minFac := by omega
  have := Nat.mul_le_mul h3 h3
  omega

open Pasta.Real (powMod)

/-- The same with the exponentiation algorithm, which the kernel can run. -/
theorem dvd_of_powMod {N q : ℕ} (e a : ℕ) (hq : q.Prime)
    (h : (1 < N ∧ 0 < e ∧ (N - 1) % q ^ e = 0 ∧ powMod N a (N - 1) = 1 ∧
      Nat.gcd (powMod N a ((N - 1) / q) + (N - 1)) N = 1))
    (r : ℕ) (hr : r.Prime) (hrN : r ∣ N) : q ^ e ∣ r - 1 := by
  obtain ⟨hN, he, hd, h1, h2⟩ := h
  rw [powMod_eq hN] at h1 h2
  exact dvd_of_witness (a := a) hq hr hrN he (Nat.dvd_of_mod_eq_zero hd)
    (by rw [h1, Nat.mod_eq_of_lt hN]) h2 hN

/-- One prime factor beyond the square root. -/
theorem prime_of_one {N q : ℕ} (a : ℕ) (hq : q.Prime) (hF : N < q * q)
    (h : (1 < N ∧ 0 < 1 ∧ (N - 1) % q ^ 1 = 0 ∧ powMod N a (N - 1) = 1 ∧
      Nat.gcd (powMod N a ((N - 1) / q) + (N - 1)) N = 1)) : N.Prime :=
  prime_of_dvd h.1 hF fun r hr hd => by simpa using dvd_of_powMod 1 a hq h r hr hd

/-- Two prime factors. -/
theorem prime_of_two {N q q' : ℕ} (a a' : ℕ) (hq : q.Prime) (hq' : q'.Prime) (hne : q ≠ q')
    (hF : N < q * q' * (q * q'))
    (h : (1 < N ∧ 0 < 1 ∧ (N - 1) % q ^ 1 = 0 ∧ powMod N a (N - 1) = 1 ∧
      Nat.gcd (powMod N a ((N - 1) / q) + (N - 1)) N = 1))
    (h' : (1 < N ∧ 0 < 1 ∧ (N - 1) % q' ^ 1 = 0 ∧ powMod N a' (N - 1) = 1 ∧
      Nat.gcd (powMod N a' ((N - 1) / q') + (N - 1)) N = 1)) : N.Prime :=
  prime_of_dvd h.1 hF fun r hr hd =>
    ((Nat.coprime_primes hq hq').2 hne).mul_dvd_of_dvd_of_dvd
      (by simpa using dvd_of_powMod 1 a hq h r hr hd)
      (by simpa using dvd_of_powMod 1 a' hq' h' r hr hd)

end Pasta.Curve
