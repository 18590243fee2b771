import Verif.Real.P384

/-!
# Double-and-add loops

The exponentiation and the scalar multiplications of `Verif/Real` are the same loop over the binary
digits of a number. `binLoop_spec` is its correctness for any relation "is the `i`-th multiple"
that addition and doubling respect.
-/

namespace Pasta.Curve

open Pasta.Real

/-- The loop, `fuel` rounds: accumulator, current doubling, remaining number. -/
def binLoop {α : Type _} (add : α → α → α) (dbl : α → α) : Nat → α → α → Nat → α
  | 0, r, _, _ => r
  | fuel + 1, r, q, n => binLoop add dbl fuel (if n % 2 = 1 then add r q else r) (dbl q) (n / 2)

theorem binLoop_spec {α : Type _} {add : α → α → α} {dbl : α → α} (R : α → Nat → Prop)
    (hadd : ∀ r q i j, R r i → R q j → R (add r q) (i + j))
    (hdbl : ∀ q j, R q j → R (dbl q) (2 * j)) (fuel : Nat) :
    ∀ (r q : α) (n i j : Nat), n < 2 ^ fuel → R r i → R q j →
      R (binLoop add dbl fuel r q n) (i + n * j) := by
  induction fuel with
  | zero =>
    intro r q n i j hn hr _
    have : n = 0 := by simpa using hn
    subst this
    simpa [binLoop] using hr
  | succ fuel ih =>
    intro r q n i j hn hr hq
    unfold binLoop
    have h2 : n / 2 < 2 ^ fuel := by rw [Nat.pow_succ] at hn; omega
    have hd := hdbl q j hq
    by_cases hb : n % 2 = 1
    · rw [if_pos hb]
      have := ih _ _ (n / 2) (i + j) (2 * j) h2 (hadd _ _ _ _ hr hq) hd
      rwa [show i + j + n / 2 * (2 * j) = i + n * j by
        have h3 : n = 2 * (n / 2) + 1 := by omega
        generalize hm : n / 2 = m at h3
        subst h3
        rw [Nat.add_mul, Nat.one_mul, Nat.mul_comm 2 m, Nat.mul_assoc]; omega] at this
    · rw [if_neg hb]
      have := ih _ _ (n / 2) i (2 * j) h2 hr hd
      rwa [show i + n / 2 * (2 * j) = i + n * j by
        have h3 : n = 2 * (n / 2) := by omega
        generalize hm : n / 2 = m at h3
        subst h3
        rw [Nat.mul_comm 2 m, Nat.mul_assoc]] at this

/-- The `for` loop in `Real` is `binLoop`. -/
theorem forIn_binLoop {α : Type} (add : α → α → α) (dbl : α → α) (l : List Nat) :
    ∀ (r q : α) (n : Nat),
    (forIn (m := Id) l (r, q, n) fun _ s =>
      if s.2.2 % 2 = 1 then pure (ForInStep.yield (add s.1 s.2.1, dbl s.2.1, s.2.2 / 2))
      else pure (ForInStep.yield (s.1, dbl s.2.1, s.2.2 / 2))).run.1 =
    binLoop add dbl l.length r q n := by
  induction l with
  | nil => intro r q n; rfl
  | cons x l ih =>
    intro r q n
    rw [List.forIn_cons]
    simp only [List.length_cons, binLoop]
    split
    · exact ih _ _ _
    · exact ih _ _ _

theorem powMod_loop (m b e : Nat) :
    powMod m b e = binLoop (fun r q => r * q % m) (fun q => q * q % m) (e.log2 + 1) 1 (b % m) e := by
  have := forIn_binLoop (fun r q => r * q % m) (fun q => q * q % m)
    (List.range' 0 (e.log2 + 1)) 1 (b % m) e
  rw [List.length_range'] at this
  rw [← this]
  unfold powMod
  simp [Std.Legacy.Range.forIn_eq_forIn_range', Std.Legacy.Range.size]

theorem Ed.smul_loop (n : Nat) (a : Ed.Pt) :
    a.smul n = binLoop Ed.Pt.add (fun q => q.add q) (n.log2 + 1) Ed.zero a n := by
  have := forIn_binLoop Ed.Pt.add (fun q => q.add q) (List.range' 0 (n.log2 + 1)) Ed.zero a n
  rw [List.length_range'] at this
  rw [← this]
  unfold Ed.Pt.smul
  simp [Std.Legacy.Range.forIn_eq_forIn_range', Std.Legacy.Range.size]

theorem P384.smul_loop (n : Nat) (a : P384.Pt) :
    a.smul n = binLoop P384.Pt.add P384.Pt.dbl (n.log2 + 1) P384.zero a n := by
  have := forIn_binLoop P384.Pt.add P384.Pt.dbl (List.range' 0 (n.log2 + 1)) P384.zero a n
  rw [List.length_range'] at this
  rw [← this]
  unfold P384.Pt.smul
  simp [Std.Legacy.Range.forIn_eq_forIn_range', Std.Legacy.Range.size]

theorem lt_pow_log2 (n : Nat) : n < 2 ^ (n.log2 + 1) := Nat.lt_log2_self

theorem powMod_eq {m : Nat} (hm : 1 < m) (b e : Nat) : powMod m b e = b ^ e % m := by
  rw [powMod_loop]
  have := binLoop_spec (add := fun r q => r * q % m) (dbl := fun q => q * q % m)
    (fun x i => x = b ^ i % m)
    (by intro r q i j hr hq; rw [hr, hq, Nat.pow_add, ← Nat.mul_mod])
    (by intro q j hq; rw [hq, Nat.two_mul, Nat.pow_add, ← Nat.mul_mod])
    (e.log2 + 1) 1 (b % m) e 0 1 (lt_pow_log2 e) (by simp [Nat.mod_eq_of_lt hm]) (by simp)
  simpa using this

end Pasta.Curve
