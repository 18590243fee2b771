import Verif.Lemmas.Local

/-! # The 64-bit counter of the code against the 128-bit counter of the specification -/

namespace Pasta

theorem leBytes_append (k l n : Nat) :
    leBytes (k + l) n = leBytes k n ++ leBytes l (n / 256 ^ k) := by
  induction k generalizing n with
  | zero => simp [leBytes]
  | succ k ih =>
    rw [show k + 1 + l = (k + l) + 1 by omega]
    simp only [leBytes, ih, List.cons_append, List.cons.injEq, true_and]
    rw [Nat.div_div_eq_div_mul, Nat.pow_succ, Nat.mul_comm 256]

theorem leBytes_mod (k n : Nat) : leBytes k (n % 256 ^ k) = leBytes k n := by
  have h1 := leBytes_leNat (leBytes k n)
  rw [leBytes_length, leNat_leBytes] at h1
  exact h1

theorem beBytes_append (k l n : Nat) :
    beBytes (k + l) n = beBytes k (n / 256 ^ l) ++ beBytes l n := by
  unfold beBytes
  rw [Nat.add_comm, leBytes_append, List.reverse_append]

theorem leNat_append (a b : Bytes) : leNat (a ++ b) = leNat a + 256 ^ a.length * leNat b := by
  induction a with
  | nil => simp [leNat]
  | cons x xs ih => simp only [List.cons_append, leNat, ih, List.length_cons, Nat.pow_succ]; grind

theorem beNat_append (a b : Bytes) : beNat (a ++ b) = beNat a * 256 ^ b.length + beNat b := by
  simp only [beNat, List.reverse_append, leNat_append, List.length_reverse]
  rw [Nat.mul_comm, Nat.add_comm]

theorem beBytes_congr {k a b : Nat} (h : a % 256 ^ k = b % 256 ^ k) : beBytes k a = beBytes k b := by
  unfold beBytes
  rw [← leBytes_mod k a, ← leBytes_mod k b, h]

/-- The two counter blocks, as a split of the 128-bit sum. -/
theorem ctrBlock_split (iv : BytesN 16) (j : Nat) :
    (Spec.ctrBlock iv j).1 =
      beBytes 8 (beNat (iv.1.take 8) + (beNat (iv.1.drop 8) + j) / 2 ^ 64) ++
        beBytes 8 (beNat (iv.1.drop 8) + j) := by
  have hl := iv.2
  have e : beNat iv.1 = beNat (iv.1.take 8) * 256 ^ 8 + beNat (iv.1.drop 8) := by
    conv => lhs; rw [← List.take_append_drop 8 iv.1]
    rw [beNat_append]
    simp [hl]
  show beBytes (8 + 8) (beNat iv.1 + j) = _
  rw [beBytes_append, e]
  congr 1
  · congr 1
    rw [show beNat (iv.1.take 8) * 256 ^ 8 + beNat (iv.1.drop 8) + j =
      (beNat (iv.1.drop 8) + j) + 256 ^ 8 * beNat (iv.1.take 8) by omega,
      Nat.add_mul_div_left _ _ (by decide)]
    omega
  · apply beBytes_congr
    omega

theorem take8_length (iv : BytesN 16) : (iv.1.take 8).length = 8 := by simp [iv.2]
theorem drop8_length (iv : BytesN 16) : (iv.1.drop 8).length = 8 := by simp [iv.2]

/-- Without a carry out of the low 64 bits the counter blocks agree. -/
theorem ctr64Block_eq {iv : BytesN 16} {j : Nat} (h : beNat (iv.1.drop 8) + j < 2 ^ 64) :
    Prims.ctr64Block iv j = (Spec.ctrBlock iv j).1 := by
  rw [ctrBlock_split, Nat.div_eq_of_lt h]
  have := beBytes_beNat (iv.1.take 8)
  rw [take8_length] at this
  rw [Nat.add_zero, this]
  rfl

/-- With a carry they differ (for block numbers below 2^64). -/
theorem ctr64Block_ne {iv : BytesN 16} {j : Nat} (hj : j < 2 ^ 64)
    (h : 2 ^ 64 ≤ beNat (iv.1.drop 8) + j) :
    Prims.ctr64Block iv j ≠ (Spec.ctrBlock iv j).1 := by
  have hlo := beNat_lt (iv.1.drop 8)
  rw [drop8_length] at hlo
  have hhi := beNat_lt (iv.1.take 8)
  rw [take8_length] at hhi
  intro e
  rw [ctrBlock_split] at e
  have h1 : (beNat (iv.1.drop 8) + j) / 2 ^ 64 = 1 := by omega
  rw [h1] at e
  unfold Prims.ctr64Block at e
  have := (List.append_inj e (by rw [take8_length]; simp [beBytes, leBytes_length])).1
  have := congrArg beNat this
  rw [beNat_beBytes] at this
  omega

/-- The key streams agree on every block without carry. -/
theorem aesCtr64_eq (P : Prims) (key : BytesN 32) (iv : BytesN 16) (i : Nat)
    (h : beNat (iv.1.drop 8) + i / 16 < 2 ^ 64) :
    P.aesCtr64 key iv i = Spec.aes256ctr P key iv .be128 i := by
  unfold Prims.aesCtr64 Spec.aes256ctr
  have : ∀ (x y : BytesN 16), x = y → (P.aes256 key x).1[i % 16]?.getD 0 =
      (P.aes256 key y).1[i % 16]?.getD 0 := by rintro x y rfl; rfl
  exact this _ _ (Subtype.ext (ctr64Block_eq h))

/-- The key stream of the code is the specification's with the 64-bit counter. -/
theorem aesCtr64_be64 (P : Prims) (key : BytesN 32) (iv : BytesN 16) :
    P.aesCtr64 key iv = Spec.aes256ctr P key iv .be64 := rfl

theorem xorStream_congr {m : Bytes} {a b : Nat → UInt8} (h : ∀ i < m.length, a i = b i) :
    Spec.xorStream m a = Spec.xorStream m b := by
  unfold Spec.xorStream
  congr 1
  apply List.map_congr_left
  intro i hi
  exact h i (by simpa using hi)

theorem xorStream_eq_iff {m : Bytes} {a b : Nat → UInt8} :
    Spec.xorStream m a = Spec.xorStream m b ↔ ∀ i < m.length, a i = b i := by
  refine ⟨?_, xorStream_congr⟩
  intro h i hi
  unfold Spec.xorStream at h
  have := congrArg (fun l => l[i]?) h
  simp only [List.getElem?_zipWith] at this
  simp [hi] at this
  exact this

/-- On a block whose counter carries, an injective block cipher gives a different key stream. -/
theorem aesCtr64_ne (P : Prims) (key : BytesN 32) (iv : BytesN 16)
    (hinj : ∀ x y, P.aes256 key x = P.aes256 key y → x = y) (j : Nat) (hj : j < 2 ^ 64)
    (h : 2 ^ 64 ≤ beNat (iv.1.drop 8) + j) :
    ∃ i, i / 16 = j ∧ P.aesCtr64 key iv i ≠ Spec.aes256ctr P key iv .be128 i := by
  apply Classical.byContradiction
  intro hne
  have hall : ∀ k < 16, P.aesCtr64 key iv (16 * j + k) = Spec.aes256ctr P key iv .be128 (16 * j + k) := by
    intro k hk
    apply Classical.byContradiction
    intro hk'
    exact hne ⟨16 * j + k, by omega, hk'⟩
  apply ctr64Block_ne hj h
  have hb : (Prims.ctr64Block iv j).length = 16 := by
    have := iv.2; simp [Prims.ctr64Block, beBytes, Prims.leBytes_length]; omega
  have key_eq : P.aes256 key ⟨Prims.ctr64Block iv j, hb⟩ = P.aes256 key (Spec.ctrBlock iv j) := by
    apply Subtype.ext
    apply List.ext_getElem
    · rw [(P.aes256 key _).2, (P.aes256 key _).2]
    · intro k h1 h2
      have hk : k < 16 := by rw [(P.aes256 key _).2] at h1; exact h1
      have := hall k hk
      unfold Prims.aesCtr64 Spec.aes256ctr at this
      have e1 : (16 * j + k) / 16 = j := by omega
      have e2 : (16 * j + k) % 16 = k := by omega
      simp only [e1, e2] at this
      rw [List.getElem?_eq_getElem h1, List.getElem?_eq_getElem h2] at this
      simpa using this
  exact congrArg Subtype.val (hinj _ _ key_eq)

end Pasta
