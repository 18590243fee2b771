import Mathlib.Logic.Equiv.Prod
import Mathlib.Order.Interval.Finset.Fin
import Mathlib.Algebra.BigOperators.Intervals
import Verif.Props.SealingMany
import Verif.Props.Fresh

/-!
# C98: the tapes are good

With the actual algorithms no ephemeral key is used twice, except with very small probability. And there
are good tapes.
-/

namespace Pasta.C98

open C82 (count count_eq count_prod count_prod')
open Real (prims)

section pairs

variable {m : Nat} {X Y : Type} [Fintype X] (g : X → Y) (k : Nat) (hk : ∀ y, count (fun x => g x = y) ≤ k)

include hk in
theorem pair_count {i j : Fin m} (hij : i ≠ j) :
    count (fun ρ : Fin m → X => g (ρ i) = g (ρ j)) * Fintype.card X ≤ k * Fintype.card (Fin m → X) := by
  classical
  let e := Equiv.funSplitAt j X
  have h1 : count (fun ρ : Fin m → X => g (ρ i) = g (ρ j)) =
      count (fun z : X × ({a // a ≠ j} → X) => g (z.2 ⟨i, hij⟩) = g z.1) :=
    Plug.count_bij e.bijective fun ρ => Iff.rfl
  have h2 : count (fun z : X × ({a // a ≠ j} → X) => g (z.2 ⟨i, hij⟩) = g z.1) ≤
      Fintype.card ({a // a ≠ j} → X) * k := by
    rw [count_prod']
    refine le_trans (Finset.sum_le_card_nsmul _ _ k fun r _ => ?_) (by
      rw [Finset.card_univ, Nat.nsmul_eq_mul])
    exact le_trans (Plug.count_mono fun x hx => Eq.symm hx) (hk (g (r ⟨i, hij⟩)))
  rw [Fintype.card_congr e, Fintype.card_prod, h1]
  calc _ ≤ Fintype.card ({a // a ≠ j} → X) * k * Fintype.card X := Nat.mul_le_mul_right _ h2
    _ = _ := by ring

open Finset in
include hk in
/-- Two of `m` independent values have the same image hardly ever. -/
theorem pairs (hX : 0 < Fintype.card X) :
    fractionOf (fun ρ : Fin m → X => ¬ Function.Injective fun i => g (ρ i)) ≤
      m * (m - 1) / 2 * (k / Fintype.card X) := by
  classical
  have hXq : (0 : ℚ) < Fintype.card X := by exact_mod_cast hX
  have hF : (0 : ℚ) < Fintype.card (Fin m → X) := by
    obtain ⟨x⟩ := Fintype.card_pos_iff.1 hX
    exact_mod_cast Fintype.card_pos_iff.2 ⟨fun _ : Fin m => x⟩
  have hpair : ∀ i j : Fin m, i ≠ j →
      fractionOf (fun ρ : Fin m → X => g (ρ i) = g (ρ j)) ≤ k / Fintype.card X := by
    intro i j hij
    rw [fraction_count, div_le_div_iff₀ hF hXq]
    exact_mod_cast pair_count g k hk hij
  have hunion : fractionOf (fun ρ : Fin m → X => ¬ Function.Injective fun i => g (ρ i)) ≤
      ∑ j : Fin m, ∑ i ∈ Iio j, fractionOf (fun ρ : Fin m → X => g (ρ i) = g (ρ j)) := by
    unfold fractionOf
    simp only [← Finset.sum_div]
    refine div_le_div_of_nonneg_right ?_ (Nat.cast_nonneg _)
    simp only [← Nat.cast_sum]
    refine Nat.cast_le.2 (le_trans (card_le_card (t := univ.biUnion fun j : Fin m => (Iio j).biUnion fun i =>
      univ.filter fun ρ : Fin m → X => g (ρ i) = g (ρ j)) ?_) (le_trans card_biUnion_le
        (sum_le_sum fun j _ => card_biUnion_le)))
    intro ρ hρ
    have hρ : ¬ Function.Injective fun i => g (ρ i) := 
      ((@mem_filter _ _ (fun _ => Classical.propDecidable _) _ _).1 hρ).2
    unfold Function.Injective at hρ
    rw [Classical.not_forall] at hρ
    obtain ⟨a, hρ⟩ := hρ
    rw [Classical.not_forall] at hρ
    obtain ⟨b, hρ⟩ := hρ
    rw [Classical.not_imp] at hρ
    obtain ⟨hab, hne⟩ := hρ
    rcases lt_or_gt_of_ne hne with h | h
    · exact mem_biUnion.2 ⟨b, mem_univ _, mem_biUnion.2 ⟨a, mem_Iio.2 h, mem_filter.2 ⟨mem_univ _, hab⟩⟩⟩
    · exact mem_biUnion.2 ⟨a, mem_univ _, mem_biUnion.2 ⟨b, mem_Iio.2 h, mem_filter.2 ⟨mem_univ _, hab.symm⟩⟩⟩
  refine le_trans hunion (le_trans (sum_le_sum fun j _ => sum_le_sum fun i hi =>
    hpair i j (ne_of_lt (mem_Iio.1 hi))) ?_)
  simp only [sum_const, Fin.card_Iio, nsmul_eq_mul]
  rw [← Finset.sum_mul]
  refine mul_le_mul_of_nonneg_right (le_of_eq ?_) (by positivity)
  rw [Fin.sum_univ_eq_sum_range (fun j => (j : ℚ)) m]
  have h := Finset.sum_range_id_mul_two m
  rw [eq_div_iff (by norm_num : (2 : ℚ) ≠ 0)]
  cases m with
  | zero => simp
  | succ m =>
    have h' : ((∑ j ∈ range (m + 1), j : Nat) : ℚ) * 2 = ((m + 1 : Nat) : ℚ) * (m : ℚ) := by
      exact_mod_cast h
    push_cast at h' ⊢
    rw [h']
    ring

omit [Fintype X] in
theorem bound_mono {m c d : Nat} (hd : 0 < d) (h : d ≤ c) :
    (m : ℚ) * (m - 1) / 2 * (1 / c) ≤ m * (m - 1) / (2 * d) := by
  have hm : (0 : ℚ) ≤ m * (m - 1) / 2 := by
    cases m with
    | zero => simp
    | succ m => push_cast; ring_nf; positivity
  have e : (m : ℚ) * (m - 1) / (2 * d) = m * (m - 1) / 2 * (1 / d) := by
    rw [div_mul_div_comm, mul_one]
  rw [e]
  exact mul_le_mul_of_nonneg_left (one_div_le_one_div_of_le (by exact_mod_cast hd) (by exact_mod_cast h)) hm

theorem count_inj {f : X → Y} (hf : Function.Injective f) (y : Y) : count (fun x => f x = y) ≤ 1 := by
  classical
  rw [← count_eq]
  refine Finset.card_le_one.2 fun e he e' he' => hf ?_
  exact ((Finset.mem_filter.1 he).2).trans (Finset.mem_filter.1 he').2.symm

end pairs

variable {m : Nat} {ι : Type}

/-- With random bytes the tapes of version 4 are good, except with probability `m (m - 1) / 2 ^ 251`. -/
theorem good_tapes_v4 (pks : ι → Key prims .V4 .Public) (jobs : Fin m → SealJob prims .V4 ι) :
    fractionOf (fun ρ : Fin m → BytesN 32 => ¬ GoodTapes prims pks jobs fun i => (ρ i).1) ≤
      m * (m - 1) / 2 ^ 251 := by
  have hk : ∀ y, count (fun b : BytesN 32 => (prims.montMulBase (scalarModOrder (clampInteger b))).1 = y) ≤
      64 := by
    intro y
    classical
    rw [← count_eq]
    convert C92.card_ephemeral y
  have h := pairs (m := m) _ 64 hk (by rw [C75.card_bytes]; exact Nat.pow_pos (by decide))
  refine le_trans (fraction_mono ?_) (le_trans h (le_of_eq ?_))
  · intro ρ hρ hinj
    refine hρ ⟨fun i => prims.montMulBase (scalarModOrder (clampInteger (ρ i))),
      fun i j hij => hinj (congrArg Subtype.val hij), fun i a => ?_⟩
    have hf : fillBytes 32 (ρ i).1 = .ok (ρ i, []) := fillBytes_eq_ok.2 (List.append_nil _).symm
    unfold ephemeral
    dsimp only
    rw [hf]
    exact ⟨_, rfl⟩
  · rw [C75.card_bytes]
    have e : ((64 : Nat) : ℚ) / ((256 ^ 32 : Nat) : ℚ) = 2 / 2 ^ 251 := by push_cast; norm_num
    rw [e]
    ring

open Classical in
/-- And so are those of version 3, where a tape is a scalar. -/
theorem good_tapes_v3 (pks : ι → Key prims .V3 .Public) (jobs : Fin m → SealJob prims .V3 ι) :
    fractionOf (fun ρ : Fin m → P384Scalar => ¬ GoodTapes prims pks jobs fun i => (ρ i).1.1) ≤
      m * (m - 1) / 2 ^ 251 := by
  have hk : ∀ y, count (fun e : P384Scalar => (prims.p384Compress (prims.p384Public e)).1 = y) ≤ 1 := by
    intro y
    exact count_inj (f := fun e : P384Scalar => (prims.p384Compress (prims.p384Public e)).1)
      (fun e e' h => Curve.E384.public_inj (Subtype.ext (Subtype.ext h))) y
  have hc : 2 ^ 250 ≤ Fintype.card P384Scalar := by
    have h := C92.card_scalars
    rw [Fintype.card_subtype]
    convert h
  have h := pairs (m := m) _ 1 hk (lt_of_lt_of_le (by norm_num) hc)
  refine le_trans (fraction_mono ?_) (le_trans h ?_)
  · intro ρ hρ hinj
    refine hρ ⟨fun i => prims.p384Compress (prims.p384Public (ρ i)),
      fun i j hij => hinj (congrArg Subtype.val hij), fun i a => ?_⟩
    have hr : p384Random (ρ i).1.1 = .ok (ρ i, []) := by
      have := p384Random_cons (ρ i).1 []
      rwa [List.append_nil, dif_pos (ρ i).2] at this
    unfold ephemeral
    dsimp only
    rw [hr]
    exact ⟨_, rfl⟩
  · rw [Nat.cast_one]
    refine le_trans (bound_mono (by norm_num) hc) (le_of_eq ?_)
    congr 1
    push_cast
    norm_num

theorem some_not {α : Type} [Fintype α] [Nonempty α] {A : α → Prop} (h : fractionOf A < 1) : ∃ x, ¬ A x := by
  classical
  by_contra hn
  have hA : ∀ x, A x := fun x => not_not.1 fun hx => hn ⟨x, hx⟩
  have hc : (0 : ℚ) < Fintype.card α := by exact_mod_cast Fintype.card_pos
  rw [fraction_count, div_lt_one hc] at h
  have : C82.count A = Fintype.card α := by
    rw [← count_eq, Finset.filter_true_of_mem (fun x _ => hA x), Finset.card_univ]
  rw [this] at h
  exact lt_irrefl _ h

/-! ### Examples -/

theorem few {m : Nat} (hm : m ≤ 2 ^ 100) : (m : ℚ) * (m - 1) / 2 ^ 251 < 1 := by
  have h : (m : ℚ) ≤ 2 ^ 100 := by exact_mod_cast hm
  have h0 : (0 : ℚ) ≤ m := Nat.cast_nonneg _
  rw [div_lt_one (by positivity)]
  have h1 : (m : ℚ) * (m - 1) ≤ 2 ^ 100 * 2 ^ 100 :=
    le_trans (mul_le_mul_of_nonneg_left (by linarith) h0)
      (le_trans (mul_le_mul_of_nonneg_left h h0) (mul_le_mul_of_nonneg_right h (by positivity)))
  exact lt_of_le_of_lt h1 (by norm_num)

theorem scalar_exists : Nonempty P384Scalar :=
  ⟨⟨⟨List.replicate 47 0 ++ [1], rfl⟩, by unfold p384ScalarOk; decide +kernel⟩⟩

/-- With the actual algorithms there are good tapes for any recipients and keys, as long as not more than
`2 ^ 100` keys are sealed. -/
theorem exist_good_tapes (v : Ver) {m : Nat} (hm : m ≤ 2 ^ 100) (pks : ι → Key prims v .Public)
    (jobs : Fin m → SealJob prims v ι) : ∃ rngs, GoodTapes prims pks jobs rngs := by
  cases v with
  | V3 =>
    have := scalar_exists
    obtain ⟨ρ, h⟩ := some_not (lt_of_le_of_lt (good_tapes_v3 pks jobs) (few hm))
    exact ⟨_, not_not.1 h⟩
  | V4 =>
    have : Nonempty (BytesN 32) := ⟨⟨List.replicate 32 0, rfl⟩⟩
    obtain ⟨ρ, h⟩ := some_not (lt_of_le_of_lt (good_tapes_v4 pks jobs) (few hm))
    exact ⟨_, not_not.1 h⟩

/-- So the hypotheses are met, with the actual algorithms, by any two sealings for three recipients, -/
example (v : Ver) (sks : Fin 3 → Key prims v .Secret) (jobs : Fin 2 → SealJob prims v (Fin 3)) :
    ∃ R : Finset (Fin 2 → Rng), R.Nonempty ∧ prims.Laws ∧
      ∀ rngs ∈ R, GoodTapes prims (fun b => (sks b).publicKey) jobs rngs := by
  obtain ⟨rngs, h⟩ := exist_good_tapes v (m := 2) (by norm_num) (fun b => (sks b).publicKey) jobs
  exact ⟨{rngs}, ⟨rngs, Finset.mem_singleton_self _⟩, Real.laws, fun r hr => by
    rw [Finset.mem_singleton.1 hr]; exact h⟩

/-- … there are secret keys, -/
example (v : Ver) : Nonempty (Key prims v .Secret) := by
  cases v with
  | V3 =>
    obtain ⟨e⟩ := scalar_exists
    exact ⟨⟨e⟩⟩
  | V4 => exact ⟨⟨⟨List.replicate 32 0, rfl⟩⟩⟩

/-- … and whoever knows the random bytes of one sealing may hash its secret: then nothing is claimed. -/
example (v : Ver) (sks : Fin 3 → Key prims v .Secret) (jobs : Fin 2 → SealJob prims v (Fin 3))
    (rngs : Fin 2 → Rng) (h : GoodTapes prims (fun b => (sks b).publicKey) jobs rngs) :
    ∃ ask : ManyAsks v 32 2 (Fin 3), (∀ texts seen b s, ask texts seen ≠ some (b, .unseal s)) ∧
      ∀ side f c edk ak, ManyHashed prims sks jobs ask 1 1 side .right rngs f c edk ak := by
  obtain ⟨epks, _, he⟩ := h
  obtain ⟨xk, he⟩ := he 1 .right
  have h1 := C88.input_length (v := v) 1 (C88.ephemeral_length he) (epks 1).2
    (sealPub_length (sks ((jobs 1).recipient .right)).publicKey)
  exact ⟨fun _ _ => some (0, .hash ⟨_, h1⟩), fun _ _ _ _ h => (by cases h), fun side f c edk ak =>
    ⟨xk, _, he, ⟨_, h1⟩, List.mem_cons_self, 1, rfl⟩⟩

end Pasta.C98
