import Verif.Curve.Decode25519
import Mathlib.Data.Set.Card
import Mathlib.Data.Set.Card.Arithmetic

/-!
# How many byte strings are Ed25519 public keys
-/

namespace Pasta.Curve.E25519

open Pasta.Real (prims fit)
open Pasta.Real.Ed (p d)
open Pasta.Real
open Spec.Ed (OnCurve StandsFor)

/-- The second coordinate of a point. -/
def Valid (y : F) : Prop := ∃ g : G, g.y = y

theorem x_zero {g : G} : g.x = 0 ↔ g.y = 1 ∨ g.y = -1 := by
  have h := curve_uv g
  constructor
  · intro hx
    rw [hx] at h
    have : g.y ^ 2 = 1 ^ 2 := by linear_combination h
    exact sq_eq this
  · intro hy
    have : (d * g.y ^ 2 + 1) * g.x ^ 2 = 0 := by
      rw [← h]
      rcases hy with hy | hy <;> rw [hy] <;> ring
    exact pow_eq_zero_iff (two_ne_zero) |>.1 ((mul_eq_zero.1 this).resolve_left (v_ne g))

/-- Every second coordinate but `1` and `-1` belongs to a point of either parity. -/
theorem valid_parity {y : F} (h : Valid y) (h1 : y ≠ 1) (h2 : y ≠ -1) (s : Bool) :
    ∃ g : G, g.y = y ∧ (g.x.val % 2 == 1) = s := by
  obtain ⟨g, rfl⟩ := h
  have h0 : g.x ≠ 0 := by rw [Ne, x_zero]; tauto
  by_cases e : (g.x.val % 2 == 1) = s
  · exact ⟨g, rfl, e⟩
  · refine ⟨-g, rfl, ?_⟩
    show ((-g.x).val % 2 == 1) = s
    have hp := p_odd
    have hlt : g.x.val < p := ZMod.val_lt _
    have h0' : g.x.val ≠ 0 := by rwa [Ne, ZMod.val_eq_zero]
    rw [ZMod.neg_val, if_neg h0]
    rcases Nat.mod_two_eq_zero_or_one g.x.val with h | h
    · have : (p - g.x.val) % 2 = 1 := by omega
      rw [this]; rw [h] at e; revert e; cases s <;> simp
    · have : (p - g.x.val) % 2 = 0 := by omega
      rw [this]; rw [h] at e; revert e; cases s <;> simp

theorem valid_one : Valid 1 := ⟨0, rfl⟩

theorem valid_neg_one : Valid (-1) := by
  refine ⟨⟨0, -1, ?_⟩, rfl⟩
  unfold OnEd
  ring

theorem one_ne_neg_one : (1 : F) ≠ -1 := by
  intro h
  exact two_ne (by linear_combination h)

theorem range_code : Set.range (fun g : G => (g.y, g.x.val % 2 == 1)) =
    ({y | Valid y} ×ˢ Set.univ) \ {(1, true), (-1, true)} := by
  ext ⟨y, s⟩
  simp only [Set.mem_range, Set.mem_sdiff, Set.mem_prod, Set.mem_ofPred_eq, Set.mem_univ, and_true,
    Set.mem_insert_iff, Set.mem_singleton_iff, Prod.mk.injEq, not_or, not_and]
  constructor
  · rintro ⟨g, rfl, rfl⟩
    refine ⟨⟨g, rfl⟩, fun h => ?_, fun h => ?_⟩
    · have := x_zero.2 (.inl h)
      rw [this]; simp
    · have := x_zero.2 (.inr h)
      rw [this]; simp
  · rintro ⟨hv, h1, h2⟩
    by_cases e1 : y = 1
    · have := h1 e1
      refine ⟨0, e1.symm, ?_⟩
      cases s with
      | true => exact absurd rfl this
      | false => show ((0 : F).val % 2 == 1) = false; rw [ZMod.val_zero]; rfl
    · by_cases e2 : y = -1
      · have := h2 e2
        obtain ⟨g, hg⟩ := valid_neg_one
        refine ⟨g, hg.trans e2.symm, ?_⟩
        rw [x_zero.2 (.inr hg), ZMod.val_zero]
        cases s with
        | true => exact absurd rfl this
        | false => rfl
      · exact valid_parity hv e1 e2 s

theorem ncard_valid : 2 * {y : F | Valid y}.ncard = 8 * ed25519Order + 2 := by
  have h := congrArg Set.ncard range_code
  rw [← Nat.card_coe_set_eq, Nat.card_range_of_injective code_inj, card, Set.ncard_sdiff (by
    rintro q (rfl | rfl)
    · exact ⟨valid_one, trivial⟩
    · exact ⟨valid_neg_one, trivial⟩) (Set.toFinite _), Set.ncard_pair (by
      intro h; exact one_ne_neg_one (congrArg Prod.fst h)), Set.ncard_prod, Set.ncard_univ,
    Nat.card_eq_fintype_card (α := Bool), Fintype.card_bool] at h
  have : 0 < ed25519Order := order_pos
  omega

theorem ncard_below (P : F → Prop) : {t : ℕ | t < p ∧ P t}.ncard = {y : F | P y}.ncard := by
  symm
  refine Set.ncard_congr (fun y _ => y.val) ?_ ?_ ?_
  · intro y h
    exact ⟨ZMod.val_lt _, by rw [ZMod.natCast_zmod_val]; exact h⟩
  · intro a b _ _ h
    exact ZMod.val_injective _ h
  · rintro t ⟨h1, h2⟩
    exact ⟨t, h2, ZMod.val_natCast_of_lt h1⟩

theorem ncard_wrap {N k : ℕ} (hN : N = p + k) (P : F → Prop) : {t : ℕ | t < N ∧ P t}.ncard =
    {y : F | P y}.ncard + {t : ℕ | t < k ∧ P t}.ncard := by
  have e : {t : ℕ | t < N ∧ P t} = {t : ℕ | t < p ∧ P t} ∪ (fun t => t + p) '' {t : ℕ | t < k ∧ P t} := by
    ext t
    simp only [Set.mem_ofPred_eq, Set.mem_union, Set.mem_image]
    constructor
    · rintro ⟨h1, h2⟩
      by_cases h : t < p
      · exact .inl ⟨h, h2⟩
      · refine .inr ⟨t - p, ⟨by omega, ?_⟩, by omega⟩
        rwa [Nat.cast_sub (by omega), ZMod.natCast_self, sub_zero]
    · rintro (⟨h1, h2⟩ | ⟨u, ⟨h1, h2⟩, rfl⟩)
      · exact ⟨by omega, h2⟩
      · refine ⟨by omega, ?_⟩
        rwa [Nat.cast_add, ZMod.natCast_self, add_zero]
  have f1 : {t : ℕ | t < p ∧ P t}.Finite := (Set.finite_lt_nat p).subset fun t h => h.1
  have f2 : {t : ℕ | t < k ∧ P t}.Finite := (Set.finite_lt_nat k).subset fun t h => h.1
  rw [e, Set.ncard_union_eq ?_ f1 (f2.image _), Set.ncard_image_of_injective _ (add_left_injective p),
    ncard_below]
  rw [Set.disjoint_left]
  rintro t ⟨h1, _⟩ ⟨u, _, rfl⟩
  simp only at h1
  omega

theorem ncard_sign (N : ℕ) (hN : 0 < N) (Q : ℕ → Prop) : {n : ℕ | n < 2 * N ∧ Q (n % N)}.ncard =
    2 * {t : ℕ | t < N ∧ Q t}.ncard := by
  have e : {n : ℕ | n < 2 * N ∧ Q (n % N)} = {t : ℕ | t < N ∧ Q t} ∪
      (fun t => t + N) '' {t : ℕ | t < N ∧ Q t} := by
    ext n
    simp only [Set.mem_ofPred_eq, Set.mem_union, Set.mem_image]
    constructor
    · rintro ⟨h1, h2⟩
      by_cases h : n < N
      · rw [Nat.mod_eq_of_lt h] at h2
        exact .inl ⟨h, h2⟩
      · refine .inr ⟨n - N, ⟨by omega, ?_⟩, by omega⟩
        rwa [Nat.mod_eq_sub_mod (by omega), Nat.mod_eq_of_lt (by omega)] at h2
    · rintro (⟨h1, h2⟩ | ⟨u, ⟨h1, h2⟩, rfl⟩)
      · exact ⟨by omega, by rwa [Nat.mod_eq_of_lt h1]⟩
      · refine ⟨by omega, ?_⟩
        rwa [Nat.add_mod_right, Nat.mod_eq_of_lt h1]
  have f1 : {t : ℕ | t < N ∧ Q t}.Finite := (Set.finite_lt_nat N).subset fun t h => h.1
  rw [e, Set.ncard_union_eq ?_ f1 (f1.image _), Set.ncard_image_of_injective _ (add_left_injective N)]
  · omega
  rw [Set.disjoint_left]
  rintro t ⟨h1, _⟩ ⟨u, _, rfl⟩
  simp only at h1
  omega

/-- Whether bytes stand for a point depends on the low 255 bits. -/
theorem stands_valid (b : BytesN 32) : (∃ x y, StandsFor b.1 x y) ↔ Valid ((leNat b.1 % 2 ^ 255 : ℕ) : F) := by
  have hm : ((leNat b.1 % 2 ^ 255 : ℕ) : F) = ((leNat b.1 % 2 ^ 255 % p : ℕ) : F) := (ZMod.natCast_mod _ _).symm
  rw [hm]
  constructor
  · rintro ⟨x, y, -, hc, hy, -⟩
    rw [p_eq] at hy
    rw [hy]
    exact ⟨toG hc, rfl⟩
  · intro h
    have hlt : leNat b.1 / 2 ^ 255 < 2 := by
      have := leNat_lt b.1
      rw [b.2] at this
      have h4 : (256 : ℕ) ^ 32 = 2 * 2 ^ 255 := by decide
      rw [h4] at this
      exact Nat.div_lt_of_lt_mul (by rw [mul_comm]; exact this)
    have hy : leNat b.1 % 2 ^ 255 % p < p := Nat.mod_lt _ p_pos
    generalize hY : leNat b.1 % 2 ^ 255 % p = Y at h hy
    generalize hS : leNat b.1 / 2 ^ 255 = S at hlt
    have key : ∃ g : G, g.y = (Y : F) ∧ (g.x = 0 ∨ g.x.val % 2 = S) := by
      by_cases e1 : (Y : F) = 1
      · obtain ⟨g, hg⟩ := h
        exact ⟨g, hg, .inl (x_zero.2 (.inl (hg.trans e1)))⟩
      by_cases e2 : (Y : F) = -1
      · obtain ⟨g, hg⟩ := h
        exact ⟨g, hg, .inl (x_zero.2 (.inr (hg.trans e2)))⟩
      obtain ⟨g, h1, h2⟩ := valid_parity h e1 e2 (S == 1)
      refine ⟨g, h1, .inr ?_⟩
      have : g.x.val % 2 < 2 := Nat.mod_lt _ (by decide)
      rw [Bool.eq_iff_iff] at h2
      simp only [beq_iff_eq] at h2
      omega
    obtain ⟨g, h1, h2⟩ := key
    have ey : g.y.val = Y := by rw [h1, ZMod.val_natCast_of_lt hy]
    refine ⟨g.x.val, g.y.val, b.2, onCurve_of g, ?_, ?_⟩
    · rw [p_eq, ey]; exact hY
    · rw [ZMod.val_eq_zero, hS]; exact h2

theorem ncard_bytes (Q : ℕ → Prop) : Nat.card {b : BytesN 32 // Q (leNat b.1)} =
    {n : ℕ | n < 256 ^ 32 ∧ Q n}.ncard := by
  rw [← Nat.card_coe_set_eq]
  refine Nat.card_congr ⟨fun b => ⟨leNat b.1.1, ?_, b.2⟩, fun n => ⟨⟨leBytes 32 n.1, leBytes_length _ _⟩, ?_⟩,
    ?_, ?_⟩
  · have := leNat_lt b.1.1
    rwa [b.1.2] at this
  · rw [leNat_leBytes, Nat.mod_eq_of_lt n.2.1]; exact n.2.2
  · intro b
    apply Subtype.ext; apply Subtype.ext
    have := leBytes_leNat b.1.1
    rwa [b.1.2] at this
  · intro n
    apply Subtype.ext
    show leNat (leBytes 32 n.1) = n.1
    rw [leNat_leBytes, Nat.mod_eq_of_lt n.2.1]

theorem valid_decode (b : BytesN 32) : Valid ((leNat b.1 % 2 ^ 255 : ℕ) : F) ↔ (Ed.decode b.1).isSome = true := by
  rw [← stands_valid, Option.isSome_iff_exists]
  constructor
  · rintro ⟨x, y, h⟩
    exact decode_complete h
  · rintro ⟨P, h⟩
    exact ⟨_, _, (decode_stands b.2 h).1⟩

def smallValid : List ℕ := [0, 1, 3, 4, 5, 6, 9, 10, 14, 15, 16, 18]

theorem small_valid : ∀ t < 19, Valid ((t : ℕ) : F) ↔ t ∈ smallValid := by
  have h : ∀ t < 19, (Ed.decode (leBytes 32 t)).isSome = true ↔ t ∈ smallValid := by decide +kernel
  intro t ht
  rw [← h t ht, ← valid_decode ⟨leBytes 32 t, leBytes_length _ _⟩]
  have e : leNat (leBytes 32 t) % 2 ^ 255 = t := by
    rw [leNat_leBytes, Nat.mod_eq_of_lt (a := t), Nat.mod_eq_of_lt]
    · exact lt_trans ht (by decide)
    · exact lt_trans ht (by decide)
  rw [show leNat (⟨leBytes 32 t, leBytes_length _ _⟩ : BytesN 32).1 % 2 ^ 255 = t from e]

theorem ncard_small : {t : ℕ | t < 19 ∧ Valid (t : F)}.ncard = 12 := by
  have e : {t : ℕ | t < 19 ∧ Valid (t : F)} = ↑(smallValid.toFinset) := by
    ext t
    simp only [Set.mem_ofPred_eq, List.coe_toFinset]
    constructor
    · rintro ⟨h1, h2⟩
      exact (small_valid t h1).1 h2
    · intro h
      have h1 : t < 19 := by
        revert h; unfold smallValid; simp only [List.mem_cons, List.not_mem_nil, or_false]; omega
      exact ⟨h1, (small_valid t h1).2 h⟩
  rw [e, Set.ncard_coe_finset]
  rfl

/-- How many byte strings stand for a point. -/
theorem card_accepted : Nat.card {b : BytesN 32 // ∃ x y, StandsFor b.1 x y} = 8 * ed25519Order + 26 := by
  have h1 : Nat.card {b : BytesN 32 // ∃ x y, StandsFor b.1 x y} =
      Nat.card {b : BytesN 32 // Valid ((leNat b.1 % 2 ^ 255 : ℕ) : F)} :=
    Nat.card_congr (Equiv.subtypeEquivRight fun b => stands_valid b)
  have h2 := ncard_bytes fun n => Valid ((n % 2 ^ 255 : ℕ) : F)
  have h3 : (256 : ℕ) ^ 32 = 2 * 2 ^ 255 := by decide
  have h4 := ncard_sign (2 ^ 255) (by decide) fun t => Valid (t : F)
  have h5 := ncard_wrap (N := 2 ^ 255) (k := 19) (by decide +kernel) fun y => Valid y
  rw [h1, h2, h3, h4, h5, ncard_small, mul_add, ncard_valid]

end Pasta.Curve.E25519
