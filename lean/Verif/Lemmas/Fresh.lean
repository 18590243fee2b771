import Mathlib.Algebra.Order.BigOperators.Group.Finset
import Mathlib.Algebra.BigOperators.Field
import Mathlib.Tactic.Linarith
import Mathlib.Tactic.Ring
import Mathlib.Tactic.Positivity
import Mathlib.Tactic.FieldSimp
import Verif.Spec.Fresh
import Verif.Lemmas.Rng
import Verif.Props.Birthday

/-! # Drawing from a random source (C92) -/

namespace Pasta.Fresh

open Classical

variable {Q : Type*}

theorem size_pos (L : Nat) : (0 : ℚ) < Fintype.card (BytesN L) := by
  rw [C75.card_bytes]; exact_mod_cast Nat.pow_pos (by norm_num)

theorem chance_nonneg (N : Nat) (p : Rng → Prop) : 0 ≤ chance N p := by
  unfold chance; positivity

theorem chance_le_one (N : Nat) (p : Rng → Prop) : chance N p ≤ 1 := by
  unfold chance
  rw [div_le_one (size_pos N)]
  exact_mod_cast Finset.card_le_univ _

theorem chance_mono (N : Nat) {p q : Rng → Prop} (h : ∀ t, t.length = N → p t → q t) :
    chance N p ≤ chance N q := by
  unfold chance
  gcongr with t
  exact h t.1 t.2

theorem chance_zero (N : Nat) {p : Rng → Prop} (h : ∀ t, t.length = N → ¬ p t) : chance N p = 0 := by
  unfold chance
  rw [Finset.filter_false_of_mem (fun t _ => h t.1 t.2)]
  simp

/-- Cutting a random source in two. -/
def cut (L N : Nat) : BytesN L × BytesN N ≃ BytesN (L + N) where
  toFun x := ⟨x.1.1 ++ x.2.1, by rw [List.length_append, x.1.2, x.2.2]⟩
  invFun t := (⟨t.1.take L, by rw [List.length_take, t.2]; omega⟩,
    ⟨t.1.drop L, by rw [List.length_drop, t.2]; omega⟩)
  left_inv x := by
    refine Prod.ext (Subtype.ext ?_) (Subtype.ext ?_)
    · show (x.1.1 ++ x.2.1).take L = x.1.1
      rw [List.take_append_of_le_length (by rw [x.1.2]), List.take_of_length_le (by rw [x.1.2])]
    · show (x.1.1 ++ x.2.1).drop L = x.2.1
      rw [List.drop_append_of_le_length (by rw [x.1.2]), List.drop_of_length_le (by rw [x.1.2])]; rfl
  right_inv t := Subtype.ext (List.take_append_drop L t.1)

theorem chance_cut (L N : Nat) (p : Rng → Prop) :
    chance (L + N) p = (∑ b : BytesN L, chance N fun r => p (b.1 ++ r)) / Fintype.card (BytesN L) := by
  unfold chance
  rw [← Finset.sum_div, div_div, ← Nat.cast_sum]
  congr 1
  · congr 1
    simp only [Finset.card_filter]
    rw [← (cut L N).sum_comp, Fintype.sum_prod_type]
    rfl
  · rw [C75.card_bytes, C75.card_bytes, C75.card_bytes, ← Nat.cast_mul]
    congr 1
    ring

/-- How many blocks give one of the listed values. -/
theorem sum_seen {L : Nat} (g : BytesN L → Bytes) (seen : List Bytes) (c : ℚ)
    (hc : ∀ x, ((Finset.univ.filter fun b => g b = x).card : ℚ) ≤ c * Fintype.card (BytesN L)) :
    (∑ b : BytesN L, if g b ∈ seen then (1 : ℚ) else 0) ≤ seen.length * c * Fintype.card (BytesN L) := by
  induction seen with
  | nil => simp
  | cons x seen ih =>
    calc (∑ b : BytesN L, if g b ∈ x :: seen then (1 : ℚ) else 0)
        ≤ ∑ b : BytesN L, ((if g b = x then (1 : ℚ) else 0) + if g b ∈ seen then (1 : ℚ) else 0) := by
          refine Finset.sum_le_sum fun b _ => ?_
          have h1 : (0 : ℚ) ≤ if g b = x then 1 else 0 := by split <;> norm_num
          have h2 : (0 : ℚ) ≤ if g b ∈ seen then 1 else 0 := by split <;> norm_num
          by_cases h : g b ∈ x :: seen
          · rw [if_pos h]
            rcases List.mem_cons.1 h with h | h
            · rw [if_pos h]; linarith
            · rw [if_pos h]; linarith
          · rw [if_neg h]; linarith
      _ = ((Finset.univ.filter fun b => g b = x).card : ℚ) +
            ∑ b : BytesN L, if g b ∈ seen then (1 : ℚ) else 0 := by
          rw [Finset.sum_add_distrib, Finset.sum_boole]
      _ ≤ c * Fintype.card (BytesN L) + seen.length * c * Fintype.card (BytesN L) :=
          add_le_add (hc x) ih
      _ = _ := by rw [List.length_cons]; push_cast; ring

/-- What a drawing operation has to satisfy: with what comes after it having at most the chance `β`,
the chance that it repeats one of the values seen, or that this happens, is at most `c` for each of
these values, and `β`. -/
def Spread (c : ℚ) (s : Rng → Res ((Bytes × Bytes) × Rng)) : Prop :=
  ∀ (N : Nat) (seen : List Bytes) (after : Bytes × Bytes → Rng → Prop) (β : ℚ), 0 ≤ β →
    (∀ out N, chance N (after out) ≤ β) →
    chance N (fun t => ∃ out r, s t = .ok (out, r) ∧ (out.2 ∈ seen ∨ after out r)) ≤ seen.length * c + β

/-- An operation that draws one block. -/
theorem spread_block (L : Nat) (c : ℚ) (hc0 : 0 ≤ c) (s : Rng → Res ((Bytes × Bytes) × Rng))
    (g : BytesN L → Bytes × Bytes)
    (hs : ∀ t out r, s t = .ok (out, r) → ∃ b : BytesN L, t = b.1 ++ r ∧ out = g b)
    (hc : ∀ x, ((Finset.univ.filter fun b => (g b).2 = x).card : ℚ) ≤ c * Fintype.card (BytesN L)) :
    Spread c s := by
  intro N seen after β hβ hafter
  have h0 : (0 : ℚ) ≤ seen.length * c + β := by positivity
  by_cases hN : L ≤ N
  · obtain ⟨N, rfl⟩ := Nat.exists_eq_add_of_le hN
    rw [chance_cut, div_le_iff₀ (size_pos L)]
    calc _ ≤ ∑ b : BytesN L, ((if (g b).2 ∈ seen then (1 : ℚ) else 0) + β) := by
          refine Finset.sum_le_sum fun b _ => ?_
          have key : ∀ r out r', s (b.1 ++ r) = .ok (out, r') → out = g b ∧ r' = r := by
            intro r out r' h
            obtain ⟨b', h1, h2⟩ := hs _ _ _ h
            obtain ⟨h3, h4⟩ := List.append_inj h1 (by rw [b.2, b'.2])
            exact ⟨by rw [h2, Subtype.ext h3], h4.symm⟩
          by_cases hb : (g b).2 ∈ seen
          · rw [if_pos hb]
            exact (chance_le_one _ _).trans (by linarith)
          · rw [if_neg hb, zero_add]
            refine (chance_mono N (q := after (g b)) ?_).trans (hafter (g b) N)
            rintro r - ⟨out, r', h1, h2⟩
            obtain ⟨rfl, rfl⟩ := key _ _ _ h1
            exact h2.resolve_left hb
      _ = (∑ b : BytesN L, if (g b).2 ∈ seen then (1 : ℚ) else 0) + Fintype.card (BytesN L) * β := by
          rw [Finset.sum_add_distrib, Finset.sum_const, Finset.card_univ, nsmul_eq_mul]
      _ ≤ seen.length * c * Fintype.card (BytesN L) + Fintype.card (BytesN L) * β := by
          have := sum_seen (fun b => (g b).2) seen c hc
          linarith
      _ = _ := by ring
  · rw [chance_zero N]
    · exact h0
    · rintro t ht ⟨out, r, h, -⟩
      obtain ⟨b, h1, -⟩ := hs _ _ _ h
      have := congrArg List.length h1
      rw [List.length_append, b.2] at this
      omega

/-- An operation that draws blocks until one is `good`. -/
theorem spread_good (L : Nat) (hL : 0 < L) (good : BytesN L → Prop)
    [DecidablePred good] (R : Rng → Res (BytesN L × Rng))
    (hgood : ∀ (b : BytesN L) r, good b → R (b.1 ++ r) = .ok (b, r))
    (hbad : ∀ (b : BytesN L) r, ¬ good b → R (b.1 ++ r) = R r)
    (hshort : ∀ t x, t.length < L → R t ≠ .ok x)
    (c : ℚ) (s : Rng → Res ((Bytes × Bytes) × Rng)) (g : BytesN L → Bytes × Bytes)
    (hs : ∀ t out r, s t = .ok (out, r) → ∃ b, good b ∧ R t = .ok (b, r) ∧ out = g b)
    (hg : ∀ b b', good b → good b' → (g b).2 = (g b').2 → b = b')
    (hc : 1 ≤ c * ((Finset.univ.filter good).card : ℚ)) : Spread c s := by
  intro N seen after β hβ hafter
  generalize hV : ((Finset.univ.filter good).card : ℚ) = V at hc
  have hV0 : 0 ≤ V := by rw [← hV]; exact Nat.cast_nonneg _
  have hc0 : 0 ≤ c := by
    by_contra h
    have : c * V ≤ 0 := mul_nonpos_of_nonpos_of_nonneg (by linarith) hV0
    linarith
  have h0 : (0 : ℚ) ≤ seen.length * c + β := by positivity
  have hhit : (∑ b : BytesN L, if good b ∧ (g b).2 ∈ seen then (1 : ℚ) else 0) ≤ seen.length := by
    rw [Finset.sum_boole]
    have h2 : (Finset.univ.filter fun b : BytesN L => good b ∧ (g b).2 ∈ seen).card ≤
        seen.toFinset.card := by
      refine Finset.card_le_card_of_injOn (fun b => (g b).2) ?_ ?_
      · intro b hb
        have hb := (Finset.mem_filter.1 hb).2.2
        simpa using hb
      · intro b hb b' hb' e
        exact hg b b' (Finset.mem_filter.1 hb).2.1 (Finset.mem_filter.1 hb').2.1 e
    exact_mod_cast h2.trans (List.toFinset_card_le _)
  have hmiss : (∑ b : BytesN L, if good b then (0 : ℚ) else seen.length * c) =
      (Fintype.card (BytesN L) - V) * (seen.length * c) := by
    generalize (seen.length : ℚ) * c = x
    have : ∀ b : BytesN L, (if good b then (0 : ℚ) else x) = x - (if good b then (1 : ℚ) else 0) * x := by
      intro b; by_cases h : good b <;> simp [h]
    simp only [this]
    rw [Finset.sum_sub_distrib, ← Finset.sum_mul, Finset.sum_boole, Finset.sum_const,
      Finset.card_univ, nsmul_eq_mul, hV]
    ring
  have main : ∀ N, chance N (fun t => ∃ b r, good b ∧ R t = .ok (b, r) ∧
      ((g b).2 ∈ seen ∨ after (g b) r)) ≤ seen.length * c + β := by
    intro N
    induction N using Nat.strong_induction_on with
    | _ N ih =>
    by_cases hN : L ≤ N
    · obtain ⟨N, rfl⟩ := Nat.exists_eq_add_of_le hN
      have hrest := ih N (by omega)
      rw [chance_cut, div_le_iff₀ (size_pos L)]
      calc _ ≤ ∑ b : BytesN L, ((if good b ∧ (g b).2 ∈ seen then (1 : ℚ) else 0) +
              (if good b then (0 : ℚ) else seen.length * c) + β) := by
            refine Finset.sum_le_sum fun b _ => ?_
            by_cases hb : good b
            · rw [if_pos hb]
              by_cases hm : (g b).2 ∈ seen
              · rw [if_pos ⟨hb, hm⟩]
                exact (chance_le_one _ _).trans (by linarith)
              · rw [if_neg (fun h => hm h.2), zero_add, zero_add]
                refine (chance_mono N (q := after (g b)) ?_).trans (hafter _ N)
                rintro r - ⟨e, r', -, h1, h2⟩
                rw [hgood b r hb] at h1
                cases h1
                exact h2.resolve_left hm
            · rw [if_neg hb, if_neg (fun h => hb h.1), zero_add]
              refine (chance_mono N ?_).trans hrest
              rintro r - ⟨e, r', h, h1, h2⟩
              rw [hbad b r hb] at h1
              exact ⟨e, r', h, h1, h2⟩
        _ = (∑ b : BytesN L, if good b ∧ (g b).2 ∈ seen then (1 : ℚ) else 0) +
              (Fintype.card (BytesN L) - V) * (seen.length * c) + Fintype.card (BytesN L) * β := by
            rw [Finset.sum_add_distrib, Finset.sum_add_distrib, hmiss, Finset.sum_const,
              Finset.card_univ, nsmul_eq_mul]
        _ ≤ seen.length * (c * V) + (Fintype.card (BytesN L) - V) * (seen.length * c) +
              Fintype.card (BytesN L) * β := by
            have : (seen.length : ℚ) * 1 ≤ seen.length * (c * V) :=
              mul_le_mul_of_nonneg_left hc (Nat.cast_nonneg _)
            linarith
        _ = _ := by ring
    · rw [chance_zero N]
      · exact h0
      · rintro t ht ⟨e, r, -, h, -⟩
        exact hshort t _ (by omega) h
  refine (chance_mono N ?_).trans (main N)
  rintro t - ⟨out, r, h1, h2⟩
  obtain ⟨b, hb, h3, rfl⟩ := hs _ _ _ h1
  exact ⟨b, r, hb, h3, h2⟩

/-- Adaptive drawing: the sum of the chances. -/
theorem draws_repeat (c : ℚ) (hc0 : 0 ≤ c) (run : Q → Rng → Res ((Bytes × Bytes) × Rng))
    (hrun : ∀ d, Spread c (run d)) (ask : List (Bytes × Bytes) → Option Q) (n : Nat) :
    ∀ (N : Nat) (log : List (Bytes × Bytes)), (log.map Prod.snd).Nodup →
      chance N (fun t => ∃ outs, draws run ask n t log = .ok outs ∧ ¬ (outs.map Prod.snd).Nodup) ≤
        (n * log.length + n * (n - 1) / 2) * c := by
  induction n with
  | zero =>
    intro N log hlog
    rw [chance_zero]
    · simp
    · rintro t - ⟨outs, h, hn⟩
      simp only [draws, Res.ok.injEq] at h
      exact hn (h ▸ hlog)
  | succ n ih =>
    intro N log hlog
    have hn0 : (0 : ℚ) ≤ n * (n - 1) / 2 := by
      rcases n with _ | n
      · simp
      · push_cast; rw [add_sub_cancel_right]; positivity
    cases hask : ask log with
    | none =>
      rw [chance_zero]
      · have : (0 : ℚ) ≤ ((n + 1 : Nat) : ℚ) * (((n + 1 : Nat) : ℚ) - 1) / 2 := by
          push_cast; rw [add_sub_cancel_right]; positivity
        positivity
      · rintro t - ⟨outs, h, hn⟩
        unfold draws at h
        rw [hask] at h
        simp only [Res.ok.injEq] at h
        exact hn (h ▸ hlog)
    | some d =>
      let after (out : Bytes × Bytes) (r : Rng) : Prop := out.2 ∉ log.map Prod.snd ∧
        ∃ outs, draws run ask n r (log ++ [out]) = .ok outs ∧ ¬ (outs.map Prod.snd).Nodup
      have hstep := hrun d N (log.map Prod.snd) after ((n * (log.length + 1) + n * (n - 1) / 2) * c)
        (by positivity) (by
          intro out N
          by_cases hm : out.2 ∈ log.map Prod.snd
          · rw [chance_zero]
            · positivity
            · rintro t - ⟨h, -⟩; exact h hm
          · have h1 : ((log ++ [out]).map Prod.snd).Nodup := by
              rw [List.map_append, List.nodup_append]
              refine ⟨hlog, by simp, ?_⟩
              intro a ha b hb
              simp only [List.map_cons, List.map_nil, List.mem_singleton] at hb
              rintro rfl
              exact hm (hb ▸ ha)
            have := ih N (log ++ [out]) h1
            rw [List.length_append, List.length_singleton] at this
            push_cast at this
            exact (chance_mono N fun t _ h => h.2).trans this)
      refine (chance_mono N ?_).trans (hstep.trans (le_of_eq ?_))
      · rintro t - ⟨outs, h, hn⟩
        unfold draws at h
        rw [hask] at h
        obtain ⟨⟨out, r⟩, h1, h2⟩ := Res.bind_eq_ok.1 h
        refine ⟨out, r, h1, ?_⟩
        by_cases hm : out.2 ∈ log.map Prod.snd
        · exact .inl hm
        · exact .inr ⟨hm, outs, h2, hn⟩
      · rw [List.length_map]
        push_cast
        ring

end Pasta.Fresh
