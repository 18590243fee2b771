import Mathlib.Data.Fintype.CardEmbedding
import Mathlib.Data.Nat.Choose.Cast
import Mathlib.Tactic.Linarith
import Mathlib.Tactic.Ring
import Mathlib.Tactic.Positivity
import Verif.Spec.Birthday
import Verif.Lemmas.Local
import Verif.Lemmas.Wrap
import Verif.Props.Pie
import Verif.Props.Samples

/-! # C75: with random bytes, nonces hardly ever repeat -/

namespace Pasta.C75

variable {P : Prims}

theorem run_nonce {d : Drawing P} {rng rng' : Rng} {text n : Bytes}
    (h : d.run rng = .ok ((text, n), rng')) : rng = n ++ rng' ∧ n.length = 32 := by
  cases d with
  | token v M F E iP iM iF b key implicit =>
    unfold Drawing.run at h
    obtain ⟨⟨tok, r⟩, h1, h2⟩ := Res.bind_eq_ok.1 h
    obtain ⟨⟨rfl, rfl⟩, rfl⟩ : (tok.display = text ∧ tok.payload.take 32 = n) ∧ r = rng' := by
      simpa only [Res.ok.injEq, Prod.mk.injEq] using (show Res.ok _ = Res.ok _ from h2)
    obtain ⟨n, m, f, hn, rfl, hm, hf, rfl⟩ := (encrypt_ok_iff _ _ _ _ _ _).1 h1
    have e : ∀ x y : Bytes, (n ++ x ++ y).take 32 = n := by intro x y; simp [← hn]
    simp only
    rw [e]
    exact ⟨rfl, hn⟩
  | pie v k hidden wk =>
    unfold Drawing.run at h
    obtain ⟨⟨w, r⟩, h1, h2⟩ := Res.bind_eq_ok.1 h
    obtain ⟨text', -, h3⟩ := Res.bind_eq_ok.1 h2
    obtain ⟨⟨rfl, rfl⟩, rfl⟩ : (text' = text ∧ w.nonce.1 = n) ∧ r = rng' := by
      simpa only [Res.ok.injEq, Prod.mk.injEq] using (show Res.ok _ = Res.ok _ from h3)
    exact ⟨((Key.wrapPie_ok_iff hidden wk rng r w).1 h1).1, w.nonce.2⟩

theorem session_nonces {ask : List Bytes → Option (Drawing P)} (n : Nat) :
    ∀ {rng : Rng} {log outs : List (Bytes × Bytes)}, session ask n rng log = .ok outs →
    ∃ new rest, outs = log ++ new ∧ new.length ≤ n ∧ rng = (new.map Prod.snd).flatten ++ rest ∧
      ∀ x ∈ new, x.2.length = 32 := by
  induction n with
  | zero =>
    intro rng log outs h
    simp only [session, Res.ok.injEq] at h
    exact ⟨[], rng, by simp [h], by simp, by simp, by simp⟩
  | succ n ih =>
    intro rng log outs h
    unfold session at h
    cases hask : ask (log.map Prod.fst) with
    | none =>
      rw [hask] at h
      simp only [Res.ok.injEq] at h
      exact ⟨[], rng, by simp [h], by simp, by simp, by simp⟩
    | some d =>
      rw [hask] at h
      obtain ⟨⟨⟨text, nonce⟩, rng'⟩, h1, h2⟩ := Res.bind_eq_ok.1 h
      obtain ⟨hr, hn⟩ := run_nonce h1
      obtain ⟨new, rest, h3, h4, h5, h6⟩ := ih h2
      refine ⟨(text, nonce) :: new, rest, ?_, ?_, ?_, ?_⟩
      · rw [h3, List.append_assoc]; rfl
      · simp only [List.length_cons]; omega
      · rw [hr, h5, List.map_cons, List.flatten_cons, List.append_assoc]
      · intro x hx
        rcases List.mem_cons.1 hx with rfl | hx
        · exact hn
        · exact h6 x hx

theorem blocks_prefix : ∀ (cs bs : List Bytes) (rest : Bytes), (∀ x ∈ cs, x.length = 32) →
    (∀ x ∈ bs, x.length = 32) → bs.flatten = cs.flatten ++ rest → cs = bs.take cs.length := by
  intro cs
  induction cs with
  | nil => intro bs rest _ _ _; rfl
  | cons c cs ih =>
    intro bs rest hc hb h
    cases bs with
    | nil =>
      have := congrArg List.length h
      have := hc c List.mem_cons_self
      simp only [List.flatten_nil, List.flatten_cons, List.length_append, List.length_nil] at *
      omega
    | cons b bs =>
      rw [List.flatten_cons, List.flatten_cons, List.append_assoc] at h
      obtain ⟨h1, h2⟩ := List.append_inj h
        ((hb b List.mem_cons_self).trans (hc c List.mem_cons_self).symm)
      rw [List.length_cons, List.take_succ_cons, ← h1,
        ← ih bs rest (fun x hx => hc x (List.mem_cons_of_mem _ hx))
          (fun x hx => hb x (List.mem_cons_of_mem _ hx)) h2]

/-- The nonces of a session are the first blocks of the random source, in order. -/
theorem nonces_are_blocks {n : Nat} (ask : List Bytes → Option (Drawing P)) (t : Blocks n)
    (outs : List (Bytes × Bytes)) (h : session ask n t.tape [] = .ok outs) :
    outs.map Prod.snd = ((List.ofFn t).map Subtype.val).take outs.length := by
  obtain ⟨new, rest, h1, h2, h3, h4⟩ := session_nonces n h
  rw [List.nil_append] at h1
  subst h1
  have := blocks_prefix (outs.map Prod.snd) ((List.ofFn t).map Subtype.val) rest ?_ ?_ h3
  · rwa [List.length_map] at this
  · intro x hx
    obtain ⟨y, hy, rfl⟩ := List.mem_map.1 hx
    exact h4 y hy
  · intro x hx
    obtain ⟨y, _, rfl⟩ := List.mem_map.1 hx
    exact y.2

theorem nodup_blocks {n : Nat} (t : Blocks n) :
    ((List.ofFn t).map Subtype.val).Nodup ↔ Function.Injective t := by
  rw [List.nodup_map_iff Subtype.val_injective, List.nodup_ofFn]

theorem card_bytes (n : Nat) : Fintype.card (BytesN n) = 256 ^ n := by
  have h : Fintype.card UInt8 = 256 := (Fintype.card_congr byteEquiv).symm.trans (Fintype.card_fin 256)
  exact (card_vector n).trans (by rw [h])

/-- All sequences of `n` blocks: `2 ^ 256` for each block. -/
theorem card_blocks (n : Nat) : Fintype.card (Blocks n) = (2 ^ 256) ^ n := by
  rw [Fintype.card_fun, card_bytes, Fintype.card_fin]
  norm_num

theorem card_injective (n : Nat) [DecidablePred fun t : Blocks n => Function.Injective t] :
    (Finset.univ.filter fun t : Blocks n => Function.Injective t).card =
      (2 ^ 256).descFactorial n := by
  classical
  rw [← Fintype.card_subtype, Fintype.card_congr (Equiv.subtypeInjectiveEquivEmbedding (Fin n) (BytesN 32)),
    Fintype.card_embedding_eq, card_bytes, Fintype.card_fin]
  norm_num

theorem descFactorial_bound (N n : Nat) :
    N * N ^ n ≤ N * N.descFactorial n + n.choose 2 * N ^ n := by
  induction n with
  | zero => simp
  | succ n ih =>
    have h1 : N * N.descFactorial n ≤ (N - n) * N.descFactorial n + n * N ^ n := by
      have h2 : N.descFactorial n ≤ N ^ n := Nat.descFactorial_le_pow N n
      have h3 : N ≤ (N - n) + n := by omega
      calc N * N.descFactorial n ≤ ((N - n) + n) * N.descFactorial n := Nat.mul_le_mul_right _ h3
        _ = (N - n) * N.descFactorial n + n * N.descFactorial n := by ring
        _ ≤ _ := by gcongr
    have h4 : (n + 1).choose 2 = n.choose 2 + n := by
      rw [Nat.choose_succ_succ' n 1, Nat.choose_one_right]; ring
    rw [Nat.descFactorial_succ, h4, pow_succ]
    calc N * (N ^ n * N) = N * (N * N ^ n) := by ring
      _ ≤ N * (N * N.descFactorial n + n.choose 2 * N ^ n) := Nat.mul_le_mul_left _ ih
      _ ≤ N * ((N - n) * N.descFactorial n + n * N ^ n + n.choose 2 * N ^ n) := by gcongr
      _ = _ := by ring

open Classical in
/-- The share of the random sources on which a session repeats a nonce is at most
`n (n - 1) / 2 ^ 257`, however the requests are chosen. -/
theorem repeats (n : Nat) (ask : List Bytes → Option (Drawing P)) :
    ((Finset.univ.filter fun t : Blocks n => ∃ outs, session ask n t.tape [] = .ok outs ∧
        ¬ (outs.map Prod.snd).Nodup).card : ℚ) / Fintype.card (Blocks n) ≤
      n * (n - 1) / 2 ^ 257 := by
  have hsub : (Finset.univ.filter fun t : Blocks n => ∃ outs, session ask n t.tape [] = .ok outs ∧
      ¬ (outs.map Prod.snd).Nodup) ⊆ Finset.univ.filter fun t : Blocks n => ¬ Function.Injective t := by
    intro t ht
    obtain ⟨outs, h1, h2⟩ := (Finset.mem_filter.1 ht).2
    refine Finset.mem_filter.2 ⟨Finset.mem_univ _, fun hi => h2 ?_⟩
    rw [nonces_are_blocks ask t outs h1]
    exact ((nodup_blocks t).2 hi).sublist (List.take_sublist _ _)
  have hcard := Finset.card_filter_add_card_filter_not (s := (Finset.univ : Finset (Blocks n)))
    (fun t => Function.Injective t)
  rw [card_injective, Finset.card_univ, card_blocks] at hcard
  have hb := descFactorial_bound (2 ^ 256) n
  have hle := Finset.card_le_card hsub
  generalize (Finset.univ.filter fun t : Blocks n => ∃ outs, session ask n t.tape [] = .ok outs ∧
      ¬ (outs.map Prod.snd).Nodup).card = bad at hle ⊢
  generalize (Finset.univ.filter fun t : Blocks n => ¬ Function.Injective t).card = rep at hle hcard
  have h1 : 2 ^ 256 * bad ≤ n.choose 2 * (2 ^ 256) ^ n := by
    have : 2 ^ 256 * rep ≤ n.choose 2 * (2 ^ 256) ^ n := by
      rw [← hcard, Nat.mul_add, hcard] at hb
      exact Nat.le_of_add_le_add_left hb
    exact (Nat.mul_le_mul_left _ hle).trans this
  rw [card_blocks]
  have hN : (2 : ℚ) ^ 257 = 2 * ((2 ^ 256 : Nat) : ℚ) := by
    rw [pow_succ, mul_comm, Nat.cast_pow, Nat.cast_ofNat]
  have hpos : 0 < 2 ^ 256 := by norm_num
  rw [hN]
  generalize 2 ^ 256 = N at h1 hpos ⊢
  have hpos : (0 : ℚ) < N := Nat.cast_pos.2 hpos
  have h3 : ((n.choose 2 : Nat) : ℚ) = n * (n - 1) / 2 := Nat.cast_choose_two ℚ n
  have h2 : ((N * bad : Nat) : ℚ) ≤ ((n.choose 2 * N ^ n : Nat) : ℚ) := Nat.cast_le.2 h1
  push_cast at h2 ⊢
  rw [h3] at h2
  rw [div_le_div_iff₀ (by positivity) (by positivity)]
  linarith

/-- After `2 ^ 64` operations the share is still below `2 ^ -129`. -/
theorem repeats_practical (n : Nat) (hn : n ≤ 2 ^ 64) (ask : List Bytes → Option (Drawing P)) :
    open Classical in
    ((Finset.univ.filter fun t : Blocks n => ∃ outs, session ask n t.tape [] = .ok outs ∧
        ¬ (outs.map Prod.snd).Nodup).card : ℚ) / Fintype.card (Blocks n) ≤ 1 / 2 ^ 129 := by
  classical
  refine (repeats n ask).trans ?_
  have h1 : (n : ℚ) ≤ 2 ^ 64 := by exact_mod_cast hn
  have h0 : (0 : ℚ) ≤ n := Nat.cast_nonneg n
  rw [div_le_div_iff₀ (by positivity) (by positivity)]
  have h2 : (n : ℚ) * (n - 1) ≤ 2 ^ 64 * 2 ^ 64 :=
    calc (n : ℚ) * (n - 1) ≤ n * n := mul_le_mul_of_nonneg_left (by linarith) h0
      _ ≤ 2 ^ 64 * 2 ^ 64 := mul_le_mul h1 h1 h0 (by positivity)
  have h3 : (2 : ℚ) ^ 257 = 2 ^ 64 * 2 ^ 64 * 2 ^ 129 := by rw [← pow_add, ← pow_add]
  rw [h3, one_mul]
  exact mul_le_mul_of_nonneg_right h2 (by positivity)

theorem run_ok {d : Drawing P} (hd : d.Encodable) {rng : Rng} (hr : 32 ≤ rng.length) :
    ∃ out, d.run rng = .ok (out, rng.drop 32) := by
  cases d with
  | token v M F E iP iM iF b key implicit =>
    obtain ⟨⟨m, hm⟩, f, hf⟩ := hd
    have := (encrypt_ok_iff b key implicit rng (rng.drop 32) _).2 ⟨rng.take 32, m, f,
      by rw [List.length_take]; omega, (List.take_append_drop 32 rng).symm, hm, hf, rfl⟩
    unfold Drawing.run
    dsimp only
    rw [this]
    exact ⟨_, rfl⟩
  | pie v k hidden wk =>
    rcases C33.wrap_outcome hidden wk rng with ⟨w, hw⟩ | ⟨h, _⟩
    · unfold Drawing.run
      dsimp only
      rw [hw, Res.ok_bind]
      dsimp only
      rw [PieWrappedKey.display_eq]
      exact ⟨_, rfl⟩
    · omega

theorem session_ok {ask : List Bytes → Option (Drawing P)}
    (hask : ∀ texts, ∃ d, ask texts = some d ∧ d.Encodable) (n : Nat) :
    ∀ {rng : Rng} {log : List (Bytes × Bytes)}, 32 * n ≤ rng.length →
      ∃ outs, session ask n rng log = .ok outs ∧ outs.length = log.length + n := by
  induction n with
  | zero => intro rng log _; exact ⟨log, rfl, rfl⟩
  | succ n ih =>
    intro rng log hr
    obtain ⟨d, hd, he⟩ := hask (log.map Prod.fst)
    obtain ⟨out, ho⟩ := run_ok he (rng := rng) (by omega)
    obtain ⟨outs, h1, h2⟩ := ih (rng := rng.drop 32) (log := log ++ [out])
      (by rw [List.length_drop]; omega)
    refine ⟨outs, ?_, ?_⟩
    · unfold session
      rw [hd]
      dsimp only
      rw [ho]
      exact h1
    · rw [h2, List.length_append, List.length_singleton]; omega

theorem tape_length {n : Nat} (t : Blocks n) : t.tape.length = 32 * n := by
  unfold Blocks.tape
  rw [List.length_flatten, List.map_map]
  have : (List.ofFn t).map (List.length ∘ Subtype.val) = List.replicate n 32 := by
    rw [List.eq_replicate_iff]
    refine ⟨by simp, fun b hb => ?_⟩
    obtain ⟨y, _, rfl⟩ := List.mem_map.1 hb
    exact y.2
  rw [this, List.sum_replicate_nat, Nat.mul_comm]

open Classical in
/-- The exact number, when all `n` requests can be served: the nonces are as good as `n` independent
random blocks, and no better. -/
theorem distinct_exactly (n : Nat) (ask : List Bytes → Option (Drawing P))
    (hask : ∀ texts, ∃ d, ask texts = some d ∧ d.Encodable) :
    (Finset.univ.filter fun t : Blocks n => ∃ outs, session ask n t.tape [] = .ok outs ∧
        outs.length = n ∧ (outs.map Prod.snd).Nodup).card = (2 ^ 256).descFactorial n := by
  rw [← card_injective]
  congr 1
  refine Finset.filter_congr fun t _ => ?_
  rw [← nodup_blocks]
  have key : ∀ outs, session ask n t.tape [] = .ok outs → outs.length = n →
      outs.map Prod.snd = (List.ofFn t).map Subtype.val := by
    intro outs h1 h2
    rw [nonces_are_blocks ask t outs h1, h2]
    exact List.take_of_length_le (by simp)
  constructor
  · rintro ⟨outs, h1, h2, h3⟩
    rwa [← key outs h1 h2]
  · intro h
    obtain ⟨outs, h1, h2⟩ := session_ok hask n (rng := t.tape) (log := [])
      (Nat.le_of_eq (tape_length t).symm)
    have h2 : outs.length = n := by simpa using h2
    exact ⟨outs, h1, h2, by rwa [key outs h1 h2]⟩

/-- A strategy that meets the hypothesis: tokens and wraps in turn, and a wrap again whenever the
last text ends in `A`. -/
example (v : Ver) (key : Key P v .Local) : ∃ ask : List Bytes → Option (Drawing P),
    (∀ texts, ∃ d, ask texts = some d ∧ d.Encodable) ∧
    (∃ M F E iP iM iF b i, ask [] = some (.token v M F E iP iM iF b key i)) ∧
    ask [asc "A"] = some (.pie v .Local key key) := by
  refine ⟨fun texts => if texts.length % 2 = 1 ∨ (texts.getLast?.bind List.getLast?) = some 65 then
      some (.pie v .Local key key)
    else some (.token v Bytes Bytes Sample.Raw inferInstance inferInstance inferInstance
      (Sample.builder v .Local Sample.Raw) key (asc "ia")), ?_, ?_, rfl⟩
  · intro texts
    dsimp only
    split
    · exact ⟨_, rfl, trivial⟩
    · exact ⟨_, rfl, ⟨_, rfl⟩, _, rfl⟩
  · exact ⟨_, _, _, _, _, _, _, _, rfl⟩

end Pasta.C75
