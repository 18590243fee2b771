import Mathlib.Tactic.LinearCombination
import Verif.Lemmas.Signing

/-! # Lemmas for C90: the game without the secret key -/

namespace Pasta.Signing

open C82 (count count_eq count_prod count_prod')
open Plug (count_bij count_mono count_or count_fst)
open Real (prims)
open Real.Ed (base)
open Curve Curve.E25519

variable {M : Nat}

/-! ### Made-up signatures are the signatures of made-up nonces -/

/-- The input of the challenge hash for a message and a nonce. -/
def pt (seed : BytesN 32) (m : ShortBytes M) (r : Scalar) : ShortBytes (M + 64) :=
  ⟨challengeInput (code r).1 (publicKey seed).1 m.1, by
    unfold challengeInput
    rw [List.length_append, List.length_append, (code r).2, (publicKey seed).2]
    have := m.2
    omega⟩

/-- The message in an input. -/
def msgOf (x : ShortBytes (M + 64)) : Option (ShortBytes M) :=
  if 64 ≤ x.1.length then some ⟨x.1.drop 64, by have := x.2; rw [List.length_drop]; omega⟩ else none

theorem input_drop (R pk : BytesN 32) (m : Bytes) : (challengeInput R.1 pk.1 m).drop 64 = m :=
  List.drop_left' (by rw [List.length_append, R.2, pk.2])

theorem input_take (R pk : BytesN 32) (m : Bytes) : (challengeInput R.1 pk.1 m).take 32 = R.1 := by
  unfold challengeInput
  rw [List.append_assoc, List.take_left' R.2]

theorem input_length (R pk : BytesN 32) (m : Bytes) : (challengeInput R.1 pk.1 m).length = m.length + 64 := by
  unfold challengeInput
  rw [List.length_append, List.length_append, R.2, pk.2]
  omega

theorem msgOf_pt (seed : BytesN 32) (m : ShortBytes M) (r : Scalar) : msgOf (pt seed m r) = some m := by
  unfold msgOf
  rw [if_pos (by rw [pt, input_length]; omega)]
  exact congrArg some (Subtype.ext (input_drop _ _ _))

theorem first_eq (seed : BytesN 32) (z : MadeUp M) (m : ShortBytes M) :
    z.first (publicKey seed) m = code (Fork.nonces (secretScalar seed) number z.1 z.2 m) :=
  commitment_eq seed _ _

theorem challenges_eq (seed : BytesN 32) (z : MadeUp M) (h : Challenges M) :
    z.challenges (publicKey seed) h =
      Fork.patch (pt seed) msgOf (Fork.nonces (secretScalar seed) number z.1 z.2) z.2 h := by
  funext x
  unfold MadeUp.challenges Fork.patch msgOf
  by_cases hx : 64 ≤ x.1.length
  · rw [if_pos hx, if_pos hx]
    simp only [first_eq]
    by_cases hy : x.1 = challengeInput (code (Fork.nonces (secretScalar seed) number z.1 z.2
        ⟨x.1.drop 64, by have := x.2; rw [List.length_drop]; omega⟩)).1 (publicKey seed).1 (x.1.drop 64)
    · rw [if_pos hy]
      exact (if_pos (Subtype.ext hy)).symm
    · rw [if_neg hy]
      exact (if_neg fun e => hy (congrArg Subtype.val e)).symm
  · rw [if_neg hx, if_neg hx]

theorem onShort_short {α : Type} {f : ShortBytes M → α} {d : Bytes → α} {m : Bytes} (h : m.length ≤ M) :
    onShort f d m = f ⟨m, h⟩ := dif_pos h

theorem chalOf_input (seed : BytesN 32) (h : Challenges M) (m : ShortBytes M) (r : Scalar) :
    chalOf h (challengeInput (code r).1 (publicKey seed).1 m.1) = h (pt seed m r) :=
  onShort_short (pt seed m r).2

theorem sign_madeUp (seed : BytesN 32) (z : MadeUp M) (h : Challenges M) {m : Bytes} (hm : m.length ≤ M) :
    signature seed (onShort (Fork.nonces (secretScalar seed) number z.1 z.2) (ownNonce seed))
      (chalOf (z.challenges (publicKey seed) h)) m = z.sign (publicKey seed) m := by
  rw [signature_eq, onShort_short hm, chalOf_input seed _ ⟨m, hm⟩, challenges_eq,
    Fork.patch_pt (msgOf_pt seed)]
  unfold MadeUp.sign
  rw [onShort_short hm, first_eq]
  unfold Fork.nonces
  rw [sub_add_cancel]

/-! ### The game -/

variable {φ : Forger} {n q : Nat}

theorem game_eq (seed : BytesN 32) (N : Nonces M) (h : Challenges M) : game φ n q seed N h =
    news (Ask.run (gamePrims seed N h) ⟨seed⟩ (chalOf h)) φ.ask n q [] := by
  unfold game
  rw [play_eq, List.nil_append]

theorem simulate_eq (pk : BytesN 32) (z : MadeUp M) (h : Challenges M) : simulate φ n q pk z h =
    news (Ask.run (primsWith (z.sign pk) (chalOf (z.challenges pk h))) ⟨pk⟩ (chalOf (z.challenges pk h)))
      φ.ask n q [] := by
  unfold simulate
  simp only
  rw [play_eq, List.nil_append]

theorem game_log (hM : φ.Short M) (seed : BytesN 32) (N : Nonces M) (h : Challenges M) :
    ∀ e ∈ game φ n q seed N h, e.1.Short M ∧ e.2 = e.1.run (gamePrims seed N h) ⟨seed⟩ (chalOf h) := by
  intro e he
  rw [game_eq] at he
  obtain ⟨h1, answers, h2⟩ := news_log _ _ _ _ _ e he
  exact ⟨hM.1 _ _ h2, h1⟩

/-- The forger sees no difference. -/
theorem game_simulate (hM62 : M < 2 ^ 62) (hM : φ.Short M) (seed : BytesN 32) (z : MadeUp M)
    (h : Challenges M) :
    game φ n q seed (Fork.nonces (secretScalar seed) number z.1 z.2) (z.challenges (publicKey seed) h) =
      simulate φ n q (publicKey seed) z h := by
  rw [game_eq, simulate_eq]
  refine news_congr _ _ _ fun e he => ?_
  obtain ⟨-, answers, h2⟩ := news_log _ _ _ _ _ e he
  have hs := hM.1 _ _ h2
  refine run_congr hM62 seed (publicKey seed) e.1 hs (fun m hm => ?_) fun _ _ => rfl
  exact sign_madeUp seed z h (run_signed hM62 e.1 hs hm).1

/-! ### Two ways to win -/

/-- The claim is accepted and its first half is not that of the signer. -/
def Good (seed : BytesN 32) (N : Nonces M) (h : Challenges M) (c : Claim) : Prop :=
  ∃ raw sig, c.signed = some (raw, sig) ∧ sig.length = 64 ∧
    verifies (chalOf h) (publicKey seed).1 raw sig = true ∧
    ∃ hr : raw.length ≤ M, sig.take 32 ≠ (code (N ⟨raw, hr⟩)).1

/-- The claim is about bytes that were not signed and its first half is that of the signer. -/
def Unseen (N : Nonces M) (log : Log) (c : Claim) : Prop :=
  ∃ raw sig, c.signed = some (raw, sig) ∧ (∀ e ∈ log, e.1.raw ≠ some raw) ∧
    ∃ hr : raw.length ≤ M, sig.take 32 = (code (N ⟨raw, hr⟩)).1

theorem wins_cases (hM62 : M < 2 ^ 62) (hM : φ.Short M) {seed : BytesN 32} {N : Nonces M}
    {h : Challenges M} (hw : Wins φ n q seed N h) :
    let log := game φ n q seed N h
    let c := φ.claim (log.map Prod.snd)
    Good seed N h c ∨ Unseen N log c := by
  obtain ⟨raw, sig, h1, h2, h3, h4, h5⟩ := forged_signed hM62 seed seed (hM.2 _)
    (game_log hM seed N h) hw
  by_cases hR : sig.take 32 = (code (N ⟨raw, h2⟩)).1
  · refine .inr ⟨raw, sig, h1, fun e he hr => h5 e he hr ?_, h2, hR⟩
    rw [signature_eq, onShort_short h2]
    exact (sig_unique seed _ raw sig _ h3 h4 hR).symm
  · exact .inl ⟨raw, sig, h1, h3, h4, h2, hR⟩

open Classical in
/-- The short message of a claim, and the nonce of its first half. -/
noncomputable def claimed (c : Claim) : ShortBytes M × Scalar :=
  match c.signed with
  | some (raw, sig) =>
    (if h : raw.length ≤ M then ⟨raw, h⟩ else ⟨[], Nat.zero_le _⟩,
      if h : ∃ r, sig.take 32 = (code r).1 then h.choose else 0)
  | none => (⟨[], Nat.zero_le _⟩, 0)

theorem claimed_eq {c : Claim} {raw sig : Bytes} {r : Scalar} (h1 : c.signed = some (raw, sig))
    (hr : raw.length ≤ M) (h2 : sig.take 32 = (code r).1) : claimed c = (⟨raw, hr⟩, r) := by
  unfold claimed
  rw [h1]
  have he : ∃ r, sig.take 32 = (code r).1 := ⟨r, h2⟩
  simp only [dif_pos hr, dif_pos he]
  refine Prod.ext rfl (code_inj (Subtype.ext ?_))
  exact he.choose_spec.symm.trans h2

/-- A nonce that was not used is not guessed. -/
theorem unseen_slice (hM62 : M < 2 ^ 62) (hM : φ.Short M) (seed : BytesN 32) (h : Challenges M) :
    count (fun N : Nonces M => Unseen N (game φ n q seed N h)
      (φ.claim ((game φ n q seed N h).map Prod.snd))) * Fintype.card Scalar ≤ Fintype.card (Nonces M) := by
  let c : Nonces M → Claim := fun N => φ.claim ((game φ n q seed N h).map Prod.snd)
  let U : Nonces M → Prop := fun N => ∃ raw sig r, (c N).signed = some (raw, sig) ∧
    (∀ e ∈ game φ n q seed N h, e.1.raw ≠ some raw) ∧ raw.length ≤ M ∧ sig.take 32 = (code r).1
  refine le_trans (Nat.mul_le_mul_right _ (count_mono (B := fun N : Nonces M =>
    U N ∧ N (claimed (c N)).1 = (claimed (M := M) (c N)).2) ?_))
    (Fork.count_unseen (fun N => (claimed (c N)).1) (fun N => (claimed (M := M) (c N)).2) U ?_)
  · rintro N ⟨raw, sig, h1, h2, hr, h3⟩
    refine ⟨⟨raw, sig, _, h1, h2, hr, h3⟩, ?_⟩
    show N (claimed (c N)).1 = _
    rw [claimed_eq h1 hr h3]
  · rintro N e ⟨raw, sig, r, h1, h2, hr, h3⟩
    rw [claimed_eq h1 hr h3]
    have hg : game φ n q seed (Function.update N ⟨raw, hr⟩ e) h = game φ n q seed N h := by
      rw [game_eq, game_eq]
      refine news_congr _ _ _ fun en hen => ?_
      obtain ⟨-, answers, ha⟩ := news_log _ _ _ _ _ en hen
      have hs := hM.1 _ _ ha
      refine run_congr hM62 seed seed en.1 hs (fun m hm => ?_) fun _ _ => rfl
      have hm' := (run_signed hM62 en.1 hs hm).1
      rw [signature_eq, signature_eq, onShort_short hm', onShort_short hm', Function.update_of_ne]
      intro e
      refine h2 en (by rw [game_eq]; exact hen) ?_
      rw [hm]
      exact congrArg (fun x => some x.1) e
    have hc : c (Function.update N ⟨raw, hr⟩ e) = c N := by
      show φ.claim _ = φ.claim _
      rw [hg]
    show (claimed (c (Function.update N ⟨raw, hr⟩ e))).1 = _ ∧ (claimed (c (Function.update N ⟨raw, hr⟩ e))).2 = _
    rw [hc, claimed_eq h1 hr h3]
    exact ⟨rfl, rfl⟩

/-! ### Twice -/

/-- The claim when the forger is served without the key. -/
def claimOf (φ : Forger) (n q : Nat) (pk : BytesN 32) (z : MadeUp M) (h : Challenges M) : Claim :=
  φ.claim ((simulate φ n q pk z h).map Prod.snd)

def trace (φ : Forger) (n q : Nat) (pk : BytesN 32) (z : MadeUp M) (h : Challenges M) :
    List (ShortBytes (M + 64)) := points pk (simulate φ n q pk z h) (claimOf φ n q pk z h)

def aim (φ : Forger) (n q : Nat) (pk : BytesN 32) (z : MadeUp M) (h : Challenges M) :
    ShortBytes (M + 64) := (claimOf φ n q pk z h).point pk

theorem aim_mem (pk : BytesN 32) (z : MadeUp M) (h : Challenges M) :
    aim φ n q pk z h ∈ trace φ n q pk z h := by
  unfold trace
  rw [points_eq]
  exact List.mem_append_right _ List.mem_cons_self

theorem trace_length (pk : BytesN 32) (z : MadeUp M) (h : Challenges M) :
    (trace φ n q pk z h).length ≤ q + 1 := by
  unfold trace
  rw [points_eq, List.length_append, simulate_eq]
  exact Nat.succ_le_succ (news_length _ _ _ _ _)

theorem trace_adaptive (hM62 : M < 2 ^ 62) (hM : φ.Short M) (pk : BytesN 32) :
    Fork.Adaptive (trace (M := M) φ n q pk) := by
  intro z h h' j hj
  have chal : ∀ y : ShortBytes (M + 64), h' y = h y →
      chalOf (z.challenges pk h') y.1 = chalOf (z.challenges pk h) y.1 := by
    intro y e
    unfold chalOf
    rw [onShort_short y.2, onShort_short y.2]
    unfold MadeUp.challenges
    simp only [e]
  have key := news_adaptive (M := M)
    (run := Ask.run (primsWith (z.sign pk) (chalOf (z.challenges pk h))) ⟨pk⟩ (chalOf (z.challenges pk h)))
    (run' := Ask.run (primsWith (z.sign pk) (chalOf (z.challenges pk h'))) ⟨pk⟩
      (chalOf (z.challenges pk h'))) (ask := φ.ask)
    (fun log => (φ.claim (log.map Prod.snd)).point pk) (fun y => h' y = h y)
    (fun answers a ha hp => run_congr hM62 pk pk a (hM.1 _ _ ha) (fun _ _ => rfl) fun x hx => by
      unfold Ask.place at hp
      rw [hx] at hp
      simp only at hp
      split at hp
      · cases hp
      · rename_i hl
        unfold chalOf onShort
        rw [dif_neg hl, dif_neg hl])
    (fun a y hp hy => by
      cases a with
      | sign => cases hp
      | hash x =>
        have := place_input hp
        cases this
        show Answer.hash _ = Answer.hash _
        rw [chal y hy]) n q [] j
  simp only [List.nil_append] at key
  unfold trace claimOf at hj ⊢
  rw [points_eq, simulate_eq] at hj
  rw [points_eq, points_eq, simulate_eq, simulate_eq]
  exact key hj

/-- What a good claim says. -/
theorem good_point {seed : BytesN 32} {z : MadeUp M} {h : Challenges M} {c : Claim}
    (hg : Good seed (Fork.nonces (secretScalar seed) number z.1 z.2) (z.challenges (publicKey seed) h) c) :
    z.challenges (publicKey seed) h (c.point (publicKey seed)) = h (c.point (publicKey seed)) ∧
      (code (c.second - number (h (c.point (publicKey seed))) * secretScalar seed)).1 =
        (c.point (publicKey seed) : ShortBytes (M + 64)).1.take 32 := by
  obtain ⟨raw, sig, h1, h2, h3, hr, h4⟩ := hg
  have hR : (sig.take 32).length = 32 := by rw [List.length_take, h2]; rfl
  let R : BytesN 32 := ⟨sig.take 32, hR⟩
  have hl : (challengeInput (sig.take 32) (publicKey seed).1 raw).length ≤ M + 64 := by
    have := input_length R (publicKey seed) raw
    change (challengeInput (sig.take 32) (publicKey seed).1 raw).length = _ at this
    omega
  have hp : c.point (publicKey seed) =
      (⟨challengeInput (sig.take 32) (publicKey seed).1 raw, hl⟩ : ShortBytes (M + 64)) := by
    unfold Claim.point
    rw [h1]
    exact dif_pos hl
  have hs : c.second = ((leNat (sig.drop 32) : ℕ) : Scalar) := by
    unfold Claim.second
    rw [h1]
  have e : z.challenges (publicKey seed) h (c.point (publicKey seed)) = h (c.point (publicKey seed)) := by
    rw [hp]
    unfold MadeUp.challenges
    have hd : (challengeInput (sig.take 32) (publicKey seed).1 raw).drop 64 = raw :=
      input_drop R (publicKey seed) raw
    have hlen : 64 ≤ (challengeInput (sig.take 32) (publicKey seed).1 raw).length := by
      rw [show (challengeInput (sig.take 32) (publicKey seed).1 raw).length = raw.length + 64 from
        input_length R (publicKey seed) raw]
      omega
    rw [if_pos hlen]
    simp only [hd]
    refine if_neg fun e => h4 ?_
    rw [first_eq] at e
    exact (input_take R _ raw).symm.trans ((congrArg (List.take 32) e).trans (input_take _ _ _))
  refine ⟨e, ?_⟩
  have hv := ((verifies_iff seed _ raw sig).1 h3).2
  have hch : chalOf (z.challenges (publicKey seed) h)
      (challengeInput (sig.take 32) (publicKey seed).1 raw) =
      z.challenges (publicKey seed) h (c.point (publicKey seed)) := by
    rw [hp]
    exact onShort_short hl
  rw [hch, e, ← hs] at hv
  rw [hv, hp]
  exact (input_take R _ raw).symm

theorem solve_eq {a s k s' k' : Scalar} (h : s - k * a = s' - k' * a) (hk : k' ≠ k) :
    solve s k s' k' = a := by
  unfold solve
  have hk : k - k' ≠ 0 := sub_ne_zero.2 (Ne.symm hk)
  have e : s - s' = a * (k - k') := by linear_combination h
  rw [e, mul_inv_cancel_right₀ hk]

/-- The second time. -/
def anew (φ : Forger) (n q : Nat) (pk : BytesN 32) (z : MadeUp M) (h h' : Challenges M) : Challenges M :=
  Fork.again (trace φ n q pk) (aim φ n q pk) z h h'

theorem extract_solve (pk : BytesN 32) (z : MadeUp M) (h h' : Challenges M) :
    extract φ n q pk z h h' = solve (claimOf φ n q pk z h).second
      (number (z.challenges pk h (aim φ n q pk z h)))
      (claimOf φ n q pk z (anew φ n q pk z h h')).second
      (number (z.challenges pk (anew φ n q pk z h h') (aim φ n q pk z h))) := by
  have e : anew φ n q pk z h h' = rewind (aim φ n q pk z h) (trace φ n q pk z h) h h' := rfl
  rw [e]
  delta extract trace aim claimOf
  with_reducible rfl

/-- Two good claims with one input and two challenges give the secret. -/
theorem extract_eq {seed : BytesN 32} {z : MadeUp M} {h h' : Challenges M}
    (g1 : Good seed (Fork.nonces (secretScalar seed) number z.1 z.2) (z.challenges (publicKey seed) h)
      (claimOf φ n q (publicKey seed) z h))
    (g2 : Good seed (Fork.nonces (secretScalar seed) number z.1 z.2)
      (z.challenges (publicKey seed) (anew φ n q (publicKey seed) z h h'))
      (claimOf φ n q (publicKey seed) z (anew φ n q (publicKey seed) z h h')))
    (hx : aim φ n q (publicKey seed) z (anew φ n q (publicKey seed) z h h') = aim φ n q (publicKey seed) z h)
    (hc : number (anew φ n q (publicKey seed) z h h' (aim φ n q (publicKey seed) z h)) ≠
      number (h (aim φ n q (publicKey seed) z h))) :
    extract φ n q (publicKey seed) z h h' = secretScalar seed := by
  rw [extract_solve]
  generalize anew φ n q (publicKey seed) z h h' = h₂ at *
  obtain ⟨a1, b1⟩ := good_point g1
  obtain ⟨a2, b2⟩ := good_point g2
  unfold aim at hx hc ⊢
  rw [hx] at a2 b2
  rw [a1, a2]
  exact solve_eq (code_inj (Subtype.ext (b1.trans b2.symm))) hc

/-! ### How often a number comes up -/

theorem count_residue {α : Type} [Fintype α] (f : α → ℕ) (hf : Function.Injective f) (K : ℕ)
    (hK : ∀ x, f x < K) (L d : ℕ) : count (fun x => f x % L = d) ≤ K / L + 1 := by
  classical
  unfold count
  rw [← Finset.card_range (K / L + 1)]
  refine Finset.card_le_card_of_injOn (fun x => f x / L) (fun x _ => ?_) ?_
  · exact Finset.mem_coe.2 (Finset.mem_range.2 (Nat.lt_succ_of_le (Nat.div_le_div_right (hK x).le)))
  · intro x hx y hy e
    have hx : f x % L = d := by simpa using hx
    have hy : f y % L = d := by simpa using hy
    apply hf
    rw [← Nat.div_add_mod (f x) L, ← Nat.div_add_mod (f y) L, hx, hy]
    simp only at e
    rw [e]

theorem leNat_injective (k : ℕ) : Function.Injective fun b : BytesN k => leNat b.1 := by
  intro a b e
  apply Subtype.ext
  have h1 := leBytes_leNat a.1
  have h2 := leBytes_leNat b.1
  rw [a.2] at h1
  rw [b.2] at h2
  simp only at e
  rw [← h1, ← h2, e]

theorem count_number (d : Scalar) :
    count (fun b : BytesN 64 => number b = d) ≤ 256 ^ 64 / ed25519Order + 1 := by
  refine le_trans (count_mono (B := fun b : BytesN 64 => leNat b.1 % ed25519Order = d.val) ?_)
    (count_residue _ (leNat_injective 64) _ (fun b => ?_) _ _)
  · intro b hb
    rw [← hb]
    exact (ZMod.val_natCast _ _).symm
  · have := leNat_lt b.1
    rwa [b.2] at this

/-! ### The actual hash -/

theorem verifies_own (pk m sig : Bytes) : verifies Real.sha512 pk m sig = Real.Ed.verify pk m sig := by
  unfold verifies Real.Ed.verify Real.Ed.verifyWith challengeInput
  congr 1
  funext A
  simp only
  generalize ((base.smul (leNat (List.drop 32 sig))).add (A.neg.smul (leNat (Real.sha512 (List.take 32 sig ++ pk ++ m)).1 % ed25519Order))).encode.1 = x
  split
  · rename_i h
    rw [decide_eq_false (Nat.not_lt.2 h), Bool.false_and]
  · rename_i h
    rw [decide_eq_true (Nat.not_le.1 h), Bool.true_and]

theorem expand_scalar (seed : BytesN 32) : secretScalar seed = (((Real.Ed.expand seed).1 : ℕ) : Scalar) := by
  unfold secretScalar
  rw [expand_eq]
  rfl

theorem sign_own (seed : BytesN 32) (m : Bytes) :
    signature seed (ownNonce seed) Real.sha512 m = Real.Ed.sign seed m := by
  unfold Real.Ed.sign Real.Ed.signWith signature join challengeInput publicKey
  rw [expand_scalar]
  have hv : (ownNonce seed m).val = leNat (Real.sha512 ((Real.Ed.expand seed).2 ++ m)).1 % ed25519Order :=
    ZMod.val_natCast _ _
  simp only [hv]
  generalize (base.smul (leNat (Real.sha512 ((Real.Ed.expand seed).2 ++ m)).1 % ed25519Order)).encode = R
  have hs : ownNonce seed m + number (Real.sha512 (R.1 ++ (Real.Ed.publicBytes seed).1 ++ m)) *
      (((Real.Ed.expand seed).1 : ℕ) : Scalar) = ((leNat (Real.sha512 ((Real.Ed.expand seed).2 ++ m)).1 % ed25519Order +
        leNat (Real.sha512 (R.1 ++ (Real.Ed.publicBytes seed).1 ++ m)).1 % ed25519Order * (Real.Ed.expand seed).1 : ℕ) : Scalar) := by
    rw [Nat.cast_add, Nat.cast_mul, ZMod.natCast_mod, ZMod.natCast_mod]
    rfl
  rw [hs, ZMod.val_natCast]

theorem verifies_join (seed : BytesN 32) (chal : Bytes → BytesN 64) (m : Bytes) (r : Scalar) :
    verifies chal (publicKey seed).1 m (join (code r) (r +
      number (chal (challengeInput (code r).1 (publicKey seed).1 m)) * secretScalar seed)).1 = true := by
  rw [verifies_iff, join_take]
  generalize number (chal (challengeInput (code r).1 (publicKey seed).1 m)) * secretScalar seed = k
  have hd : leNat ((join (code r) (r + k)).1.drop 32) = (r + k).val := by
    rw [join_val, List.drop_left' (code r).2, leNat_leBytes, Nat.mod_eq_of_lt]
    exact (ZMod.val_lt _).trans order_lt
  rw [hd, ZMod.natCast_zmod_val, add_sub_cancel_right]
  exact ⟨ZMod.val_lt _, rfl⟩

end Pasta.Signing
