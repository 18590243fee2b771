import Mathlib.Tactic.Positivity
import Mathlib.Tactic.NormNum
import Verif.Lemmas.SigningSim
import Verif.Props.Samples

/-!
# C90: forging a public token is computing the secret key (version 4)

With random functions for the two hashes of Ed25519.
-/

namespace Pasta.C90

open Signing
open Real (prims)
open Real.Ed (base)
open C82 (count count_eq count_prod count_prod')
open Plug (count_bij count_mono count_or count_fst)

variable {M : Nat} {φ : Forger} {n q : Nat}

/-! ### The bound -/

/-- How often the forger wins: the two ways. -/
theorem wins_le (hM62 : M < 2 ^ 62) (hM : φ.Short M) (seed : BytesN 32) :
    count (fun x : Nonces M × Challenges M => Wins φ n q seed x.1 x.2) * Fintype.card Scalar ≤
      count (fun x : Nonces M × Challenges M => Good seed x.1 x.2
        (φ.claim ((game φ n q seed x.1 x.2).map Prod.snd))) * Fintype.card Scalar +
      Fintype.card (Nonces M × Challenges M) := by
  refine le_trans (Nat.mul_le_mul_right _ (le_trans (count_mono fun x hx => wins_cases hM62 hM hx)
    (count_or _ _))) ?_
  rw [Nat.add_mul]
  refine Nat.add_le_add_left ?_ _
  rw [count_prod', Finset.sum_mul]
  refine le_trans (Finset.sum_le_sum fun h _ => unseen_slice hM62 hM seed h) ?_
  rw [Finset.sum_const, Finset.card_univ, Nat.nsmul_eq_mul, Fintype.card_prod, Nat.mul_comm]

/-- Good claims, counted where signatures are made up. -/
theorem good_eq (hM62 : M < 2 ^ 62) (hM : φ.Short M) (seed : BytesN 32) :
    count (fun y : MadeUp M × Challenges M =>
      Good seed (Fork.nonces (secretScalar seed) number y.1.1 y.1.2) (y.1.challenges (publicKey seed) y.2)
        (claimOf φ n q (publicKey seed) y.1 y.2)) =
      count (fun x : Nonces M × Challenges M => Good seed x.1 x.2
        (φ.claim ((game φ n q seed x.1 x.2).map Prod.snd))) * Fintype.card (ShortBytes M → BytesN 64) := by
  rw [← Fork.count_simulated (secretScalar seed) number (msgOf_pt seed)]
  refine count_bij (g := fun y : MadeUp M × Challenges M => (y.1.1, y.1.2, y.2))
    (Equiv.prodAssoc _ _ _).bijective fun y => ?_
  simp only
  rw [← challenges_eq seed y.1 y.2, game_simulate hM62 hM]
  exact Iff.rfl

theorem twice (hM62 : M < 2 ^ 62) (hM : φ.Short M) (seed : BytesN 32) :
    Fintype.card (Challenges M) * count (fun y : MadeUp M × Challenges M =>
      Good seed (Fork.nonces (secretScalar seed) number y.1.1 y.1.2) (y.1.challenges (publicKey seed) y.2)
        (claimOf φ n q (publicKey seed) y.1 y.2)) ^ 2 * Fintype.card (BytesN 64) ≤
      (q + 1) * Fintype.card (MadeUp M × Challenges M) *
        (count (fun x : MadeUp M × Challenges M × Challenges M =>
            extract φ n q (publicKey seed) x.1 x.2.1 x.2.2 = secretScalar seed) * Fintype.card (BytesN 64) +
          count (fun y : MadeUp M × Challenges M =>
            Good seed (Fork.nonces (secretScalar seed) number y.1.1 y.1.2)
              (y.1.challenges (publicKey seed) y.2) (claimOf φ n q (publicKey seed) y.1 y.2)) *
            ((256 ^ 64 / ed25519Order + 1) * Fintype.card (Challenges M))) := by
  refine le_trans (Fork.forking (trace_adaptive hM62 hM (publicKey seed)) (aim φ n q (publicKey seed))
    (aim_mem (publicKey seed)) (q + 1) (trace_length (publicKey seed)) number _ count_number
    fun z h => Good seed (Fork.nonces (secretScalar seed) number z.1 z.2) (z.challenges (publicKey seed) h)
        (claimOf φ n q (publicKey seed) z h)) ?_
  refine Nat.mul_le_mul_left _ (Nat.add_le_add_right (Nat.mul_le_mul_right _ ?_) _)
  refine le_trans (count_mono (B := fun z : (MadeUp M × Challenges M) × Challenges M =>
    extract φ n q (publicKey seed) z.1.1 z.1.2 z.2 = secretScalar seed) ?_) (le_of_eq ?_)
  · rintro ⟨⟨z, h⟩, h'⟩ ⟨g1, g2, hx, hc⟩
    exact extract_eq g1 g2 hx hc
  · exact count_bij (g := fun y : (MadeUp M × Challenges M) × Challenges M => (y.1.1, y.1.2, y.2))
      (Equiv.prodAssoc _ _ _).bijective fun y => Iff.rfl

/-- Division by the numbers of all cases. -/
theorem fractions {w G E N c K B D L q : ℚ} (hN : 0 < N) (hc : 0 < c) (hK : 0 < K) (hB : 0 < B) (hL : 0 < L)
    (hD : 0 ≤ D) (hq : 0 ≤ q) (hG : G ≤ N * c) (hw : 1 / L ≤ w / (N * c))
    (h1 : w * L ≤ G * L + N * c)
    (h2 : c * (G * K) ^ 2 * B ≤ q * (N * K * c) * (E * B + G * K * (D * c))) :
    (w / (N * c) - 1 / L) ^ 2 ≤ q * (E / (N * K * (c * c)) + D / B) := by
  have e1 : w / (N * c) - 1 / L ≤ G / (N * c) := by
    rw [sub_le_iff_le_add, div_add_div _ _ (by positivity) (by positivity),
      div_le_div_iff₀ (by positivity) (by positivity)]
    have := mul_le_mul_of_nonneg_left h1 (by positivity : 0 ≤ N * c)
    linarith
  have e2 : (w / (N * c) - 1 / L) ^ 2 ≤ (G / (N * c)) ^ 2 :=
    pow_le_pow_left₀ (sub_nonneg.2 hw) e1 2
  have e3 : (G / (N * c)) ^ 2 = c * (G * K) ^ 2 * B / (c * B * (N * K * c) ^ 2) := by
    field_simp
  have e4 : q * (N * K * c) * (E * B + G * K * (D * c)) / (c * B * (N * K * c) ^ 2) =
      q * (E / (N * K * (c * c)) + G / (N * c) * (D / B)) := by
    field_simp
  have e5 : G / (N * c) * (D / B) ≤ D / B := by
    have h0 : 0 ≤ D / B := by positivity
    have : G / (N * c) ≤ 1 := (div_le_one (by positivity)).2 hG
    exact mul_le_of_le_one_left h0 this
  refine le_trans e2 ?_
  rw [e3]
  refine le_trans (div_le_div_of_nonneg_right h2 (by positivity)) ?_
  rw [e4]
  exact mul_le_mul_of_nonneg_left (by linarith) hq

theorem residue_bound : (((256 ^ 64 / ed25519Order + 1 : ℕ) : ℚ)) / ((256 ^ 64 : ℕ) : ℚ) ≤ 1 / 2 ^ 251 := by
  have h : (256 ^ 64 / ed25519Order + 1) * 2 ^ 251 ≤ 256 ^ 64 := by decide
  have h : (((256 ^ 64 / ed25519Order + 1) * 2 ^ 251 : ℕ) : ℚ) ≤ ((256 ^ 64 : ℕ) : ℚ) := Nat.cast_le.2 h
  generalize 256 ^ 64 / ed25519Order + 1 = D at *
  have hp : (0 : ℚ) < ((256 ^ 64 : ℕ) : ℚ) := Nat.cast_pos.2 (Nat.pow_pos (by decide))
  rw [div_le_div_iff₀ hp (by positivity), one_mul]
  rw [Nat.cast_mul, Nat.cast_pow] at h
  exact h

/-- Whoever forges computes the secret scalar from the public key. Take any forger, with any number `n` of
requests, of which at most `q` compute the challenge hash. The chance of the computation `extract`, which
is given nothing but the public key and runs the forger twice, is at least about the square of the chance
of the forger, divided by `q + 1`. -/
theorem forge_bound (φ : Forger) (n q M : Nat) (hM62 : M < 2 ^ 62) (hM : φ.Short M) (seed : BytesN 32)
    (hchance : 1 / (ed25519Order : ℚ) ≤ forgeChance φ n q M seed) :
    (forgeChance φ n q M seed - 1 / (ed25519Order : ℚ)) ^ 2 ≤
      (q + 1) * (extractChance φ n q M seed + 1 / 2 ^ 251) := by
  have h1 := wins_le (n := n) (q := q) hM62 hM seed
  have h2 := twice (n := n) (q := q) hM62 hM seed
  rw [good_eq hM62 hM] at h2
  have hG : count (fun x : Nonces M × Challenges M => Good seed x.1 x.2
      (φ.claim ((game φ n q seed x.1 x.2).map Prod.snd))) ≤ Fintype.card (Nonces M × Challenges M) := by
    classical
    unfold count
    exact Finset.card_le_univ _
  unfold forgeChance at hchance ⊢
  unfold extractChance
  rw [count_eq] at hchance ⊢
  rw [count_eq]
  rw [ZMod.card] at h1
  have nN : 0 < Fintype.card (Nonces M) := Fintype.card_pos
  have nc : 0 < Fintype.card (Challenges M) :=
    Fintype.card_pos_iff.2 ⟨fun _ => ⟨List.replicate 64 0, List.length_replicate⟩⟩
  have nK : 0 < Fintype.card (ShortBytes M → BytesN 64) :=
    Fintype.card_pos_iff.2 ⟨fun _ => ⟨List.replicate 64 0, List.length_replicate⟩⟩
  have nB : 0 < Fintype.card (BytesN 64) :=
    Fintype.card_pos_iff.2 ⟨⟨List.replicate 64 0, List.length_replicate⟩⟩
  have nL : 0 < ed25519Order := Curve.E25519.order_pos
  have hr := residue_bound
  generalize 256 ^ 64 / ed25519Order + 1 = D at *
  rw [← C75.card_bytes] at hr
  rw [Fintype.card_prod (MadeUp M), Fintype.card_prod (ShortBytes M → Scalar)] at h2
  rw [Fintype.card_prod] at h1 hG hchance ⊢
  rw [Fintype.card_prod (MadeUp M), Fintype.card_prod (ShortBytes M → Scalar), Fintype.card_prod (Challenges M)]
  generalize count (fun x : Nonces M × Challenges M => Wins φ n q seed x.1 x.2) = w at *
  generalize count (fun x : Nonces M × Challenges M => Good seed x.1 x.2
      (φ.claim ((game φ n q seed x.1 x.2).map Prod.snd))) = G at *
  generalize count (fun x : MadeUp M × Challenges M × Challenges M =>
      extract φ n q (publicKey seed) x.1 x.2.1 x.2.2 = secretScalar seed) = E at *
  generalize Fintype.card (ShortBytes M → BytesN 64) = K at *
  generalize Fintype.card (BytesN 64) = B at *
  generalize Fintype.card (Nonces M) = N at *
  generalize Fintype.card (Challenges M) = c at *
  generalize ed25519Order = L at *
  have h1 : (w * L : ℚ) ≤ G * L + N * c := by exact_mod_cast h1
  have h2 : (c * (G * K) ^ 2 * B : ℚ) ≤ (q + 1) * (N * K * c) * (E * B + G * K * (D * c)) := by
    exact_mod_cast h2
  have hG : (G : ℚ) ≤ N * c := by exact_mod_cast hG
  rw [Nat.cast_mul] at hchance
  rw [Nat.cast_mul, Nat.cast_mul, Nat.cast_mul, Nat.cast_mul]
  refine le_trans (fractions (Nat.cast_pos.2 nN) (Nat.cast_pos.2 nc) (Nat.cast_pos.2 nK) (Nat.cast_pos.2 nB)
    (Nat.cast_pos.2 nL) (Nat.cast_nonneg D) (by positivity) hG hchance h1 h2) ?_
  refine mul_le_mul_of_nonneg_left ?_ (by positivity)
  exact add_le_add_right hr _

/-! ### What the game is about -/

/-- The actual hash is one of the functions counted: with it, and with the nonces of RFC 8032, the
primitives of the game sign and verify as the actual ones. -/
theorem actual_hash (seed : BytesN 32) (M : Nat) (m : Bytes) :
    let P := gamePrims (M := M) seed (fun m => ownNonce seed m.1) (fun x => Real.sha512 x.1)
    P.edSign seed m = prims.edSign seed m ∧
      ∀ (k : Real.EdKey) (sig : BytesN 64), P.edVerify k m sig = prims.edVerify k m sig := by
  have h1 : chalOf (M := M) (fun x => Real.sha512 x.1) = Real.sha512 := by
    funext x
    unfold chalOf onShort
    split <;> rfl
  have h2 : onShort (M := M) (fun m => ownNonce seed m.1) (ownNonce seed) = ownNonce seed := by
    funext x
    unfold onShort
    split <;> rfl
  have e1 : ∀ m', (gamePrims (M := M) seed (fun m => ownNonce seed m.1) (fun x => Real.sha512 x.1)).edSign
      seed m' = signature seed (onShort (M := M) (fun m => ownNonce seed m.1) (ownNonce seed))
        (chalOf (M := M) (fun x => Real.sha512 x.1)) m' := fun _ => rfl
  have e2 : ∀ (k : Real.EdKey) m' (sig : BytesN 64),
      (gamePrims (M := M) seed (fun m => ownNonce seed m.1) (fun x => Real.sha512 x.1)).edVerify
      k m' sig = verifies (chalOf (M := M) (fun x => Real.sha512 x.1)) k.1.1 m' sig.1 := fun _ _ _ => rfl
  refine ⟨?_, fun k sig => ?_⟩
  · rw [e1, h1, h2, sign_own]
    rfl
  · refine (e2 k m sig).trans ?_
    rw [h1, verifies_own]
    rfl

/-- What comes out is as good as the key: whoever knows the secret scalar signs every message so that the
actual verification accepts. -/
theorem scalar_signs (seed : BytesN 32) (a : Scalar) (ha : a = secretScalar seed) (r : Scalar) (m : Bytes) :
    let R := (base.smul r.val).encode
    prims.edVerify (prims.edPublic seed) m
      (join R (r + number (Real.sha512 (R.1 ++ (publicKey seed).1 ++ m)) * a)) = true := by
  subst ha
  have e : ∀ (k : Real.EdKey) (sig : BytesN 64), prims.edVerify k m sig = Real.Ed.verify k.1.1 m sig.1 :=
    fun _ _ => rfl
  intro R
  refine (e _ _).trans ?_
  rw [edPublic_publicKey, ← verifies_own]
  have := verifies_join seed Real.sha512 m r
  rwa [← encode_nonce] at this

/-! ### A forger -/

/-- The message of the token below, as it is signed. -/
def knownMessage : Bytes :=
  Spec.v4Signed (Spec.header .V4 .Public (Payload.suffix Sample.Raw)) (asc "hi") [] (asc "ia")

/-- The text of that token, with a signature made with the nonce 1. -/
def knownText (a k : Scalar) : Bytes :=
  Spec.tokenText (Spec.header .V4 .Public (Payload.suffix Sample.Raw))
    (asc "hi" ++ (join (code 1) (1 + k * a)).1) []

/-- The challenge among the answers. -/
def heard : List Answer → Scalar
  | [.hash b] => number b
  | _ => 0

/-- Someone who knows the secret scalar. -/
def knower (pk : BytesN 32) (a : Scalar) : Forger where
  ask answers := if answers.isEmpty then some (.hash (challengeInput (code 1).1 pk.1 knownMessage)) else none
  claim answers :=
    { M := Bytes, F := Bytes, E := Sample.Raw, instP := inferInstance, instM := inferInstance,
      instF := inferInstance, text := knownText a (heard answers), implicit := asc "ia" }

def knownToken (a k : Scalar) : SecuredToken .V4 .Public Bytes Sample.Raw :=
  { encoding := Payload.default, footer := [], encodedFooter := []
    payload := asc "hi" ++ (join (code 1) (1 + k * a)).1 }

theorem known_parse (a k : Scalar) :
    SecuredToken.parse .V4 .Public Bytes Sample.Raw (knownText a k) = .ok (knownToken a k) :=
  (SecuredToken.parse_ok_iff _ (knownToken a k)).2 ⟨SecuredToken.isToken_tokenText _ _ _, rfl, rfl⟩

theorem known_display (a k : Scalar) : (knownToken a k).display = knownText a k := by
  rw [SecuredToken.display_eq]
  rfl

theorem known_fits : Spec.Fits (Spec.header .V4 .Public (Payload.suffix Sample.Raw)) ∧
    Spec.Fits (asc "hi") ∧ Spec.Fits ([] : Bytes) ∧ Spec.Fits (asc "ia") := by
  unfold Spec.Fits
  refine ⟨?_, ?_, ?_, ?_⟩ <;> decide

theorem knower_short (pk : BytesN 32) (a : Scalar) : (knower pk a).Short 100 := by
  refine ⟨fun answers q h => ?_, fun answers p hp => ?_⟩
  · unfold knower at h
    simp only at h
    split at h
    · cases h
      exact trivial
    · cases h
  · unfold knower Claim.signed at hp
    simp only [known_parse] at hp
    have hl : (knownToken a (heard answers)).payload.length = 2 + 64 := by
      show (asc "hi" ++ (join (code 1) (1 + heard answers * a)).1).length = _
      rw [List.length_append, (join _ _).2]
      rfl
    rw [if_pos (by rw [hl]; decide), hl] at hp
    cases hp
    have ht : (knownToken a (heard answers)).payload.take (2 + 64 - 64) = asc "hi" :=
      List.take_left' rfl
    rw [ht]
    show (Spec.v4Signed (Spec.header .V4 .Public (Payload.suffix Sample.Raw)) (asc "hi") []
      (asc "ia")).length ≤ 100
    decide

theorem knower_game (pk : BytesN 32) (a : Scalar) (n q M : Nat) (seed : BytesN 32) (N : Nonces M)
    (h : Challenges M) : game (knower pk a) (n + 1) (q + 1) seed N h =
      [(.hash (challengeInput (code 1).1 pk.1 knownMessage),
        .hash (chalOf h (challengeInput (code 1).1 pk.1 knownMessage)))] := by
  rw [game_eq]
  unfold news
  simp only [knower, List.map_nil, List.isEmpty_nil, if_true]
  rw [if_pos (show (Ask.hash _).input.isSome = true from rfl)]
  cases n with
  | zero => rfl
  | succ n => rfl

theorem knower_wins (seed : BytesN 32) (n q M : Nat) (N : Nonces M) (h : Challenges M) :
    Wins (knower (publicKey seed) (secretScalar seed)) (n + 1) (q + 1) seed N h := by
  unfold Wins
  simp only [knower_game]
  let k := number (chalOf h (challengeInput (code 1).1 (publicKey seed).1 knownMessage))
  let sgn := signature seed (onShort N (ownNonce seed)) (chalOf h)
  let s : BytesN 64 := join (code 1) (1 + k * secretScalar seed)
  have hv : verifies (chalOf h) (publicKey seed).1 knownMessage s.1 = true :=
    verifies_join seed (chalOf h) knownMessage 1
  have hraw : verifyRaw (primsWith sgn (chalOf h)) .V4 (prims.edPublic seed) (Payload.suffix Sample.Raw)
      (asc "hi") [] (asc "ia") s = .ok (verifies (chalOf h) (publicKey seed).1 knownMessage s.1) := by
    unfold knownMessage
    rw [← v4PublicPreAuth_eq known_fits.1 known_fits.2.1 known_fits.2.2.1 known_fits.2.2.2,
      ← edPublic_publicKey]
    rfl
  have hok : (knownToken (secretScalar seed) k).verifyWithAssertions Bytes (primsWith sgn (chalOf h))
      ⟨prims.edPublic seed⟩ (asc "ia") = .ok ⟨Payload.default, asc "hi", []⟩ := by
    refine (verify_split (P := primsWith sgn (chalOf h)) (M := Bytes) (knownToken (secretScalar seed) k)
      ⟨prims.edPublic seed⟩ (asc "ia") (asc "hi") (s : BytesN (sigSize .V4)) rfl).trans ?_
    refine (congrArg (· >>= _) hraw).trans ?_
    show (Res.ok (verifies _ _ _ _) >>= _) = _
    rw [hv, Res.ok_bind]
    rfl
  refine ⟨knownToken (secretScalar seed) k, known_parse _ _, ?_, ?_, ?_⟩
  · exact fun e => nomatch hok.symm.trans e
  · exact fun e => nomatch hok.symm.trans e
  · exact fun e => nomatch e

/-- The bound is about something: whoever knows the secret scalar always wins. -/
theorem knower_chance (seed : BytesN 32) (n q M : Nat) :
    forgeChance (knower (publicKey seed) (secretScalar seed)) (n + 1) (q + 1) M seed = 1 := by
  classical
  unfold forgeChance
  rw [Finset.filter_true_of_mem fun x _ => knower_wins seed n q M x.1 x.2, Finset.card_univ]
  have : 0 < Fintype.card (Nonces M × Challenges M) := Fintype.card_pos_iff.2
    ⟨fun _ => 0, fun _ => ⟨List.replicate 64 0, List.length_replicate⟩⟩
  exact div_self (Nat.cast_ne_zero.2 this.ne')

/-- So the hypotheses can be met, and then the secret does come out. -/
example (seed : BytesN 32) (n q : Nat) : (1 - 1 / (ed25519Order : ℚ)) ^ 2 ≤
    ((q + 1 : ℕ) + 1) * (extractChance (knower (publicKey seed) (secretScalar seed)) (n + 1) (q + 1) 100 seed +
      1 / 2 ^ 251) := by
  have h := forge_bound (knower (publicKey seed) (secretScalar seed)) (n + 1) (q + 1) 100 (by decide)
    (knower_short _ _) seed
  rw [knower_chance] at h
  refine h ?_
  have : (1 : ℚ) ≤ (ed25519Order : ℚ) := by exact_mod_cast Curve.E25519.order_pos
  exact (div_le_one (by linarith)).2 this

end Pasta.C90
