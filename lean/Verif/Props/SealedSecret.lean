import Verif.Spec.SealedSecret
import Verif.Props.SealingTapes
import Verif.Props.SecretContent

/-!
# C108: a secret sealed for many recipients cannot be guessed
-/

namespace Pasta.C108

open C98 (fraction_prod fraction_mono)

/-! ### Means -/

section means

variable {W β : Type} [Fintype W] [Fintype β]

/-- The mean. -/
noncomputable def mean (e : W → ℚ) : ℚ := (∑ w, e w) / Fintype.card W

theorem mean_fraction (A : W × β → Prop) : mean (fun w => fractionOf fun b => A (w, b)) = fractionOf A :=
  (fraction_prod A).symm

theorem mean_mono {e e' : W → ℚ} (h : ∀ w, e w ≤ e' w) : mean e ≤ mean e' :=
  div_le_div_of_nonneg_right (Finset.sum_le_sum fun w _ => h w) (Nat.cast_nonneg _)

theorem mean_add (e e' : W → ℚ) : mean (fun w => e w + e' w) = mean e + mean e' := by
  unfold mean
  rw [Finset.sum_add_distrib, add_div]

theorem mean_const [Nonempty W] (b : ℚ) : mean (fun _ : W => b) = b := by
  unfold mean
  have hc : (Fintype.card W : ℚ) ≠ 0 := Nat.cast_ne_zero.2 Fintype.card_ne_zero
  rw [Finset.sum_const, Finset.card_univ, nsmul_eq_mul, mul_div_cancel_left₀ _ hc]

theorem mean_mul (b : ℚ) (e : W → ℚ) : mean (fun w => b * e w) = b * mean e := by
  unfold mean
  rw [← Finset.mul_sum, mul_div_assoc]

theorem mean_sum {κ : Type} (s : Finset κ) (e : κ → W → ℚ) :
    mean (fun w => ∑ i ∈ s, e i w) = ∑ i ∈ s, mean (e i) := by
  unfold mean
  rw [Finset.sum_comm, Finset.sum_div]

theorem mean_close {A B : W × β → Prop} {e : W → ℚ}
    (h : ∀ w, |fractionOf (fun b => A (w, b)) - fractionOf (fun b => B (w, b))| ≤ e w) :
    |fractionOf A - fractionOf B| ≤ mean e := by
  rw [← mean_fraction A, ← mean_fraction B, abs_le]
  have h1 := mean_mono fun w => (sub_le_iff_le_add.1 (abs_le.1 (h w)).2)
  have h2 := mean_mono fun w => (sub_le_iff_le_add.1 (neg_le.1 (abs_le.1 (h w)).1 |>.trans_eq' (by ring) :
    fractionOf (fun b => B (w, b)) - fractionOf (fun b => A (w, b)) ≤ e w))
  rw [mean_add] at h1 h2
  constructor <;> linarith

end means

variable {P : Prims} {v : Ver} {L m M : Nat} {ι W : Type}

theorem good (x : Sealings P v ι m W) (pks : ι → Key P v .Public) {rngs : Fin m → Rng}
    (h : x.GoodTapes pks rngs) (w w' : W) : GoodTapes P pks (x.jobs w w') rngs := by
  obtain ⟨epks, h1, h2⟩ := h
  exact ⟨epks, h1, fun i _ => h2 i⟩

theorem seen_left (x : Sealings P v ι m W) (sks : ι → Key P v .Secret) (ask : ManyAsks v L m ι) (n : Nat) (w w' : W)
    (rngs : Fin m → Rng) (f : SealHash v) (c : CipherOf v L) :
    sealManyGame P sks (x.jobs w w') ask n (fun _ => .left) rngs f c = x.seen sks ask n w rngs f c := rfl

theorem seen_right (x : Sealings P v ι m W) (sks : ι → Key P v .Secret) (ask : ManyAsks v L m ι) (n : Nat) (w w' : W)
    (rngs : Fin m → Rng) (f : SealHash v) (c : CipherOf v L) :
    sealManyGame P sks (x.jobs w w') ask n (fun _ => .right) rngs f c = x.seen sks ask n w' rngs f c := rfl

theorem laws_seal (hP : P.Laws) (f : SealHash v) (c : CipherOf v L) : (P.withSeal f c).Laws := by
  cases v
  · exact { hP with }
  · exact { hP with }

/-- All sealings succeed, and from each text its recipient gets the key that was sealed. -/
theorem delivered (hP : P.Laws) (sks : ι → Key P v .Secret) (x : Sealings P v ι m W) {rngs : Fin m → Rng}
    (h : x.GoodTapes (fun b => (sks b).publicKey) rngs) (ask : ManyAsks v L m ι) (n : Nat) (w : W) (f : SealHash v)
    (c : CipherOf v L) (i : Fin m) :
    ∃ text, (x.seen sks ask n w rngs f c).1 i = .ok text ∧
      unsealText (P.withSeal f c) ((sks (x.recipient i)).underSeal f c) text = .ok (x.key w i).key.1 := by
  obtain ⟨epks, -, h⟩ := h
  obtain ⟨xk, h⟩ := h i
  have hi := fun d => C88.input_length (v := v) d (C88.ephemeral_length h) (epks i).2
    (sealPub_length (sks (x.recipient i)).publicKey)
  have h1 := C88.sealed (x.key w i) _ f c h (hi 1) (hi 2)
  refine ⟨_, h1, ?_⟩
  rw [← C88.public_under] at h1
  unfold sealedText at h1
  obtain ⟨⟨s, rng'⟩, h5, h6⟩ := Res.bind_eq_ok.1 h1
  have h7 := C43.seal_roundtrip_direct (laws_seal hP f c) _ _ _ _ _ h5
  unfold unsealText
  rw [(C43.seal_text_iff _ _).2 h6, Res.ok_bind, h7]
  cases v <;> rfl

variable [Fintype W] [Nonempty W]

open Finset in
/-- **C108**. Whatever is concluded about the secret from the texts and the answers, the conclusion is right as often
as when it is drawn from texts with something else, `w₀`, in place of the secret; but for the chance that the secret
shared with one of the recipients is computed. The one who computes it knows no secret key, draws the secret
themselves, seals all keys but one, shows a random text in place of that one, and returns part of a request. -/
theorem semantic (hP : P.Laws) (hL : 32 ≤ L) (sks : ι → Key P v .Secret) (x : Sealings P v ι m W)
    (R : Finset (Fin m → Rng)) (hR : ∀ rngs ∈ R, x.GoodTapes (fun b => (sks b).publicKey) rngs)
    (ask : ManyAsks v L m ι) (hask : ∀ texts seen b s, ask texts seen ≠ some (b, .unseal s)) (n : Nat)
    (D : (Fin m → Res Bytes) × List (SealAnswer v L) → W → Prop) (w₀ : W) :
    |fractionOf (fun z : W × R × SealHash v × CipherOf v L =>
          D (x.seen sks ask n z.1 z.2.1 z.2.2.1 z.2.2.2) z.1) -
        fractionOf (fun z : W × R × SealHash v × CipherOf v L =>
          D (x.seen sks ask n w₀ z.2.1 z.2.2.1 z.2.2.2) z.1)| ≤
      2 * ∑ i : Fin m, ∑ k ∈ range n,
        fractionOf (fun y : W × R × SealHash v × CipherOf v L × BytesN 32 × BytesN (pkeTagLen v) => ∃ xk epk,
          ephemeral P (sks (x.recipient i)).publicKey (y.2.1.1 i) = some (xk, epk) ∧
          secretFromMany P (fun b => (sks b).publicKey) (x.jobs y.1 w₀) ask n i (rightBefore m i) y.2.1 epk y.2.2.1
            y.2.2.2.1 y.2.2.2.2.1 y.2.2.2.2.2 k = some xk) +
        m * (m + n) / 2 ^ 256 := by
  let Y : Fin m → Nat → W × R × SealHash v × CipherOf v L × BytesN 32 × BytesN (pkeTagLen v) → Prop :=
    fun i k y => ∃ xk epk, ephemeral P (sks (x.recipient i)).publicKey (y.2.1.1 i) = some (xk, epk) ∧
      secretFromMany P (fun b => (sks b).publicKey) (x.jobs y.1 w₀) ask n i (rightBefore m i) y.2.1 epk y.2.2.1
        y.2.2.2.1 y.2.2.2.2.1 y.2.2.2.2.2 k = some xk
  have h : ∀ w, |fractionOf (fun z : R × SealHash v × CipherOf v L => D (x.seen sks ask n w z.1 z.2.1 z.2.2) w) -
        fractionOf (fun z : R × SealHash v × CipherOf v L => D (x.seen sks ask n w₀ z.1 z.2.1 z.2.2) w)| ≤
      ∑ i : Fin m, ∑ k ∈ range n, 2 * fractionOf (fun y => Y i k (w, y)) + m * (m + n) / 2 ^ 256 := fun w => by
    refine (C98.which_many_diffie_hellman hP hL sks (x.jobs w w₀) R (fun rngs hr => good x _ (hR rngs hr) w w₀)
      ask hask n fun res => D res w).trans (le_of_eq ?_)
    congr 1
    refine sum_congr rfl fun i _ => ?_
    rw [sum_pair (show Side.left ≠ Side.right from fun h => nomatch h), ← sum_add_distrib]
    exact sum_congr rfl fun k _ => (two_mul _).symm
  refine (mean_close (A := fun z : W × R × SealHash v × CipherOf v L =>
      D (x.seen sks ask n z.1 z.2.1 z.2.2.1 z.2.2.2) z.1)
    (B := fun z : W × R × SealHash v × CipherOf v L =>
      D (x.seen sks ask n w₀ z.2.1 z.2.2.1 z.2.2.2) z.1) h).trans (le_of_eq ?_)
  rw [mean_add, mean_const, mean_sum, mul_sum]
  congr 1
  refine sum_congr rfl fun i _ => ?_
  rw [mean_sum, mul_sum]
  refine sum_congr rfl fun k _ => ?_
  rw [mean_mul, mean_fraction (Y i k)]

open Finset in
/-- Also those who have other texts unsealed, if the MAC is a random function too: but for the chance that they hash
the secret shared with one of the recipients, in a game without that sealing. -/
theorem semantic_unsealing (hM : 89 ≤ M) (hP : P.Laws) (hL : 32 ≤ L) (sks : ι → Key P v .Secret)
    (x : Sealings P v ι m W) (R : Finset (Fin m → Rng))
    (hR : ∀ rngs ∈ R, x.GoodTapes (fun b => (sks b).publicKey) rngs) (ask : ManyAsks v L m ι) (n : Nat)
    (D : (Fin m → Res Bytes) × List (SealAnswer v L) → W → Prop) (w₀ : W) :
    |fractionOf (fun z : W × SealMac v M × R × SealHash v × CipherOf v L =>
          D ((x.underMac z.2.1).seen (fun b => (sks b).underMac z.2.1) ask n z.1 z.2.2.1 z.2.2.2.1 z.2.2.2.2) z.1) -
        fractionOf (fun z : W × SealMac v M × R × SealHash v × CipherOf v L =>
          D ((x.underMac z.2.1).seen (fun b => (sks b).underMac z.2.1) ask n w₀ z.2.2.1 z.2.2.2.1 z.2.2.2.2) z.1)| ≤
      2 * ∑ i : Fin m,
        fractionOf (fun y : W × SealMac v M × R × SealHash v × CipherOf v L × BytesN 32 × BytesN (pkeTagLen v) =>
          ManyHashed (P.withSealMac v y.2.1) (fun b => (sks b).underMac y.2.1) ((x.underMac y.2.1).jobs y.1 w₀)
            ask n i (rightBefore m i) .left y.2.2.1 y.2.2.2.1 y.2.2.2.2.1 y.2.2.2.2.2.1 y.2.2.2.2.2.2) +
        m * (7 * (m + n) + 4) / 2 ^ 256 := by
  let Y : Fin m → W × SealMac v M × R × SealHash v × CipherOf v L × BytesN 32 × BytesN (pkeTagLen v) → Prop :=
    fun i y => ManyHashed (P.withSealMac v y.2.1) (fun b => (sks b).underMac y.2.1) ((x.underMac y.2.1).jobs y.1 w₀)
      ask n i (rightBefore m i) .left y.2.2.1 y.2.2.2.1 y.2.2.2.2.1 y.2.2.2.2.2.1 y.2.2.2.2.2.2
  have h : ∀ w, |fractionOf (fun z : SealMac v M × R × SealHash v × CipherOf v L =>
          D ((x.underMac z.1).seen (fun b => (sks b).underMac z.1) ask n w z.2.1 z.2.2.1 z.2.2.2) w) -
        fractionOf (fun z : SealMac v M × R × SealHash v × CipherOf v L =>
          D ((x.underMac z.1).seen (fun b => (sks b).underMac z.1) ask n w₀ z.2.1 z.2.2.1 z.2.2.2) w)| ≤
      ∑ i : Fin m, 2 * fractionOf (fun y => Y i (w, y)) + m * (7 * (m + n) + 4) / 2 ^ 256 := fun w => by
    have e : ∀ T : SealMac v M, (fun j => (x.jobs w w₀ j).underMac T) = (x.underMac T).jobs w w₀ := fun T =>
      funext fun j => congrArg (SealJob.mk _) (funext fun s => by cases s <;> rfl)
    have h := C98.which_many_random_tags sks (x.jobs w w₀) ask n hM hP hL R
      (fun rngs hr => good x _ (hR rngs hr) w w₀) fun res => D res w
    simp only [e] at h
    refine h.trans (le_of_eq ?_)
    congr 1
    refine sum_congr rfl fun i _ => ?_
    rw [sum_pair (show Side.left ≠ Side.right from fun h => nomatch h)]
    exact (two_mul _).symm
  refine (mean_close (A := fun z : W × SealMac v M × R × SealHash v × CipherOf v L =>
      D ((x.underMac z.2.1).seen (fun b => (sks b).underMac z.2.1) ask n z.1 z.2.2.1 z.2.2.2.1 z.2.2.2.2) z.1)
    (B := fun z : W × SealMac v M × R × SealHash v × CipherOf v L =>
      D ((x.underMac z.2.1).seen (fun b => (sks b).underMac z.2.1) ask n w₀ z.2.2.1 z.2.2.2.1 z.2.2.2.2) z.1)
    h).trans (le_of_eq ?_)
  rw [mean_add, mean_const, mean_sum, mul_sum]
  congr 1
  refine sum_congr rfl fun i _ => ?_
  rw [mean_mul, mean_fraction (Y i)]

/-- From something that has nothing to do with the secret, `t` guesses find it with a chance of at most `t` in the
number of secrets. -/
theorem blind {β γ : Type} [Fintype β] (t : Nat) (res : β → γ) (guesses : γ → Finset W)
    (ht : ∀ y, (guesses y).card ≤ t) :
    fractionOf (fun z : W × β => z.1 ∈ guesses (res z.2)) ≤ t / Fintype.card W := by
  rw [← Trying.fraction_swap]
  refine Trying.fraction_prod_le _ _ (by positivity) fun x => ?_
  have e := C107.fraction_one (guesses (res x))
  refine (le_of_eq e).trans ?_
  have := ht (res x)
  gcongr

/-- The same for something that is made from the secret. -/
theorem blind_uneven {β γ T : Type} [Fintype β] (res : β → γ) (guess : γ → T) (f : W → T) (p : ℚ)
    (hp : ∀ y, fractionOf (fun w => f w = y) ≤ p) :
    fractionOf (fun z : W × β => f z.1 = guess (res z.2)) ≤ p := by
  have hp0 : 0 ≤ p := le_trans (by unfold fractionOf; positivity) (hp (f (Classical.arbitrary W)))
  rw [← Trying.fraction_swap]
  exact Trying.fraction_prod_le _ _ hp0 fun x => hp (guess (res x))

open Finset in
/-- With `t` guesses, the secret is found with a chance of at most `t` in the number of secrets, but for the chance
that a shared secret is computed. -/
theorem guessed (hP : P.Laws) (hL : 32 ≤ L) (sks : ι → Key P v .Secret) (x : Sealings P v ι m W)
    (R : Finset (Fin m → Rng)) (hR : ∀ rngs ∈ R, x.GoodTapes (fun b => (sks b).publicKey) rngs)
    (ask : ManyAsks v L m ι) (hask : ∀ texts seen b s, ask texts seen ≠ some (b, .unseal s)) (n t : Nat)
    (guesses : (Fin m → Res Bytes) × List (SealAnswer v L) → Finset W) (ht : ∀ res, (guesses res).card ≤ t) (w₀ : W) :
    fractionOf (fun z : W × R × SealHash v × CipherOf v L =>
        z.1 ∈ guesses (x.seen sks ask n z.1 z.2.1 z.2.2.1 z.2.2.2)) ≤
      t / Fintype.card W + 2 * ∑ i : Fin m, ∑ k ∈ range n,
        fractionOf (fun y : W × R × SealHash v × CipherOf v L × BytesN 32 × BytesN (pkeTagLen v) => ∃ xk epk,
          ephemeral P (sks (x.recipient i)).publicKey (y.2.1.1 i) = some (xk, epk) ∧
          secretFromMany P (fun b => (sks b).publicKey) (x.jobs y.1 w₀) ask n i (rightBefore m i) y.2.1 epk y.2.2.1
            y.2.2.2.1 y.2.2.2.2.1 y.2.2.2.2.2 k = some xk) +
        m * (m + n) / 2 ^ 256 := by
  have h := (abs_le.1 (semantic hP hL sks x R hR ask hask n (fun res w => w ∈ guesses res) w₀)).2
  have h2 := blind t (fun z : R × SealHash v × CipherOf v L => x.seen sks ask n w₀ z.1 z.2.1 z.2.2) guesses ht
  linarith

open Finset in
/-- Also by those who have other texts unsealed. -/
theorem guessed_unsealing (hM : 89 ≤ M) (hP : P.Laws) (hL : 32 ≤ L) (sks : ι → Key P v .Secret)
    (x : Sealings P v ι m W) (R : Finset (Fin m → Rng))
    (hR : ∀ rngs ∈ R, x.GoodTapes (fun b => (sks b).publicKey) rngs) (ask : ManyAsks v L m ι) (n t : Nat)
    (guesses : (Fin m → Res Bytes) × List (SealAnswer v L) → Finset W) (ht : ∀ res, (guesses res).card ≤ t) (w₀ : W) :
    fractionOf (fun z : W × SealMac v M × R × SealHash v × CipherOf v L => z.1 ∈ guesses
        ((x.underMac z.2.1).seen (fun b => (sks b).underMac z.2.1) ask n z.1 z.2.2.1 z.2.2.2.1 z.2.2.2.2)) ≤
      t / Fintype.card W + 2 * ∑ i : Fin m,
        fractionOf (fun y : W × SealMac v M × R × SealHash v × CipherOf v L × BytesN 32 × BytesN (pkeTagLen v) =>
          ManyHashed (P.withSealMac v y.2.1) (fun b => (sks b).underMac y.2.1) ((x.underMac y.2.1).jobs y.1 w₀)
            ask n i (rightBefore m i) .left y.2.2.1 y.2.2.2.1 y.2.2.2.2.1 y.2.2.2.2.2.1 y.2.2.2.2.2.2) +
        m * (7 * (m + n) + 4) / 2 ^ 256 := by
  have h := (abs_le.1 (semantic_unsealing hM hP hL sks x R hR ask n (fun res w => w ∈ guesses res) w₀)).2
  have h2 := blind t (fun z : SealMac v M × R × SealHash v × CipherOf v L =>
    (x.underMac z.1).seen (fun b => (sks b).underMac z.1) ask n w₀ z.2.1 z.2.2.1 z.2.2.2) guesses ht
  linarith

open Finset in
/-- The secret can be drawn in any way, as a function `f` of what is drawn evenly, or only something about it is
guessed. If no value is more likely than `p`, a guess is right with a chance of hardly more than `p`. -/
theorem guessed_uneven (hM : 89 ≤ M) (hP : P.Laws) (hL : 32 ≤ L) (sks : ι → Key P v .Secret)
    (x : Sealings P v ι m W) (R : Finset (Fin m → Rng))
    (hR : ∀ rngs ∈ R, x.GoodTapes (fun b => (sks b).publicKey) rngs) (ask : ManyAsks v L m ι) (n : Nat)
    {T : Type} (f : W → T) (p : ℚ) (hp : ∀ y, fractionOf (fun w => f w = y) ≤ p)
    (guess : (Fin m → Res Bytes) × List (SealAnswer v L) → T) (w₀ : W) :
    fractionOf (fun z : W × SealMac v M × R × SealHash v × CipherOf v L => f z.1 = guess
        ((x.underMac z.2.1).seen (fun b => (sks b).underMac z.2.1) ask n z.1 z.2.2.1 z.2.2.2.1 z.2.2.2.2)) ≤
      p + 2 * ∑ i : Fin m,
        fractionOf (fun y : W × SealMac v M × R × SealHash v × CipherOf v L × BytesN 32 × BytesN (pkeTagLen v) =>
          ManyHashed (P.withSealMac v y.2.1) (fun b => (sks b).underMac y.2.1) ((x.underMac y.2.1).jobs y.1 w₀)
            ask n i (rightBefore m i) .left y.2.2.1 y.2.2.2.1 y.2.2.2.2.1 y.2.2.2.2.2.1 y.2.2.2.2.2.2) +
        m * (7 * (m + n) + 4) / 2 ^ 256 := by
  have h := (abs_le.1 (semantic_unsealing hM hP hL sks x R hR ask n (fun res w => f w = guess res) w₀)).2
  have h2 := blind_uneven (fun z : SealMac v M × R × SealHash v × CipherOf v L =>
    (x.underMac z.1).seen (fun b => (sks b).underMac z.1) ask n w₀ z.2.1 z.2.2.1 z.2.2.2) guess f p hp
  linarith

/-! ### A case: one random key sealed for three recipients, with the actual algorithms -/

section

open Real (prims)

/-- The secret is a key, and it is sealed for each of three recipients. -/
def shared (v : Ver) : Sealings prims v (Fin 3) 3 (BytesN 32) := ⟨id, fun w _ => ⟨w⟩⟩

theorem shared_tapes (v : Ver) (sks : Fin 3 → Key prims v .Secret) :
    ∃ R : Finset (Fin 3 → Rng), R.Nonempty ∧ ∀ rngs ∈ R, (shared v).GoodTapes (fun b => (sks b).publicKey) rngs := by
  have w : BytesN 32 := ⟨List.replicate 32 0, List.length_replicate⟩
  obtain ⟨rngs, epks, h1, h2⟩ := C98.exist_good_tapes v (m := 3) (by norm_num) (fun b => (sks b).publicKey)
    ((shared v).jobs w w)
  exact ⟨{rngs}, ⟨rngs, Finset.mem_singleton_self _⟩, fun r hr => by
    rw [Finset.mem_singleton.1 hr]; exact ⟨epks, h1, fun i => h2 i .left⟩⟩

/-- Someone who computes nothing and guesses once, with the actual algorithms. No shared secret is computed then, so
that the bound is very small. -/
example (v : Ver) (sks : Fin 3 → Key prims v .Secret)
    (guess : (Fin 3 → Res Bytes) × List (SealAnswer v 32) → BytesN 32) :
    ∃ R : Finset (Fin 3 → Rng), R.Nonempty ∧ fractionOf (fun z : BytesN 32 × R × SealHash v × CipherOf v 32 =>
        z.1 ∈ ({guess ((shared v).seen sks (fun _ _ => none) 0 z.1 z.2.1 z.2.2.1 z.2.2.2)} : Finset _)) ≤
      10 / 2 ^ 256 := by
  have w : BytesN 32 := ⟨List.replicate 32 0, List.length_replicate⟩
  have : Nonempty (BytesN 32) := ⟨w⟩
  obtain ⟨R, h1, h2⟩ := shared_tapes v sks
  refine ⟨R, h1, (guessed Real.laws (Nat.le_refl _) sks (shared v) R h2 (fun _ _ => none)
    (fun _ _ _ _ h => by cases h) 0 1 (fun res => {guess res}) (fun _ => (Finset.card_singleton _).le) w).trans ?_⟩
  have e : (Fintype.card (BytesN 32) : ℚ) = 2 ^ 256 := by
    rw [C75.card_bytes]
    norm_num
  rw [e]
  simp only [Finset.range_zero, Finset.sum_empty, Finset.sum_const_zero]
  norm_num

/-- The hypotheses of `guessed_unsealing` are met by anyone, -/
example (v : Ver) (sks : Fin 3 → Key prims v .Secret) (ask : ManyAsks v 32 3 (Fin 3)) (n : Nat)
    (guess : (Fin 3 → Res Bytes) × List (SealAnswer v 32) → BytesN 32) (w₀ : BytesN 32) (R : Finset (Fin 3 → Rng))
    (hR : ∀ rngs ∈ R, (shared v).GoodTapes (fun b => (sks b).publicKey) rngs) :=
  have : Nonempty (BytesN 32) := ⟨w₀⟩
  guessed_unsealing (M := 89) (Nat.le_refl _) Real.laws (Nat.le_refl _) sks (shared v) R hR ask n 1
    (fun res => {guess res}) (fun _ => (Finset.card_singleton _).le) w₀

/-- … also when only the first byte of the key is guessed, -/
example (v : Ver) (sks : Fin 3 → Key prims v .Secret) (ask : ManyAsks v 32 3 (Fin 3)) (n : Nat) (p : ℚ)
    (hp : ∀ s, fractionOf (fun w : BytesN 32 => w.1.head? = s) ≤ p)
    (guess : (Fin 3 → Res Bytes) × List (SealAnswer v 32) → Option UInt8) (w₀ : BytesN 32) (R : Finset (Fin 3 → Rng))
    (hR : ∀ rngs ∈ R, (shared v).GoodTapes (fun b => (sks b).publicKey) rngs) :=
  have : Nonempty (BytesN 32) := ⟨w₀⟩
  guessed_uneven (M := 89) (Nat.le_refl _) Real.laws (Nat.le_refl _) sks (shared v) R hR ask n
    (fun w => w.1.head?) p hp guess w₀

/-- … and each recipient gets the key. -/
example (v : Ver) (sks : Fin 3 → Key prims v .Secret) {rngs : Fin 3 → Rng}
    (h : (shared v).GoodTapes (fun b => (sks b).publicKey) rngs) (ask : ManyAsks v 32 3 (Fin 3)) (n : Nat)
    (w : BytesN 32) (f : SealHash v) (c : CipherOf v 32) (i : Fin 3) :
    ∃ text, ((shared v).seen sks ask n w rngs f c).1 i = .ok text ∧
      unsealText (prims.withSeal f c) ((sks i).underSeal f c) text = .ok w.1 :=
  delivered Real.laws sks (shared v) h ask n w f c i

end

end Pasta.C108
