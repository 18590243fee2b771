import Mathlib.Algebra.BigOperators.Fin
import Verif.Spec.SealingMany
import Verif.Props.Recipients

/-!
# C98: of many sealed keys nothing can be told, neither which keys they are nor for whom

With a random key derivation hash and a random cipher. One text after the other is replaced.
-/

namespace Pasta.C98

open C82 (count count_eq count_prod)
open C88 (draw sealed unsealed uses uses_length input_length input_inj ephemeral_length secret_length
  kOf ivOf out out_fixc fixc fixc_fixc kOf_count split_card)
open C97 (dialog_congr dialog_length ephemeral_other same_secret input_pub unseal_update any_answer average)
open Plug (k0 flat_length stream1)
open Spec (sealPub unsealSecret sealKdfInput sealTagged paserkText)

/-! ### Counting -/

section counting

variable {α β : Type} [Fintype α] [Fintype β]

theorem fraction_count (A : α → Prop) : fractionOf A = (count A : ℚ) / Fintype.card α := by
  unfold fractionOf
  rw [count_eq]

theorem fraction_prod (A : α × β → Prop) :
    fractionOf A = (∑ a, fractionOf fun b => A (a, b)) / Fintype.card α := by
  simp only [fraction_count]
  rw [count_prod, Fintype.card_prod, ← Finset.sum_div]
  push_cast
  rw [div_div, mul_comm]

theorem fraction_or (A B : α → Prop) :
    fractionOf (fun x => A x ∨ B x) ≤ fractionOf A + fractionOf B := by
  simp only [fraction_count]
  rw [← add_div]
  exact div_le_div_of_nonneg_right (by exact_mod_cast Plug.count_or A B) (Nat.cast_nonneg _)

theorem fraction_mono {A B : α → Prop} (h : ∀ x, A x → B x) : fractionOf A ≤ fractionOf B := by
  simp only [fraction_count]
  exact div_le_div_of_nonneg_right (Nat.cast_le.2 (Plug.count_mono h)) (Nat.cast_nonneg _)

theorem fraction_none {A : α → Prop} (h : ∀ x, ¬ A x) : fractionOf A = 0 := by
  classical
  rw [fraction_count]
  have : count A = 0 := by
    unfold count
    exact Finset.card_eq_zero.2 (Finset.filter_eq_empty_iff.2 fun x _ => h x)
  rw [this, Nat.cast_zero, zero_div]

end counting

variable {P : Prims} {v : Ver} {L m : Nat} {ι : Type}

/-! ### One text -/

section

variable (hP : P.Laws) (hL : 32 ≤ L) (sks : ι → Key P v .Secret) (jobs : Fin m → SealJob P v ι)
  {rngs : Fin m → Rng} {xks : Fin m → Side → Bytes} {epks : Fin m → BytesN (pkeEpkLen v)}
  (inj : Function.Injective epks)
  (he : ∀ i a, ephemeral P (sks ((jobs i).recipient a)).publicKey (rngs i) = some (xks i a, epks i))
  (h : ∀ (i : Fin m) (a : Side) (d : UInt8), (sealKdfInput v d (xks i a) (epks i).1
    (sealPub P (sks ((jobs i).recipient a)).publicKey)).length = sealInLen v)
  (side : Fin m → Side) (i : Fin m) (a : Side)
  (f : SealHash v) (c : CipherOf v L) (e : BytesN 32) (t1 t2 : BytesN (pkeTagLen v)) (s : OneCipher v L)

/-- The cipher keys of the texts. -/
def textKeys (f : SealHash v) : List (BytesN 32) :=
  (List.finRange m).map fun j => kOf (f ⟨_, h j (side j) 1⟩)

theorem textKeys_length : (textKeys sks jobs h side f).length = m := by
  simp [textKeys]

/-- The hash with the drawn values in place. -/
def hashIn : SealHash v := Function.update (Function.update f ⟨_, h i a 1⟩ t1) ⟨_, h i a 2⟩ t2

/-- The cipher with the drawn member in place. -/
def cipherIn : CipherOf v L :=
  Function.update c (kOf t1) (fixc P (epks i).1 (sealPub P (sks ((jobs i).recipient a)).publicKey)
    (show BytesN 32 from ((jobs i).key a).key) t1 s e)

include inj he in
theorem inputs_ne {j : Fin m} (hj : j ≠ i) (b : Side) (d d' : UInt8) :
    (⟨_, h j b d⟩ : BytesN (sealInLen v)) ≠ ⟨_, h i a d'⟩ := by
  intro h'
  have h2 := input_inj (by rw [ephemeral_length (he j b), ephemeral_length (he i a)])
    (by rw [(epks j).2, (epks i).2]) (congrArg Subtype.val h')
  exact hj (inj (Subtype.ext h2.2))

include hL inj he in
/-- The texts are those with a random one. -/
theorem texts_eq (hu : kOf t1 ∉ textKeys sks jobs h side f) :
    sealedTexts P (fun b => (sks b).publicKey) jobs (Function.update side i a) rngs
        (hashIn sks jobs h i a f t1 t2) (cipherIn sks jobs (epks := epks) i a c e t1 s) =
      textsWithout P (fun b => (sks b).publicKey) jobs i side rngs (epks i) f c e t2 := by
  funext j
  unfold textsWithout
  by_cases hj : j = i
  · subst hj
    rw [if_pos rfl]
    unfold sealedTexts
    rw [Function.update_self]
    have ne : (⟨_, h j a 1⟩ : BytesN (sealInLen v)) ≠ ⟨_, h j a 2⟩ := fun h =>
      absurd (congrArg (fun l : BytesN (sealInLen v) => l.1.head?) h) (by simp [sealKdfInput])
    rw [sealed ((jobs j).key a) (sks ((jobs j).recipient a)).publicKey _ _ (he j a) (h j a 1) (h j a 2)]
    unfold hashIn cipherIn
    rw [Function.update_self, Function.update_of_ne ne, Function.update_self, Function.update_self]
    have ho := out_fixc (P := P) hL (epks j).1 (sealPub P (sks ((jobs j).recipient a)).publicKey)
      (show BytesN 32 from ((jobs j).key a).key) t1 s e
    unfold out Plug.outAt at ho
    rw [ho]
  · rw [if_neg hj]
    unfold sealedTexts
    rw [Function.update_of_ne hj, sealed ((jobs j).key (side j)) (sks ((jobs j).recipient (side j))).publicKey
        _ _ (he j (side j)) (h j (side j) 1) (h j (side j) 2),
      sealed ((jobs j).key (side j)) (sks ((jobs j).recipient (side j))).publicKey f c (he j (side j))
        (h j (side j) 1) (h j (side j) 2)]
    have n11 := inputs_ne sks jobs inj he h i a hj (side j) 1 1
    have n12 := inputs_ne sks jobs inj he h i a hj (side j) 1 2
    have n21 := inputs_ne sks jobs inj he h i a hj (side j) 2 1
    have n22 := inputs_ne sks jobs inj he h i a hj (side j) 2 2
    have hk : kOf (f ⟨_, h j (side j) 1⟩) ≠ kOf t1 := fun h' =>
      hu (h' ▸ List.mem_map.2 ⟨j, List.mem_finRange j, rfl⟩)
    unfold hashIn cipherIn
    rw [Function.update_of_ne n12, Function.update_of_ne n11, Function.update_of_ne n22,
      Function.update_of_ne n21, Function.update_of_ne hk]

include hP he in
/-- A request is answered as without the `i`-th sealing, as long as nothing bad happens. -/
theorem many_answer (b : ι) (q : SealAsk v)
    (ha : ∀ m, q = .hash m → ∀ d, m.1 ≠ sealKdfInput v d (xks i a) (epks i).1
      (sealPub P (sks ((jobs i).recipient a)).publicKey))
    (hf : ∀ x, q = .unseal x →
      ¬ Excluded (textsWithout P (fun b => (sks b).publicKey) jobs i side rngs (epks i) f c e t2)
        (.unseal x : SealAsk v) → HasEphemeral (epks i) x → Meant P (fun b => (sks b).publicKey) jobs i b →
      (∀ e', x ≠ randomText P (epks i) e' t2) ∧
      ∀ key, unsealText (P.withSeal f c) ((sks b).underSeal f c) x ≠ .ok key)
    (hu : kOf t1 ∉ uses (sks b) f q) :
    manyAnswer P sks (hashIn sks jobs h i a f t1 t2) (cipherIn sks jobs (epks := epks) i a c e t1 s)
        (textsWithout P (fun b => (sks b).publicKey) jobs i side rngs (epks i) f c e t2) (b, q) =
      answerWithout P sks jobs i (epks i) f c
        (textsWithout P (fun b => (sks b).publicKey) jobs i side rngs (epks i) f c e t2) (b, q) := by
  generalize htx : textsWithout P (fun b => (sks b).publicKey) jobs i side rngs (epks i) f c e t2 = texts at hf
  have hti : texts i = .ok (randomText P (epks i) e t2) := by
    rw [← htx]; unfold textsWithout; rw [if_pos rfl]
  cases q with
  | hash m =>
    show SealAnswer.hash _ = SealAnswer.hash (f m)
    have n1 : m ≠ ⟨_, h i a 1⟩ := fun h' => ha m rfl 1 (congrArg Subtype.val h')
    have n2 : m ≠ ⟨_, h i a 2⟩ := fun h' => ha m rfl 2 (congrArg Subtype.val h')
    unfold hashIn
    rw [Function.update_of_ne n2, Function.update_of_ne n1]
  | cipher k =>
    show SealAnswer.cipher _ = SealAnswer.cipher (c k)
    have n1 : k ≠ kOf t1 := fun h' => hu (by rw [h']; exact List.mem_singleton.2 rfl)
    unfold cipherIn
    rw [Function.update_of_ne n1]
  | mac ak m => rfl
  | «unseal» x =>
    unfold answerWithout manyAnswer
    dsimp only
    by_cases hx : Excluded texts (.unseal x : SealAsk v)
    · rw [if_pos hx, if_pos hx]
    have hxt : x ≠ randomText P (epks i) e t2 := fun h' => hx ⟨i, by rw [hti, h']⟩
    rw [if_neg hx, if_neg hx, if_neg hx]
    by_cases hmeant : Meant P (fun b => (sks b).publicKey) jobs i b
    · -- one of those meant
      obtain ⟨xk', hxk'⟩ := ephemeral_other _ (sks b).publicKey (he i a)
      let two : Bool → ι := fun | true => (jobs i).recipient a | false => b
      have key := any_answer hP (fun z => sks (two z)) (rng := rngs i)
        (xks := fun | true => xks i a | false => xk') (epk := epks i)
        (fun | true => he i a | false => hxk') true false (h i a 1) (h i a 2) f c e t1 t2
        (fixc P (epks i).1 (sealPub P (sks ((jobs i).recipient a)).publicKey)
          (show BytesN 32 from ((jobs i).key a).key) t1 s e) (.unseal x) ha
        (fun y hy _ hep => by cases hy; exact hf x rfl hx hep hmeant) hu
      unfold idealAnswer sealAnswer at key
      simp only [if_neg hxt] at key
      by_cases hep : HasEphemeral (epks i) x
      · rw [if_pos ⟨hep, hmeant⟩]
        rw [if_pos hep] at key
        exact key
      · rw [if_neg fun h' => hep h'.1]
        rw [if_neg hep] at key
        exact key
    · rw [if_neg fun h' => hmeant h'.2]
      congr 1
      cases hw : SealedKey.parse v x with
      | err er => unfold unsealText; rw [hw]; rfl
      | panic => unfold unsealText; rw [hw]; rfl
      | ok w =>
        have hne : ∀ xk, unsealSecret P (sks b) w.ephemeralPublicKey = some xk → ∀ d d',
            sealKdfInput v d xk w.ephemeralPublicKey.1 (sealPub P (sks b).publicKey) ≠
              sealKdfInput v d' (xks i a) (epks i).1 (sealPub P (sks ((jobs i).recipient a)).publicKey) := by
          intro xk hs d d' h'
          exact hmeant ⟨a, input_pub (by rw [secret_length hs, ephemeral_length (he i a)])
            (by rw [w.ephemeralPublicKey.2, (epks i).2]) h'⟩
        exact unseal_update (sks b) hw ⟨_, h i a 1⟩ ⟨_, h i a 2⟩ t1 t2 f c _
          (fun xk hs d => ⟨hne xk hs d 1, hne xk hs d 2⟩) hu

include hP hL inj he in
theorem game_eq (ask : ManyAsks v L m ι) (n : Nat)
    (hs : ¬ ManyHashed P sks jobs ask n i side a rngs f c e t2)
    (hf : ¬ ManyMade P sks jobs ask n i side rngs f c e t2)
    (hu : kOf t1 ∉ textKeys sks jobs h side f ++
      (gameWithout P sks jobs ask n i side rngs (epks i) f c e t2).2.flatMap fun r => uses (sks r.1) f r.2) :
    sealManyGame P sks jobs ask n (Function.update side i a) rngs (hashIn sks jobs h i a f t1 t2)
        (cipherIn sks jobs (epks := epks) i a c e t1 s) =
      (textsWithout P (fun b => (sks b).publicKey) jobs i side rngs (epks i) f c e t2,
        (gameWithout P sks jobs ask n i side rngs (epks i) f c e t2).1) := by
  rw [List.mem_append, not_or] at hu
  unfold sealManyGame
  dsimp only
  rw [texts_eq hL sks jobs inj he h side i a f c e t1 t2 s hu.1]
  have hu2 := hu.2
  unfold gameWithout at hu2 ⊢
  dsimp only at hu2 ⊢
  rw [dialog_congr (answerWithout P sks jobs i (epks i) f c _) _ _ n []]
  rintro ⟨b, q⟩ hb
  refine many_answer hP sks jobs he h side i a f c e t1 t2 s b q ?_ ?_ ?_
  · rintro m rfl d hm
    exact hs ⟨xks i a, epks i, he i a, m, List.mem_map.2 ⟨_, hb, rfl⟩, d, hm⟩
  · rintro x rfl hx hep hme
    exact ⟨fun e' hx' => hf ⟨a, _, _, he i a, b, x, hb, hx, hep, hme, .inl ⟨e', hx'⟩⟩,
      fun key hk => hf ⟨a, _, _, he i a, b, x, hb, hx, hep, hme, .inr ⟨key, hk⟩⟩⟩
  · intro h'
    exact hu2 (List.mem_flatMap.2 ⟨_, hb, h'⟩)

end

/-- One text is replaced, tapes given. -/
theorem one_tape (hP : P.Laws) (hL : 32 ≤ L) (sks : ι → Key P v .Secret) (jobs : Fin m → SealJob P v ι)
    {rngs : Fin m → Rng} (hr : GoodTapes P (fun b => (sks b).publicKey) jobs rngs) (side : Fin m → Side)
    (i : Fin m) (ask : ManyAsks v L m ι) (n : Nat)
    (D : (Fin m → Res Bytes) × List (SealAnswer v L) → Prop) :
    |fractionOf (fun x : SealHash v × CipherOf v L =>
          D (sealManyGame P sks jobs ask n (Function.update side i .left) rngs x.1 x.2)) -
        fractionOf (fun x : SealHash v × CipherOf v L =>
          D (sealManyGame P sks jobs ask n (Function.update side i .right) rngs x.1 x.2))| ≤
      fractionOf (fun y : SealHash v × CipherOf v L × BytesN 32 × BytesN (pkeTagLen v) =>
        (ManyHashed P sks jobs ask n i side .left rngs y.1 y.2.1 y.2.2.1 y.2.2.2 ∨
          ManyHashed P sks jobs ask n i side .right rngs y.1 y.2.1 y.2.2.1 y.2.2.2) ∨
        ManyMade P sks jobs ask n i side rngs y.1 y.2.1 y.2.2.1 y.2.2.2) +
      (m + n) / 2 ^ 256 := by
  obtain ⟨epks, inj, hx⟩ := hr
  choose xks he using hx
  have h : ∀ (i : Fin m) (a : Side) (d : UInt8), (sealKdfInput v d (xks i a) (epks i).1
      (sealPub P (sks ((jobs i).recipient a)).publicKey)).length = sealInLen v :=
    fun i a d => input_length (v := v) d (ephemeral_length (he i a)) (epks i).2 (sealPub_length _)
  have e256 : ((m : ℚ) + n) / 2 ^ 256 = ((m + n : Nat) : ℚ) / (256 ^ 32 : Nat) := by
    push_cast; norm_num
  rw [e256]
  simp only [fraction_count]
  refine Plug.close_sides (I := BytesN (sealInLen v)) (T := BytesN (pkeTagLen v)) (K := BytesN 32)
    (S := OneCipher v L) (E := BytesN 32) kOf (fun a => ⟨_, h i a 1⟩) (fun a => ⟨_, h i a 2⟩)
    (256 ^ (pkeTagLen v - 32)) (256 ^ 32) (m + n)
    (fun a t s e => fixc P (epks i).1 (sealPub P (sks ((jobs i).recipient a)).publicKey)
      (show BytesN 32 from ((jobs i).key a).key) t s e)
    (fun a t s => out P (epks i).1 (sealPub P (sks ((jobs i).recipient a)).publicKey)
      (show BytesN 32 from ((jobs i).key a).key) t s)
    (fun a t s e => out_fixc hL _ _ _ t s e) (fun a t s e => fixc_fixc hL _ _ _ t s e)
    kOf_count (split_card v) (Nat.pow_pos (by decide)) (Nat.pow_pos (by decide)) Fintype.card_pos
    (Fintype.card_pos_iff.2 ⟨k0⟩)
    (fun a x => D (sealManyGame P sks jobs ask n (Function.update side i a) rngs x.1 x.2))
    (fun y => D (textsWithout P (fun b => (sks b).publicKey) jobs i side rngs (epks i) y.1 y.2.1 y.2.2.1
        y.2.2.2, (gameWithout P sks jobs ask n i side rngs (epks i) y.1 y.2.1 y.2.2.1 y.2.2.2).1)) _
    (fun y => textKeys sks jobs h side y.1 ++
      (gameWithout P sks jobs ask n i side rngs (epks i) y.1 y.2.1 y.2.2.1 y.2.2.2).2.flatMap
        fun r => uses (sks r.1) y.1 r.2) ?_ ?_
  · intro y
    rw [List.length_append, textKeys_length]
    exact Nat.add_le_add_left (Nat.le_trans (flat_length (fun r : ι × SealAsk v => uses (sks r.1) y.1 r.2)
      (fun r => uses_length (sks r.1) y.1 r.2) _) (dialog_length _ _ _ _)) _
  · intro a f c e t2 t1 s hb ht
    have hg := game_eq hP hL sks jobs inj he h side i a f c e t1 t2 s ask n
      (fun hh => hb (.inl (by cases a; exacts [.inl hh, .inr hh]))) (fun hh => hb (.inr hh)) ht
    show D (sealManyGame P sks jobs ask n _ rngs _ _) ↔ _
    rw [← hg]
    exact Iff.rfl

/-- One text is replaced. -/
theorem on_tapes (hP : P.Laws) (hL : 32 ≤ L) (sks : ι → Key P v .Secret) (jobs : Fin m → SealJob P v ι)
    (R : Finset (Fin m → Rng)) (hR : ∀ rngs ∈ R, GoodTapes P (fun b => (sks b).publicKey) jobs rngs)
    (side : Fin m → Side) (i : Fin m) (ask : ManyAsks v L m ι) (n : Nat)
    (D : (Fin m → Res Bytes) × List (SealAnswer v L) → Prop) :
    |fractionOf (fun x : R × SealHash v × CipherOf v L =>
          D (sealManyGame P sks jobs ask n (Function.update side i .left) x.1 x.2.1 x.2.2)) -
        fractionOf (fun x : R × SealHash v × CipherOf v L =>
          D (sealManyGame P sks jobs ask n (Function.update side i .right) x.1 x.2.1 x.2.2))| ≤
      fractionOf (fun y : R × SealHash v × CipherOf v L × BytesN 32 × BytesN (pkeTagLen v) =>
        (ManyHashed P sks jobs ask n i side .left y.1 y.2.1 y.2.2.1 y.2.2.2.1 y.2.2.2.2 ∨
          ManyHashed P sks jobs ask n i side .right y.1 y.2.1 y.2.2.1 y.2.2.2.1 y.2.2.2.2) ∨
        ManyMade P sks jobs ask n i side y.1 y.2.1 y.2.2.1 y.2.2.2.1 y.2.2.2.2) +
      (m + n) / 2 ^ 256 := by
  rw [fraction_prod, fraction_prod, fraction_prod]
  exact average _ _ _ _ (by positivity) fun r => one_tape hP hL sks jobs (hR r.1 r.2) side i ask n D

theorem before_left (i : Fin m) : Function.update (rightBefore m i.1) i .left = rightBefore m i.1 := by
  funext j
  by_cases hj : j = i
  · subst hj
    rw [Function.update_self]
    simp [rightBefore]
  · rw [Function.update_of_ne hj]

theorem before_right (i : Fin m) :
    Function.update (rightBefore m i.1) i .right = rightBefore m (i.1 + 1) := by
  funext j
  by_cases hj : j = i
  · subst hj
    rw [Function.update_self]
    simp [rightBefore]
  · rw [Function.update_of_ne hj]
    have : j.1 ≠ i.1 := fun h => hj (Fin.ext h)
    unfold rightBefore
    by_cases h : j.1 < i.1
    · rw [if_pos h, if_pos (by omega)]
    · rw [if_neg h, if_neg (by omega)]

/-- From one step to all. -/
theorem telescope (g : Nat → ℚ) (b : Fin m → ℚ) (h : ∀ i : Fin m, |g i.1 - g (i.1 + 1)| ≤ b i) :
    |g 0 - g m| ≤ ∑ i, b i := by
  induction m with
  | zero => simp
  | succ m ih =>
    rw [Fin.sum_univ_castSucc]
    have h1 := ih (fun i => b i.castSucc) fun i => h i.castSucc
    have h2 := h (Fin.last m)
    have e : g 0 - g (m + 1) = (g 0 - g m) + (g m - g (m + 1)) := by ring
    rw [e]
    exact le_trans (abs_add_le _ _) (add_le_add h1 h2)

theorem before_zero : rightBefore m 0 = fun _ => .left := by
  funext j; simp [rightBefore]

theorem before_all : rightBefore m m = fun _ => .right := by
  funext j; simp [rightBefore]

open Finset in
/-- C98. Whoever sees `m` keys sealed for any recipients, all as on the left or all as on the right,
computes hash and cipher and has other texts unsealed by anyone, in at most `n` requests chosen as they
like, learns which of the two it is at most as well as they, in games without one of the sealings, hash
the secret shared with its recipient or make another text with its ephemeral key that its recipient
accepts; and otherwise by guessing a cipher key. -/
theorem which_many (hP : P.Laws) (hL : 32 ≤ L) (sks : ι → Key P v .Secret) (jobs : Fin m → SealJob P v ι)
    (R : Finset (Fin m → Rng)) (hR : ∀ rngs ∈ R, GoodTapes P (fun b => (sks b).publicKey) jobs rngs)
    (ask : ManyAsks v L m ι) (n : Nat) (D : (Fin m → Res Bytes) × List (SealAnswer v L) → Prop) :
    |fractionOf (fun x : R × SealHash v × CipherOf v L =>
          D (sealManyGame P sks jobs ask n (fun _ => .left) x.1 x.2.1 x.2.2)) -
        fractionOf (fun x : R × SealHash v × CipherOf v L =>
          D (sealManyGame P sks jobs ask n (fun _ => .right) x.1 x.2.1 x.2.2))| ≤
      ∑ i : Fin m,
        (fractionOf (fun y : R × SealHash v × CipherOf v L × BytesN 32 × BytesN (pkeTagLen v) =>
            ManyHashed P sks jobs ask n i (rightBefore m i) .left y.1 y.2.1 y.2.2.1 y.2.2.2.1 y.2.2.2.2) +
          fractionOf (fun y : R × SealHash v × CipherOf v L × BytesN 32 × BytesN (pkeTagLen v) =>
            ManyHashed P sks jobs ask n i (rightBefore m i) .right y.1 y.2.1 y.2.2.1 y.2.2.2.1 y.2.2.2.2) +
          fractionOf (fun y : R × SealHash v × CipherOf v L × BytesN 32 × BytesN (pkeTagLen v) =>
            ManyMade P sks jobs ask n i (rightBefore m i) y.1 y.2.1 y.2.2.1 y.2.2.2.1 y.2.2.2.2)) +
        m * (m + n) / 2 ^ 256 := by
  have e : (m : ℚ) * (m + n) / 2 ^ 256 = ∑ _ : Fin m, ((m : ℚ) + n) / 2 ^ 256 := by
    rw [sum_const, card_univ, Fintype.card_fin, nsmul_eq_mul, mul_div_assoc]
  rw [e, ← sum_add_distrib, ← before_zero, ← before_all]
  refine telescope (m := m) (fun k => fractionOf (fun x : R × SealHash v × CipherOf v L =>
    D (sealManyGame P sks jobs ask n (rightBefore m k) x.1 x.2.1 x.2.2))) _ fun i => ?_
  have h := on_tapes hP hL sks jobs R hR (rightBefore m i.1) i ask n D
  rw [before_left, before_right] at h
  exact le_trans h (add_le_add_left (le_trans (fraction_or _ _) (add_le_add_left (fraction_or _ _) _)) _)

/-! ### Without requests to unseal -/

theorem not_asked (ans : ι × SealAsk v → SealAnswer v L)
    (ask : List (SealAnswer v L) → Option (ι × SealAsk v))
    (hask : ∀ seen b s, ask seen ≠ some (b, .unseal s)) (b : ι) (s : Bytes) (n : Nat) :
    ∀ seen, (b, SealAsk.unseal s) ∉ (dialog ans ask n seen).2 := by
  induction n with
  | zero => intro seen h; cases h
  | succ n ih =>
    intro seen h
    unfold dialog at h
    cases ha : ask seen with
    | none => rw [ha] at h; cases h
    | some a =>
      rw [ha] at h
      rcases List.mem_cons.1 h with h | h
      · exact hask seen b s (by rw [ha, h])
      · exact ih _ h

/-- Whoever makes no request to unseal asks what they would ask of someone without the secret keys. -/
theorem asked_outsider (sks : ι → Key P v .Secret) (jobs : Fin m → SealJob P v ι) (ask : ManyAsks v L m ι)
    (hask : ∀ texts seen b s, ask texts seen ≠ some (b, .unseal s)) (n : Nat) (i : Fin m)
    (side : Fin m → Side) (rngs : Fin m → Rng) (epk : BytesN (pkeEpkLen v)) (f : SealHash v)
    (c : CipherOf v L) (edk : BytesN 32) (ak : BytesN (pkeTagLen v)) :
    (gameWithout P sks jobs ask n i side rngs epk f c edk ak).2 =
      outsiderAsked P (fun b => (sks b).publicKey) jobs ask n i side rngs epk f c edk ak := by
  unfold gameWithout outsiderAsked
  dsimp only
  rw [dialog_congr _ _ _ n []]
  rintro ⟨b, a⟩ ha
  cases a with
  | hash m => rfl
  | cipher k => rfl
  | mac ak m => rfl
  | «unseal» s => exact absurd ha (not_asked _ _ (hask _) b s _ _)

/-- The hash of the shared secret shows the shared secret. -/
theorem secret_shown (sks : ι → Key P v .Secret) (jobs : Fin m → SealJob P v ι) (ask : ManyAsks v L m ι)
    (hask : ∀ texts seen b s, ask texts seen ≠ some (b, .unseal s)) (n : Nat) (i : Fin m)
    (side : Fin m → Side) (rngs : Fin m → Rng) (xk : Bytes) (hx : xk.length = xkLen v)
    (epk : BytesN (pkeEpkLen v)) (pk : Key P v .Public) (f : SealHash v) (c : CipherOf v L)
    (edk : BytesN 32) (ak : BytesN (pkeTagLen v))
    (h : SecretHashed P pk xk epk
      ((gameWithout P sks jobs ask n i side rngs epk f c edk ak).2.map Prod.snd)) :
    ∃ k < n, secretFromMany P (fun b => (sks b).publicKey) jobs ask n i side rngs epk f c edk ak k =
      some xk := by
  obtain ⟨m, hm, d, hd⟩ := h
  obtain ⟨⟨b, q⟩, hm, hq⟩ := List.mem_map.1 hm
  have hlen : (gameWithout P sks jobs ask n i side rngs epk f c edk ak).2.length ≤ n :=
    dialog_length _ _ _ _
  rw [asked_outsider sks jobs ask hask] at hm hlen
  obtain ⟨k, hk, he⟩ := List.mem_iff_getElem.1 hm
  refine ⟨k, Nat.lt_of_lt_of_le hk hlen, ?_⟩
  unfold secretFromMany
  rw [List.getElem?_eq_getElem hk, he]
  change q = .hash m at hq
  subst hq
  dsimp only
  rw [hd]
  have hh : (Spec.sealHeader v).length = 8 := by cases v <;> rfl
  unfold sealKdfInput
  rw [List.append_assoc, List.append_assoc, List.drop_succ_cons, List.drop_left' hh, List.take_left' hx]

open Finset in
theorem fraction_exists {α : Type} [Fintype α] (n : Nat) (A : α → Prop) (B : Nat → α → Prop)
    (h : ∀ x, A x → ∃ k < n, B k x) : fractionOf A ≤ ∑ k ∈ range n, fractionOf (B k) := by
  classical
  unfold fractionOf
  rw [← Finset.sum_div]
  refine div_le_div_of_nonneg_right ?_ (Nat.cast_nonneg _)
  rw [← Nat.cast_sum]
  refine Nat.cast_le.2 (le_trans (card_le_card ?_) card_biUnion_le)
  intro x hx
  obtain ⟨k, hk, hb⟩ := h x (mem_filter.1 hx).2
  exact mem_biUnion.2 ⟨k, mem_range.2 hk, mem_filter.2 ⟨mem_univ _, hb⟩⟩

open Finset in
theorem hashed_secret (sks : ι → Key P v .Secret) (jobs : Fin m → SealJob P v ι) (R : Finset (Fin m → Rng))
    (ask : ManyAsks v L m ι) (hask : ∀ texts seen b s, ask texts seen ≠ some (b, .unseal s)) (n : Nat)
    (side : Fin m → Side) (i : Fin m) (a : Side) :
    fractionOf (fun y : R × SealHash v × CipherOf v L × BytesN 32 × BytesN (pkeTagLen v) =>
        ManyHashed P sks jobs ask n i side a y.1 y.2.1 y.2.2.1 y.2.2.2.1 y.2.2.2.2) ≤
      ∑ k ∈ range n,
        fractionOf (fun y : R × SealHash v × CipherOf v L × BytesN 32 × BytesN (pkeTagLen v) => ∃ xk epk,
          ephemeral P (sks ((jobs i).recipient a)).publicKey (y.1.1 i) = some (xk, epk) ∧
          secretFromMany P (fun b => (sks b).publicKey) jobs ask n i side y.1 epk y.2.1
            y.2.2.1 y.2.2.2.1 y.2.2.2.2 k = some xk) := by
  refine fraction_exists n _ _ ?_
  rintro y ⟨xk, epk, he, hs⟩
  obtain ⟨k, hk, h⟩ := secret_shown sks jobs ask hask n i _ _ xk (ephemeral_length he) epk _ _ _ _ _ hs
  exact ⟨k, hk, xk, epk, he, h⟩

theorem none_made (sks : ι → Key P v .Secret) (jobs : Fin m → SealJob P v ι) (R : Finset (Fin m → Rng))
    (ask : ManyAsks v L m ι) (hask : ∀ texts seen b s, ask texts seen ≠ some (b, .unseal s)) (n : Nat)
    (side : Fin m → Side) (i : Fin m) :
    fractionOf (fun y : R × SealHash v × CipherOf v L × BytesN 32 × BytesN (pkeTagLen v) =>
      ManyMade P sks jobs ask n i side y.1 y.2.1 y.2.2.1 y.2.2.2.1 y.2.2.2.2) = 0 := by
  refine fraction_none ?_
  rintro x ⟨a, xk, epk, -, b, s, hs, -⟩
  exact not_asked _ _ (hask _) b s _ _ hs

open Finset in
/-- Without requests to unseal: telling many sealed keys apart is computing the Diffie–Hellman secret of
one of the public keys and a fresh ephemeral public key. The one who computes it runs the other without
any secret key, seals all keys but one themselves, shows a random text in place of that one, and returns
part of one of the `n` requests. -/
theorem which_many_diffie_hellman (hP : P.Laws) (hL : 32 ≤ L) (sks : ι → Key P v .Secret)
    (jobs : Fin m → SealJob P v ι) (R : Finset (Fin m → Rng))
    (hR : ∀ rngs ∈ R, GoodTapes P (fun b => (sks b).publicKey) jobs rngs)
    (ask : ManyAsks v L m ι) (hask : ∀ texts seen b s, ask texts seen ≠ some (b, .unseal s)) (n : Nat)
    (D : (Fin m → Res Bytes) × List (SealAnswer v L) → Prop) :
    |fractionOf (fun x : R × SealHash v × CipherOf v L =>
          D (sealManyGame P sks jobs ask n (fun _ => .left) x.1 x.2.1 x.2.2)) -
        fractionOf (fun x : R × SealHash v × CipherOf v L =>
          D (sealManyGame P sks jobs ask n (fun _ => .right) x.1 x.2.1 x.2.2))| ≤
      ∑ i : Fin m, ∑ a ∈ {Side.left, Side.right}, ∑ k ∈ range n,
        fractionOf (fun y : R × SealHash v × CipherOf v L × BytesN 32 × BytesN (pkeTagLen v) => ∃ xk epk,
          ephemeral P (sks ((jobs i).recipient a)).publicKey (y.1.1 i) = some (xk, epk) ∧
          secretFromMany P (fun b => (sks b).publicKey) jobs ask n i (rightBefore m i) y.1 epk y.2.1
            y.2.2.1 y.2.2.2.1 y.2.2.2.2 k = some xk) +
        m * (m + n) / 2 ^ 256 := by
  refine le_trans (which_many hP hL sks jobs R hR ask n D) (add_le_add_left (sum_le_sum fun i _ => ?_) _)
  rw [none_made sks jobs R ask hask, add_zero, sum_pair (by decide)]
  exact add_le_add (hashed_secret sks jobs R ask hask n _ i .left)
    (hashed_secret sks jobs R ask hask n _ i .right)

/-! ### Random tags -/

section tags

open C88 (tag_with tag_congr laws_with ephemeral_with pub_with secret_with ivOf_with stream1_with usesAk
  usesAk_length unseal_tags tagged_length guess guess_length)
open C97 (tag_bound nb few key_bijective)

variable {M : Nat}

/-- The recipients when the MAC is exchanged. -/
abbrev under (sks : ι → Key P v .Secret) (T : SealMac v M) : ι → Key (P.withSealMac v T) v .Secret :=
  fun b => (sks b).underMac T

/-- The sealings when the MAC is exchanged. -/
abbrev jobsUnder (jobs : Fin m → SealJob P v ι) (T : SealMac v M) :
    Fin m → SealJob (P.withSealMac v T) v ι :=
  fun j => (jobs j).underMac T

/-- Unsealing does not change with the hash where it is not used. -/
theorem unseal_hash (sk : Key P v .Secret) {s : Bytes} {w : SealedKey v}
    (hw : SealedKey.parse v s = .ok w) (x : BytesN (sealInLen v)) (t : BytesN (pkeTagLen v))
    (f : SealHash v) (c : CipherOf v L)
    (hne : ∀ xk, unsealSecret P sk w.ephemeralPublicKey = some xk → ∀ d,
      sealKdfInput v d xk w.ephemeralPublicKey.1 (sealPub P sk.publicKey) ≠ x.1) :
    unsealText (P.withSeal (Function.update f x t) c) (sk.underSeal _ c) s =
      unsealText (P.withSeal f c) (sk.underSeal f c) s := by
  cases hs : unsealSecret P sk w.ephemeralPublicKey with
  | none => rw [(unsealed sk _ _ hw).1 hs, (unsealed sk _ _ hw).1 hs]
  | some xk =>
    have hl := secret_length hs
    have hp : (sealPub P sk.publicKey).length = pkeEpkLen v := sealPub_length _
    have g1 := input_length (v := v) 1 hl w.ephemeralPublicKey.2 hp
    have g2 := input_length (v := v) 2 hl w.ephemeralPublicKey.2 hp
    have n1 : (⟨_, g1⟩ : BytesN (sealInLen v)) ≠ x := fun h => hne xk hs 1 (congrArg Subtype.val h)
    have n2 : (⟨_, g2⟩ : BytesN (sealInLen v)) ≠ x := fun h => hne xk hs 2 (congrArg Subtype.val h)
    rw [(unsealed sk _ _ hw).2 xk hs g1 g2, (unsealed sk _ _ hw).2 xk hs g1 g2,
      Function.update_of_ne n1, Function.update_of_ne n2]

variable (sks : ι → Key P v .Secret) (jobs : Fin m → SealJob P v ι) (ask : ManyAsks v L m ι) (n : Nat)
  (i : Fin m) (side : Fin m → Side)

theorem meant_with (T : SealMac v M) (b : ι) :
    Meant (P.withSealMac v T) (fun b => (under sks T b).publicKey) (jobsUnder jobs T) i b ↔
      Meant P (fun b => (sks b).publicKey) jobs i b := by
  unfold Meant
  simp only [pub_with]
  exact Iff.rfl

/-- The texts, when the `i`-th tag and all other tags are given. -/
def textsWith (rngs : Fin m → Rng) (epk : BytesN (pkeEpkLen v)) (f : SealHash v) (c : CipherOf v L)
    (edk : BytesN 32) (z : BytesN (pkeTagLen v)) (T : SealMac v M) : Fin m → Res Bytes := fun j =>
  if j = i then .ok (paserkText v (asc "seal") (z.1 ++ epk.1 ++ edk.1))
  else sealedTexts (P.withSealMac v T) (fun b => (under sks T b).publicKey) (jobsUnder jobs T) side rngs f c j

/-- The requests, when the `i`-th tag and all other tags are given. -/
noncomputable def askedWith (rngs : Fin m → Rng) (epk : BytesN (pkeEpkLen v)) (f : SealHash v)
    (c : CipherOf v L) (edk : BytesN 32) (z : BytesN (pkeTagLen v)) (T : SealMac v M) : List (ι × SealAsk v) :=
  let texts := textsWith sks jobs i side rngs epk f c edk z T
  (dialog (answerWithout (P.withSealMac v T) (under sks T) (jobsUnder jobs T) i epk f c texts) (ask texts) n
    []).2

theorem game_with (rngs : Fin m → Rng) (epk : BytesN (pkeEpkLen v)) (f : SealHash v) (c : CipherOf v L)
    (edk : BytesN 32) (ak : BytesN (pkeTagLen v)) (T : SealMac v M) :
    (gameWithout (P.withSealMac v T) (under sks T) (jobsUnder jobs T) ask n i side rngs epk f c edk ak).2 =
      askedWith sks jobs ask n i side rngs epk f c edk (sealMac (P.withSealMac v T) ak epk edk) T := rfl

/-- The authentication keys used by answers. -/
noncomputable def usedBy (f : SealHash v) (l : List (ι × SealAsk v)) : List (BytesN (pkeTagLen v)) :=
  l.flatMap fun r => usesAk (sks r.1) f r.2

/-- The guesses at tags. -/
noncomputable def guessedBy (hM : 89 ≤ M) (l : List (ι × SealAsk v)) :
    List (ShortBytes M × BytesN (pkeTagLen v)) :=
  l.flatMap fun r => guess hM r.2

theorem usedBy_length (f : SealHash v) {l : List (ι × SealAsk v)} (h : l.length ≤ n) :
    (usedBy sks f l).length ≤ n :=
  Nat.le_trans (flat_length (fun r : ι × SealAsk v => usesAk (sks r.1) f r.2)
    (fun r => usesAk_length (sks r.1) f r.2) _) h

theorem guessedBy_length (hM : 89 ≤ M) {l : List (ι × SealAsk v)} (h : l.length ≤ n) :
    (guessedBy hM l).length ≤ n :=
  Nat.le_trans (flat_length (fun r : ι × SealAsk v => guess hM r.2) (fun r => guess_length hM r.2) _) h

theorem guess_mem (hM : 89 ≤ M) {l : List (ι × SealAsk v)} {b : ι} {s : Bytes}
    (hs : (b, SealAsk.unseal s) ∈ l) {w : SealedKey v} (hw : SealedKey.parse v s = .ok w) :
    ((⟨sealTagged v w.ephemeralPublicKey.1 w.encryptedDataKey.1, tag_bound hM _ _⟩, w.tag) :
      ShortBytes M × BytesN (pkeTagLen v)) ∈ guessedBy hM l := by
  refine List.mem_flatMap.2 ⟨_, hs, ?_⟩
  unfold guess
  dsimp only
  rw [hw]
  exact List.mem_singleton.2 rfl

/-- Another text was made with the authentication key of the `i`-th one. -/
def Forged (rngs : Fin m → Rng) (f : SealHash v) (c : CipherOf v L) (edk : BytesN 32)
    (ak : BytesN (pkeTagLen v)) : Prop :=
  ∃ a xk epk, ephemeral P (sks ((jobs i).recipient a)).publicKey (rngs i) = some (xk, epk) ∧
    ∃ b s, (b, SealAsk.unseal s) ∈ (gameWithout P sks jobs ask n i side rngs epk f c edk ak).2 ∧
      s ≠ randomText P epk edk ak ∧ ∃ edk', s = randomText P epk edk' ak

/-- Another text was made that someone accepts who has the public key of a recipient, without hashing the
shared secret. -/
def Accepted (a : Side) (rngs : Fin m → Rng) (f : SealHash v) (c : CipherOf v L) (edk : BytesN 32)
    (ak : BytesN (pkeTagLen v)) : Prop :=
  ∃ xk epk, ephemeral P (sks ((jobs i).recipient a)).publicKey (rngs i) = some (xk, epk) ∧
    ¬ SecretHashed P (sks ((jobs i).recipient a)).publicKey xk epk
      ((gameWithout P sks jobs ask n i side rngs epk f c edk ak).2.map Prod.snd) ∧
    ∃ b s, sealPub P (sks b).publicKey = sealPub P (sks ((jobs i).recipient a)).publicKey ∧
      (b, SealAsk.unseal s) ∈ (gameWithout P sks jobs ask n i side rngs epk f c edk ak).2 ∧
      HasEphemeral epk s ∧ ∃ key, unsealText (P.withSeal f c) ((sks b).underSeal f c) s = .ok key

theorem made_cases {rngs : Fin m → Rng} {f : SealHash v} {c : CipherOf v L} {edk : BytesN 32}
    {ak : BytesN (pkeTagLen v)} (h : ManyMade P sks jobs ask n i side rngs f c edk ak) :
    Forged (P := P) sks jobs ask n i side rngs f c edk ak ∨
      ∃ a, ManyHashed P sks jobs ask n i side a rngs f c edk ak ∨
        Accepted (P := P) sks jobs ask n i side a rngs f c edk ak := by
  obtain ⟨a, xk, epk, he, b, s, hs, hne, hep, ⟨a', hb⟩, h | h⟩ := h
  · refine .inl ⟨a, xk, epk, he, b, s, hs, fun h' => hne ⟨i, ?_⟩, h⟩
    unfold textsWithout
    rw [if_pos rfl, h']
  · obtain ⟨xk', he'⟩ := ephemeral_other _ (sks ((jobs i).recipient a')).publicKey he
    refine .inr ⟨a', ?_⟩
    by_cases hh : SecretHashed P (sks ((jobs i).recipient a')).publicKey xk' epk
        ((gameWithout P sks jobs ask n i side rngs epk f c edk ak).2.map Prod.snd)
    · exact .inl ⟨xk', epk, he', hh⟩
    · exact .inr ⟨xk', epk, he', hh, b, s, hb, hs, hep, h⟩

section

variable {rngs : Fin m → Rng} {xks : Fin m → Side → Bytes} {epks : Fin m → BytesN (pkeEpkLen v)}
  (inj : Function.Injective epks)
  (he : ∀ i a, ephemeral P (sks ((jobs i).recipient a)).publicKey (rngs i) = some (xks i a, epks i))
  (h : ∀ (i : Fin m) (a : Side) (d : UInt8), (sealKdfInput v d (xks i a) (epks i).1
    (sealPub P (sks ((jobs i).recipient a)).publicKey)).length = sealInLen v)

/-- The authentication keys of the texts. -/
def textAks (f : SealHash v) : List (BytesN (pkeTagLen v)) :=
  (List.finRange m).map fun j => f ⟨_, h j (side j) 2⟩

theorem textAks_length (f : SealHash v) : (textAks sks jobs side h f).length = m := by
  simp [textAks]

include he in
/-- A text, whatever the MAC. -/
theorem text_with (f : SealHash v) (c : CipherOf v L) (T : SealMac v M) (j : Fin m) :
    sealedTexts (P.withSealMac v T) (fun b => (under sks T b).publicKey) (jobsUnder jobs T) side rngs f c j =
      .ok (randomText (P.withSealMac v T) (epks j) (applyKeystreamN (stream1 P (c (kOf (f ⟨_, h j (side j) 1⟩)))
        (ivOf P (epks j).1 (sealPub P (sks ((jobs j).recipient (side j))).publicKey)
          (f ⟨_, h j (side j) 1⟩))) (show BytesN 32 from ((jobs j).key (side j)).key))
        (f ⟨_, h j (side j) 2⟩)) := by
  have hs := sealed (((jobs j).key (side j)).underMac T) (under sks T ((jobs j).recipient (side j))).publicKey
    f c (by rw [ephemeral_with]; exact he j (side j)) (by rw [pub_with]; exact h j (side j) 1)
    (by rw [pub_with]; exact h j (side j) 2)
  have hk : (show BytesN 32 from (((jobs j).key (side j)).underMac T).key) =
      (show BytesN 32 from ((jobs j).key (side j)).key) := by cases v <;> rfl
  simp only [pub_with, ivOf_with, stream1_with] at hs
  rw [← hk]
  exact hs

include he in
/-- Other tags under one key do not change what is asked as long as that key is not used. -/
theorem asked_row (f : SealHash v) (c : CipherOf v L) (edk : BytesN 32)
    (z : BytesN (pkeTagLen v)) (T : SealMac v M) (k : BytesN (pkeTagLen v))
    (row : ShortBytes M → BytesN (pkeTagLen v)) (hk : k ∉ textAks sks jobs side h f)
    (hk' : k ∉ usedBy sks f (askedWith sks jobs ask n i side rngs (epks i) f c edk z T)) :
    askedWith sks jobs ask n i side rngs (epks i) f c edk z (Function.update T k row) =
      askedWith sks jobs ask n i side rngs (epks i) f c edk z T := by
  have ht : textsWith sks jobs i side rngs (epks i) f c edk z (Function.update T k row) =
      textsWith sks jobs i side rngs (epks i) f c edk z T := by
    funext j
    unfold textsWith
    by_cases hj : j = i
    · rw [if_pos hj, if_pos hj]
    · rw [if_neg hj, if_neg hj, text_with sks jobs side he h, text_with sks jobs side he h]
      unfold randomText sealMac
      rw [tag_congr T]
      refine Function.update_of_ne (fun h' => hk ?_) _ _
      rw [← h']
      exact List.mem_map.2 ⟨j, List.mem_finRange j, rfl⟩
  unfold askedWith at hk' ⊢
  dsimp only at hk' ⊢
  rw [ht, dialog_congr]
  rintro ⟨b, q⟩ hq
  have hu : k ∉ usesAk (sks b) f q := fun h' => hk' (List.mem_flatMap.2 ⟨_, hq, h'⟩)
  cases q with
  | hash m => rfl
  | cipher key => rfl
  | mac key m =>
    show SealAnswer.mac _ = SealAnswer.mac _
    rw [tag_congr]
    exact Function.update_of_ne (fun h => hu (List.mem_singleton.2 h.symm)) _ _
  | «unseal» s =>
    unfold answerWithout manyAnswer
    dsimp only
    rw [unseal_tags T (sks b) f c k row s hu]
    by_cases hep : HasEphemeral (epks i) s ∧ Meant P (fun b => (sks b).publicKey) jobs i b
    · rw [if_pos (c := HasEphemeral (epks i) s ∧ _) ⟨hep.1, (meant_with sks jobs i _ b).2 hep.2⟩,
        if_pos (c := HasEphemeral (epks i) s ∧ _) ⟨hep.1, (meant_with sks jobs i _ b).2 hep.2⟩]
    · rw [if_neg (c := HasEphemeral (epks i) s ∧ _) fun h' => hep ⟨h'.1, (meant_with sks jobs i _ b).1 h'.2⟩,
        if_neg (c := HasEphemeral (epks i) s ∧ _) fun h' => hep ⟨h'.1, (meant_with sks jobs i _ b).1 h'.2⟩]

/-- Where the authentication key of a recipient comes from. -/
noncomputable def keyInput (a : Side) (rngs : Fin m → Rng) : BytesN (sealInLen v) :=
  let m := match ephemeral P (sks ((jobs i).recipient a)).publicKey (rngs i) with
    | some (xk, epk) => sealKdfInput v 2 xk epk.1 (sealPub P (sks ((jobs i).recipient a)).publicKey)
    | none => []
  if h : m.length = sealInLen v then ⟨m, h⟩ else ⟨List.replicate _ 0, List.length_replicate⟩

include he in
theorem keyInput_eq (a : Side) : keyInput sks jobs i a rngs = ⟨_, h i a 2⟩ := by
  unfold keyInput
  simp only [he i a, dif_pos (h i a 2)]

include inj he in
/-- Another authentication key of a recipient does not change what is asked as long as the shared secret
is not hashed. -/
theorem asked_key (T : SealMac v M) (a : Side) (f : SealHash v) (c : CipherOf v L)
    (edk : BytesN 32) (z : BytesN (pkeTagLen v)) (k : BytesN (pkeTagLen v))
    (hn : ¬ SecretHashed P (sks ((jobs i).recipient a)).publicKey (xks i a) (epks i)
      ((askedWith sks jobs ask n i side rngs (epks i) (Function.update f ⟨_, h i a 2⟩ k) c edk z T).map
        Prod.snd)) :
    askedWith sks jobs ask n i side rngs (epks i) f c edk z T =
      askedWith sks jobs ask n i side rngs (epks i) (Function.update f ⟨_, h i a 2⟩ k) c edk z T := by
  have ht : textsWith sks jobs i side rngs (epks i) f c edk z T =
      textsWith sks jobs i side rngs (epks i) (Function.update f ⟨_, h i a 2⟩ k) c edk z T := by
    funext j
    unfold textsWith
    by_cases hj : j = i
    · rw [if_pos hj, if_pos hj]
    · rw [if_neg hj, if_neg hj, text_with sks jobs side he h, text_with sks jobs side he h,
        Function.update_of_ne (inputs_ne sks jobs inj he h i a hj (side j) 1 2),
        Function.update_of_ne (inputs_ne sks jobs inj he h i a hj (side j) 2 2)]
  unfold askedWith at hn ⊢
  dsimp only at hn ⊢
  rw [ht]
  generalize textsWith sks jobs i side rngs (epks i) (Function.update f ⟨_, h i a 2⟩ k) c edk z T = texts at hn
  rw [dialog_congr (answerWithout (P.withSealMac v T) (under sks T) (jobsUnder jobs T) i (epks i)
    (Function.update f ⟨_, h i a 2⟩ k) c texts)]
  rintro ⟨b, q⟩ hq
  cases q with
  | hash m =>
    show SealAnswer.hash (f m) = SealAnswer.hash _
    rw [Function.update_of_ne]
    rintro rfl
    exact hn ⟨_, List.mem_map.2 ⟨_, hq, rfl⟩, 2, rfl⟩
  | cipher k => rfl
  | mac ak m => rfl
  | «unseal» s =>
    unfold answerWithout manyAnswer
    dsimp only
    by_cases hs : Excluded texts (.unseal s : SealAsk v)
    · rw [if_pos hs, if_pos hs]
    rw [if_neg hs, if_neg hs, if_neg hs, if_neg hs]
    by_cases hep : HasEphemeral (epks i) s ∧
        Meant (P.withSealMac v T) (fun b => (under sks T b).publicKey) (jobsUnder jobs T) i b
    · rw [if_pos hep, if_pos hep]
    rw [if_neg hep, if_neg hep]
    congr 1
    cases hw : SealedKey.parse v s with
    | err er => unfold unsealText; rw [hw]; rfl
    | panic => unfold unsealText; rw [hw]; rfl
    | ok w =>
      refine (unseal_hash (under sks T b) hw ⟨_, h i a 2⟩ k f c ?_).symm
      intro xk hs d h'
      rw [secret_with] at hs
      rw [pub_with] at h'
      have e1 : xk.length = (xks i a).length := by rw [secret_length hs, ephemeral_length (he i a)]
      have e2 : w.ephemeralPublicKey.1.length = (epks i).1.length := by
        rw [w.ephemeralPublicKey.2, (epks i).2]
      refine hep ⟨⟨w, hw, Subtype.ext (input_inj e1 e2 h').2⟩, (meant_with sks jobs i T b).2 ⟨a, ?_⟩⟩
      exact input_pub e1 e2 h'

end

theorem lengths {rngs : Fin m → Rng} {xks : Fin m → Side → Bytes} {epks : Fin m → BytesN (pkeEpkLen v)}
    (he : ∀ i a, ephemeral P (sks ((jobs i).recipient a)).publicKey (rngs i) = some (xks i a, epks i))
    (i : Fin m) (a : Side) (d : UInt8) : (sealKdfInput v d (xks i a) (epks i).1
      (sealPub P (sks ((jobs i).recipient a)).publicKey)).length = sealInLen v :=
  input_length (v := v) d (ephemeral_length (he i a)) (epks i).2 (sealPub_length _)

/-- Other tags under the authentication key of the `i`-th text come out right only by chance. -/
theorem forging (hM : 89 ≤ M) (R : Finset (Fin m → Rng))
    (hR : ∀ rngs ∈ R, GoodTapes P (fun b => (sks b).publicKey) jobs rngs) :
    (count (fun x : (R × SealHash v × CipherOf v L × BytesN 32) × BytesN (pkeTagLen v) × SealMac v M =>
        Forged (P := P.withSealMac v x.2.2) (under sks x.2.2) (jobsUnder jobs x.2.2) ask n i side x.1.1
          x.1.2.1 x.1.2.2.1 x.1.2.2.2 x.2.1) : ℚ) /
      Fintype.card ((R × SealHash v × CipherOf v L × BytesN 32) × BytesN (pkeTagLen v) × SealMac v M) ≤
    (m + n : Nat) / Fintype.card (BytesN (pkeTagLen v)) + (m + n : Nat) / Fintype.card (BytesN (pkeTagLen v)) := by
  choose epks inj hx using fun r : R => hR r.1 r.2
  choose xks he using hx
  let asked := fun (y : R × SealHash v × CipherOf v L × BytesN 32) (z : BytesN (pkeTagLen v))
      (T : SealMac v M) =>
    askedWith sks jobs ask n i side y.1 (epks y.1 i) y.2.1 y.2.2.1 y.2.2.2 z T
  have hlen : ∀ y z T, (asked y z T).length ≤ n := fun y z T => dialog_length _ _ _ _
  refine Plug.forged (m + n) (fun y : R × SealHash v × CipherOf v L × BytesN 32 =>
      ⟨sealTagged v (epks y.1 i).1 y.2.2.2.1, tag_bound hM _ _⟩)
    (fun y z T => textAks sks jobs side (lengths sks jobs (he y.1)) y.2.1 ++ usedBy sks y.2.1 (asked y z T))
    (fun y z T => guessedBy hM (asked y z T))
    (fun y z T => ?_)
    (fun y z T => Nat.le_trans (guessedBy_length n hM (hlen y z T)) (Nat.le_add_left _ _)) _ ?_ (nb _) (nb _)
  · rw [List.length_append, textAks_length]
    exact Nat.add_le_add_left (usedBy_length sks n _ (hlen y z T)) _
  rintro ⟨r, f, c, e⟩ ak T row hak ⟨a, xk, epk, he', b, s, hs, hne, e', hs'⟩
  dsimp only at hak he' hs hne hs' ⊢
  rw [List.mem_append, not_or] at hak
  change ephemeral _ (under sks _ ((jobs i).recipient a)).publicKey _ = _ at he'
  rw [ephemeral_with, he r i a] at he'
  cases he'
  have et : ∀ e : BytesN 32, sealMac (P.withSealMac v (Function.update T ak row)) ak (epks r i) e =
      row ⟨_, tag_bound hM (epks r i) e⟩ := by
    intro e
    unfold sealMac
    rw [tag_with _ _ _ (tag_bound hM _ _), Function.update_self]
  rw [game_with, et, asked_row sks jobs ask n i side (he r) (lengths sks jobs (he r)) _ _ _ _ _ _ _ hak.1
    hak.2] at hs
  have ew : ∀ e : BytesN 32, randomText (P.withSealMac v (Function.update T ak row)) (epks r i) e ak =
      paserkText v (asc "seal") ((row ⟨_, tag_bound hM (epks r i) e⟩).1 ++ (epks r i).1 ++ e.1) := by
    intro e
    unfold randomText
    rw [et]
  rw [ew] at hne hs'
  have hp : SealedKey.parse v s = .ok ⟨row ⟨_, tag_bound hM (epks r i) e'⟩, epks r i, e'⟩ :=
    SealedKey.parse_ok_iff.2 hs'
  refine ⟨_, guess_mem hM hs hp, ?_, rfl⟩
  intro h
  have h' := congrArg Subtype.val h
  unfold sealTagged at h'
  have h2 : e' = e := Subtype.ext (List.append_cancel_left h')
  exact hne (by rw [hs', h2])

/-- Tags under the authentication key of a recipient come out right only by chance. -/
theorem accepting (hM : 89 ≤ M) (hP : P.Laws) (R : Finset (Fin m → Rng))
    (hR : ∀ rngs ∈ R, GoodTapes P (fun b => (sks b).publicKey) jobs rngs) (a : Side) :
    (count (fun x : (R × SealHash v × CipherOf v L × BytesN 32 × BytesN (pkeTagLen v)) ×
          BytesN (pkeTagLen v) × SealMac v M =>
        Accepted (P := P.withSealMac v x.2.2) (under sks x.2.2) (jobsUnder jobs x.2.2) ask n i side a x.1.1
          (Function.update x.1.2.1 (keyInput sks jobs i a x.1.1) x.2.1) x.1.2.2.1 x.1.2.2.2.1
            x.1.2.2.2.2) : ℚ) /
      Fintype.card ((R × SealHash v × CipherOf v L × BytesN 32 × BytesN (pkeTagLen v)) ×
          BytesN (pkeTagLen v) × SealMac v M) ≤
    (m + n + 1 : Nat) / Fintype.card (BytesN (pkeTagLen v)) +
      (m + n + 1 : Nat) / Fintype.card (BytesN (pkeTagLen v)) := by
  choose epks inj hx using fun r : R => hR r.1 r.2
  choose xks he using hx
  let asked := fun (y : R × SealHash v × CipherOf v L × BytesN 32 × BytesN (pkeTagLen v))
      (T : SealMac v M) =>
    askedWith sks jobs ask n i side y.1 (epks y.1 i) y.2.1 y.2.2.1 y.2.2.2.1
      (sealMac (P.withSealMac v T) y.2.2.2.2 (epks y.1 i) y.2.2.2.1) T
  have hlen : ∀ y T, (asked y T).length ≤ n := fun y T => dialog_length _ _ _ _
  refine Plug.forged (m + n + 1) (fun _ => (⟨[], Nat.zero_le _⟩ : ShortBytes M))
    (fun y _ T => y.2.2.2.2 :: (textAks sks jobs side (lengths sks jobs (he y.1)) y.2.1 ++
      usedBy sks y.2.1 (asked y T))) (fun y _ T => guessedBy hM (asked y T))
    (fun y z T => ?_)
    (fun y z T => Nat.le_trans (guessedBy_length n hM (hlen y T)) (by omega)) _ ?_ (nb _) (nb _)
  · rw [List.length_cons, List.length_append, textAks_length]
    exact Nat.succ_le_succ (Nat.add_le_add_left (usedBy_length sks n _ (hlen y T)) _)
  rintro ⟨r, f, c, e, ak⟩ k T row hak ⟨xk, epk, he', hn, b, s, hb, hs, ⟨w, hw, hwe⟩, key, hkey⟩
  dsimp only at hak he' hn hb hs hkey ⊢
  change ephemeral _ (under sks _ ((jobs i).recipient a)).publicKey _ = _ at he'
  rw [ephemeral_with, he r i a] at he'
  cases he'
  rw [keyInput_eq sks jobs i (he r) (lengths sks jobs (he r))] at hn hs hkey
  change sealPub _ (under sks _ b).publicKey = sealPub _ (under sks _ ((jobs i).recipient a)).publicKey at hb
  rw [pub_with, pub_with] at hb
  have hne : k ≠ ak := fun h => hak (h ▸ List.mem_cons_self)
  have hak' : k ∉ textAks sks jobs side (lengths sks jobs (he r)) f ++ usedBy sks f (asked (r, f, c, e, ak) T) :=
    fun h => hak (List.mem_cons_of_mem _ h)
  rw [List.mem_append, not_or] at hak'
  have htag : sealMac (P.withSealMac v (Function.update T k row)) ak (epks r i) e =
      sealMac (P.withSealMac v T) ak (epks r i) e :=
    tag_congr T _ ak (Function.update_of_ne hne.symm _ _) _
  rw [game_with, htag] at hn hs
  have hn' : ¬ SecretHashed P (sks ((jobs i).recipient a)).publicKey (xks r i a) (epks r i)
      ((askedWith sks jobs ask n i side r.1 (epks r i)
        (Function.update f ⟨_, lengths sks jobs (he r) i a 2⟩ k) c e
        (sealMac (P.withSealMac v T) ak (epks r i) e) (Function.update T k row)).map Prod.snd) := by
    rintro ⟨m, hm, d, hd⟩
    refine hn ⟨m, hm, d, ?_⟩
    change _ = sealKdfInput v d _ _ (sealPub _ (under sks _ ((jobs i).recipient a)).publicKey)
    rw [pub_with]
    exact hd
  rw [← asked_key sks jobs ask n i side (inj r) (he r) (lengths sks jobs (he r)) _ a f c e _ k hn',
    asked_row sks jobs ask n i side (he r) (lengths sks jobs (he r)) _ _ _ _ _ _ _ hak'.1 hak'.2] at hs
  refine ⟨_, guess_mem hM hs hw, ?_, ?_⟩
  · intro h
    have h' := congrArg (fun x : ShortBytes M => x.1.length) h
    have e1 := w.ephemeralPublicKey.2
    have e2 := w.encryptedDataKey.2
    simp only [sealTagged, List.length_append, e1, e2, List.length_nil] at h'
    omega
  · have heb : ephemeral P (sks b).publicKey (r.1 i) = some (xks r i a, epks r i) := by
      rw [same_secret hP hb, he r i a]
    have hsec : unsealSecret P (sks b) (epks r i) = some (xks r i a) := by
      obtain ⟨rng', hd, -⟩ := draw (sks b).publicKey f c heb
      exact C43.shared_secret hP (sks b) (r.1 i) rng' _ _ hd
    have hp : (sealPub P (sks b).publicKey).length = pkeEpkLen v := sealPub_length _
    have g : ∀ d, (sealKdfInput v d (xks r i a) w.ephemeralPublicKey.1
        (sealPub (P.withSealMac v (Function.update T k row))
          (under sks (Function.update T k row) b).publicKey)).length = sealInLen v := by
      intro d
      rw [pub_with]
      exact input_length (v := v) d (ephemeral_length heb) w.ephemeralPublicKey.2 hp
    have hun := (unsealed (under sks (Function.update T k row) b)
      (Function.update f ⟨_, lengths sks jobs (he r) i a 2⟩ k) c hw).2 (xks r i a)
      (by rw [secret_with, hwe, hsec]) (g 1) (g 2)
    rw [hun] at hkey
    have h2 : (⟨_, g 2⟩ : BytesN (sealInLen v)) = ⟨_, lengths sks jobs (he r) i a 2⟩ := by
      refine Subtype.ext ?_
      show sealKdfInput v 2 _ w.ephemeralPublicKey.1 _ = _
      rw [pub_with, hwe, hb]
    rw [h2, Function.update_self] at hkey
    by_cases ht : w.tag = sealMac (P.withSealMac v (Function.update T k row)) k w.ephemeralPublicKey
        w.encryptedDataKey
    · rw [ht]
      unfold sealMac
      rw [tag_with _ _ _ (tag_bound hM _ _), Function.update_self]
    · rw [if_neg ht] at hkey
      cases hkey

/-- Everything drawn in a game without one of the sealings. -/
abbrev Drawn (v : Ver) (L M : Nat) (R : Finset (Fin m → Rng)) :=
  SealMac v M × R × SealHash v × CipherOf v L × BytesN 32 × BytesN (pkeTagLen v)

theorem forged_chance (hM : 89 ≤ M) (R : Finset (Fin m → Rng))
    (hR : ∀ rngs ∈ R, GoodTapes P (fun b => (sks b).publicKey) jobs rngs) :
    fractionOf (fun y : Drawn v L M R => Forged (P := P.withSealMac v y.1) (under sks y.1)
      (jobsUnder jobs y.1) ask n i side y.2.1 y.2.2.1 y.2.2.2.1 y.2.2.2.2.1 y.2.2.2.2.2) ≤
      (m + n : Nat) / 2 ^ 256 + (m + n : Nat) / 2 ^ 256 := by
  have hf := forging (P := P) sks jobs ask n i side hM R hR
  let re : Drawn v L M R ≃
      (R × SealHash v × CipherOf v L × BytesN 32) × BytesN (pkeTagLen v) × SealMac v M :=
    { toFun := fun x => ((x.2.1, x.2.2.1, x.2.2.2.1, x.2.2.2.2.1), x.2.2.2.2.2, x.1)
      invFun := fun x => (x.2.2, x.1.1, x.1.2.1, x.1.2.2.1, x.1.2.2.2, x.2.1)
      left_inv := fun _ => rfl
      right_inv := fun _ => rfl }
  rw [← Plug.count_bij re.bijective
    (A := fun y => Forged (P := P.withSealMac v y.1) (under sks y.1)
      (jobsUnder jobs y.1) ask n i side y.2.1 y.2.2.1 y.2.2.2.1 y.2.2.2.2.1 y.2.2.2.2.2)
    (fun _ => Iff.rfl), ← Fintype.card_congr re] at hf
  rw [fraction_count]
  exact le_trans hf (add_le_add (few _) (few _))

theorem accepted_chance (hM : 89 ≤ M) (hP : P.Laws) (R : Finset (Fin m → Rng))
    (hR : ∀ rngs ∈ R, GoodTapes P (fun b => (sks b).publicKey) jobs rngs) (a : Side) :
    fractionOf (fun y : Drawn v L M R => Accepted (P := P.withSealMac v y.1) (under sks y.1)
      (jobsUnder jobs y.1) ask n i side a y.2.1 y.2.2.1 y.2.2.2.1 y.2.2.2.2.1 y.2.2.2.2.2) ≤
      (m + n + 1 : Nat) / 2 ^ 256 + (m + n + 1 : Nat) / 2 ^ 256 := by
  have hf := accepting (P := P) sks jobs ask n i side hM hP R hR a
  let acc : Drawn v L M R → Prop := fun y =>
    Accepted (P := P.withSealMac v y.1) (under sks y.1) (jobsUnder jobs y.1) ask n i side a y.2.1 y.2.2.1
      y.2.2.2.1 y.2.2.2.2.1 y.2.2.2.2.2
  have e := Plug.count_bij (key_bijective (K := SealMac v M) (X := BytesN (pkeTagLen v))
      (A := CipherOf v L × BytesN 32 × BytesN (pkeTagLen v)) fun r : R => keyInput sks jobs i a r.1)
    (A := fun z => Accepted (P := P.withSealMac v z.2.2) (under sks z.2.2) (jobsUnder jobs z.2.2) ask n i side
      a z.1.1.1 (Function.update z.1.2.1 (keyInput sks jobs i a z.1.1.1) z.2.1) z.1.2.2.1 z.1.2.2.2.1
      z.1.2.2.2.2)
    (B := fun w => acc w.1) fun _ => Iff.rfl
  rw [Plug.count_fst acc] at e
  rw [e] at hf
  refine le_trans ?_ (le_trans hf (add_le_add (few _) (few _)))
  rw [fraction_count]
  have ht : (0 : ℚ) < Fintype.card (BytesN (pkeTagLen v)) := by exact_mod_cast nb (pkeTagLen v)
  have hc : Fintype.card ((R × SealHash v × CipherOf v L × BytesN 32 × BytesN (pkeTagLen v)) ×
        BytesN (pkeTagLen v) × SealMac v M) =
      Fintype.card (Drawn v L M R) * Fintype.card (BytesN (pkeTagLen v)) := by
    simp only [Fintype.card_prod]
    ring
  rw [hc, Nat.cast_mul, Nat.cast_mul, mul_div_mul_right _ _ ht.ne']

/-- One text is replaced. -/
theorem step_tags (hM : 89 ≤ M) (hP : P.Laws) (hL : 32 ≤ L) (R : Finset (Fin m → Rng))
    (hR : ∀ rngs ∈ R, GoodTapes P (fun b => (sks b).publicKey) jobs rngs)
    (D : (Fin m → Res Bytes) × List (SealAnswer v L) → Prop) :
    |fractionOf (fun x : SealMac v M × R × SealHash v × CipherOf v L =>
          D (sealManyGame (P.withSealMac v x.1) (under sks x.1) (jobsUnder jobs x.1) ask n
            (Function.update side i .left) x.2.1 x.2.2.1 x.2.2.2)) -
        fractionOf (fun x : SealMac v M × R × SealHash v × CipherOf v L =>
          D (sealManyGame (P.withSealMac v x.1) (under sks x.1) (jobsUnder jobs x.1) ask n
            (Function.update side i .right) x.2.1 x.2.2.1 x.2.2.2))| ≤
      fractionOf (fun y : Drawn v L M R => ManyHashed (P.withSealMac v y.1) (under sks y.1)
          (jobsUnder jobs y.1) ask n i side .left y.2.1 y.2.2.1 y.2.2.2.1 y.2.2.2.2.1 y.2.2.2.2.2) +
        fractionOf (fun y : Drawn v L M R => ManyHashed (P.withSealMac v y.1) (under sks y.1)
          (jobsUnder jobs y.1) ask n i side .right y.2.1 y.2.2.1 y.2.2.2.1 y.2.2.2.2.1 y.2.2.2.2.2) +
        (7 * (m + n) + 4) / 2 ^ 256 := by
  have good : ∀ T : SealMac v M, ∀ rngs ∈ R,
      GoodTapes (P.withSealMac v T) (fun b => (under sks T b).publicKey) (jobsUnder jobs T) rngs := by
    intro T rngs hr
    obtain ⟨epks, inj, hx⟩ := hR rngs hr
    refine ⟨epks, inj, fun i a => ?_⟩
    obtain ⟨xk, hx⟩ := hx i a
    exact ⟨xk, (ephemeral_with T (sks ((jobs i).recipient a)) (rngs i)).trans hx⟩
  rw [fraction_prod, fraction_prod]
  refine le_trans (average (ι := SealMac v M) _ _ _ _ (by positivity) fun T =>
    on_tapes (laws_with hP T) hL (under sks T) (jobsUnder jobs T) R (good T) side i ask n D) ?_
  rw [← fraction_prod (β := R × SealHash v × CipherOf v L × BytesN 32 × BytesN (pkeTagLen v))
    (fun y : Drawn v L M R =>
      (ManyHashed (P.withSealMac v y.1) (under sks y.1) (jobsUnder jobs y.1) ask n i side .left y.2.1 y.2.2.1
          y.2.2.2.1 y.2.2.2.2.1 y.2.2.2.2.2 ∨
        ManyHashed (P.withSealMac v y.1) (under sks y.1) (jobsUnder jobs y.1) ask n i side .right y.2.1 y.2.2.1
          y.2.2.2.1 y.2.2.2.2.1 y.2.2.2.2.2) ∨
      ManyMade (P.withSealMac v y.1) (under sks y.1) (jobsUnder jobs y.1) ask n i side y.2.1 y.2.2.1
          y.2.2.2.1 y.2.2.2.2.1 y.2.2.2.2.2)]
  let H : Side → Drawn v L M R → Prop := fun a y => ManyHashed (P.withSealMac v y.1) (under sks y.1)
    (jobsUnder jobs y.1) ask n i side a y.2.1 y.2.2.1 y.2.2.2.1 y.2.2.2.2.1 y.2.2.2.2.2
  let F : Drawn v L M R → Prop := fun y => Forged (P := P.withSealMac v y.1) (under sks y.1)
    (jobsUnder jobs y.1) ask n i side y.2.1 y.2.2.1 y.2.2.2.1 y.2.2.2.2.1 y.2.2.2.2.2
  let A : Side → Drawn v L M R → Prop := fun a y => Accepted (P := P.withSealMac v y.1) (under sks y.1)
    (jobsUnder jobs y.1) ask n i side a y.2.1 y.2.2.1 y.2.2.2.1 y.2.2.2.2.1 y.2.2.2.2.2
  let Mk : Drawn v L M R → Prop := fun y => ManyMade (P.withSealMac v y.1) (under sks y.1)
    (jobsUnder jobs y.1) ask n i side y.2.1 y.2.2.1 y.2.2.2.1 y.2.2.2.2.1 y.2.2.2.2.2
  have hcases : ∀ y, Mk y → F y ∨ ∃ a, H a y ∨ A a y := fun y hy => made_cases _ _ _ _ _ _ hy
  have h7 : fractionOf F ≤ _ := forged_chance (P := P) sks jobs ask n i side hM R hR
  have h8 : ∀ a, fractionOf (A a) ≤ _ := fun a => accepted_chance (P := P) sks jobs ask n i side hM hP R hR a
  show fractionOf (fun y => (H .left y ∨ H .right y) ∨ Mk y) + _ ≤ fractionOf (H .left) + fractionOf (H .right) + _
  clear_value H F A Mk
  have h2 : fractionOf (fun y => (H .left y ∨ H .right y) ∨ Mk y) ≤
      fractionOf (fun y => (H .left y ∨ H .right y) ∨ (F y ∨ (A .left y ∨ A .right y))) := by
    refine fraction_mono ?_
    rintro y (h | h)
    · exact .inl h
    · rcases hcases y h with h | ⟨b, h | h⟩
      · exact .inr (.inl h)
      · cases b
        exacts [.inl (.inl h), .inl (.inr h)]
      · cases b
        exacts [.inr (.inr (.inl h)), .inr (.inr (.inr h))]
  have h3 := fraction_or (fun y => H .left y ∨ H .right y) (fun y => F y ∨ (A .left y ∨ A .right y))
  have h4 := fraction_or (H .left) (H .right)
  have h5 := fraction_or F (fun y => A .left y ∨ A .right y)
  have h6 := fraction_or (A .left) (A .right)
  have h8l := h8 .left
  have h8r := h8 .right
  have e : (7 * ((m : ℚ) + n) + 4) / 2 ^ 256 = ((m + n : Nat) / 2 ^ 256 + (m + n : Nat) / 2 ^ 256) +
      ((m + n + 1 : Nat) / 2 ^ 256 + (m + n + 1 : Nat) / 2 ^ 256) +
      ((m + n + 1 : Nat) / 2 ^ 256 + (m + n + 1 : Nat) / 2 ^ 256) + (m + n) / 2 ^ 256 := by
    generalize (2 : ℚ) ^ 256 = X
    push_cast
    ring
  rw [e]
  linarith

open Finset in
/-- With a random MAC as well: whoever sees `m` sealed keys and has other texts unsealed by anyone learns
which keys they are and for whom they were sealed at most as well as they hash, in a game without one of
the sealings, the secret shared with its recipient. -/
theorem which_many_random_tags (hM : 89 ≤ M) (hP : P.Laws) (hL : 32 ≤ L) (R : Finset (Fin m → Rng))
    (hR : ∀ rngs ∈ R, GoodTapes P (fun b => (sks b).publicKey) jobs rngs)
    (D : (Fin m → Res Bytes) × List (SealAnswer v L) → Prop) :
    |fractionOf (fun x : SealMac v M × R × SealHash v × CipherOf v L =>
          D (sealManyGame (P.withSealMac v x.1) (fun b => (sks b).underMac x.1)
            (fun j => (jobs j).underMac x.1) ask n (fun _ => .left) x.2.1 x.2.2.1 x.2.2.2)) -
        fractionOf (fun x : SealMac v M × R × SealHash v × CipherOf v L =>
          D (sealManyGame (P.withSealMac v x.1) (fun b => (sks b).underMac x.1)
            (fun j => (jobs j).underMac x.1) ask n (fun _ => .right) x.2.1 x.2.2.1 x.2.2.2))| ≤
      ∑ i : Fin m, ∑ a ∈ {Side.left, Side.right},
        fractionOf (fun y : SealMac v M × R × SealHash v × CipherOf v L × BytesN 32 × BytesN (pkeTagLen v) =>
          ManyHashed (P.withSealMac v y.1) (fun b => (sks b).underMac y.1) (fun j => (jobs j).underMac y.1)
            ask n i (rightBefore m i) a y.2.1 y.2.2.1 y.2.2.2.1 y.2.2.2.2.1 y.2.2.2.2.2) +
        m * (7 * (m + n) + 4) / 2 ^ 256 := by
  have e : (m : ℚ) * (7 * (m + n) + 4) / 2 ^ 256 = ∑ _ : Fin m, (7 * ((m : ℚ) + n) + 4) / 2 ^ 256 := by
    rw [sum_const, card_univ, Fintype.card_fin, nsmul_eq_mul, mul_div_assoc]
  rw [e, ← sum_add_distrib, ← before_zero, ← before_all]
  refine telescope (m := m) (fun k => fractionOf (fun x : SealMac v M × R × SealHash v × CipherOf v L =>
    D (sealManyGame (P.withSealMac v x.1) (under sks x.1) (jobsUnder jobs x.1) ask n (rightBefore m k) x.2.1
      x.2.2.1 x.2.2.2))) _ fun i => ?_
  have h := step_tags (P := P) sks jobs ask n i (rightBefore m i.1) hM hP hL R hR D
  rw [before_left, before_right] at h
  rw [sum_pair (by decide)]
  exact h

end tags

end Pasta.C98
