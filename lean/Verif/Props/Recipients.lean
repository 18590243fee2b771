import Verif.Spec.Recipients
import Verif.Props.Sealing

/-!
# C97: who sees a sealed key cannot tell for whom it was sealed

With a random key derivation hash and a random cipher.
-/

namespace Pasta.C97

open C82 (count count_eq count_prod)
open C88 (draw sealed unsealed uses uses_length input_length input_inj ephemeral_length secret_length
  kOf out out_fixc fixc fixc_fixc kOf_count split_card answer_eq chance_eq ideal_eq)
open Plug (k0 flat_length)
open Spec (sealPub unsealSecret sealKdfInput sealTagged paserkText)

variable {P : Prims} {v : Ver} {L : Nat}

theorem dialog_congr {A B : Type} (ans ans' : A → B) (ask : List B → Option A) (n : Nat) :
    ∀ seen, (∀ a ∈ (dialog ans ask n seen).2, ans' a = ans a) →
      dialog ans' ask n seen = dialog ans ask n seen := by
  induction n with
  | zero => intro seen _; rfl
  | succ n ih =>
    intro seen h
    unfold dialog at h ⊢
    cases ha : ask seen with
    | none => rfl
    | some a =>
      simp only [ha] at h
      have h1 : ans' a = ans a := h a List.mem_cons_self
      dsimp only
      rw [h1, ih (seen ++ [ans a]) fun b hb => h b (List.mem_cons_of_mem _ hb)]

theorem dialog_length {A B : Type} (ans : A → B) (ask : List B → Option A) (n : Nat) :
    ∀ seen, (dialog ans ask n seen).2.length ≤ n := by
  induction n with
  | zero => intro seen; exact Nat.le_refl _
  | succ n ih =>
    intro seen
    unfold dialog
    cases ha : ask seen with
    | none => exact Nat.zero_le _
    | some a => exact Nat.succ_le_succ (ih _)

/-- The ephemeral key does not depend on the recipient. -/
theorem ephemeral_other (pk pk' : Key P v .Public) {rng : Rng} {xk : Bytes} {epk : BytesN (pkeEpkLen v)}
    (h : ephemeral P pk rng = some (xk, epk)) : ∃ xk', ephemeral P pk' rng = some (xk', epk) := by
  cases v with
  | V3 =>
    obtain ⟨esk, r, hr, -, rfl⟩ := C88.ephemeral_V3 h
    simp only [ephemeral, hr]
    exact ⟨_, rfl⟩
  | V4 =>
    obtain ⟨b, r, hr, -, rfl⟩ := C88.ephemeral_V4 h
    simp only [ephemeral, hr]
    exact ⟨_, rfl⟩

/-- Recipients with the same public key, as far as sealing uses it, share the same secret. -/
theorem same_secret (hP : P.Laws) {pk pk' : Key P v .Public} (hpk : sealPub P pk = sealPub P pk') (rng : Rng) :
    ephemeral P pk rng = ephemeral P pk' rng := by
  cases v with
  | V3 =>
    have h : pk.key = pk'.key := by
      have e := congrArg P.p384Parse hpk
      unfold sealPub at e
      dsimp only at e
      rw [hP.p384Parse_compress, hP.p384Parse_compress] at e
      exact Option.some.inj e
    unfold ephemeral
    dsimp only
    rw [h]
  | V4 =>
    have h : P.edToMontgomery pk.key = P.edToMontgomery pk'.key := Subtype.ext hpk
    unfold ephemeral
    dsimp only
    rw [h]

theorem input_pub {d d' : UInt8} {xk epk pk xk' epk' pk' : Bytes} (hx : xk.length = xk'.length)
    (he : epk.length = epk'.length) (h : sealKdfInput v d xk epk pk = sealKdfInput v d' xk' epk' pk') :
    pk = pk' := by
  unfold sealKdfInput at h
  rw [List.cons.injEq, List.append_assoc, List.append_assoc, List.append_assoc, List.append_assoc,
    List.append_cancel_left_eq] at h
  obtain ⟨-, h3⟩ := List.append_inj h.2 hx
  exact (List.append_inj h3 he).2

/-- Unsealing does not change with hash and cipher where it does not use them. -/
theorem unseal_update (sk : Key P v .Secret) {s : Bytes} {w : SealedKey v}
    (hw : SealedKey.parse v s = .ok w) (x1 x2 : BytesN (sealInLen v)) (t1 t2 : BytesN (pkeTagLen v))
    (f : SealHash v) (c : CipherOf v L) (o : OneCipher v L)
    (hne : ∀ xk, unsealSecret P sk w.ephemeralPublicKey = some xk → ∀ d,
      sealKdfInput v d xk w.ephemeralPublicKey.1 (sealPub P sk.publicKey) ≠ x1.1 ∧
      sealKdfInput v d xk w.ephemeralPublicKey.1 (sealPub P sk.publicKey) ≠ x2.1)
    (hu : kOf t1 ∉ uses sk f (.unseal s)) :
    unsealText (P.withSeal (Function.update (Function.update f x1 t1) x2 t2) (Function.update c (kOf t1) o))
        (sk.underSeal _ _) s =
      unsealText (P.withSeal f c) (sk.underSeal f c) s := by
  cases hs : unsealSecret P sk w.ephemeralPublicKey with
  | none => rw [(unsealed sk _ _ hw).1 hs, (unsealed sk _ _ hw).1 hs]
  | some xk =>
    have hl := secret_length hs
    have hp : (sealPub P sk.publicKey).length = pkeEpkLen v := sealPub_length _
    have g1 := input_length (v := v) 1 hl w.ephemeralPublicKey.2 hp
    have g2 := input_length (v := v) 2 hl w.ephemeralPublicKey.2 hp
    rw [(unsealed sk _ _ hw).2 xk hs g1 g2, (unsealed sk _ _ hw).2 xk hs g1 g2]
    have n1 := hne xk hs 1
    have n2 := hne xk hs 2
    have m1 : (⟨_, g1⟩ : BytesN (sealInLen v)) ≠ x1 ∧ (⟨_, g1⟩ : BytesN (sealInLen v)) ≠ x2 :=
      ⟨fun h => n1.1 (congrArg Subtype.val h), fun h => n1.2 (congrArg Subtype.val h)⟩
    have m2 : (⟨_, g2⟩ : BytesN (sealInLen v)) ≠ x1 ∧ (⟨_, g2⟩ : BytesN (sealInLen v)) ≠ x2 :=
      ⟨fun h => n2.1 (congrArg Subtype.val h), fun h => n2.2 (congrArg Subtype.val h)⟩
    rw [Function.update_of_ne m2.2, Function.update_of_ne m2.1, Function.update_of_ne m1.2,
      Function.update_of_ne m1.1]
    have hk : kOf (f ⟨_, g1⟩) ≠ kOf t1 := by
      intro h
      apply hu
      unfold uses
      simp only [hw, hs, dif_pos g1]
      rw [h]
      exact List.mem_singleton.2 rfl
    rw [Function.update_of_ne hk]

section

variable {ι : Type} (hP : P.Laws) (sks : ι → Key P v .Secret) {rng : Rng} {xks : ι → Bytes}
  {epk : BytesN (pkeEpkLen v)} (he : ∀ a, ephemeral P (sks a).publicKey rng = some (xks a, epk))

include hP he in
/-- The recipient who is not meant answers as in the game without a recipient. -/
theorem other_answer (a b : ι) (hab : sealPub P (sks b).publicKey ≠ sealPub P (sks a).publicKey)
    (h1 : (sealKdfInput v 1 (xks a) epk.1 (sealPub P (sks a).publicKey)).length = sealInLen v)
    (h2 : (sealKdfInput v 2 (xks a) epk.1 (sealPub P (sks a).publicKey)).length = sealInLen v)
    (f : SealHash v) (c : CipherOf v L) (text : Bytes) (t1 t2 : BytesN (pkeTagLen v))
    (o : OneCipher v L) (q : SealAsk v)
    (ha : ∀ m, q = .hash m → ∀ d, m.1 ≠ sealKdfInput v d (xks a) epk.1 (sealPub P (sks a).publicKey))
    (hf : ∀ x, q = .unseal x → x ≠ text → HasEphemeral epk x →
      ∀ key, unsealText (P.withSeal f c) ((sks b).underSeal f c) x ≠ .ok key)
    (hu : kOf t1 ∉ uses (sks b) f q) :
    sealAnswer P (sks b) (Function.update (Function.update f ⟨_, h1⟩ t1) ⟨_, h2⟩ t2)
        (Function.update c (kOf t1) o) text q =
      idealAnswer P (sks b) epk f c text q := by
  have hxl : ∀ a, (xks a).length = xkLen v := fun a => ephemeral_length (he a)
  cases q with
  | hash m =>
    show SealAnswer.hash _ = SealAnswer.hash (f m)
    have n1 : m ≠ ⟨_, h1⟩ := fun h => ha m rfl 1 (congrArg Subtype.val h)
    have n2 : m ≠ ⟨_, h2⟩ := fun h => ha m rfl 2 (congrArg Subtype.val h)
    rw [Function.update_of_ne n2, Function.update_of_ne n1]
  | cipher k =>
    show SealAnswer.cipher _ = SealAnswer.cipher (c k)
    have n1 : k ≠ kOf t1 := fun h => hu (by rw [h]; exact List.mem_singleton.2 rfl)
    rw [Function.update_of_ne n1]
  | mac ak m => rfl
  | «unseal» x =>
    unfold idealAnswer sealAnswer
    dsimp only
    by_cases hx : x = text
    · rw [if_pos hx, if_pos hx]
    rw [if_neg hx, if_neg hx]
    cases hw : SealedKey.parse v x with
    | err er =>
      rw [if_neg (by rintro ⟨w, h, -⟩; rw [hw] at h; cases h), if_neg hx]
      unfold unsealText
      rw [hw]
      rfl
    | panic =>
      rw [if_neg (by rintro ⟨w, h, -⟩; rw [hw] at h; cases h), if_neg hx]
      unfold unsealText
      rw [hw]
      rfl
    | ok w =>
      have hne : ∀ xk, unsealSecret P (sks b) w.ephemeralPublicKey = some xk → ∀ d,
          sealKdfInput v d xk w.ephemeralPublicKey.1 (sealPub P (sks b).publicKey) ≠
            sealKdfInput v 1 (xks a) epk.1 (sealPub P (sks a).publicKey) ∧
          sealKdfInput v d xk w.ephemeralPublicKey.1 (sealPub P (sks b).publicKey) ≠
            sealKdfInput v 2 (xks a) epk.1 (sealPub P (sks a).publicKey) := by
        intro xk hs d
        have e1 : xk.length = (xks a).length := by rw [secret_length hs, hxl]
        have e2 : w.ephemeralPublicKey.1.length = epk.1.length := by rw [w.ephemeralPublicKey.2, epk.2]
        exact ⟨fun h => hab (input_pub e1 e2 h), fun h => hab (input_pub e1 e2 h)⟩
      have hk := unseal_update (sks b) hw ⟨_, h1⟩ ⟨_, h2⟩ t1 t2 f c o hne hu
      by_cases hwe : w.ephemeralPublicKey = epk
      · rw [if_pos ⟨w, hw, hwe⟩, hk]
        obtain ⟨rng', hd, -⟩ := draw (sks b).publicKey f c (he b)
        have hs := C43.shared_secret hP (sks b) rng rng' (xks b) epk hd
        have hp : (sealPub P (sks b).publicKey).length = pkeEpkLen v := sealPub_length _
        have g1 := input_length (v := v) 1 (hxl b) w.ephemeralPublicKey.2 hp
        have g2 := input_length (v := v) 2 (hxl b) w.ephemeralPublicKey.2 hp
        have hun := (unsealed (sks b) f c hw).2 (xks b) (by rw [hwe]; exact hs) g1 g2
        have hno := hf x rfl hx ⟨w, hw, hwe⟩
        rw [hun] at hno ⊢
        split
        · next ht => rw [if_pos ht] at hno; exact absurd rfl (hno _)
        · rfl
      · rw [if_neg (by rintro ⟨w', h, h'⟩; rw [hw] at h; cases h; exact hwe h'), if_neg hx, hk]

theorem has_ephemeral {e : BytesN 32} {ak : BytesN (pkeTagLen v)} {x : Bytes} (h : x = randomText P epk e ak) :
    HasEphemeral epk x :=
  ⟨⟨sealMac P ak epk e, epk, e⟩, SealedKey.parse_ok_iff.2 h, rfl⟩

include hP he in
/-- Whoever is asked answers as in the game without a recipient, as long as nothing bad happens. -/
theorem any_answer (a b : ι)
    (h1 : (sealKdfInput v 1 (xks a) epk.1 (sealPub P (sks a).publicKey)).length = sealInLen v)
    (h2 : (sealKdfInput v 2 (xks a) epk.1 (sealPub P (sks a).publicKey)).length = sealInLen v)
    (f : SealHash v) (c : CipherOf v L) (e : BytesN 32) (t1 t2 : BytesN (pkeTagLen v))
    (o : OneCipher v L) (q : SealAsk v)
    (ha : ∀ m, q = .hash m → ∀ d, m.1 ≠ sealKdfInput v d (xks a) epk.1 (sealPub P (sks a).publicKey))
    (hf : ∀ x, q = .unseal x → x ≠ randomText P epk e t2 → HasEphemeral epk x →
      (∀ e', x ≠ randomText P epk e' t2) ∧
      ∀ key, unsealText (P.withSeal f c) ((sks b).underSeal f c) x ≠ .ok key)
    (hu : kOf t1 ∉ uses (sks b) f q) :
    sealAnswer P (sks b) (Function.update (Function.update f ⟨_, h1⟩ t1) ⟨_, h2⟩ t2)
        (Function.update c (kOf t1) o) (randomText P epk e t2) q =
      idealAnswer P (sks b) epk f c (randomText P epk e t2) q := by
  by_cases hab : sealPub P (sks b).publicKey = sealPub P (sks a).publicKey
  · have hx : xks b = xks a := by
      have h := same_secret hP hab rng
      rw [he, he] at h
      exact (Prod.mk.inj (Option.some.inj h)).1
    have key := answer_eq hP (sks b) (he b) (by rw [hx, hab]; exact h1) (by rw [hx, hab]; exact h2) f c e
      t1 t2 o q (by rw [hx, hab]; exact ha) (fun x hq hne e' hx' => (hf x hq hne
        (has_ephemeral hx')).1 e' hx') hu
    simp only [hx, hab] at key
    exact key
  · exact other_answer hP sks he a b hab h1 h2 f c _ t1 t2 o q ha (fun x hq hne hep =>
      (hf x hq hne hep).2) hu

end

section

variable (hP : P.Laws) (sks : Side → Key P v .Secret) {rng : Rng} {xks : Side → Bytes}
  {epk : BytesN (pkeEpkLen v)} (he : ∀ a, ephemeral P (sks a).publicKey rng = some (xks a, epk))
  (hL : 32 ≤ L)

include hP he hL in
theorem game_eq (keys : Side → Key P v .Local) (ask : RecipientAsks v L) (n : Nat) (a : Side)
    (h1 : (sealKdfInput v 1 (xks a) epk.1 (sealPub P (sks a).publicKey)).length = sealInLen v)
    (h2 : (sealKdfInput v 2 (xks a) epk.1 (sealPub P (sks a).publicKey)).length = sealInLen v)
    (f : SealHash v) (c : CipherOf v L) (e : BytesN 32) (t1 t2 : BytesN (pkeTagLen v)) (s : OneCipher v L)
    (hs : ¬ HashedFor P sks ask n a rng f c e t2)
    (hf : ¬ OtherMade P sks ask n rng f c e t2)
    (hu : kOf t1 ∉ (noRecipient P sks ask n epk f c e t2).2.flatMap fun r => uses (sks r.1) f r.2) :
    recipientGame P sks keys ask n a rng (Function.update (Function.update f ⟨_, h1⟩ t1) ⟨_, h2⟩ t2)
        (Function.update c (kOf t1) (fixc P epk.1 (sealPub P (sks a).publicKey)
          (show BytesN 32 from (keys a).key) t1 s e)) =
      .ok (randomText P epk e t2, (noRecipient P sks ask n epk f c e t2).1) := by
  have ne : (⟨_, h1⟩ : BytesN (sealInLen v)) ≠ ⟨_, h2⟩ := fun h =>
    absurd (congrArg (fun l : BytesN (sealInLen v) => l.1.head?) h) (by simp [sealKdfInput])
  unfold recipientGame
  rw [sealed (keys a) (sks a).publicKey _ _ (he a) h1 h2, Res.ok_bind, Function.update_self,
    Function.update_of_ne ne, Function.update_self, Function.update_self]
  have ho := out_fixc (P := P) hL epk.1 (sealPub P (sks a).publicKey) (show BytesN 32 from (keys a).key) t1 s e
  unfold out Plug.outAt at ho
  rw [ho, Res.pure_def]
  unfold noRecipient at hu ⊢
  dsimp only at hu ⊢
  rw [dialog_congr (fun r => idealAnswer P (sks r.1) epk f c (randomText P epk e t2) r.2) _
    (ask (randomText P epk e t2)) n []]
  rintro ⟨b, q⟩ hb
  refine any_answer hP sks he a b h1 h2 f c e t1 t2 _ q ?_ ?_ ?_
  · rintro m rfl d hm
    exact hs ⟨xks a, epk, he a, m, List.mem_map.2 ⟨_, hb, rfl⟩, d, hm⟩
  · rintro x rfl hx hep
    exact ⟨fun e' hx' => hf ⟨a, _, _, he a, b, x, hb, hx, hep, .inl ⟨e', hx'⟩⟩,
      fun key hk => hf ⟨a, _, _, he a, b, x, hb, hx, hep, .inr ⟨key, hk⟩⟩⟩
  · intro h
    exact hu (List.mem_flatMap.2 ⟨_, hb, h⟩)

/-- One tape. -/
theorem one_tape (hP : P.Laws) (hL : 32 ≤ L) (sks : Side → Key P v .Secret) {rng : Rng} {xks : Side → Bytes}
    {epk : BytesN (pkeEpkLen v)} (he : ∀ a, ephemeral P (sks a).publicKey rng = some (xks a, epk))
    (keys : Side → Key P v .Local) (ask : RecipientAsks v L) (n : Nat)
    (D : Res (Bytes × List (SealAnswer v L)) → Prop) :
    |(count (fun x : SealHash v × CipherOf v L => D (recipientGame P sks keys ask n .left rng x.1 x.2)) : ℚ) /
          Fintype.card (SealHash v × CipherOf v L) -
        count (fun x : SealHash v × CipherOf v L => D (recipientGame P sks keys ask n .right rng x.1 x.2)) /
          Fintype.card (SealHash v × CipherOf v L)| ≤
      count (fun y : SealHash v × CipherOf v L × BytesN 32 × BytesN (pkeTagLen v) =>
        (HashedFor P sks ask n .left rng y.1 y.2.1 y.2.2.1 y.2.2.2 ∨
          HashedFor P sks ask n .right rng y.1 y.2.1 y.2.2.1 y.2.2.2) ∨
        OtherMade P sks ask n rng y.1 y.2.1 y.2.2.1 y.2.2.2) /
        Fintype.card (SealHash v × CipherOf v L × BytesN 32 × BytesN (pkeTagLen v)) +
      n / (256 ^ 32 : Nat) := by
  have h : ∀ (a : Side) (d : UInt8),
      (sealKdfInput v d (xks a) epk.1 (sealPub P (sks a).publicKey)).length = sealInLen v :=
    fun a d => input_length (v := v) d (ephemeral_length (he a)) epk.2 (sealPub_length _)
  refine Plug.close_sides (I := BytesN (sealInLen v)) (T := BytesN (pkeTagLen v)) (K := BytesN 32)
    (S := OneCipher v L) (E := BytesN 32) kOf (fun a => ⟨_, h a 1⟩) (fun a => ⟨_, h a 2⟩)
    (256 ^ (pkeTagLen v - 32)) (256 ^ 32) n
    (fun a t s e => fixc P epk.1 (sealPub P (sks a).publicKey) (show BytesN 32 from (keys a).key) t s e)
    (fun a t s => out P epk.1 (sealPub P (sks a).publicKey) (show BytesN 32 from (keys a).key) t s)
    (fun a t s e => out_fixc hL _ _ _ t s e) (fun a t s e => fixc_fixc hL _ _ _ t s e)
    kOf_count (split_card v) (Nat.pow_pos (by decide)) (Nat.pow_pos (by decide)) Fintype.card_pos
    (Fintype.card_pos_iff.2 ⟨k0⟩)
    (fun a x => D (recipientGame P sks keys ask n a rng x.1 x.2))
    (fun y => D (.ok (randomText P epk y.2.2.1 y.2.2.2,
      (noRecipient P sks ask n epk y.1 y.2.1 y.2.2.1 y.2.2.2).1))) _
    (fun y => (noRecipient P sks ask n epk y.1 y.2.1 y.2.2.1 y.2.2.2).2.flatMap
      fun r => uses (sks r.1) y.1 r.2) ?_ ?_
  · intro y
    exact Nat.le_trans (flat_length (fun r : RecipientAsk v => uses (sks r.1) y.1 r.2)
      (fun r => uses_length (sks r.1) y.1 r.2) _) (dialog_length _ _ _ _)
  · intro a f c e t2 t1 s hb ht
    have hg := game_eq hP sks he hL keys ask n a (h a 1) (h a 2) f c e t1 t2 s
      (fun hh => hb (.inl (by cases a; exacts [.inl hh, .inr hh]))) (fun hh => hb (.inr hh)) ht
    show D (recipientGame P sks keys ask n a rng _ _) ↔ _
    rw [← hg]
    exact Iff.rfl

end

theorem average {ι : Type} [Fintype ι] (a b g : ι → ℚ) (k : ℚ) (hk : 0 ≤ k)
    (h : ∀ r, |a r - b r| ≤ g r + k) :
    |(∑ r, a r) / Fintype.card ι - (∑ r, b r) / Fintype.card ι| ≤ (∑ r, g r) / Fintype.card ι + k := by
  have hc : (0 : ℚ) ≤ Fintype.card ι := Nat.cast_nonneg _
  rw [← sub_div, ← Finset.sum_sub_distrib, abs_div, abs_of_nonneg hc]
  by_cases h0 : Fintype.card ι = 0
  · rw [h0]
    simp only [Nat.cast_zero, div_zero, zero_add]
    exact hk
  · have hcp : (0 : ℚ) < Fintype.card ι := by exact_mod_cast Nat.pos_of_ne_zero h0
    rw [div_le_iff₀ hcp, add_mul, div_mul_cancel₀ _ (ne_of_gt hcp)]
    refine le_trans (Finset.abs_sum_le_sum_abs _ _) ?_
    rw [mul_comm k, ← nsmul_eq_mul, ← Finset.card_univ (α := ι), ← Finset.sum_const,
      ← Finset.sum_add_distrib]
    exact Finset.sum_le_sum fun r _ => h r

theorem ideal_or {R : Finset Rng}
    (A B : R → SealHash v → CipherOf v L → BytesN 32 → BytesN (pkeTagLen v) → Prop) :
    idealSealChance (fun r f c e t => A r f c e t ∨ B r f c e t) ≤ idealSealChance A + idealSealChance B := by
  unfold idealSealChance
  rw [← add_div]
  refine div_le_div_of_nonneg_right ?_ (Nat.cast_nonneg _)
  exact_mod_cast Plug.count_or
    (fun x : R × SealHash v × CipherOf v L × BytesN 32 × BytesN (pkeTagLen v) =>
      A x.1 x.2.1 x.2.2.1 x.2.2.2.1 x.2.2.2.2) _

theorem on_tapes (hP : P.Laws) (hL : 32 ≤ L) (sks : Side → Key P v .Secret) (keys : Side → Key P v .Local)
    (R : Finset Rng) (hR : ∀ rng ∈ R, (ephemeral P (sks .left).publicKey rng).isSome)
    (ask : RecipientAsks v L) (n : Nat) (D : Res (Bytes × List (SealAnswer v L)) → Prop) :
    |sealChance (R := R) (fun rng f c => D (recipientGame P sks keys ask n .left rng f c)) -
        sealChance (R := R) (fun rng f c => D (recipientGame P sks keys ask n .right rng f c))| ≤
      idealSealChance (R := R) (fun rng f c edk ak =>
        (HashedFor P sks ask n .left rng f c edk ak ∨ HashedFor P sks ask n .right rng f c edk ak) ∨
          OtherMade P sks ask n rng f c edk ak) +
        n / 2 ^ 256 := by
  have e256 : ((256 ^ 32 : Nat) : ℚ) = 2 ^ 256 := by norm_num
  rw [chance_eq, chance_eq, ideal_eq]
  refine average _ _ _ _ (by positivity) fun r => ?_
  obtain ⟨⟨xk, epk⟩, he⟩ := Option.isSome_iff_exists.1 (hR r.1 r.2)
  obtain ⟨xk', he'⟩ := ephemeral_other _ (sks .right).publicKey he
  have h := one_tape hP hL sks (xks := fun | .left => xk | .right => xk')
    (fun | .left => he | .right => he') keys ask n D
  rw [e256] at h
  exact h

/-- C97. Whoever sees a key sealed for one of two recipients, computes hash and cipher and has other
texts unsealed by both, in at most `n` requests chosen as they like, learns for whom the key was sealed
(and which key) at most as well as they hash the secret shared with one of the recipients, or make
another text with the same ephemeral key that one of them accepts, in a game that involves neither;
and otherwise by guessing a cipher key. -/
theorem which_recipient (hP : P.Laws) (hL : 32 ≤ L) (sks : Side → Key P v .Secret)
    (keys : Side → Key P v .Local) (R : Finset Rng)
    (hR : ∀ rng ∈ R, (ephemeral P (sks .left).publicKey rng).isSome)
    (ask : RecipientAsks v L) (n : Nat) (D : Res (Bytes × List (SealAnswer v L)) → Prop) :
    |sealChance (R := R) (fun rng f c => D (recipientGame P sks keys ask n .left rng f c)) -
        sealChance (R := R) (fun rng f c => D (recipientGame P sks keys ask n .right rng f c))| ≤
      idealSealChance (R := R) (fun rng => HashedFor P sks ask n .left rng) +
        idealSealChance (R := R) (fun rng => HashedFor P sks ask n .right rng) +
        idealSealChance (R := R) (fun rng => OtherMade P sks ask n rng) +
        n / 2 ^ 256 :=
  le_trans (on_tapes hP hL sks keys R hR ask n D) (add_le_add_left (le_trans (ideal_or _ _)
    (add_le_add_left (ideal_or _ _) _)) _)

/-! ### Without requests to unseal -/

theorem not_asked (ans : RecipientAsk v → SealAnswer v L)
    (ask : List (SealAnswer v L) → Option (RecipientAsk v))
    (hask : ∀ seen b s, ask seen ≠ some (b, .unseal s)) (b : Side) (s : Bytes) (n : Nat) :
    ∀ seen, (b, SealAsk.unseal s) ∉ (dialog ans ask n seen).2 := by
  induction n with
  | zero => intro seen h; cases h
  | succ n ih =>
    intro seen h
    unfold dialog at h
    cases ha : ask seen with
    | none => rw [ha] at h; cases h
    | some a =>
      rw [ha] at h
      rcases List.mem_cons.1 h with h | h
      · exact hask seen b s (by rw [ha, h])
      · exact ih _ h

/-- Whoever makes no request to unseal asks what they would ask of someone without the secret keys. -/
theorem asked_stranger (sks : Side → Key P v .Secret) (ask : RecipientAsks v L)
    (hask : ∀ text seen b s, ask text seen ≠ some (b, .unseal s)) (n : Nat) (epk : BytesN (pkeEpkLen v))
    (f : SealHash v) (c : CipherOf v L) (edk : BytesN 32) (ak : BytesN (pkeTagLen v)) :
    (noRecipient P sks ask n epk f c edk ak).2 = strangerAsked P ask n epk f c edk ak := by
  unfold noRecipient strangerAsked
  dsimp only
  rw [dialog_congr _ _ _ n []]
  rintro ⟨b, a⟩ ha
  cases a with
  | hash m => rfl
  | cipher k => rfl
  | mac ak m => rfl
  | «unseal» s => exact absurd ha (not_asked _ _ (hask _) b s _ _)

/-- The hash of the shared secret shows the shared secret. -/
theorem secretFrom_spec (sks : Side → Key P v .Secret) (ask : RecipientAsks v L)
    (hask : ∀ text seen b s, ask text seen ≠ some (b, .unseal s)) (n : Nat) (xk : Bytes)
    (hx : xk.length = xkLen v) (epk : BytesN (pkeEpkLen v)) (pk : Key P v .Public)
    (f : SealHash v) (c : CipherOf v L) (edk : BytesN 32) (ak : BytesN (pkeTagLen v))
    (h : SecretHashed P pk xk epk ((noRecipient P sks ask n epk f c edk ak).2.map Prod.snd)) :
    ∃ i < n, secretFrom P ask n epk f c edk ak i = some xk := by
  obtain ⟨m, hm, d, hd⟩ := h
  obtain ⟨⟨b, q⟩, hm, hq⟩ := List.mem_map.1 hm
  have hlen : (noRecipient P sks ask n epk f c edk ak).2.length ≤ n := dialog_length _ _ _ _
  rw [asked_stranger sks ask hask n epk f c edk ak] at hm hlen
  obtain ⟨i, hi, he⟩ := List.mem_iff_getElem.1 hm
  refine ⟨i, Nat.lt_of_lt_of_le hi hlen, ?_⟩
  unfold secretFrom
  rw [List.getElem?_eq_getElem hi, he]
  change q = .hash m at hq
  subst hq
  dsimp only
  rw [hd]
  have hh : (Spec.sealHeader v).length = 8 := by cases v <;> rfl
  unfold sealKdfInput
  rw [List.append_assoc, List.append_assoc, List.drop_succ_cons, List.drop_left' hh, List.take_left' hx]

open Finset in
/-- Without requests to unseal: telling for whom a key was sealed is computing the Diffie–Hellman secret
of one of the two public keys and a fresh ephemeral public key. The one who computes it runs the other
without the secret keys, shows them a random text and returns part of one of their `n` requests. -/
theorem which_recipient_diffie_hellman (hP : P.Laws) (hL : 32 ≤ L) (sks : Side → Key P v .Secret)
    (keys : Side → Key P v .Local) (R : Finset Rng)
    (hR : ∀ rng ∈ R, (ephemeral P (sks .left).publicKey rng).isSome)
    (ask : RecipientAsks v L) (hask : ∀ text seen b s, ask text seen ≠ some (b, .unseal s)) (n : Nat)
    (D : Res (Bytes × List (SealAnswer v L)) → Prop) :
    |sealChance (R := R) (fun rng f c => D (recipientGame P sks keys ask n .left rng f c)) -
        sealChance (R := R) (fun rng f c => D (recipientGame P sks keys ask n .right rng f c))| ≤
      ∑ i ∈ range n, idealSealChance (R := R) (fun rng f c edk ak => ∃ xk epk,
          ephemeral P (sks .left).publicKey rng = some (xk, epk) ∧
          secretFrom P ask n epk f c edk ak i = some xk) +
        ∑ i ∈ range n, idealSealChance (R := R) (fun rng f c edk ak => ∃ xk epk,
          ephemeral P (sks .right).publicKey rng = some (xk, epk) ∧
          secretFrom P ask n epk f c edk ak i = some xk) +
        n / 2 ^ 256 := by
  classical
  refine le_trans (which_recipient hP hL sks keys R hR ask n D) ?_
  have hz : idealSealChance (R := R) (fun rng => OtherMade P sks ask n rng) = 0 := by
    unfold idealSealChance
    rw [filter_eq_empty_iff.2, card_empty, Nat.cast_zero, zero_div]
    rintro x - ⟨a, xk, epk, -, b, s, hs, -⟩
    exact not_asked _ _ (hask _) b s _ _ hs
  rw [hz, add_zero]
  have key : ∀ a, idealSealChance (R := R) (fun rng => HashedFor P sks ask n a rng) ≤
      ∑ i ∈ range n, idealSealChance (R := R) (fun rng f c edk ak => ∃ xk epk,
        ephemeral P (sks a).publicKey rng = some (xk, epk) ∧
        secretFrom P ask n epk f c edk ak i = some xk) := by
    intro a
    unfold idealSealChance
    rw [← Finset.sum_div]
    refine div_le_div_of_nonneg_right ?_ (Nat.cast_nonneg _)
    rw [← Nat.cast_sum]
    refine Nat.cast_le.2 (le_trans (card_le_card ?_) card_biUnion_le)
    intro x hx
    obtain ⟨xk, epk, he, hs⟩ := (mem_filter.1 hx).2
    obtain ⟨i, hi, h⟩ := secretFrom_spec sks ask hask n xk (ephemeral_length he) epk _ _ _ _ _ hs
    exact mem_biUnion.2 ⟨i, mem_range.2 hi, mem_filter.2 ⟨mem_univ _, xk, epk, he, h⟩⟩
  exact add_le_add_left (add_le_add (key .left) (key .right)) _

/-! ### Random tags -/

section tags

open C88 (tag_with tag_congr laws_with ephemeral_with pub_with secret_with ivOf_with stream1_with usesAk
  usesAk_length tags_congr tagged_length guess guess_length tagChance_eq idealTagChance_eq)

variable {M : Nat} (hM : 89 ≤ M) (sks : Side → Key P v .Secret) (ask : RecipientAsks v L) (n : Nat)

/-- The recipients when the MAC is exchanged. -/
abbrev under (T : SealMac v M) : Side → Key (P.withSealMac v T) v .Secret := fun a => (sks a).underMac T

/-- The requests, when the tag and all other tags are given. -/
noncomputable def askedWith (epk : BytesN (pkeEpkLen v)) (f : SealHash v) (c : CipherOf v L)
    (edk : BytesN 32) (z : BytesN (pkeTagLen v)) (T : SealMac v M) : List (RecipientAsk v) :=
  let text := paserkText v (asc "seal") (z.1 ++ epk.1 ++ edk.1)
  (dialog (fun r => idealAnswer (P.withSealMac v T) (under sks T r.1) epk f c text r.2) (ask text) n []).2

/-- The authentication keys used. -/
noncomputable def usedBy (f : SealHash v) (l : List (RecipientAsk v)) : List (BytesN (pkeTagLen v)) :=
  l.flatMap fun r => usesAk (sks r.1) f r.2

/-- The guesses at tags. -/
noncomputable def guessedBy (l : List (RecipientAsk v)) : List (ShortBytes M × BytesN (pkeTagLen v)) :=
  l.flatMap fun r => guess hM r.2

theorem usedBy_length (f : SealHash v) {l : List (RecipientAsk v)} (h : l.length ≤ n) :
    (usedBy sks f l).length ≤ n :=
  Nat.le_trans (flat_length (fun r : RecipientAsk v => usesAk (sks r.1) f r.2)
    (fun r => usesAk_length (sks r.1) f r.2) _) h

theorem guessedBy_length {l : List (RecipientAsk v)} (h : l.length ≤ n) :
    (guessedBy hM l).length ≤ n :=
  Nat.le_trans (flat_length (fun r : RecipientAsk v => guess hM r.2) (fun r => guess_length hM r.2) _) h

/-- Another text was made with the authentication key of the given one. -/
def Forged (rng : Rng) (f : SealHash v) (c : CipherOf v L) (edk : BytesN 32) (ak : BytesN (pkeTagLen v)) :
    Prop :=
  ∃ a xk epk, ephemeral P (sks a).publicKey rng = some (xk, epk) ∧
    ∃ b s, (b, SealAsk.unseal s) ∈ (noRecipient P sks ask n epk f c edk ak).2 ∧
      s ≠ randomText P epk edk ak ∧ ∃ edk', s = randomText P epk edk' ak

/-- Another text was made that one of the recipients accepts, without hashing the shared secret. -/
def Accepted (b : Side) (rng : Rng) (f : SealHash v) (c : CipherOf v L) (edk : BytesN 32)
    (ak : BytesN (pkeTagLen v)) : Prop :=
  ∃ xk epk, ephemeral P (sks b).publicKey rng = some (xk, epk) ∧
    ¬ SecretHashed P (sks b).publicKey xk epk ((noRecipient P sks ask n epk f c edk ak).2.map Prod.snd) ∧
    ∃ s, (b, SealAsk.unseal s) ∈ (noRecipient P sks ask n epk f c edk ak).2 ∧ HasEphemeral epk s ∧
      ∃ key, unsealText (P.withSeal f c) ((sks b).underSeal f c) s = .ok key

theorem otherMade_cases {rng : Rng} {f : SealHash v} {c : CipherOf v L} {edk : BytesN 32}
    {ak : BytesN (pkeTagLen v)} (h : OtherMade P sks ask n rng f c edk ak) :
    Forged (P := P) sks ask n rng f c edk ak ∨ ∃ b, HashedFor P sks ask n b rng f c edk ak ∨
      Accepted (P := P) sks ask n b rng f c edk ak := by
  obtain ⟨a, xk, epk, he, b, s, hs, hne, hep, h | h⟩ := h
  · exact .inl ⟨a, xk, epk, he, b, s, hs, hne, h⟩
  · obtain ⟨xk', he'⟩ := ephemeral_other _ (sks b).publicKey he
    refine .inr ⟨b, ?_⟩
    by_cases hh : SecretHashed P (sks b).publicKey xk' epk
        ((noRecipient P sks ask n epk f c edk ak).2.map Prod.snd)
    · exact .inl ⟨xk', epk, he', hh⟩
    · exact .inr ⟨xk', epk, he', hh, s, hs, hep, h⟩

theorem noRecipient_with (epk : BytesN (pkeEpkLen v)) (f : SealHash v) (c : CipherOf v L) (edk : BytesN 32)
    (ak : BytesN (pkeTagLen v)) (T : SealMac v M) :
    (noRecipient (P.withSealMac v T) (under sks T) ask n epk f c edk ak).2 =
      askedWith sks ask n epk f c edk (sealMac (P.withSealMac v T) ak epk edk) T := rfl

/-- Other tags under one key do not change what is asked as long as that key is not used. -/
theorem asked_row (epk : BytesN (pkeEpkLen v)) (f : SealHash v) (c : CipherOf v L) (edk : BytesN 32)
    (z : BytesN (pkeTagLen v)) (T : SealMac v M) (k : BytesN (pkeTagLen v))
    (row : ShortBytes M → BytesN (pkeTagLen v))
    (hk : k ∉ usedBy sks f (askedWith sks ask n epk f c edk z T)) :
    askedWith sks ask n epk f c edk z (Function.update T k row) = askedWith sks ask n epk f c edk z T := by
  unfold askedWith
  dsimp only
  rw [dialog_congr]
  rintro ⟨b, q⟩ hq
  exact tags_congr T (sks b) epk f c _ k row q fun h' => hk (List.mem_flatMap.2 ⟨_, hq, h'⟩)

theorem tag_bound (hN : 89 ≤ M) (epk : BytesN (pkeEpkLen v)) (e : BytesN 32) :
    (sealTagged v epk.1 e.1).length ≤ M := Nat.le_trans (tagged_length _ _) hN

theorem guess_mem {l : List (RecipientAsk v)} {b : Side} {s : Bytes} (hs : (b, SealAsk.unseal s) ∈ l)
    {w : SealedKey v} (hw : SealedKey.parse v s = .ok w) :
    ((⟨sealTagged v w.ephemeralPublicKey.1 w.encryptedDataKey.1, tag_bound hM _ _⟩, w.tag) :
      ShortBytes M × BytesN (pkeTagLen v)) ∈ guessedBy hM l := by
  refine List.mem_flatMap.2 ⟨_, hs, ?_⟩
  unfold guess
  dsimp only
  rw [hw]
  exact List.mem_singleton.2 rfl

theorem nb (m : Nat) : 0 < Fintype.card (BytesN m) :=
  Fintype.card_pos_iff.2 ⟨⟨List.replicate _ 0, List.length_replicate⟩⟩

include hM in
/-- Other tags under the authentication key of the text come out right only by chance. -/
theorem forging (R : Finset Rng) :
    (count (fun x : (R × SealHash v × CipherOf v L × BytesN 32) × BytesN (pkeTagLen v) × SealMac v M =>
        Forged (P := P.withSealMac v x.2.2) (under sks x.2.2) ask n x.1.1 x.1.2.1 x.1.2.2.1 x.1.2.2.2 x.2.1) :
          ℚ) /
      Fintype.card ((R × SealHash v × CipherOf v L × BytesN 32) × BytesN (pkeTagLen v) × SealMac v M) ≤
    n / Fintype.card (BytesN (pkeTagLen v)) + n / Fintype.card (BytesN (pkeTagLen v)) := by
  have k1 : BytesN (pkeEpkLen v) := ⟨List.replicate _ 0, List.length_replicate⟩
  let epkOf : R → BytesN (pkeEpkLen v) :=
    fun r => ((ephemeral P (sks .left).publicKey r.1).map Prod.snd).getD k1
  refine Plug.forged n (fun y : R × SealHash v × CipherOf v L × BytesN 32 =>
      ⟨sealTagged v (epkOf y.1).1 y.2.2.2.1, tag_bound hM _ _⟩)
    (fun y z T => usedBy sks y.2.1 (askedWith sks ask n (epkOf y.1) y.2.1 y.2.2.1 y.2.2.2 z T))
    (fun y z T => guessedBy hM (askedWith sks ask n (epkOf y.1) y.2.1 y.2.2.1 y.2.2.2 z T))
    (fun y z T => usedBy_length _ _ _ (dialog_length _ _ _ _))
    (fun y z T => guessedBy_length _ _ (dialog_length _ _ _ _)) _ ?_ (nb _) (nb _)
  rintro ⟨r, f, c, e⟩ ak T row hak ⟨a, xk, epk, he, b, s, hs, hne, e', he'⟩
  dsimp only at hak he hs hne he' ⊢
  rw [ephemeral_with] at he
  have hepk : epkOf r = epk := by
    obtain ⟨xk', h⟩ := ephemeral_other _ (sks .left).publicKey he
    simp only [epkOf, h]
    rfl
  simp only [hepk] at hak ⊢
  have et : ∀ e : BytesN 32, sealMac (P.withSealMac v (Function.update T ak row)) ak epk e =
      row ⟨_, tag_bound hM epk e⟩ := by
    intro e
    unfold sealMac
    rw [tag_with _ _ _ (tag_bound hM _ _), Function.update_self]
  rw [noRecipient_with, et, asked_row _ _ _ _ _ _ _ _ _ _ _ hak] at hs
  have ew : ∀ e : BytesN 32, randomText (P.withSealMac v (Function.update T ak row)) epk e ak =
      paserkText v (asc "seal") ((row ⟨_, tag_bound hM epk e⟩).1 ++ epk.1 ++ e.1) := by
    intro e
    unfold randomText
    rw [et]
  rw [ew] at hne he'
  have hp : SealedKey.parse v s = .ok ⟨row ⟨_, tag_bound hM epk e'⟩, epk, e'⟩ :=
    SealedKey.parse_ok_iff.2 he'
  refine ⟨_, guess_mem hM hs hp, ?_, rfl⟩
  intro h
  have h' := congrArg Subtype.val h
  unfold sealTagged at h'
  have h2 : e' = e := Subtype.ext (List.append_cancel_left h')
  exact hne (by rw [he', h2])

/-- Where the authentication key of a recipient comes from. -/
noncomputable def keyInput (b : Side) (rng : Rng) : BytesN (sealInLen v) :=
  let m := match ephemeral P (sks b).publicKey rng with
    | some (xk, epk) => sealKdfInput v 2 xk epk.1 (sealPub P (sks b).publicKey)
    | none => []
  if h : m.length = sealInLen v then ⟨m, h⟩ else ⟨List.replicate _ 0, List.length_replicate⟩

theorem keyInput_eq {b : Side} {rng : Rng} {xk : Bytes} {epk : BytesN (pkeEpkLen v)}
    (he : ephemeral P (sks b).publicKey rng = some (xk, epk)) :
    (keyInput sks b rng).1 = sealKdfInput v 2 xk epk.1 (sealPub P (sks b).publicKey) := by
  have h := input_length (v := v) 2 (ephemeral_length he) epk.2 (sealPub_length (sks b).publicKey)
  unfold keyInput
  simp only [he, dif_pos h]

/-- Another authentication key of a recipient does not change what is asked as long as the shared secret
is not hashed. -/
theorem asked_key (T : SealMac v M) (b : Side) {rng : Rng} {xk : Bytes} {epk : BytesN (pkeEpkLen v)}
    (he : ephemeral P (sks b).publicKey rng = some (xk, epk)) (f : SealHash v) (c : CipherOf v L)
    (edk : BytesN 32) (z : BytesN (pkeTagLen v)) (k : BytesN (pkeTagLen v))
    (hn : ¬ SecretHashed P (sks b).publicKey xk epk
      ((askedWith sks ask n epk (Function.update f (keyInput sks b rng) k) c edk z T).map Prod.snd)) :
    askedWith sks ask n epk f c edk z T =
      askedWith sks ask n epk (Function.update f (keyInput sks b rng) k) c edk z T := by
  have hx := keyInput_eq sks he
  unfold askedWith at hn ⊢
  dsimp only at hn ⊢
  rw [dialog_congr (fun r => idealAnswer (P.withSealMac v T) (under sks T r.1) epk
    (Function.update f (keyInput sks b rng) k) c (paserkText v (asc "seal") (z.1 ++ epk.1 ++ edk.1)) r.2)]
  rintro ⟨a, q⟩ hq
  cases q with
  | hash m =>
    show SealAnswer.hash (f m) = SealAnswer.hash _
    rw [Function.update_of_ne]
    rintro rfl
    exact hn ⟨_, List.mem_map.2 ⟨_, hq, rfl⟩, 2, hx⟩
  | cipher k => rfl
  | mac ak m => rfl
  | «unseal» s =>
    unfold idealAnswer
    dsimp only
    by_cases hs : s = paserkText v (asc "seal") (z.1 ++ epk.1 ++ edk.1)
    · rw [if_pos hs, if_pos hs]
    rw [if_neg hs, if_neg hs]
    by_cases hep : HasEphemeral epk s
    · rw [if_pos hep, if_pos hep]
    rw [if_neg hep, if_neg hep]
    unfold sealAnswer
    dsimp only
    rw [if_neg hs, if_neg hs]
    congr 1
    cases hw : SealedKey.parse v s with
    | err er => unfold unsealText; rw [hw]; rfl
    | panic => unfold unsealText; rw [hw]; rfl
    | ok w =>
      have hwe : w.ephemeralPublicKey ≠ epk := fun h => hep ⟨w, hw, h⟩
      cases hs : unsealSecret P (sks a) w.ephemeralPublicKey with
      | none =>
        rw [(unsealed (under sks T a) _ c hw).1 (by rw [secret_with, hs]),
          (unsealed (under sks T a) _ c hw).1 (by rw [secret_with, hs])]
      | some xk' =>
        have hl := secret_length hs
        have hp : (sealPub P (sks a).publicKey).length = pkeEpkLen v := sealPub_length _
        have g : ∀ d, (sealKdfInput v d xk' w.ephemeralPublicKey.1
            (sealPub (P.withSealMac v T) (under sks T a).publicKey)).length = sealInLen v := by
          intro d
          rw [pub_with]
          exact input_length (v := v) d hl w.ephemeralPublicKey.2 hp
        have ne : ∀ d, (⟨_, g d⟩ : BytesN (sealInLen v)) ≠ keyInput sks b rng := by
          intro d h
          have h' := congrArg Subtype.val h
          rw [hx] at h'
          exact hwe (Subtype.ext (input_inj (by rw [hl, ephemeral_length he])
            (by rw [w.ephemeralPublicKey.2, epk.2]) h').2)
        rw [(unsealed (under sks T a) _ c hw).2 xk' (by rw [secret_with, hs]) (g 1) (g 2),
          (unsealed (under sks T a) _ c hw).2 xk' (by rw [secret_with, hs]) (g 1) (g 2),
          Function.update_of_ne (ne 1), Function.update_of_ne (ne 2)]

include hM in
/-- Tags under the authentication key of a recipient come out right only by chance. -/
theorem accepting (hP : P.Laws) (R : Finset Rng) (b : Side) :
    (count (fun x : (R × SealHash v × CipherOf v L × BytesN 32 × BytesN (pkeTagLen v)) ×
          BytesN (pkeTagLen v) × SealMac v M =>
        Accepted (P := P.withSealMac v x.2.2) (under sks x.2.2) ask n b x.1.1
          (Function.update x.1.2.1 (keyInput sks b x.1.1) x.2.1) x.1.2.2.1 x.1.2.2.2.1 x.1.2.2.2.2) : ℚ) /
      Fintype.card ((R × SealHash v × CipherOf v L × BytesN 32 × BytesN (pkeTagLen v)) ×
          BytesN (pkeTagLen v) × SealMac v M) ≤
    (n + 1 : Nat) / Fintype.card (BytesN (pkeTagLen v)) + (n + 1 : Nat) / Fintype.card (BytesN (pkeTagLen v)) := by
  have k1 : BytesN (pkeEpkLen v) := ⟨List.replicate _ 0, List.length_replicate⟩
  let epkOf : R → BytesN (pkeEpkLen v) :=
    fun r => ((ephemeral P (sks b).publicKey r.1).map Prod.snd).getD k1
  let asked : (R × SealHash v × CipherOf v L × BytesN 32 × BytesN (pkeTagLen v)) → SealMac v M →
      List (RecipientAsk v) := fun y T =>
    askedWith sks ask n (epkOf y.1) y.2.1 y.2.2.1 y.2.2.2.1
      (sealMac (P.withSealMac v T) y.2.2.2.2 (epkOf y.1) y.2.2.2.1) T
  have hlen : ∀ y T, (asked y T).length ≤ n := fun y T => dialog_length _ _ _ _
  refine Plug.forged (n + 1) (fun _ => (⟨[], Nat.zero_le _⟩ : ShortBytes M))
    (fun y _ T => y.2.2.2.2 :: usedBy sks y.2.1 (asked y T)) (fun y _ T => guessedBy hM (asked y T))
    (fun y z T => Nat.succ_le_succ (usedBy_length _ _ _ (hlen y T)))
    (fun y z T => Nat.le_succ_of_le (guessedBy_length _ _ (hlen y T))) _ ?_ (nb _) (nb _)
  rintro ⟨r, f, c, e, ak⟩ k T row hak ⟨xk, epk, he, hn, s, hs, ⟨w, hw, hwe⟩, key, hkey⟩
  dsimp only at hak he hn hs hkey ⊢
  rw [ephemeral_with] at he
  have hepk : epkOf r = epk := by simp only [epkOf, he]; rfl
  have hne : k ≠ ak := fun h => hak (h ▸ List.mem_cons_self)
  have hus : k ∉ usedBy sks f (asked (r, f, c, e, ak) T) := fun h => hak (List.mem_cons_of_mem _ h)
  have htag : sealMac (P.withSealMac v (Function.update T k row)) ak epk e =
      sealMac (P.withSealMac v T) ak epk e :=
    tag_congr T _ ak (Function.update_of_ne hne.symm _ _) _
  have hask : asked (r, f, c, e, ak) T = askedWith sks ask n epk f c e
      (sealMac (P.withSealMac v T) ak epk e) T := by
    simp only [asked, hepk]
  rw [noRecipient_with, htag] at hn hs
  have hn' : ¬ SecretHashed P (sks b).publicKey xk epk
      ((askedWith sks ask n epk (Function.update f (keyInput sks b r.1) k) c e
        (sealMac (P.withSealMac v T) ak epk e) (Function.update T k row)).map Prod.snd) := by
    intro h
    apply hn
    unfold SecretHashed at h ⊢
    rw [pub_with]
    exact h
  rw [← asked_key sks ask n _ b he f c e _ k hn', asked_row _ _ _ _ _ _ _ _ _ _ _ (hask ▸ hus), ← hask] at hs
  refine ⟨_, guess_mem hM hs hw, ?_, ?_⟩
  · intro h
    have h' := congrArg (fun x : ShortBytes M => x.1.length) h
    have e1 := w.ephemeralPublicKey.2
    have e2 := w.encryptedDataKey.2
    simp only [sealTagged, List.length_append, e1, e2, List.length_nil] at h'
    omega
  · have hsec : unsealSecret P (sks b) epk = some xk := by
      obtain ⟨rng', hd, -⟩ := draw (sks b).publicKey f c he
      exact C43.shared_secret hP (sks b) r.1 rng' xk epk hd
    have hp : (sealPub P (sks b).publicKey).length = pkeEpkLen v := sealPub_length _
    have g : ∀ d, (sealKdfInput v d xk w.ephemeralPublicKey.1
        (sealPub (P.withSealMac v (Function.update T k row))
          (under sks (Function.update T k row) b).publicKey)).length = sealInLen v := by
      intro d
      rw [pub_with]
      exact input_length (v := v) d (ephemeral_length he) w.ephemeralPublicKey.2 hp
    have hun := (unsealed (under sks (Function.update T k row) b)
      (Function.update f (keyInput sks b r.1) k) c hw).2 xk (by rw [secret_with, hwe, hsec]) (g 1) (g 2)
    rw [hun] at hkey
    have h2 : (⟨_, g 2⟩ : BytesN (sealInLen v)) = keyInput sks b r.1 := by
      refine Subtype.ext ?_
      rw [keyInput_eq sks he]
      show sealKdfInput v 2 xk w.ephemeralPublicKey.1 _ = _
      rw [pub_with, hwe]
    rw [h2, Function.update_self] at hkey
    by_cases ht : w.tag = sealMac (P.withSealMac v (Function.update T k row)) k w.ephemeralPublicKey
        w.encryptedDataKey
    · rw [ht]
      unfold sealMac
      rw [tag_with _ _ _ (tag_bound hM _ _), Function.update_self]
    · rw [if_neg ht] at hkey
      cases hkey

theorem ideal_tag_mono {R : Finset Rng}
    {A B : SealMac v M → R → SealHash v → CipherOf v L → BytesN 32 → BytesN (pkeTagLen v) → Prop}
    (h : ∀ T r f c e t, A T r f c e t → B T r f c e t) : idealSealTagChance A ≤ idealSealTagChance B := by
  unfold idealSealTagChance
  refine div_le_div_of_nonneg_right ?_ (Nat.cast_nonneg _)
  rw [count_eq, count_eq]
  exact Nat.cast_le.2 (Plug.count_mono fun x hx => h _ _ _ _ _ _ hx)

theorem ideal_tag_or {R : Finset Rng}
    (A B : SealMac v M → R → SealHash v → CipherOf v L → BytesN 32 → BytesN (pkeTagLen v) → Prop) :
    idealSealTagChance (fun T r f c e t => A T r f c e t ∨ B T r f c e t) ≤
      idealSealTagChance A + idealSealTagChance B := by
  unfold idealSealTagChance
  rw [← add_div]
  refine div_le_div_of_nonneg_right ?_ (Nat.cast_nonneg _)
  exact_mod_cast Plug.count_or
    (fun x : SealMac v M × R × SealHash v × CipherOf v L × BytesN 32 × BytesN (pkeTagLen v) =>
      A x.1 x.2.1 x.2.2.1 x.2.2.2.1 x.2.2.2.2.1 x.2.2.2.2.2) _

theorem few (n : Nat) : (n : ℚ) / Fintype.card (BytesN (pkeTagLen v)) ≤ n / 2 ^ 256 := by
  have e256 : ((256 ^ 32 : Nat) : ℚ) = 2 ^ 256 := by norm_num
  have hc : ((256 ^ 32 : Nat) : ℚ) ≤ Fintype.card (BytesN (pkeTagLen v)) := by
    rw [C75.card_bytes]
    exact Nat.cast_le.2 (Nat.pow_le_pow_right (by decide) (by cases v <;> decide))
  rw [← e256]
  exact div_le_div_of_nonneg_left (Nat.cast_nonneg _) (Nat.cast_pos.2 (Nat.pow_pos (by decide))) hc

include hM in
theorem forged_chance (R : Finset Rng) :
    idealSealTagChance (R := R) (M := M) (fun T rng f c edk ak =>
      Forged (P := P.withSealMac v T) (under sks T) ask n rng f c edk ak) ≤ n / 2 ^ 256 + n / 2 ^ 256 := by
  have hf := forging (P := P) hM sks ask n R
  let re : SealMac v M × R × SealHash v × CipherOf v L × BytesN 32 × BytesN (pkeTagLen v) ≃
      (R × SealHash v × CipherOf v L × BytesN 32) × BytesN (pkeTagLen v) × SealMac v M :=
    { toFun := fun x => ((x.2.1, x.2.2.1, x.2.2.2.1, x.2.2.2.2.1), x.2.2.2.2.2, x.1)
      invFun := fun x => (x.2.2, x.1.1, x.1.2.1, x.1.2.2.1, x.1.2.2.2, x.2.1)
      left_inv := fun _ => rfl
      right_inv := fun _ => rfl }
  rw [← Plug.count_bij re.bijective
    (A := fun x => Forged (P := P.withSealMac v x.1) (under sks x.1) ask n x.2.1 x.2.2.1 x.2.2.2.1
      x.2.2.2.2.1 x.2.2.2.2.2) (fun _ => Iff.rfl), ← Fintype.card_congr re] at hf
  unfold idealSealTagChance
  rw [count_eq]
  exact le_trans hf (add_le_add (few n) (few n))

/-- The authentication key of a recipient is drawn apart; that changes nothing. -/
theorem key_bijective {K I X A R : Type} [DecidableEq I] (x : R → I) :
    Function.Bijective fun z : (R × (I → X) × A) × X × K =>
      ((z.2.2, z.1.1, Function.update z.1.2.1 (x z.1.1) z.2.1, z.1.2.2), z.1.2.1 (x z.1.1)) := by
  refine Function.bijective_iff_has_inverse.2 ⟨fun w =>
    ((w.1.2.1, Function.update w.1.2.2.1 (x w.1.2.1) w.2, w.1.2.2.2), w.1.2.2.1 (x w.1.2.1), w.1.1), ?_, ?_⟩
  · rintro ⟨⟨r, f, y⟩, t, T⟩
    simp
  · rintro ⟨⟨T, r, f, y⟩, t⟩
    simp

include hM in
theorem accepted_chance (hP : P.Laws) (R : Finset Rng) (b : Side) :
    idealSealTagChance (R := R) (M := M) (fun T rng f c edk ak =>
      Accepted (P := P.withSealMac v T) (under sks T) ask n b rng f c edk ak) ≤
      (n + 1 : Nat) / 2 ^ 256 + (n + 1 : Nat) / 2 ^ 256 := by
  have hf := accepting (P := P) hM sks ask n hP R b
  let acc : SealMac v M × R × SealHash v × CipherOf v L × BytesN 32 × BytesN (pkeTagLen v) → Prop := fun y =>
    Accepted (P := P.withSealMac v y.1) (under sks y.1) ask n b y.2.1 y.2.2.1 y.2.2.2.1 y.2.2.2.2.1 y.2.2.2.2.2
  have e := Plug.count_bij (key_bijective (K := SealMac v M) (X := BytesN (pkeTagLen v))
      (A := CipherOf v L × BytesN 32 × BytesN (pkeTagLen v)) fun r : R => keyInput sks b r.1)
    (A := fun z => Accepted (P := P.withSealMac v z.2.2) (under sks z.2.2) ask n b z.1.1.1
      (Function.update z.1.2.1 (keyInput sks b z.1.1.1) z.2.1) z.1.2.2.1 z.1.2.2.2.1 z.1.2.2.2.2)
    (B := fun w => acc w.1) fun _ => Iff.rfl
  rw [Plug.count_fst acc] at e
  rw [e] at hf
  refine le_trans ?_ (le_trans hf (add_le_add (few (n + 1)) (few (n + 1))))
  unfold idealSealTagChance
  rw [count_eq]
  have ht : (0 : ℚ) < Fintype.card (BytesN (pkeTagLen v)) := by exact_mod_cast nb (pkeTagLen v)
  have hc : Fintype.card ((R × SealHash v × CipherOf v L × BytesN 32 × BytesN (pkeTagLen v)) ×
        BytesN (pkeTagLen v) × SealMac v M) =
      Fintype.card (SealMac v M × R × SealHash v × CipherOf v L × BytesN 32 × BytesN (pkeTagLen v)) *
        Fintype.card (BytesN (pkeTagLen v)) := by
    simp only [Fintype.card_prod]
    ring
  rw [hc, Nat.cast_mul, Nat.cast_mul, mul_div_mul_right _ _ ht.ne']

include hM in
/-- With a random MAC as well: whoever sees a sealed key and has other texts unsealed by both recipients
learns for whom it was sealed (and which key) at most as well as they hash the secret shared with one
of the recipients. -/
theorem which_recipient_random_tags (hP : P.Laws) (hL : 32 ≤ L) (keys : Side → Key P v .Local)
    (R : Finset Rng) (hR : ∀ rng ∈ R, (ephemeral P (sks .left).publicKey rng).isSome)
    (D : Res (Bytes × List (SealAnswer v L)) → Prop) :
    |sealTagChance (R := R) (M := M) (fun T rng f c => D (recipientGame (P.withSealMac v T)
          (fun a => (sks a).underMac T) (fun a => (keys a).underMac T) ask n .left rng f c)) -
        sealTagChance (R := R) (M := M) (fun T rng f c => D (recipientGame (P.withSealMac v T)
          (fun a => (sks a).underMac T) (fun a => (keys a).underMac T) ask n .right rng f c))| ≤
      idealSealTagChance (R := R) (M := M) (fun T rng =>
          HashedFor (P.withSealMac v T) (fun a => (sks a).underMac T) ask n .left rng) +
        idealSealTagChance (R := R) (M := M) (fun T rng =>
          HashedFor (P.withSealMac v T) (fun a => (sks a).underMac T) ask n .right rng) +
        (7 * n + 4) / 2 ^ 256 := by
  have h1 := average (ι := SealMac v M) _ _ _ _ (by positivity) fun T : SealMac v M =>
    on_tapes (laws_with hP T) hL (under sks T) (fun a => (keys a).underMac T) R
      (fun rng h => by rw [ephemeral_with]; exact hR rng h) ask n D
  rw [← tagChance_eq, ← tagChance_eq, ← idealTagChance_eq] at h1
  refine le_trans h1 ?_
  have h2 := ideal_tag_mono (R := R) (M := M)
    (A := fun T rng f c edk ak =>
      (HashedFor (P.withSealMac v T) (under sks T) ask n .left rng f c edk ak ∨
        HashedFor (P.withSealMac v T) (under sks T) ask n .right rng f c edk ak) ∨
        OtherMade (P.withSealMac v T) (under sks T) ask n rng f c edk ak)
    (B := fun T rng f c edk ak =>
      (HashedFor (P.withSealMac v T) (under sks T) ask n .left rng f c edk ak ∨
        HashedFor (P.withSealMac v T) (under sks T) ask n .right rng f c edk ak) ∨
      (Forged (P := P.withSealMac v T) (under sks T) ask n rng f c edk ak ∨
        (Accepted (P := P.withSealMac v T) (under sks T) ask n .left rng f c edk ak ∨
          Accepted (P := P.withSealMac v T) (under sks T) ask n .right rng f c edk ak))) (by
      rintro T r f c e t (h | h)
      · exact .inl h
      · rcases otherMade_cases _ _ _ h with h | ⟨b, h | h⟩
        · exact .inr (.inl h)
        · cases b
          exacts [.inl (.inl h), .inl (.inr h)]
        · cases b
          exacts [.inr (.inr (.inl h)), .inr (.inr (.inr h))])
  have h3 := ideal_tag_or (R := R) (M := M)
    (fun T rng f c edk ak =>
      HashedFor (P.withSealMac v T) (under sks T) ask n .left rng f c edk ak ∨
        HashedFor (P.withSealMac v T) (under sks T) ask n .right rng f c edk ak)
    (fun T rng f c edk ak =>
      Forged (P := P.withSealMac v T) (under sks T) ask n rng f c edk ak ∨
        (Accepted (P := P.withSealMac v T) (under sks T) ask n .left rng f c edk ak ∨
          Accepted (P := P.withSealMac v T) (under sks T) ask n .right rng f c edk ak))
  have h4 := ideal_tag_or (R := R) (M := M)
    (fun T rng f c edk ak => HashedFor (P.withSealMac v T) (under sks T) ask n .left rng f c edk ak)
    (fun T rng f c edk ak => HashedFor (P.withSealMac v T) (under sks T) ask n .right rng f c edk ak)
  have h5 := ideal_tag_or (R := R) (M := M)
    (fun T rng f c edk ak => Forged (P := P.withSealMac v T) (under sks T) ask n rng f c edk ak)
    (fun T rng f c edk ak =>
      Accepted (P := P.withSealMac v T) (under sks T) ask n .left rng f c edk ak ∨
        Accepted (P := P.withSealMac v T) (under sks T) ask n .right rng f c edk ak)
  have h6 := ideal_tag_or (R := R) (M := M)
    (fun T rng f c edk ak => Accepted (P := P.withSealMac v T) (under sks T) ask n .left rng f c edk ak)
    (fun T rng f c edk ak => Accepted (P := P.withSealMac v T) (under sks T) ask n .right rng f c edk ak)
  have h7 := forged_chance (P := P) hM sks ask n R
  have h8 := accepted_chance (P := P) hM sks ask n hP R .left
  have h9 := accepted_chance (P := P) hM sks ask n hP R .right
  have e : (7 * (n : ℚ) + 4) / 2 ^ 256 = (n / 2 ^ 256 + n / 2 ^ 256) +
      ((n + 1 : Nat) / 2 ^ 256 + (n + 1 : Nat) / 2 ^ 256) +
      ((n + 1 : Nat) / 2 ^ 256 + (n + 1 : Nat) / 2 ^ 256) + n / 2 ^ 256 := by
    generalize (2 : ℚ) ^ 256 = X
    push_cast
    ring
  rw [e]
  linarith

end tags

/-! ### Examples -/

/-- The hypotheses are met with two recipients and requests of all kinds, -/
example (v : Ver) (keys : Side → Key Toy.prims v .Local) (other : Key Toy.prims v .Secret)
    (ask : RecipientAsks v 32) (n : Nat) (D : Res (Bytes × List (SealAnswer v 32)) → Prop) :=
  which_recipient_random_tags (M := 89) (Nat.le_refl _)
    (fun | .left => C43.sampleSecret v | .right => other) ask n Toy.laws (Nat.le_refl 32) keys
    {C43.sampleRng} (fun rng h => by rw [Finset.mem_singleton.1 h]; exact C88.sample_some v) D

/-- … and whoever knows a shared secret may hash it: then nothing is claimed. -/
example (v : Ver) (other : Key Toy.prims v .Secret) : ∃ ask : RecipientAsks v 32,
    (∀ text seen b s, ask text seen ≠ some (b, .unseal s)) ∧ ∀ f c edk ak,
      HashedFor Toy.prims (fun | .left => other | .right => C43.sampleSecret v) ask 1 .right C43.sampleRng
        f c edk ak := by
  obtain ⟨⟨xk, epk⟩, he⟩ := Option.isSome_iff_exists.1 (C88.sample_some v)
  have h1 := input_length (v := v) 1 (ephemeral_length he) epk.2
    (sealPub_length (C43.sampleSecret v).publicKey)
  exact ⟨fun _ _ => some (.left, .hash ⟨_, h1⟩), fun _ _ _ _ h => (by cases h), fun f c edk ak =>
    ⟨xk, epk, he, ⟨_, h1⟩, List.mem_cons_self, 1, rfl⟩⟩

end Pasta.C97
