import Verif.Lemmas.Fresh
import Verif.Lemmas.SigningSim
import Verif.Props.Seals

/-!
# C92: with random bytes, nothing that is drawn repeats

The primitives are the algorithms themselves (`Real.prims`).
-/

namespace Pasta.C92

open Real (prims)
open Curve
open Fresh
open Spec (decodeScalar25519)
open Classical

/-- Operations that draw one block of which they show a part or an image. -/
theorem spread_shown (L : Nat) (c : ℚ) (hc0 : 0 ≤ c) (s : Rng → Res ((Bytes × Bytes) × Rng))
    (f : BytesN L → Bytes)
    (hs : ∀ t out r, s t = .ok (out, r) → ∃ b : BytesN L, t = b.1 ++ r ∧ s b.1 = .ok (out, []) ∧
      out.2 = f b)
    (hc : ∀ x, ((Finset.univ.filter fun b => f b = x).card : ℚ) ≤ c * Fintype.card (BytesN L)) :
    Spread c s := by
  refine spread_block L c hc0 s (fun b => ((match s b.1 with | .ok o => o.1.1 | _ => []), f b)) ?_ hc
  intro t out r h
  obtain ⟨b, h1, h2, h3⟩ := hs t out r h
  refine ⟨b, h1, ?_⟩
  rw [h2]
  exact Prod.ext rfl h3

/-- A value shown in full or made by an injective function. -/
theorem fibre_inj (L k : Nat) (hL : k ≤ 8 * L) (f : BytesN L → Bytes) (hf : ∀ a b, f a = f b → a = b)
    (x : Bytes) : ((Finset.univ.filter fun b => f b = x).card : ℚ) ≤
      1 / 2 ^ k * Fintype.card (BytesN L) := by
  have h1 : (Finset.univ.filter fun b => f b = x).card ≤ 1 := by
    rw [Finset.card_le_one]
    intro a ha b hb
    exact hf a b ((Finset.mem_filter.1 ha).2.trans (Finset.mem_filter.1 hb).2.symm)
  have h2 : (2 : ℚ) ^ k ≤ Fintype.card (BytesN L) := by
    rw [C75.card_bytes]
    have : (256 : ℚ) ^ L = 2 ^ (8 * L) := by rw [pow_mul]; norm_num
    push_cast
    rw [this]
    exact pow_le_pow_right₀ (by norm_num) hL
  calc ((Finset.univ.filter fun b => f b = x).card : ℚ) ≤ 1 := by exact_mod_cast h1
    _ = 1 / 2 ^ k * 2 ^ k := by rw [div_mul_cancel₀]; positivity
    _ ≤ _ := mul_le_mul_of_nonneg_left h2 (by positivity)

theorem card_le_inj {L : Nat} {β : Type} [Fintype β] (p : BytesN L → Prop) [DecidablePred p] (f : BytesN L → β)
    (h : ∀ a b, p a → p b → f a = f b → a = b) : (Finset.univ.filter p).card ≤ Fintype.card β := by
  rw [← Finset.card_univ]
  refine Finset.card_le_card_of_injOn f (fun _ _ => Finset.mem_coe.2 (Finset.mem_univ _)) ?_
  intro a ha b hb e
  exact h a b (Finset.mem_filter.1 ha).2 (Finset.mem_filter.1 hb).2 e

theorem card_le_or {L : Nat} (p q r : BytesN L → Prop) [DecidablePred p] [DecidablePred q]
    [DecidablePred r] (h : ∀ b, p b → q b ∨ r b) :
    (Finset.univ.filter p).card ≤ (Finset.univ.filter q).card + (Finset.univ.filter r).card := by
  refine (Finset.card_le_card ?_).trans (Finset.card_union_le _ _)
  intro b hb
  rw [Finset.mem_union, Finset.mem_filter, Finset.mem_filter]
  rcases h b (Finset.mem_filter.1 hb).2 with h | h
  · exact .inl ⟨Finset.mem_univ _, h⟩
  · exact .inr ⟨Finset.mem_univ _, h⟩

theorem le_card {L N : Nat} (p : BytesN L → Prop) [DecidablePred p] (f : Fin N → BytesN L) (hf : ∀ i, p (f i))
    (h : ∀ i j, f i = f j → i = j) : N ≤ (Finset.univ.filter p).card := by
  have := Finset.card_le_card_of_injOn (s := (Finset.univ : Finset (Fin N)))
    (t := Finset.univ.filter p) f (fun i _ => Finset.mem_coe.2 (Finset.mem_filter.2 ⟨Finset.mem_univ _, hf i⟩))
    (fun i _ j _ e => h i j e)
  rwa [Finset.card_univ, Fintype.card_fin] at this

theorem card_none {L : Nat} (p : BytesN L → Prop) [DecidablePred p] (h : ∀ b, ¬ p b) :
    (Finset.univ.filter p).card = 0 := by
  rw [Finset.filter_false_of_mem (fun b _ => h b)]
  rfl

/-- At most 32 ephemeral secrets have the same clamped scalar. -/
theorem card_clamped (d : Nat) :
    (Finset.univ.filter fun b : BytesN 32 => decodeScalar25519 b = d).card ≤ 32 := by
  refine (card_le_inj (L := 32) _ (fun b => ((⟨leNat b.1 % 8, Nat.mod_lt _ (by norm_num)⟩ : Fin 8),
    (⟨leNat b.1 / 2 ^ 254 % 4, Nat.mod_lt _ (by norm_num)⟩ : Fin 4))) ?_).trans (by simp)
  intro a b ha hb e
  have lt : ∀ a : BytesN 32, leNat a.1 < 2 ^ 256 := by
    intro a; have := leNat_lt a.1; rw [a.2] at this; exact lt_of_lt_of_eq this (by norm_num)
  have la := lt a
  have lb := lt b
  simp only [Prod.mk.injEq, Fin.mk.injEq] at e
  unfold decodeScalar25519 at ha hb
  exact Signing.leNat_injective 32 (show leNat a.1 = leNat b.1 by omega)

/-- At most 64 ephemeral secrets have the same ephemeral public key. -/
theorem card_ephemeral (x : Bytes) : (Finset.univ.filter fun b : BytesN 32 =>
    (prims.montMulBase (scalarModOrder (clampInteger b))).1 = x).card ≤ 64 := by
  by_cases hx : ∃ a : BytesN 32, (prims.montMulBase (scalarModOrder (clampInteger a))).1 = x
  · obtain ⟨a, rfl⟩ := hx
    refine (card_le_or (L := 32) _ (fun b => decodeScalar25519 b = decodeScalar25519 a)
      (fun b => decodeScalar25519 b = 8 * ed25519Order - decodeScalar25519 a) ?_).trans ?_
    · intro b hb
      rcases (E25519.ephemeral_eq_iff b a).1 (Subtype.ext hb) with hb | hb
      · exact .inl hb
      · exact .inr (by omega)
    · have h1 := card_clamped (decodeScalar25519 a)
      have h2 := card_clamped (8 * ed25519Order - decodeScalar25519 a)
      omega
  · rw [card_none]
    · exact Nat.zero_le _
    · intro b hb; exact hx ⟨b, hb⟩

theorem fibre_seal (x : Bytes) : ((Finset.univ.filter fun b : BytesN 32 =>
    (prims.montMulBase (scalarModOrder (clampInteger b))).1 = x).card : ℚ) ≤
      1 / 2 ^ 250 * Fintype.card (BytesN 32) := by
  have h := card_ephemeral x
  rw [C75.card_bytes]
  generalize (Finset.univ.filter fun b : BytesN 32 =>
    (prims.montMulBase (scalarModOrder (clampInteger b))).1 = x).card = k at h ⊢
  calc (k : ℚ) ≤ ((64 : Nat) : ℚ) := Nat.cast_le.2 h
    _ = 1 / 2 ^ 250 * ((256 ^ 32 : Nat) : ℚ) := by push_cast; norm_num

/-- There are more than `2 ^ 250` scalars. -/
theorem card_scalars [DecidablePred p384ScalarOk] :
    2 ^ 250 ≤ (Finset.univ.filter p384ScalarOk).card := by
  have small : ∀ i : Fin (2 ^ 250), i.val + 1 < 256 ^ 48 ∧ i.val + 1 < p384Order := by
    intro i
    have h := i.2
    have h1 : 2 ^ 250 < 256 ^ 48 := by norm_num
    have h2 : 2 ^ 250 < p384Order := by unfold p384Order; norm_num
    omega
  refine le_card (L := 48) (N := 2 ^ 250) _ (fun i => ⟨beBytes 48 (i.val + 1), beBytes_length _ _⟩) ?_ ?_
  · intro i
    obtain ⟨h1, h2⟩ := small i
    show 0 < beNat (beBytes 48 (i.val + 1)) ∧ beNat (beBytes 48 (i.val + 1)) < p384Order
    rw [beNat_beBytes, Nat.mod_eq_of_lt h1]
    exact ⟨Nat.succ_pos _, h2⟩
  · intro i j e
    have := beBytes_inj (k := 48) (small i).1 (small j).1 (congrArg Subtype.val e)
    exact Fin.ext (Nat.succ.inj this)

theorem spread_token (v : Ver) (M F E : Type) (iP : Payload E) (iM : MessageEncoding E M) (iF : Footer F)
    (b : TokenBuilder v .Local M F E) (key : Key prims v .Local) (i : Bytes) :
    Spread (1 / 2 ^ 250) (Draw.run (.token v M F E iP iM iF b key i)) := by
  refine spread_shown 32 _ (by positivity) _ (fun b => b.1) ?_
    (fibre_inj 32 250 (by norm_num) _ fun a b h => Subtype.ext h)
  intro t out r h
  unfold Draw.run at h
  obtain ⟨⟨tok, r⟩, h1, h2⟩ := Res.bind_eq_ok.1 h
  obtain ⟨rfl, rfl⟩ : (tok.display, tok.payload.take 32) = out ∧ r = _ := by
    simpa only [Res.ok.injEq, Prod.mk.injEq] using (show Res.ok _ = Res.ok _ from h2)
  obtain ⟨n, m, f, hn, rfl, hm, hf, ht⟩ := (encrypt_ok_iff _ _ _ _ _ _).1 h1
  refine ⟨⟨n, hn⟩, rfl, ?_, ?_⟩
  · have := (encrypt_ok_iff b key i n [] tok).2 ⟨n, m, f, hn, (List.append_nil _).symm, hm, hf, ht⟩
    unfold Draw.run
    dsimp only
    rw [this]
    rfl
  · have e : ∀ x y : Bytes, (n ++ x ++ y).take 32 = n := by intro x y; simp [← hn]
    show tok.payload.take 32 = n
    rw [ht]
    exact e _ _

theorem spread_pie (v : Ver) (k : WKind) (hidden : Key prims v k.kind) (wk : Key prims v .Local) :
    Spread (1 / 2 ^ 250) (Draw.run (.pie v k hidden wk)) := by
  refine spread_shown 32 _ (by positivity) _ (fun b => b.1) ?_
    (fibre_inj 32 250 (by norm_num) _ fun a b h => Subtype.ext h)
  intro t out r h
  unfold Draw.run at h
  obtain ⟨⟨w, r⟩, h1, h2⟩ := Res.bind_eq_ok.1 h
  obtain ⟨text, ht, h3⟩ := Res.bind_eq_ok.1 h2
  obtain ⟨rfl, rfl⟩ : (text, w.nonce.1) = out ∧ r = _ := by
    simpa only [Res.ok.injEq, Prod.mk.injEq] using (show Res.ok _ = Res.ok _ from h3)
  obtain ⟨h4, h5⟩ := (Key.wrapPie_ok_iff hidden wk _ _ w).1 h1
  refine ⟨w.nonce, h4, ?_, rfl⟩
  have := (Key.wrapPie_ok_iff hidden wk w.nonce.1 [] w).2 ⟨(List.append_nil _).symm, h5⟩
  unfold Draw.run
  dsimp only
  rw [this, Res.ok_bind]
  dsimp only
  rw [ht]
  rfl

/-- A wrap with a password, of which `f` of the salt and the nonce is shown. -/
theorem spread_pw (v : Ver) (k : WKind) (hidden : Key prims v k.kind) (pw : Bytes) (st : KdfState v)
    (f : Bytes → Bytes → Bytes) (c : ℚ) (hc0 : 0 ≤ c)
    (hc : ∀ x, ((Finset.univ.filter fun b : BytesN (pwSaltLen v + ivLen v) =>
      f (b.1.take (pwSaltLen v)) (b.1.drop (pwSaltLen v)) = x).card : ℚ) ≤
        c * Fintype.card (BytesN (pwSaltLen v + ivLen v))) :
    Spread c (fun rng => do
      let (w, rng) ← hidden.pwWrapWithSettings pw st rng
      let text ← w.display
      return ((text, f w.salt.1 w.nonce.1), rng)) := by
  refine spread_shown (pwSaltLen v + ivLen v) _ hc0 _
    (fun b => f (b.1.take (pwSaltLen v)) (b.1.drop (pwSaltLen v))) ?_ hc
  intro t out r h
  obtain ⟨⟨w, r⟩, h1, h2⟩ := Res.bind_eq_ok.1 h
  obtain ⟨text, ht, h3⟩ := Res.bind_eq_ok.1 h2
  obtain ⟨rfl, rfl⟩ : (text, f w.salt.1 w.nonce.1) = out ∧ r = _ := by
    simpa only [Res.ok.injEq, Prod.mk.injEq] using (show Res.ok _ = Res.ok _ from h3)
  obtain ⟨hk, h4, h5⟩ := (Key.pwWrap_ok_iff hidden pw st _ _ w).1 h1
  refine ⟨⟨w.salt.1 ++ w.nonce.1, by rw [List.length_append, w.salt.2, w.nonce.2]⟩, h4, ?_, ?_⟩
  · have := (Key.pwWrap_ok_iff hidden pw st (w.salt.1 ++ w.nonce.1) [] w).2
      ⟨hk, (List.append_nil _).symm, h5⟩
    dsimp only
    rw [this, Res.ok_bind]
    dsimp only
    rw [ht]
    rfl
  · show f w.salt.1 w.nonce.1 = f ((w.salt.1 ++ w.nonce.1).take _) ((w.salt.1 ++ w.nonce.1).drop _)
    have e1 : (w.salt.1 ++ w.nonce.1).take (pwSaltLen v) = w.salt.1 := by
      rw [List.take_append_of_le_length (Nat.le_of_eq w.salt.2.symm),
        List.take_of_length_le (Nat.le_of_eq w.salt.2)]
    have e2 : (w.salt.1 ++ w.nonce.1).drop (pwSaltLen v) = w.nonce.1 := by
      rw [List.drop_append_of_le_length (Nat.le_of_eq w.salt.2.symm),
        List.drop_of_length_le (Nat.le_of_eq w.salt.2)]; rfl
    rw [e1, e2]

theorem spread_seal4 (hidden : Key prims .V4 .Local) (pk : Key prims .V4 .Public) :
    Spread (1 / 2 ^ 250) (Draw.run (.sealKey .V4 hidden pk)) := by
  refine spread_shown 32 _ (by positivity) _
    (fun b => (prims.montMulBase (scalarModOrder (clampInteger b))).1) ?_ fibre_seal
  intro t out r h
  unfold Draw.run at h
  obtain ⟨⟨w, r⟩, h1, h2⟩ := Res.bind_eq_ok.1 h
  obtain ⟨text, ht, h3⟩ := Res.bind_eq_ok.1 h2
  obtain ⟨rfl, rfl⟩ : (text, w.ephemeralPublicKey.1) = out ∧ r = _ := by
    simpa only [Res.ok.injEq, Prod.mk.injEq] using (show Res.ok _ = Res.ok _ from h3)
  obtain ⟨xk, ⟨b, h4, h5, h6⟩, h7⟩ := (Key.sealKey_ok_iff hidden pk _ _ w).1 h1
  refine ⟨b, h4, ?_, h6⟩
  have := (Key.sealKey_ok_iff hidden pk b.1 [] w).2 ⟨xk, ⟨b, (List.append_nil _).symm, h5, h6⟩, h7⟩
  unfold Draw.run
  dsimp only
  rw [this, Res.ok_bind]
  dsimp only
  rw [ht]
  rfl

/-- Operations that draw a scalar of P-384. -/
theorem spread_scalar (s : Rng → Res ((Bytes × Bytes) × Rng)) (f : P384Scalar → Bytes)
    (hs : ∀ t out r, s t = .ok (out, r) → ∃ e, p384Random t = .ok (e, r) ∧
      s e.1.1 = .ok (out, []) ∧ out.2 = f e)
    (hf : ∀ e e', f e = f e' → e = e') : Spread (1 / 2 ^ 250) s := by
  refine spread_good 48 (by norm_num) p384ScalarOk
    (fun t => do let (e, r) ← p384Random t; return (e.1, r)) ?_ ?_ ?_ _ s
    (fun b => ((match s b.1 with | .ok o => o.1.1 | _ => []),
      if h : p384ScalarOk b then f ⟨b, h⟩ else [])) ?_ ?_ ?_
  · intro b r h
    rw [p384Random_cons, dif_pos h]
    rfl
  · intro b r h
    dsimp only
    rw [p384Random_cons, dif_neg h]
  · intro t x ht h
    obtain ⟨y, h1, -⟩ := Res.bind_eq_ok.1 h
    unfold p384Random at h1
    rw [dif_neg (by omega)] at h1
    cases h1
  · intro t out r h
    obtain ⟨e, h1, h2, h3⟩ := hs t out r h
    refine ⟨e.1, e.2, ?_, ?_⟩
    · rw [h1]; rfl
    · rw [h2, dif_pos e.2]
      exact Prod.ext rfl h3
  · intro b b' h h' e
    dsimp only at e
    rw [dif_pos h, dif_pos h'] at e
    exact congrArg Subtype.val (hf _ _ e)
  · have h : ((2 ^ 250 : Nat) : ℚ) ≤ ((Finset.univ.filter p384ScalarOk).card : ℚ) :=
      Nat.cast_le.2 card_scalars
    generalize ((Finset.univ.filter p384ScalarOk).card : ℚ) = x at h ⊢
    push_cast at h
    rw [div_mul_eq_mul_div, one_mul, le_div_iff₀ (by positivity), one_mul]
    exact h

theorem spread_seal3 (hidden : Key prims .V3 .Local) (pk : Key prims .V3 .Public) :
    Spread (1 / 2 ^ 250) (Draw.run (.sealKey .V3 hidden pk)) := by
  refine spread_scalar _ (fun e => (prims.p384Compress (prims.p384Public e)).1) ?_ ?_
  · intro t out r h
    unfold Draw.run at h
    obtain ⟨⟨w, r⟩, h1, h2⟩ := Res.bind_eq_ok.1 h
    obtain ⟨text, ht, h3⟩ := Res.bind_eq_ok.1 h2
    obtain ⟨rfl, rfl⟩ : (text, w.ephemeralPublicKey.1) = out ∧ r = _ := by
      simpa only [Res.ok.injEq, Prod.mk.injEq] using (show Res.ok _ = Res.ok _ from h3)
    obtain ⟨xk, ⟨e, h4, h5, h6⟩, h7⟩ := (Key.sealKey_ok_iff hidden pk _ _ w).1 h1
    refine ⟨e, h4, ?_, h6⟩
    have hr : p384Random e.1.1 = .ok (e, []) := by
      have := p384Random_cons e.1 []
      rwa [List.append_nil, dif_pos e.2] at this
    have := (Key.sealKey_ok_iff hidden pk e.1.1 [] w).2 ⟨xk, ⟨e, hr, h5, h6⟩, h7⟩
    unfold Draw.run
    dsimp only
    rw [this, Res.ok_bind]
    dsimp only
    rw [ht]
    rfl
  · intro e e' h
    have h : (Real.p384Public e).1 = (Real.p384Public e').1 := Subtype.ext h
    exact E384.public_inj (Subtype.ext h)

theorem spread_newLocal (v : Ver) : Spread (1 / 2 ^ 250) (Draw.run (P := prims) (.newLocal v)) := by
  refine spread_shown 32 _ (by positivity) _ (fun b => b.1) ?_
    (fibre_inj 32 250 (by norm_num) _ fun a b h => Subtype.ext h)
  intro t out r h
  unfold Draw.run Key.localRandom at h
  obtain ⟨⟨key, r⟩, h1, h2⟩ := Res.bind_eq_ok.1 h
  obtain ⟨⟨b, r'⟩, h3, h4⟩ := Res.bind_eq_ok.1 h1
  cases h4
  cases h2
  refine ⟨b, fillBytes_eq_ok.1 h3, ?_, rfl⟩
  unfold Draw.run Key.localRandom
  have : fillBytes 32 b.1 = .ok (b, []) := fillBytes_eq_ok.2 (List.append_nil _).symm
  dsimp only
  rw [this]
  rfl

theorem spread_newSecret3 : Spread (1 / 2 ^ 250) (Draw.run (P := prims) (.newSecret .V3)) := by
  refine spread_scalar _ (fun e => e.1.1) ?_ (fun e e' h => Subtype.ext (Subtype.ext h))
  intro t out r h
  unfold Draw.run Key.secretRandom at h
  obtain ⟨⟨key, r⟩, h1, h2⟩ := Res.bind_eq_ok.1 h
  obtain ⟨⟨e, r'⟩, h3, h4⟩ := Res.bind_eq_ok.1 h1
  cases h4
  cases h2
  refine ⟨e, h3, ?_, rfl⟩
  unfold Draw.run Key.secretRandom
  have hr : p384Random e.1.1 = .ok (e, []) := by
    have := p384Random_cons e.1 []
    rwa [List.append_nil, dif_pos e.2] at this
  dsimp only
  rw [hr]
  rfl

theorem spread_newSecret4 : Spread (1 / 2 ^ 250) (Draw.run (P := prims) (.newSecret .V4)) := by
  refine spread_shown 32 _ (by positivity) _ (fun b => b.1 ++ (prims.edBytes (prims.edPublic b)).1) ?_
    (fibre_inj 32 250 (by norm_num) _ fun a b h => Subtype.ext (List.append_inj h (by rw [a.2, b.2])).1)
  intro t out r h
  unfold Draw.run Key.secretRandom at h
  obtain ⟨⟨key, r⟩, h1, h2⟩ := Res.bind_eq_ok.1 h
  obtain ⟨⟨b, r'⟩, h3, h4⟩ := Res.bind_eq_ok.1 h1
  cases h4
  cases h2
  refine ⟨b, fillBytes_eq_ok.1 h3, ?_, rfl⟩
  unfold Draw.run Key.secretRandom
  have : fillBytes 32 b.1 = .ok (b, []) := fillBytes_eq_ok.2 (List.append_nil _).symm
  dsimp only
  rw [this]
  rfl

theorem spread (d : Draw prims) : Spread (1 / 2 ^ 250) d.run := by
  cases d with
  | token v M F E iP iM iF b key i => exact spread_token v M F E iP iM iF b key i
  | pie v k hidden wk => exact spread_pie v k hidden wk
  | pw v k hidden pw st =>
    refine spread_pw v k hidden pw st (fun a b => a ++ b) _ (by positivity) ?_
    simp only [List.take_append_drop]
    exact fibre_inj _ 250 (by cases v <;> decide) _ fun a b h => Subtype.ext h
  | sealKey v hidden pk =>
    cases v
    · exact spread_seal3 hidden pk
    · exact spread_seal4 hidden pk
  | newLocal v => exact spread_newLocal v
  | newSecret v =>
    cases v
    · exact spread_newSecret3
    · exact spread_newSecret4

/-- Whatever is asked for, in whatever order: the chance that two of the values drawn are equal is at
most `n (n - 1) / 2 ^ 251`, for a random source of any size. -/
theorem repeats (n N : Nat) (ask : List (Bytes × Bytes) → Option (Draw prims)) :
    chance N (fun t => ∃ outs, draws Draw.run ask n t [] = .ok outs ∧ ¬ (outs.map Prod.snd).Nodup) ≤
      n * (n - 1) / 2 ^ 251 := by
  have := draws_repeat (1 / 2 ^ 250) (by positivity) Draw.run spread ask n N [] List.nodup_nil
  refine this.trans (le_of_eq ?_)
  simp only [List.length_nil, Nat.cast_zero, mul_zero, zero_add]
  rw [pow_succ (2 : ℚ) 250, div_mul_div_comm, mul_one, mul_comm (2 : ℚ) (2 ^ 250)]

/-- For up to `2 ^ 64` operations this is at most `2 ^ -123`. -/
theorem repeats_practical (n N : Nat) (hn : n ≤ 2 ^ 64) (ask : List (Bytes × Bytes) → Option (Draw prims)) :
    chance N (fun t => ∃ outs, draws Draw.run ask n t [] = .ok outs ∧ ¬ (outs.map Prod.snd).Nodup) ≤
      1 / 2 ^ 123 := by
  refine (repeats n N ask).trans ?_
  have h1 : (n : ℚ) ≤ 2 ^ 64 := by exact_mod_cast hn
  have h0 : (0 : ℚ) ≤ n := Nat.cast_nonneg n
  rw [div_le_div_iff₀ (by positivity) (by positivity)]
  have h2 : (n : ℚ) * (n - 1) ≤ 2 ^ 64 * 2 ^ 64 :=
    calc (n : ℚ) * (n - 1) ≤ n * n := mul_le_mul_of_nonneg_left (by linarith) h0
      _ ≤ 2 ^ 64 * 2 ^ 64 := mul_le_mul h1 h1 h0 (by positivity)
  have h3 : (2 : ℚ) ^ 251 = 2 ^ 64 * 2 ^ 64 * 2 ^ 123 := by rw [← pow_add, ← pow_add]
  rw [h3, one_mul]
  exact mul_le_mul_of_nonneg_right h2 (by positivity)

theorem fibre_take (S I : Nat) (x : Bytes) : ((Finset.univ.filter fun b : BytesN (S + I) =>
    b.1.take S = x).card : ℚ) ≤ 1 / 2 ^ (8 * S) * Fintype.card (BytesN (S + I)) := by
  have h := card_le_inj (L := S + I) (β := BytesN I) (fun b => b.1.take S = x)
    (fun b => ⟨b.1.drop S, by rw [List.length_drop, b.2]; omega⟩) (by
      intro a b ha hb e
      refine Subtype.ext ?_
      rw [← List.take_append_drop S a.1, ← List.take_append_drop S b.1, ha, hb]
      exact congrArg (x ++ ·) (congrArg Subtype.val e))
  refine (Nat.cast_le.2 h).trans (le_of_eq ?_)
  rw [C75.card_bytes, C75.card_bytes, pow_add]
  have : (2 : ℚ) ^ (8 * S) = 256 ^ S := by rw [pow_mul]; norm_num
  push_cast
  rw [this, ← mul_assoc, div_mul_cancel₀ _ (by positivity), one_mul]

/-- Salts: who has keys wrapped with passwords, whichever, sees a salt twice with a chance of at most
`n (n - 1) / 2 ^ 257` in V3 … -/
theorem salts_v3 (n N : Nat) (ask : List (Bytes × Bytes) → Option (PwDraw prims .V3)) :
    chance N (fun t => ∃ outs, draws PwDraw.run ask n t [] = .ok outs ∧ ¬ (outs.map Prod.snd).Nodup) ≤
      n * (n - 1) / 2 ^ 257 := by
  have := draws_repeat (1 / 2 ^ 256) (by positivity) PwDraw.run (fun d => spread_pw .V3 d.k d.hidden d.password
    d.settings (fun a _ => a) _ (by positivity) (fibre_take 32 16)) ask n N [] List.nodup_nil
  refine this.trans (le_of_eq ?_)
  simp only [List.length_nil, Nat.cast_zero, mul_zero, zero_add]
  rw [pow_succ (2 : ℚ) 256, div_mul_div_comm, mul_one, mul_comm (2 : ℚ) (2 ^ 256)]

/-- … and of at most `n (n - 1) / 2 ^ 129` in V4, whose salts are half as long. -/
theorem salts_v4 (n N : Nat) (ask : List (Bytes × Bytes) → Option (PwDraw prims .V4)) :
    chance N (fun t => ∃ outs, draws PwDraw.run ask n t [] = .ok outs ∧ ¬ (outs.map Prod.snd).Nodup) ≤
      n * (n - 1) / 2 ^ 129 := by
  have := draws_repeat (1 / 2 ^ 128) (by positivity) PwDraw.run (fun d => spread_pw .V4 d.k d.hidden d.password
    d.settings (fun a _ => a) _ (by positivity) (fibre_take 16 24)) ask n N [] List.nodup_nil
  refine this.trans (le_of_eq ?_)
  simp only [List.length_nil, Nat.cast_zero, mul_zero, zero_add]
  rw [pow_succ (2 : ℚ) 128, div_mul_div_comm, mul_one, mul_comm (2 : ℚ) (2 ^ 128)]

/-! ### The sessions are real -/

/-- What can be asked for: the message and the footer can be encoded, the password can be hashed with
the settings. -/
def Servable : Draw prims → Prop
  | .token _ _ _ _ iP iM iF b _ _ =>
    let _ := iP; let _ := iM; let _ := iF
    (∃ m, MessageEncoding.encode b.tok.encoding b.tok.message = .ok m) ∧
      ∃ f, Footer.encode b.tok.footer = some f
  | .pw v _ _ pw st => C37.Valid st ∧ (v = .V4 → pw.length < 2 ^ 32)
  | _ => True

theorem run_served (d : Draw prims) (hd : Servable d) :
    ∃ (b : Bytes) (out : Bytes × Bytes), ∀ r, d.run (b ++ r) = .ok (out, r) := by
  cases d with
  | token v M F E iP iM iF b key i =>
    obtain ⟨⟨m, hm⟩, f, hf⟩ := hd
    obtain ⟨tok, h⟩ : ∃ tok, ∀ r, b.encryptWithAssertionsAndRng prims key i
        (List.replicate 32 0 ++ r) = .ok (tok, r) :=
      ⟨_, fun r => (encrypt_ok_iff b key i _ r _).2
        ⟨List.replicate 32 0, m, f, by simp, rfl, hm, hf, rfl⟩⟩
    refine ⟨List.replicate 32 0, (tok.display, tok.payload.take 32), fun r => ?_⟩
    unfold Draw.run
    dsimp only
    rw [h]
    rfl
  | pie v k hidden wk =>
    obtain ⟨w, h⟩ : ∃ w, hidden.wrapPie wk (List.replicate 32 0) = .ok (w, []) := by
      rcases C33.wrap_outcome hidden wk (List.replicate 32 0) with ⟨w, hw⟩ | ⟨h, -⟩
      · exact ⟨w, by rw [hw, List.drop_of_length_le (by simp)]⟩
      · simp at h
    obtain ⟨h1, h2⟩ := (Key.wrapPie_ok_iff hidden wk _ _ w).1 h
    obtain ⟨s, hs⟩ : ∃ s, w.display = .ok s := ⟨_, PieWrappedKey.display_eq w⟩
    refine ⟨w.nonce.1, (s, w.nonce.1), fun r => ?_⟩
    unfold Draw.run
    dsimp only
    rw [(Key.wrapPie_ok_iff hidden wk _ r w).2 ⟨rfl, h2⟩, Res.ok_bind]
    dsimp only
    rw [hs]
    rfl
  | pw v k hidden pw st =>
    obtain ⟨w, h⟩ : ∃ w, hidden.pwWrapWithSettings pw st (List.replicate (pwSaltLen v + ivLen v) 0) =
        .ok (w, []) := by
      rcases C37.wrap_outcome hidden pw st (List.replicate (pwSaltLen v + ivLen v) 0) with
        ⟨w, hw, -⟩ | ⟨-, h⟩
      · exact ⟨w, by rw [hw, List.drop_of_length_le (by simp)]⟩
      · exact absurd ⟨hd.1, hd.2, by simp⟩ h
    obtain ⟨hk, h1, h2⟩ := (Key.pwWrap_ok_iff hidden pw st _ _ w).1 h
    obtain ⟨s, hs⟩ : ∃ s, w.display = .ok s := ⟨_, PwWrappedKey.display_eq w⟩
    refine ⟨w.salt.1 ++ w.nonce.1, (s, w.salt.1 ++ w.nonce.1), fun r => ?_⟩
    unfold Draw.run
    dsimp only
    rw [(Key.pwWrap_ok_iff hidden pw st _ r w).2 ⟨hk, rfl, h2⟩, Res.ok_bind]
    dsimp only
    rw [hs]
    rfl
  | sealKey v hidden pk =>
    obtain ⟨w, r, h⟩ : ∃ w r, hidden.sealKey pk C43.sampleRng = .ok (w, r) := by
      rcases C43.seal_outcome hidden pk C43.sampleRng with ⟨-, h⟩ | ⟨h, -⟩
      · exact h
      · exact absurd (C43.sampleRng_enough v) h
    obtain ⟨xk, h1, h2⟩ := (Key.sealKey_ok_iff hidden pk _ _ w).1 h
    obtain ⟨s, hs⟩ : ∃ s, w.display = .ok s := ⟨_, SealedKey.display_eq w⟩
    obtain ⟨b, hb⟩ : ∃ b : Bytes, ∀ r, SealDraw prims pk (b ++ r) xk w.ephemeralPublicKey.1 r := by
      cases v
      · obtain ⟨e, -, h3, h4⟩ := h1
        refine ⟨e.1.1, fun r => ⟨e, ?_, h3, h4⟩⟩
        rw [p384Random_cons, dif_pos e.2]
      · obtain ⟨b, -, h3, h4⟩ := h1
        exact ⟨b.1, fun r => ⟨b, rfl, h3, h4⟩⟩
    refine ⟨b, (s, w.ephemeralPublicKey.1), fun r => ?_⟩
    unfold Draw.run
    dsimp only
    rw [(Key.sealKey_ok_iff hidden pk _ r w).2 ⟨xk, hb r, h2⟩, Res.ok_bind]
    dsimp only
    rw [hs]
    rfl
  | newLocal v =>
    refine ⟨List.replicate 32 0, (List.replicate 32 0, List.replicate 32 0), fun r => ?_⟩
    unfold Draw.run Key.localRandom
    dsimp only
    rw [fillBytes_eq_ok.2 (show List.replicate 32 0 ++ r =
      (⟨List.replicate 32 0, by simp⟩ : BytesN 32).1 ++ r from rfl)]
    rfl
  | newSecret v =>
    cases v
    · obtain ⟨e⟩ : Nonempty P384Scalar := by
        have h := card_scalars
        by_contra hn
        rw [card_none p384ScalarOk fun b hb => hn ⟨⟨b, hb⟩⟩] at h
        norm_num at h
      refine ⟨e.1.1, (e.1.1, e.1.1), fun r => ?_⟩
      unfold Draw.run Key.secretRandom
      dsimp only
      rw [p384Random_cons, dif_pos e.2]
      rfl
    · let key : Key prims .V4 .Secret := ⟨⟨List.replicate 32 0, by simp⟩⟩
      refine ⟨List.replicate 32 0, (key.toBytes.1, key.toBytes.1), fun r => ?_⟩
      unfold Draw.run Key.secretRandom
      dsimp only
      rw [fillBytes_eq_ok.2 (show List.replicate 32 0 ++ r =
        (⟨List.replicate 32 0, by simp⟩ : BytesN 32).1 ++ r from rfl)]
      rfl

/-- Whoever asks only for what can be served gets everything, from some random source. -/
theorem served (ask : List (Bytes × Bytes) → Option (Draw prims))
    (hask : ∀ log, ∃ d, ask log = some d ∧ Servable d) (n : Nat) : ∀ log,
    ∃ t outs, draws Draw.run ask n t log = .ok outs ∧ outs.length = log.length + n := by
  induction n with
  | zero => intro log; exact ⟨[], log, rfl, rfl⟩
  | succ n ih =>
    intro log
    obtain ⟨d, hd, hs⟩ := hask log
    obtain ⟨b, out, hb⟩ := run_served d hs
    obtain ⟨t, outs, h1, h2⟩ := ih (log ++ [out])
    refine ⟨b ++ t, outs, ?_, by rw [h2, List.length_append, List.length_singleton]; omega⟩
    unfold draws
    rw [hd]
    dsimp only
    rw [hb t]
    exact h1

theorem chance_one (L : Nat) (b : BytesN L) (p : Rng → Prop) (h : ∀ c : BytesN L, p c.1 ↔ b = c) :
    chance L p = 1 / 256 ^ L := by
  unfold chance
  have : (Finset.univ.filter fun t : BytesN L => p t.1) = {b} := by
    ext c
    rw [Finset.mem_filter, Finset.mem_singleton, h c]
    exact ⟨fun x => x.2.symm, fun x => ⟨Finset.mem_univ _, x.symm⟩⟩
  rw [this, Finset.card_singleton, C75.card_bytes]
  push_cast
  rfl

/-- And two new local keys are equal for exactly one in `2 ^ 256` random sources: the bound is within a
factor of 64 of the best. -/
theorem two_keys (v : Ver) :
    chance 64 (fun t => ∃ outs, draws Draw.run (fun _ => some (.newLocal v : Draw prims)) 2 t [] = .ok outs ∧
      ¬ (outs.map Prod.snd).Nodup) = 1 / 2 ^ 256 := by
  have h1 : ∀ (b c : BytesN 32), (∃ outs, draws Draw.run (fun _ => some (.newLocal v : Draw prims)) 2
      (b.1 ++ c.1) [] = .ok outs ∧ ¬ (outs.map Prod.snd).Nodup) ↔ b = c := by
    intro b c
    have h2 : draws Draw.run (fun _ => some (.newLocal v : Draw prims)) 2 (b.1 ++ c.1) [] =
        .ok [(b.1, b.1), (c.1, c.1)] := by
      have run : ∀ (b : BytesN 32) r, Draw.run (.newLocal v : Draw prims) (b.1 ++ r) =
          .ok ((b.1, b.1), r) := by
        intro b r
        unfold Draw.run Key.localRandom
        dsimp only
        rw [fillBytes_eq_ok.2 rfl]
        rfl
      have run' : Draw.run (.newLocal v : Draw prims) c.1 = .ok ((c.1, c.1), []) := by
        rw [← run c [], List.append_nil]
      simp only [draws]
      rw [run, Res.ok_bind]
      dsimp only
      rw [run', Res.ok_bind]
      rfl
    rw [h2]
    simp only [Res.ok.injEq, exists_eq_left', List.map_cons, List.map_nil]
    simp [Subtype.ext_iff]
  have h2 : (64 : Nat) = 32 + 32 := rfl
  rw [h2, chance_cut]
  have h3 : ∀ b : BytesN 32, chance 32 (fun r => ∃ outs, draws Draw.run
      (fun _ => some (.newLocal v : Draw prims)) 2 (b.1 ++ r) [] = .ok outs ∧
      ¬ (outs.map Prod.snd).Nodup) = 1 / 2 ^ 256 := by
    intro b
    rw [chance_one 32 b _ (h1 b)]
    norm_num
  simp only [h3]
  rw [Finset.sum_const, Finset.card_univ, nsmul_eq_mul, mul_comm, mul_div_assoc,
    div_self (size_pos 32).ne', mul_one]

/-- Something to ask for: new keys, and a key wrapped, wrapped with a password, or sealed. -/
def sample (v : Ver) : Nat → Draw prims
  | 0 => .newLocal v
  | 1 => .newSecret v
  | 2 => .pie v .Local ⟨⟨List.replicate 32 1, by simp⟩⟩ ⟨⟨List.replicate 32 2, by simp⟩⟩
  | 3 => .pw v .Local ⟨⟨List.replicate 32 1, by simp⟩⟩ (asc "password") (KdfState.default v)
  | _ => match v with
    | .V3 => .sealKey .V3 ⟨⟨List.replicate 32 1, by simp⟩⟩ (Key.publicKey
        (⟨⟨⟨List.replicate 48 1, by simp⟩, by decide +kernel⟩⟩ : Key prims .V3 .Secret))
    | .V4 => .sealKey .V4 ⟨⟨List.replicate 32 1, by simp⟩⟩ (Key.publicKey
        (⟨⟨List.replicate 32 1, by simp⟩⟩ : Key prims .V4 .Secret))

-- a session of any length in which these are asked for, in both versions in turn
example (n : Nat) : ∃ (t : Rng) (outs : List (Bytes × Bytes)), draws Draw.run
    (fun log => some (sample (if log.length % 2 = 0 then .V3 else .V4) (log.length % 5))) n t [] =
      .ok outs ∧ outs.length = n := by
  have ok : ∀ v i, Servable (sample v i) := by
    intro v i
    unfold sample
    split
    · trivial
    · trivial
    · trivial
    · refine ⟨?_, fun _ => by simp [asc]⟩
      cases v
      · trivial
      · simp [C37.Valid, KdfState.default]
    · cases v <;> trivial
  obtain ⟨t, outs, h1, h2⟩ := served
    (fun log => some (sample (if log.length % 2 = 0 then .V3 else .V4) (log.length % 5)))
    (fun log => ⟨_, rfl, ok _ _⟩) n []
  exact ⟨t, outs, h1, by simpa using h2⟩

end Pasta.C92
