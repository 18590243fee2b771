import Verif.Spec.Trying
import Verif.Lemmas.Veiling
import Verif.Lemmas.Local
import Verif.Lemmas.Knowing
import Verif.Props.SealingMany

/-!
# Only what a key derives matters
-/

namespace Pasta.Trying

variable {P : Prims} {v : Ver} {K : Finset (BytesN 32)} {L : Nat}

theorem decrypt_derived {M F E : Type} [Payload E] [MessageDecoding E M] (D D' : Derivation v)
    {key key' : BytesN 32} (hk : key ∈ K) (hk' : key' ∈ K) (h : D key = D' key')
    (t : SecuredToken v .Local F E) (i : Bytes) :
    t.decryptWithAssertions M (P.withDerived K v D) ⟨key⟩ i =
      t.decryptWithAssertions M (P.withDerived K v D') ⟨key'⟩ i := by
  by_cases hs : t.payload.length < 32 + tagSize v
  · rw [decrypt_short _ _ _ hs, decrypt_short _ _ _ hs]
  · obtain ⟨n, c, g, hsp, hn, hg⟩ := payload_split v t.payload (by omega)
    have h5 : encInput (localPreAuth v (Payload.suffix E) n c t.encodedFooter i) = none :=
      encInput_head (b := 5) rfl (by decide) (by decide)
    have h6 : authInput (localPreAuth v (Payload.suffix E) n c t.encodedFooter i) = none :=
      authInput_head (b := 5) rfl (by decide) (by decide)
    rw [decrypt_split t _ i n c g hsp hn hg, decrypt_split t _ i n c g hsp hn hg]
    dsimp only
    rw [localMac_derived _ _ h5 h6, localMac_derived _ _ h5 h6, localAuthKey_derived D hk ⟨n, hn⟩,
      localAuthKey_derived D' hk' ⟨n, hn⟩, codeStream_plain, codeStream_plain, stream_derived,
      stream_derived, encPair_derived D hk ⟨n, hn⟩, encPair_derived D' hk' ⟨n, hn⟩, h]

theorem unwrap_derived (D D' : Derivation v) {key key' : BytesN 32} (hk : key ∈ K) (hk' : key' ∈ K)
    (h : D key = D' key') {k : WKind} (w : PieWrappedKey v k) :
    (w.unwrapKey (P.withDerived K v D) ⟨key⟩ >>= fun key => (.ok key.toBytes.1 : Res Bytes)) =
      (w.unwrapKey (P.withDerived K v D') ⟨key'⟩ >>= fun key => .ok key.toBytes.1) := by
  rw [PieWrappedKey.unwrapKey_eq, PieWrappedKey.unwrapKey_eq]
  unfold Spec.pieTag
  dsimp only
  have h5 : encInput (Spec.pieTagged v k.kind w.nonce.1 w.wrappedKey.1) = none :=
    encInput_head (b := 0x6b) (by cases v <;> rfl) (by decide) (by decide)
  have h6 : authInput (Spec.pieTagged v k.kind w.nonce.1 w.wrappedKey.1) = none :=
    authInput_head (b := 0x6b) (by cases v <;> rfl) (by decide) (by decide)
  rw [mac_derived _ _ h5 h6, mac_derived _ _ h5 h6, pieAuthKey_derived D hk, pieAuthKey_derived D' hk',
    pieCodeStream_plain, pieCodeStream_plain, stream_derived, stream_derived, piePair_derived D hk,
    piePair_derived D' hk', h]
  have two : ∀ (Q : Prims) (b : BytesN (keyLen v k.kind)),
      (Key.fromBytes Q v k.kind b >>= fun key => (.ok key.toBytes.1 : Res Bytes)) =
      (Key.fromBytes Q v k.kind b >>= fun key => (.ok key.toBytes : Res (BytesN _))) >>= fun b => .ok b.1 := by
    intro Q b
    cases Key.fromBytes Q v k.kind b <;> rfl
  split
  · rw [two, two, fromBytes_derived, fromBytes_derived]
  · rfl

/-- What comes out of an opening depends on the key only by what it derives. -/
theorem open_derived (D D' : Derivation v) {key key' : BytesN 32} (hk : key ∈ K) (hk' : key' ∈ K)
    (h : D key = D' key') (a : Opening v) :
    a.run (P.withDerived K v D) key = a.run (P.withDerived K v D') key' := by
  cases a with
  | decrypt M F E iP iM iF text look i =>
    show (SecuredToken.parse v .Local F E text >>= fun t =>
        t.decryptWithAssertions M (P.withDerived K v D) ⟨key⟩ i >>= fun r => (.ok (look r) : Res Bytes)) =
      (SecuredToken.parse v .Local F E text >>= fun t =>
        t.decryptWithAssertions M (P.withDerived K v D') ⟨key'⟩ i >>= fun r => .ok (look r))
    congr 1
    funext t
    rw [decrypt_derived D D' hk hk' h]
  | unwrap k text =>
    show (PieWrappedKey.parse v k text >>= fun w =>
        w.unwrapKey (P.withDerived K v D) ⟨key⟩ >>= fun key => (.ok key.toBytes.1 : Res Bytes)) =
      (PieWrappedKey.parse v k text >>= fun w =>
        w.unwrapKey (P.withDerived K v D') ⟨key'⟩ >>= fun key => .ok key.toBytes.1)
    congr 1
    funext w
    exact unwrap_derived D D' hk hk' h w

theorem answer_derived (D D' : Derivation v) {key key' : BytesN 32} (hk : key ∈ K) (hk' : key' ∈ K)
    (h : D key = D' key') (c : Ciphers) (issued : List Item) (a : Opening v) :
    a.answer ((P.withDerived K v D).withCiphers c) key issued =
      a.answer ((P.withDerived K v D').withCiphers c) key' issued := by
  unfold Opening.answer
  rw [withDerived_withCiphers, withDerived_withCiphers, open_derived D D' hk hk' h]

/-! ### Counting -/

section counting

open C98 (fraction_count fraction_prod fraction_or fraction_mono)

theorem fraction_equiv {α β : Type} [Fintype α] [Fintype β] (f : α ≃ β) (A : β → Prop) :
    fractionOf (fun x => A (f x)) = fractionOf A := by
  rw [fraction_count, fraction_count, C94.count_equiv f A, Fintype.card_congr f]

theorem fraction_fst {α β : Type} [Fintype α] [Fintype β] [Nonempty β] (A : α → Prop) :
    fractionOf (fun x : α × β => A x.1) = fractionOf A := by
  have hb : (Fintype.card β : ℚ) ≠ 0 := Nat.cast_ne_zero.2 Fintype.card_ne_zero
  rw [fraction_count, fraction_count, C94.count_fst A, Fintype.card_prod, Nat.cast_mul, Nat.cast_mul,
    mul_comm (Fintype.card α : ℚ), mul_div_mul_left _ _ hb]

theorem fraction_prod_le {α β : Type} [Fintype α] [Fintype β] (A : α × β → Prop) (k : ℚ) (hk : 0 ≤ k)
    (h : ∀ a, fractionOf (fun b => A (a, b)) ≤ k) : fractionOf A ≤ k := by
  rw [fraction_prod]
  have hs := Finset.sum_le_sum fun a (_ : a ∈ Finset.univ) => h a
  rw [Finset.sum_const, Finset.card_univ, nsmul_eq_mul] at hs
  by_cases h0 : Fintype.card α = 0
  · rw [h0, Nat.cast_zero, div_zero]
    exact hk
  · rw [div_le_iff₀ (Nat.cast_pos.2 (Nat.pos_of_ne_zero h0)), mul_comm]
    exact hs

theorem fraction_swap {α β : Type} [Fintype α] [Fintype β] (A : α × β → Prop) :
    fractionOf (fun x : β × α => A (x.2, x.1)) = fractionOf A :=
  fraction_equiv (Equiv.prodComm β α) A

variable {T Y : Type} [Fintype T] [DecidableEq T] [Fintype Y] {r : Nat}

/-- Put `E` where `κ` leads, and keep what was there. -/
noncomputable def exchange (κ : Fin r → T) (hκ : Function.Injective κ) :
    (T → Y) × (Fin r → Y) ≃ (T → Y) × (Fin r → Y) :=
  have h : ∀ x : (T → Y) × (Fin r → Y),
      (Function.extend κ (x.1 ∘ κ) (Function.extend κ x.2 x.1), Function.extend κ x.2 x.1 ∘ κ) = x := by
    intro x
    refine Prod.ext ?_ (funext fun i => hκ.extend_apply _ _ i)
    funext t
    by_cases ht : ∃ i, κ i = t
    · obtain ⟨i, rfl⟩ := ht
      exact hκ.extend_apply _ _ i
    · dsimp only
      rw [Function.extend_apply' _ _ _ ht, Function.extend_apply' _ _ _ ht]
  { toFun := fun x => (Function.extend κ x.2 x.1, x.1 ∘ κ)
    invFun := fun x => (Function.extend κ x.2 x.1, x.1 ∘ κ)
    left_inv := h
    right_inv := h }

/-- What a random function does with given things is random. -/
theorem fraction_comp [Nonempty Y] (κ : Fin r → T) (hκ : Function.Injective κ)
    (B : (Fin r → Y) → Prop) :
    fractionOf (fun D : T → Y => B (D ∘ κ)) = fractionOf B := by
  rw [← fraction_fst (β := Fin r → Y) fun D : T → Y => B (D ∘ κ),
    ← fraction_fst (β := T → Y) B, ← fraction_swap (fun x : (Fin r → Y) × (T → Y) => B x.1),
    ← fraction_equiv (exchange κ hκ) fun x : (T → Y) × (Fin r → Y) => B x.2]
  rfl

/-- Keys are hardly ever among the guesses when the guesses depend only on what the keys derive. -/
theorem hits [Nonempty T] [Nonempty Y] (u : Nat) (Q : (Fin r → Y) → List T)
    (hQ : ∀ E, (Q E).length ≤ u) :
    fractionOf (fun z : (Fin r → T) × (T → Y) => Function.Injective z.1 ∧ ∃ i, z.1 i ∈ Q (z.2 ∘ z.1)) ≤
      r * u / Fintype.card T := by
  have hT : (0 : ℚ) < Fintype.card T := Nat.cast_pos.2 Fintype.card_pos
  have h1 : fractionOf (fun z : (Fin r → T) × (T → Y) =>
        Function.Injective z.1 ∧ ∃ i, z.1 i ∈ Q (z.2 ∘ z.1)) ≤
      fractionOf (fun z : (Fin r → T) × (Fin r → Y) => ∃ i, z.1 i ∈ Q z.2) := by
    rw [fraction_prod, fraction_prod]
    refine div_le_div_of_nonneg_right (Finset.sum_le_sum fun κ _ => ?_) (Nat.cast_nonneg _)
    by_cases hκ : Function.Injective κ
    · rw [← fraction_comp κ hκ fun E => ∃ i, κ i ∈ Q E]
      exact fraction_mono fun D h => h.2
    · rw [C98.fraction_none fun D h => hκ h.1, fraction_count]
      exact div_nonneg (Nat.cast_nonneg _) (Nat.cast_nonneg _)
  refine h1.trans ?_
  rw [← fraction_swap]
  refine fraction_prod_le _ _ (by positivity) fun E => ?_
  have h2 := Tries.count_keys (Pt := Fin r) (AK := T) (κ := T) (fun _ a => a) (Fintype.card T)
    (fun _ k => by
      have : (C82.count fun a : T => a = k) = 1 := by
        unfold C82.count
        rw [Finset.card_eq_one]
        refine ⟨k, ?_⟩
        ext a
        simp
      rw [this, Nat.one_mul])
    (List.finRange r ×ˢ Q E)
  rw [List.length_product, List.length_finRange] at h2
  rw [fraction_count, div_le_div_iff₀ (Nat.cast_pos.2 Fintype.card_pos) hT]
  have h3 : (C82.count fun κ : Fin r → T => ∃ i, κ i ∈ Q E) ≤
      C82.count fun ak : Fin r → T => ∃ y ∈ List.finRange r ×ˢ Q E, ak y.1 = y.2 :=
    C83.count_mono fun κ ⟨i, hi⟩ => ⟨(i, κ i), List.mem_product.2 ⟨List.mem_finRange i, hi⟩, rfl⟩
  have h4 := (Nat.mul_le_mul_right (Fintype.card T) h3).trans
    (h2.trans (Nat.mul_le_mul_right _ (Nat.mul_le_mul_left r (hQ E))))
  exact_mod_cast h4

end counting

end Pasta.Trying
