import Verif.Spec.Hybrid
import Verif.Props.Trying
import Verif.Props.Sealing
import Verif.Props.Chosen

/-!
# What requests use of hash and cipher

For C102. Hiding and opening do not use the key derivation hash of sealing, and they use the cipher under at
most one key.
-/

namespace Pasta.Hybrid

variable {P : Prims} {v : Ver} {r L : Nat} {K : Finset (BytesN 32)}

theorem seal_pr (P : Prims) (K : Finset (BytesN 32)) (c : CipherOf v L) (f : Tags v) (D : Derivation v)
    (g : SealHash v) :
    ((P.withTags v f).withDerived K v D).withSeal g c = (C101.pr P K c f D).withSealHash v g := by
  cases v <;> rfl

theorem okOr_bind {α κ κ' β : Type} {o' o : Option α} (ho : o' = o) (f : α → κ) (f' : α → κ') (g : κ → Res β)
    (g' : κ' → Res β) (h : ∀ x, g (f x) = g' (f' x)) :
    ((Res.okOr .invalidKey o' >>= fun x => (pure (f x) : Res κ)) >>= g) =
      ((Res.okOr .invalidKey o >>= fun x => (pure (f' x) : Res κ')) >>= g') := by
  subst ho
  cases o' with
  | none => rfl
  | some x => exact h x

theorem edFromKeypair_hash (g : SealHash v) (b : BytesN 64) :
    Key.edFromKeypair (P.withSealHash v g) b = Key.edFromKeypair P b := by
  unfold Key.edFromKeypair
  generalize BytesN.split 32 32 _ b = sp
  obtain ⟨s, p⟩ := sp
  dsimp only
  cases h : P.edParse p with
  | none =>
    have h' : (P.withSealHash v g).edParse p = none := by cases v <;> exact h
    rw [h']
  | some pk =>
    cases v with
    | V3 =>
      have h' : (P.withSealHash .V3 g).edParse p = some pk := h
      rw [h']
      rfl
    | V4 =>
      have h' : (P.withSealHash .V4 g).edParse p = some pk := h
      rw [h']
      rfl

theorem hide_hash (g : SealHash v) (a : Hiding v) (key : BytesN 32) (s : Side) (rng : Rng) :
    a.run (P.withSealHash v g) ⟨key⟩ s rng = a.run P ⟨key⟩ s rng := by
  cases a with
  | token M F E iP iM iF encoding message footer i => cases v <;> rfl
  | wrap k hidden =>
    cases v <;> cases k
    · rfl
    · exact okOr_bind (o := Key.p384ScalarFromSlice P (hidden s).1) rfl _ _ _ _ fun _ => rfl
    · rfl
    · exact okOr_bind (edFromKeypair_hash (P := P) g (hidden s)) _ _ _ _ fun _ => rfl

theorem look_hash (g : SealHash v) (a : Opening v) (key : BytesN 32) :
    a.run (P.withSealHash v g) key = a.run P key := by
  cases a with
  | decrypt M F E iP iM iF text look i => cases v <;> rfl
  | unwrap k text =>
    show (PieWrappedKey.parse v k text >>= fun w =>
        w.unwrapKey (P.withSealHash v g) ⟨key⟩ >>= fun key => (.ok key.toBytes.1 : Res Bytes)) =
      (PieWrappedKey.parse v k text >>= fun w =>
        w.unwrapKey P ⟨key⟩ >>= fun key => .ok key.toBytes.1)
    congr 1
    funext w
    rw [PieWrappedKey.unwrapKey_eq, PieWrappedKey.unwrapKey_eq]
    have e1 : Spec.pieTag (P.withSealHash v g) v k.kind key w.nonce.1 w.wrappedKey.1 =
      Spec.pieTag P v k.kind key w.nonce.1 w.wrappedKey.1 := by cases v <;> rfl
    have e2 : pieCodeStream (P.withSealHash v g) v key w.nonce.1 = pieCodeStream P v key w.nonce.1 := by
      cases v <;> rfl
    dsimp only
    rw [e1, e2]
    split
    · generalize applyKeystreamN (pieCodeStream P v key w.nonce.1) w.wrappedKey = b
      clear e1 e2
      cases v <;> cases k
      · rfl
      · exact okOr_bind (o := Key.p384ScalarFromSlice P b.1) rfl _ _ _ _ fun _ => rfl
      · rfl
      · exact okOr_bind (edFromKeypair_hash (P := P) g b) _ _ _ _ fun _ => rfl
    · rfl

theorem agree (P : Prims) {c c' : CipherOf v L} {x : BytesN 32} (h : c' x = c x) :
    (c'.ciphers P).AgreeAt (c.ciphers P) (v, x) := by
  cases v with
  | V3 => exact h
  | V4 =>
    funext iv i
    show (if h : i < L then c' x iv ⟨i, h⟩ else 0) = if h : i < L then c x iv ⟨i, h⟩ else 0
    rw [h]

/-- Hiding uses the cipher under one key. -/
theorem hide_local (P : Prims) (hK : ∀ x, x ∈ K) (c : CipherOf v L) (f : Tags v) (D : Derivation v)
    {a : Hiding v} (ha : a.Comparable P L) (s : Side) (key b : BytesN 32) :
    ∃ x text, ∀ c' : CipherOf v L, c' x = c x → ∀ rest,
      a.run (C101.pr P K c' f D) ⟨key⟩ s (b.1 ++ rest) = .ok (text, rest) := by
  obtain ⟨k, -, h⟩ := a.veilCore (P.withTags v f) (C83.comparable_tags _ _ ha)
  refine ⟨(D key (k.tag, b)).cipherKey,
    k.out (P.withTags v f) (c.ciphers (P.withTags v f)) s b (D key (k.tag, b)), fun c' hc rest => ?_⟩
  refine (h K D (c'.ciphers _) s key (hK _) b rest).trans ?_
  unfold VeilCore.out
  rw [stream_agree (agree _ hc)]

theorem decrypt_run (Q : Prims) {M F E : Type} (iP : Payload E) (iM : MessageDecoding E M) (iF : Footer F)
    (text : Bytes) (look : ValidatedToken v .Local M F E → Bytes) (i : Bytes) (key : BytesN 32) :
    Opening.run Q key (.decrypt M F E iP iM iF text look i) = (SecuredToken.parse v .Local F E text >>=
      fun t => t.decryptWithAssertions M Q ⟨key⟩ i >>= fun r => (.ok (look r) : Res Bytes)) := rfl

theorem unwrap_run (Q : Prims) (k : WKind) (text : Bytes) (key : BytesN 32) :
    Opening.run Q key (.unwrap k text : Opening v) = (PieWrappedKey.parse v k text >>=
      fun w => w.unwrapKey Q ⟨key⟩ >>= fun key => (.ok key.toBytes.1 : Res Bytes)) := rfl

theorem under_mk (Q : Prims) (c : Ciphers) (key : BytesN 32) :
    (⟨key⟩ : Key Q v .Local).under c = ⟨key⟩ := by cases v <;> rfl

/-- Opening uses the cipher under at most one key. -/
theorem look_ciphers (Q : Prims) (a : Opening v) (key : BytesN 32) :
    ∃ xs : List (BytesN 32), xs.length ≤ 1 ∧ ∀ c : Ciphers, (∀ x ∈ xs, c.AgreeAt Q.ciphers (v, x)) →
      a.run (Q.withCiphers c) key = a.run Q key := by
  cases a with
  | decrypt M F E iP iM iF text look i =>
    simp only [decrypt_run]
    cases hp : SecuredToken.parse v .Local F E text with
    | err x => exact ⟨[], Nat.zero_le _, fun _ _ => by rw [Res.err_bind, Res.err_bind]⟩
    | panic => exact ⟨[], Nat.zero_le _, fun _ _ => by rw [Res.panic_bind, Res.panic_bind]⟩
    | ok t =>
      refine ⟨[(encPair Q v key (t.payload.take 32)).1], Nat.le_refl _, fun c hc => ?_⟩
      have hc := hc _ (List.mem_singleton_self _)
      have := C74.token_local (P := Q) (M := M) t ⟨key⟩ i c fun _ => hc
      rw [under_mk] at this
      rw [Res.ok_bind, Res.ok_bind, this]
  | unwrap k text =>
    simp only [unwrap_run]
    cases hp : PieWrappedKey.parse v k text with
    | err x => exact ⟨[], Nat.zero_le _, fun _ _ => by rw [Res.err_bind, Res.err_bind]⟩
    | panic => exact ⟨[], Nat.zero_le _, fun _ _ => by rw [Res.panic_bind, Res.panic_bind]⟩
    | ok w =>
      refine ⟨[(piePair Q v key w.nonce.1).1], Nat.le_refl _, fun c hc => ?_⟩
      have hc := hc _ (List.mem_singleton_self _)
      have := C74.pie_local (P := Q) w ⟨key⟩ c fun _ => hc
      rw [under_mk] at this
      rw [Res.ok_bind, Res.ok_bind]
      exact this

theorem pr_ciphers (P : Prims) (c : CipherOf v L) (f : Tags v) (D : Derivation v) :
    (C101.pr P K c f D).ciphers = c.ciphers (P.withTags v f) := rfl

theorem pr_other (P : Prims) (c c' : CipherOf v L) (f : Tags v) (D : Derivation v) :
    C101.pr P K c' f D = (C101.pr P K c f D).withCiphers (c'.ciphers (P.withTags v f)) := rfl

theorem look_local (P : Prims) (c : CipherOf v L) (f : Tags v) (D : Derivation v) (a : Opening v)
    (key : BytesN 32) :
    ∃ xs : List (BytesN 32), xs.length ≤ 1 ∧ ∀ c' : CipherOf v L, (∀ x ∈ xs, c' x = c x) →
      a.run (C101.pr P K c' f D) key = a.run (C101.pr P K c f D) key := by
  obtain ⟨xs, h1, h2⟩ := look_ciphers (C101.pr P K c f D) a key
  refine ⟨xs, h1, fun c' hc => ?_⟩
  rw [pr_other P c c', h2]
  intro x hx
  rw [pr_ciphers]
  exact agree _ (hc x hx)

theorem answer_hash (g : SealHash v) (a : Opening v) (key : BytesN 32) (issued : List Item) :
    a.answer (P.withSealHash v g) key issued = a.answer P key issued := by
  unfold Opening.answer
  rw [look_hash]

theorem answer_local (P : Prims) (c : CipherOf v L) (f : Tags v) (D : Derivation v) (a : Opening v)
    (key : BytesN 32) (issued : List Item) :
    ∃ xs : List (BytesN 32), xs.length ≤ 1 ∧ ∀ c' : CipherOf v L, (∀ x ∈ xs, c' x = c x) →
      a.answer (C101.pr P K c' f D) key issued = a.answer (C101.pr P K c f D) key issued := by
  obtain ⟨xs, h1, h2⟩ := look_local (K := K) P c f D a key
  refine ⟨xs, h1, fun c' hc => ?_⟩
  unfold Opening.answer
  rw [h2 c' hc]

end Pasta.Hybrid

namespace Pasta.Plug

open C82 (count count_eq count_prod count_prod')

variable {I T K S E : Type} [DecidableEq I] [DecidableEq K]
variable [Fintype I] [Fintype T] [Fintype K] [Fintype S] [Fintype E]

theorem hop_ratio {a b W bad n M N T S E Ω Y Z : Nat} (h1 : a * Z ≤ b * (T * S) + W)
    (h2 : b * (T * S) ≤ a * Z + W) (hW : W ≤ (bad * T + n * M * Y) * S) (hY : Y = Ω * (E * T))
    (hZ : Z = T * (T * (S * E))) (hN : M * N = T) (hΩ : 0 < Ω) (hT : 0 < T) (hS : 0 < S) (hE : 0 < E)
    (hM : 0 < M) (hN0 : 0 < N) : |(a : ℚ) / Ω - b / Y| ≤ bad / Y + n / N := by
  have hΩq : (0 : ℚ) < Ω := by exact_mod_cast hΩ
  have hTq : (0 : ℚ) < T := by exact_mod_cast hT
  have hSq : (0 : ℚ) < S := by exact_mod_cast hS
  have hEq : (0 : ℚ) < E := by exact_mod_cast hE
  have hMq : (0 : ℚ) < M := by exact_mod_cast hM
  have hNq : (0 : ℚ) < N := by exact_mod_cast hN0
  have hYe : (Y : ℚ) = Ω * (E * T) := by exact_mod_cast hY
  have hZe : (Z : ℚ) = T * (T * (S * E)) := by exact_mod_cast hZ
  have hNe : (M : ℚ) * N = T := by exact_mod_cast hN
  have key : |(a : ℚ) * Z - b * (T * S)| ≤ W := by
    have e1 : (a : ℚ) * Z ≤ b * (T * S) + W := by exact_mod_cast h1
    have e2 : (b : ℚ) * (T * S) ≤ a * Z + W := by exact_mod_cast h2
    rw [abs_le]
    constructor <;> linarith
  have hWq : (W : ℚ) ≤ (bad * T + n * M * Y) * S := by exact_mod_cast hW
  have e3 : (a : ℚ) / Ω - b / Y = (a * Z - b * (T * S)) / (Y * (T * S)) := by
    rw [hYe, hZe]
    field_simp
  have e4 : (bad : ℚ) / Y + n / N = (bad * T + n * M * Y) * S / (Y * (T * S)) := by
    have hY0 : (0 : ℚ) < Y := by rw [hYe]; positivity
    rw [← hNe]
    field_simp
  have hp : (0 : ℚ) < Y * (T * S) := by rw [hYe]; positivity
  rw [e3, e4, abs_div, abs_of_pos hp]
  exact div_le_div_of_nonneg_right (le_trans key hWq) hp.le

/-- A way to use the drawn values: as long as nothing bad happens it looks like another one that does not use
the first value and the member of the family; then the two can be told apart only when something bad happens
or the key is met by chance. -/
theorem hop (x1 x2 : I) (kOf : T → K) (M N n : Nat) (fix : T → S → E → S) (out : T → S → E)
    (h1 : ∀ t s e, out t (fix t s e) = e) (h2 : ∀ t s e, fix t (fix t s e) (out t s) = s)
    (hM : ∀ k, count (fun t : T => kOf t = k) ≤ M) (hN : M * N = Fintype.card T) (hM0 : 0 < M) (hN0 : 0 < N)
    (hS : 0 < Fintype.card S) (hE : 0 < Fintype.card E) (real : (I → T) × (K → S) → Prop)
    (ideal bad : (I → T) × (K → S) × E × T → Prop) (touched : (I → T) × (K → S) × E × T → List K)
    (hn : ∀ y, (touched y).length ≤ n)
    (h : ∀ f c e t2 t1 s, ¬ bad (f, c, e, t2) → kOf t1 ∉ touched (f, c, e, t2) →
      (real (plug x1 x2 kOf fix (f, c, e, t2, t1, s)) ↔ ideal (f, c, e, t2))) :
    |(count real : ℚ) / Fintype.card ((I → T) × (K → S)) -
        count ideal / Fintype.card ((I → T) × (K → S) × E × T)| ≤
      count bad / Fintype.card ((I → T) × (K → S) × E × T) + n / N := by
  classical
  let Y := (I → T) × (K → S) × E × T
  let low : Drawn I T K S E → Y := fun z => (z.1, z.2.1, z.2.2.1, z.2.2.2.1)
  let wrong : Drawn I T K S E → Prop := fun z => bad (low z) ∨ kOf z.2.2.2.2.1 ∈ touched (low z)
  let re : Drawn I T K S E ≃ (Y × T) × S :=
    { toFun := fun z => (((z.1, z.2.1, z.2.2.1, z.2.2.2.1), z.2.2.2.2.1), z.2.2.2.2.2)
      invFun := fun y => (y.1.1.1, y.1.1.2.1, y.1.1.2.2.1, y.1.1.2.2.2, y.1.2, y.2)
      left_inv := fun _ => rfl
      right_inv := fun _ => rfl }
  have hw : count wrong ≤ (count bad * Fintype.card T + n * M * Fintype.card Y) * Fintype.card S := by
    have e1 : count wrong = count fun y : (Y × T) × S => bad y.1.1 ∨ kOf y.1.2 ∈ touched y.1.1 :=
      count_bij re.bijective fun _ => Iff.rfl
    rw [e1, count_fst (fun y : Y × T => bad y.1 ∨ kOf y.2 ∈ touched y.1)]
    refine Nat.mul_le_mul_right _ (le_trans (count_or _ _) (Nat.add_le_add ?_ ?_))
    · rw [count_fst]
    · exact count_touched kOf M n hM touched hn
  have ha : (count fun z : Drawn I T K S E => real (plug x1 x2 kOf fix z)) =
      count real * Fintype.card (T × T × S × E) := count_plug x1 x2 kOf fix out h1 h2 real
  have hb : (count fun z : Drawn I T K S E => ideal (low z)) =
      count ideal * (Fintype.card T * Fintype.card S) := by
    have e1 : (count fun z : Drawn I T K S E => ideal (low z)) =
        count fun y : (Y × T) × S => ideal y.1.1 := count_bij re.bijective fun _ => Iff.rfl
    rw [e1, count_fst (fun y : Y × T => ideal y.1), count_fst, Nat.mul_assoc]
  have hab : ∀ z : Drawn I T K S E, ¬ wrong z → (real (plug x1 x2 kOf fix z) ↔ ideal (low z)) := by
    rintro ⟨f, c, e, t2, t1, s⟩ hz
    simp only [wrong, not_or] at hz
    exact h f c e t2 t1 s hz.1 hz.2
  have hle1 : count real * Fintype.card (T × T × S × E) ≤
      count ideal * (Fintype.card T * Fintype.card S) + count wrong := by
    rw [← ha, ← hb]
    refine le_trans (count_mono (B := fun z => ideal (low z) ∨ wrong z) fun z hz => ?_) (count_or _ _)
    by_cases hz' : wrong z
    · exact .inr hz'
    · exact .inl ((hab z hz').1 hz)
  have hle2 : count ideal * (Fintype.card T * Fintype.card S) ≤
      count real * Fintype.card (T × T × S × E) + count wrong := by
    rw [← ha, ← hb]
    refine le_trans (count_mono (B := fun z => real (plug x1 x2 kOf fix z) ∨ wrong z) fun z hz => ?_)
      (count_or _ _)
    by_cases hz' : wrong z
    · exact .inr hz'
    · exact .inl ((hab z hz').2 hz)
  have hT : 0 < Fintype.card T := by rw [← hN]; positivity
  have hΩ : 0 < Fintype.card ((I → T) × (K → S)) := by
    obtain ⟨t⟩ := Fintype.card_pos_iff.1 hT
    obtain ⟨s⟩ := Fintype.card_pos_iff.1 hS
    exact Fintype.card_pos_iff.2 ⟨(fun _ => t, fun _ => s)⟩
  have hY : Fintype.card Y = Fintype.card ((I → T) × (K → S)) * (Fintype.card E * Fintype.card T) := by
    simp only [Y, Fintype.card_prod, Nat.mul_assoc]
  have hZ : Fintype.card (T × T × S × E) =
      Fintype.card T * (Fintype.card T * (Fintype.card S * Fintype.card E)) := by
    simp only [Fintype.card_prod]
  exact hop_ratio hle1 hle2 hw hY hZ hN hΩ hT hS hE hM0 hN0

end Pasta.Plug
