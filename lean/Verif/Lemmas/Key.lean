import Verif.Lemmas.Paserk

/-! # Lemmas about keys -/

namespace Pasta

variable {P : Prims}

theorem Key.ext_iff' {v : Ver} {k : Kind} {a b : Key P v k} : a = b ↔ a.key = b.key := by
  cases a; cases b; simp

theorem Key.edFromKeypair_eq_some {b : BytesN 64} {s : BytesN 32} :
    Key.edFromKeypair P b = some s ↔
      s.1 = b.1.take 32 ∧ ∃ pk, P.edParse ⟨b.1.drop 32, by simp [b.2]⟩ = some pk ∧
        P.edBytes (P.edPublic s) = P.edBytes pk := by
  unfold Key.edFromKeypair
  have hs : (BytesN.split 32 32 rfl b) =
      (⟨b.1.take 32, by simp [b.2]⟩, ⟨b.1.drop 32, by simp [b.2]⟩) := rfl
  rw [hs]
  dsimp only
  constructor
  · intro h
    split at h
    · simp at h
    · rename_i pk hp
      split at h
      · rename_i he
        simp only [Option.some.injEq] at h
        subst h
        exact ⟨rfl, pk, hp, he⟩
      · simp at h
  · rintro ⟨h1, pk, h2, h3⟩
    have : s = ⟨b.1.take 32, by simp [b.2]⟩ := Subtype.ext h1
    subst this
    rw [h2]
    simp only [h3, if_true]

theorem Key.p384ScalarFromSlice_48 {b : BytesN 48} {s : P384Scalar} :
    Key.p384ScalarFromSlice P b.1 = some s ↔ s.1 = b := by
  unfold Key.p384ScalarFromSlice
  rw [dif_pos b.2]
  constructor
  · intro h
    split at h
    · simp only [Option.some.injEq] at h; rw [← h]
    · simp at h
  · rintro rfl
    rw [dif_pos s.2]

theorem Key.p384ScalarFromSlice_none {b : BytesN 48} :
    Key.p384ScalarFromSlice P b.1 = none ↔ ¬ p384ScalarOk b := by
  unfold Key.p384ScalarFromSlice
  rw [dif_pos b.2]
  split
  · rename_i h; simp; exact h
  · rename_i h; simp; exact h

/-- `Key::from_bytes` as a relation on the inner keys. -/
theorem Key.fromBytes_eq_ok {v : Ver} {k : Kind} {b : BytesN (keyLen v k)} {key : Key P v k} :
    Key.fromBytes P v k b = .ok key ↔ Key.innerFromBytes P v k b = .ok key.key := by
  unfold Key.fromBytes
  rw [Res.bind_eq_ok]
  constructor
  · rintro ⟨i, h1, h2⟩
    simp only [Res.pure_def, Res.ok.injEq] at h2
    rw [← h2]; exact h1
  · intro h
    exact ⟨_, h, rfl⟩

theorem Key.fromBytes_cases {v : Ver} {k : Kind} (b : BytesN (keyLen v k)) :
    (∃ key, Key.fromBytes P v k b = .ok key) ∨ Key.fromBytes P v k b = .err .invalidKey := by
  have : (∃ i, Key.innerFromBytes P v k b = .ok i) ∨
      Key.innerFromBytes P v k b = .err .invalidKey := by
    have ho : ∀ {α : Type} (o : Option α),
        (∃ i, Res.okOr .invalidKey o = .ok i) ∨ Res.okOr .invalidKey o = .err .invalidKey := by
      intro α o; cases o
      · exact .inr rfl
      · exact .inl ⟨_, rfl⟩
    cases k <;> cases v
    · exact .inl ⟨_, rfl⟩
    · exact .inl ⟨_, rfl⟩
    · exact ho _
    · exact ho _
    · exact ho _
    · exact ho _
  rcases this with ⟨i, h⟩ | h
  · exact .inl ⟨⟨i⟩, Key.fromBytes_eq_ok.2 h⟩
  · exact .inr (by unfold Key.fromBytes; rw [h]; rfl)

/-- Every 32 bytes are a local key. -/
theorem Key.fromBytes_local {v : Ver} (b : BytesN (keyLen v .Local)) :
    ∃ key, Key.fromBytes P v .Local b = .ok key := by
  cases v <;> exact ⟨⟨b⟩, rfl⟩

theorem Key.fromBytes_ne_panic {v : Ver} {k : Kind} (b : BytesN (keyLen v k)) :
    Key.fromBytes P v k b ≠ .panic := by
  rcases Key.fromBytes_cases (P := P) b with ⟨key, h⟩ | h <;> rw [h] <;> simp

/-- Raw bytes determine the key. -/
theorem Key.fromBytes_toBytes (L : P.Laws) {v : Ver} {k : Kind} (key : Key P v k) :
    Key.fromBytes P v k key.toBytes = .ok key := by
  rw [Key.fromBytes_eq_ok]
  obtain ⟨key⟩ := key
  unfold Key.toBytes
  dsimp only
  match v, k, key with
  | .V3, .Local, key => rfl
  | .V4, .Local, key => rfl
  | .V3, .Public, key =>
    show Res.okOr _ (P.p384Parse (P.p384Compress key).1) = _
    rw [L.p384Parse_compress]; rfl
  | .V4, .Public, key =>
    show Res.okOr _ (P.edParse (P.edBytes key)) = _
    rw [L.edParse_bytes]; rfl
  | .V3, .Secret, key =>
    show Res.okOr _ (Key.p384ScalarFromSlice P key.1.1) = _
    rw [(Key.p384ScalarFromSlice_48 (P := P) (b := key.1)).2 rfl]; rfl
  | .V4, .Secret, key =>
    show Res.okOr _ (Key.edFromKeypair P (BytesN.append 64 rfl key (P.edBytes (P.edPublic key)))) = _
    have : Key.edFromKeypair P (BytesN.append 64 rfl key (P.edBytes (P.edPublic key))) = some key := by
      rw [Key.edFromKeypair_eq_some]
      refine ⟨by simp [← key.2], P.edPublic key, ?_, rfl⟩
      rw [← L.edParse_bytes (P.edPublic key)]
      congr 1
      apply Subtype.ext
      simp only [BytesN.append_val]
      rw [List.drop_append_of_le_length (by rw [key.2]; exact Nat.le_refl _)]
      rw [List.drop_of_length_le (by rw [key.2]; exact Nat.le_refl _)]
      rfl
    rw [this]; rfl

theorem Key.toBytes_inj (L : P.Laws) {v : Ver} {k : Kind} {a b : Key P v k}
    (h : a.toBytes = b.toBytes) : a = b := by
  have h1 := Key.fromBytes_toBytes L a
  rw [h, Key.fromBytes_toBytes L b] at h1
  simpa using h1.symm

/-- Where the constructor accepts, the key has the given bytes (except V3 public keys, whose
decoder is the curve library's SEC1 decoder). -/
theorem Key.toBytes_fromBytes (L : P.Laws) {v : Ver} {k : Kind} {b : BytesN (keyLen v k)}
    {key : Key P v k} (hk : ¬ (v = .V3 ∧ k = .Public)) (h : Key.fromBytes P v k b = .ok key) :
    key.toBytes = b := by
  rw [Key.fromBytes_eq_ok] at h
  obtain ⟨key⟩ := key
  unfold Key.toBytes
  dsimp only at h ⊢
  match v, k, b, key, hk, h with
  | .V3, .Local, b, key, _, h =>
    have : Res.ok b = Res.ok key := h
    exact (Res.ok.inj this).symm
  | .V4, .Local, b, key, _, h =>
    have : Res.ok b = Res.ok key := h
    exact (Res.ok.inj this).symm
  | .V3, .Public, b, key, hk, h => exact absurd ⟨rfl, rfl⟩ hk
  | .V4, .Public, b, key, _, h =>
    have h : Res.okOr .invalidKey (P.edParse b) = .ok key := h
    rw [Res.okOr_eq_ok] at h
    exact L.edBytes_of_parse b key h
  | .V3, .Secret, b, key, _, h =>
    have h : Res.okOr .invalidKey (Key.p384ScalarFromSlice P b.1) = .ok key := h
    rw [Res.okOr_eq_ok] at h
    exact (Key.p384ScalarFromSlice_48 (P := P) (b := b)).1 h
  | .V4, .Secret, b, key, _, h =>
    have h : Res.okOr .invalidKey (Key.edFromKeypair P b) = .ok key := h
    rw [Res.okOr_eq_ok] at h
    obtain ⟨h1, pk, h2, h3⟩ := (Key.edFromKeypair_eq_some (P := P) (b := b) (s := key)).1 h
    show BytesN.append 64 rfl key (P.edBytes (P.edPublic key)) = b
    apply Subtype.ext
    rw [BytesN.append_val, h3, L.edBytes_of_parse _ _ h2, h1]
    exact List.take_append_drop 32 b.1

end Pasta
