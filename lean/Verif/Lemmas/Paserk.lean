import Verif.Lemmas.Token
import Verif.Model.Pke
import Verif.Spec.Paserk

/-! # Lemmas about PASERK text: `write_b64`, `read_b64`, headers -/

namespace Pasta

open Spec (base64url paserkText paserkHeader)

theorem B64.encode_append (a b : Bytes) (h : a.length % 3 = 0) :
    B64.encode (a ++ b) = B64.encode a ++ B64.encode b := by
  match a, h with
  | [], _ => rfl
  | [_], h => simp at h
  | [_, _], h => simp at h
  | x :: y :: z :: rest, h =>
    have h' : rest.length % 3 = 0 := by simp only [List.length_cons] at h; omega
    simp only [List.cons_append, B64.encode, B64.encode_append rest b h', List.append_assoc]

theorem base64url_append (a b : Bytes) (h : a.length % 3 = 0) :
    base64url (a ++ b) = base64url a ++ base64url b := by
  simp only [← B64.encode_eq_spec]
  exact B64.encode_append a b h

theorem base64url_length (b : Bytes) : (base64url b).length = B64.encodedLen b.length := by
  rw [← B64.encode_eq_spec, B64.encode_length]

theorem B64.encodedLen_mono {a b : Nat} (h : a ≤ b) : B64.encodedLen a ≤ B64.encodedLen b := by
  unfold B64.encodedLen
  split <;> split <;> omega

/-- `write_b64` always succeeds and writes the base64url text. -/
theorem writeB64_eq (b : Bytes) : writeB64 b = .ok (base64url b) := by
  have key : ∀ (n : Nat) (b w : Bytes), b.length ≤ n →
      (chunks 48 b).foldlM (fun w chunk => do
        let s ← Res.unwrap (B64.encodeInto 64 chunk)
        return w ++ s) w = .ok (w ++ B64.encode b) := by
    intro n
    induction n with
    | zero =>
      intro b w hb
      have : b = [] := List.eq_nil_of_length_eq_zero (by omega)
      subst this
      unfold chunks
      simp [B64.encode]
    | succ n ih =>
      intro b w hb
      unfold chunks
      by_cases h : b = []
      · subst h
        simp [B64.encode]
      · rw [dif_neg (by simp [h])]
        rw [List.foldlM_cons]
        have h1 : B64.encodeInto 64 (b.take 48) = some (B64.encode (b.take 48)) := by
          unfold B64.encodeInto
          rw [if_pos]
          have : (b.take 48).length ≤ 48 := by simp; omega
          exact Nat.le_trans (B64.encodedLen_mono this) (by decide)
        have hpos : 0 < b.length := List.length_pos_iff.2 h
        rw [h1]
        simp only [Res.unwrap_some, Res.ok_bind, Res.pure_def]
        have := ih (b.drop 48) (w ++ B64.encode (b.take 48)) (by simp; omega)
        simp only [Res.pure_def] at this
        rw [this]
        by_cases h48 : 48 ≤ b.length
        · rw [List.append_assoc, ← B64.encode_append _ _ (by simp; omega), List.take_append_drop]
        · rw [List.take_of_length_le (by omega), List.drop_of_length_le (by omega)]
          simp [B64.encode]
  have := key b.length b [] (Nat.le_refl _)
  rw [B64.encode_eq_spec] at this
  simpa [writeB64] using this

theorem decodeInto_eq_some {cap : Nat} {s d : Bytes} :
    B64.decodeInto cap s = some d ↔ s = base64url d ∧ d.length ≤ cap := by
  rw [B64.decodeInto_eq_some, B64.encode_eq_spec]

theorem decodeInto_eq_none {cap : Nat} {s : Bytes} :
    B64.decodeInto cap s = none ↔ ∀ d, s = base64url d → ¬ d.length ≤ cap := by
  constructor
  · intro h d hs hd
    rw [decodeInto_eq_some.2 ⟨hs, hd⟩] at h
    simp at h
  · intro h
    cases hd : B64.decodeInto cap s with
    | none => rfl
    | some d =>
      rw [decodeInto_eq_some] at hd
      exact absurd hd.2 (h d hd.1)

/-- `read_b64` returns the bytes whose base64url text it is given, if there are `n` of them. -/
theorem readB64_eq_ok {n : Nat} {s : Bytes} {b : BytesN n} :
    readB64 n s = .ok b ↔ s = base64url b.1 := by
  unfold readB64
  dsimp only
  constructor
  · intro h
    split at h
    · simp at h
    · obtain ⟨d, h1, h2⟩ := Res.bind_eq_ok.1 h
      rw [Res.okOr_eq_ok, decodeInto_eq_some] at h1
      split at h2
      · simp only [Res.pure_def, Res.ok.injEq] at h2
        rw [← h2]; exact h1.1
      · simp at h2
  · intro h
    have hb := b.2
    rw [if_neg]
    · rw [decodeInto_eq_some.2 ⟨h, by omega⟩]
      simp only [Res.okOr_some, Res.ok_bind]
      rw [dif_pos hb]
      rfl
    · rw [h, base64url_length, hb]
      unfold B64.encodedLen
      split <;> omega

/-- Otherwise it reports a base64 error. -/
theorem readB64_cases {n : Nat} {s : Bytes} :
    (∃ b, readB64 n s = .ok b) ∨ readB64 n s = .err .base64DecodeError := by
  unfold readB64
  dsimp only
  split
  · exact .inr rfl
  · cases h : B64.decodeInto n s with
    | none => exact .inr rfl
    | some d =>
      simp only [Res.okOr_some, Res.ok_bind]
      split
      · exact .inl ⟨_, rfl⟩
      · exact .inr rfl

theorem readB64_err {n : Nat} {s : Bytes} (h : ∀ b : BytesN n, s ≠ base64url b.1) :
    readB64 n s = .err .base64DecodeError := by
  rcases readB64_cases (n := n) (s := s) with ⟨b, hb⟩ | hb
  · exact absurd (readB64_eq_ok.1 hb) (h b)
  · exact hb

/-- Reading with the in-line decoding of plaintext keys and ids. -/
theorem inlineRead_eq {α : Type} {n : Nat} (s : Bytes) (f : BytesN n → Res α) :
    (Res.okOr .base64DecodeError (B64.decodeInto n s) >>= fun d =>
      if h : d.length = n then f ⟨d, h⟩ else .err .base64DecodeError) = (readB64 n s >>= f) := by
  cases h : B64.decodeInto n s with
  | none =>
    have : readB64 n s = .err .base64DecodeError := by
      apply readB64_err
      intro b hb
      exact decodeInto_eq_none.1 h b.1 hb (by rw [b.2]; exact Nat.le_refl _)
    rw [this]; rfl
  | some d =>
    simp only [Res.okOr_some, Res.ok_bind]
    have hs := (decodeInto_eq_some.1 h).1
    by_cases hd : d.length = n
    · rw [dif_pos hd, (readB64_eq_ok (b := ⟨d, hd⟩)).2 hs]; rfl
    · rw [dif_neg hd, readB64_err]
      · rfl
      · intro b hb
        rw [hs] at hb
        have := SecuredToken.base64url_inj hb
        rw [this] at hd
        exact hd b.2

/-- The text parsers all have this shape: strip a header, read the data. -/
theorem strip_read {α : Type} {h s : Bytes} {n : Nat} {f : BytesN n → Res α} {a : α} :
    (Res.okOr .invalidToken (stripPrefix h s) >>= fun s => readB64 n s >>= f) = .ok a ↔
      ∃ b : BytesN n, s = h ++ base64url b.1 ∧ f b = .ok a := by
  constructor
  · intro he
    obtain ⟨r, h1, h2⟩ := Res.bind_eq_ok.1 he
    obtain ⟨b, h3, h4⟩ := Res.bind_eq_ok.1 h2
    rw [Res.okOr_eq_ok, stripPrefix_eq_some] at h1
    rw [readB64_eq_ok] at h3
    exact ⟨b, by rw [h1, h3], h4⟩
  · rintro ⟨b, rfl, hf⟩
    rw [stripPrefix_eq_some.2 rfl]
    simp only [Res.okOr_some, Res.ok_bind]
    rw [readB64_eq_ok.2 rfl]
    exact hf

/-- Header pieces as in the code, and the specification's header. -/
theorem plainHeader_eq (v : Ver) (k : Kind) :
    v.paserkHeader ++ asc "." ++ k.keyHeader = paserkHeader v (Spec.keyTypeText k) := by
  cases v <;> cases k <;> rfl

theorem idHeader_eq (v : Ver) (k : Kind) :
    v.paserkHeader ++ asc "." ++ k.idHeader = paserkHeader v (Spec.idTypeText k) := by
  cases v <;> cases k <;> rfl

theorem pieHeader_eq (v : Ver) (k : WKind) :
    v.paserkHeader ++ asc "." ++ k.pieHeader ++ asc "pie." = paserkHeader v (Spec.pieType k.kind) := by
  cases v <;> cases k <;> rfl

theorem pwHeader_eq (v : Ver) (k : WKind) :
    v.paserkHeader ++ asc "." ++ k.pwHeader = paserkHeader v (Spec.pwType k.kind) := by
  cases v <;> cases k <;> rfl

theorem sealHeader_eq (v : Ver) :
    v.paserkHeader ++ asc ".seal." = Spec.sealHeader v := by
  cases v <;> rfl

theorem keyLen_eq (v : Ver) (k : Kind) : keyLen v k = Spec.keyBytes v k := by
  cases v <;> cases k <;> rfl

/-! ### Plaintext keys and ids -/

theorem PlaintextKey.display_eq {P : Prims} {v : Ver} {k : Kind} (x : PlaintextKey P v k) :
    x.display = .ok (paserkText v (Spec.keyTypeText k) x.key.toBytes.1) := by
  unfold PlaintextKey.display
  rw [writeB64_eq]
  simp only [Res.ok_bind, Res.pure_def, plainHeader_eq, paserkText]

theorem PlaintextKey.parse_eq (P : Prims) (v : Ver) (k : Kind) (s : Bytes) :
    PlaintextKey.parse P v k s =
      (Res.okOr .invalidToken (stripPrefix (paserkHeader v (Spec.keyTypeText k)) s) >>= fun s =>
        readB64 (keyLen v k) s >>= fun b => Key.fromBytes P v k b >>= fun key => .ok ⟨key⟩) := by
  unfold PlaintextKey.parse
  rw [← plainHeader_eq, strip_bind_strip, strip_bind_strip]
  simp only [← inlineRead_eq]
  rfl

theorem PlaintextKey.parse_ok_iff {P : Prims} {v : Ver} {k : Kind} {s : Bytes}
    {x : PlaintextKey P v k} :
    PlaintextKey.parse P v k s = .ok x ↔
      ∃ b : BytesN (keyLen v k), s = paserkText v (Spec.keyTypeText k) b.1 ∧
        Key.fromBytes P v k b = .ok x.key := by
  rw [PlaintextKey.parse_eq, strip_read]
  constructor
  · rintro ⟨b, hs, hf⟩
    obtain ⟨key, h1, h2⟩ := Res.bind_eq_ok.1 hf
    simp only [Res.ok.injEq] at h2
    subst h2
    exact ⟨b, hs, h1⟩
  · rintro ⟨b, hs, hf⟩
    exact ⟨b, hs, by rw [hf]; rfl⟩

theorem KeyId.display_eq {v : Ver} {k : Kind} (x : KeyId v k) :
    x.display = .ok (paserkText v (Spec.idTypeText k) x.id.1) := by
  unfold KeyId.display
  rw [writeB64_eq]
  simp only [Res.ok_bind, Res.pure_def, idHeader_eq, paserkText]

theorem KeyId.parse_eq (v : Ver) (k : Kind) (s : Bytes) :
    KeyId.parse v k s =
      (Res.okOr .invalidToken (stripPrefix (paserkHeader v (Spec.idTypeText k)) s) >>= fun s =>
        readB64 33 s >>= fun b => .ok ⟨b⟩) := by
  unfold KeyId.parse
  rw [← idHeader_eq, strip_bind_strip, strip_bind_strip]
  simp only [← inlineRead_eq]
  rfl

theorem KeyId.parse_ok_iff {v : Ver} {k : Kind} {s : Bytes} {x : KeyId v k} :
    KeyId.parse v k s = .ok x ↔ s = paserkText v (Spec.idTypeText k) x.id.1 := by
  rw [KeyId.parse_eq, strip_read]
  constructor
  · rintro ⟨b, hs, hf⟩
    cases hf
    exact hs
  · intro h
    exact ⟨x.id, h, rfl⟩

end Pasta
