import Verif.Model.Public
import Verif.Lemmas.Local

/-! # Lemmas about public tokens -/

namespace Pasta

open Spec (Fits header)

theorem sigSize_eq (v : Ver) : sigSize v = Spec.sigLen v := by cases v <;> rfl

theorem publicHeader_flatten (v : Ver) (suf : Bytes) :
    [v.pasetoHeader, suf, asc ".", Purpose.Public.header, asc "."].flatten =
      header v .Public suf := by
  rw [← header_eq]; simp

theorem v3PublicPreAuth_eq {P : Prims} {pk : P.P384Point} {suf m f i : Bytes}
    (hh : Fits (header .V3 .Public suf)) (hm : Fits m) (hf : Fits f) (hi : Fits i) :
    v3PublicPreAuth (P.p384Compress pk).1 suf m f i =
      Spec.v3Signed P pk (header .V3 .Public suf) m f i := by
  have e := publicHeader_flatten .V3 suf
  unfold v3PublicPreAuth Spec.v3Signed
  rw [pae_eq_PAE]
  · simp [e, ← header_eq']
  · simp
  · simp only [List.mem_cons, List.not_mem_nil, or_false]
    rintro p (rfl | rfl | rfl | rfl | rfl)
    · have := (P.p384Compress pk).2
      simp [Fits, this]
    · rw [e]; exact hh
    · simpa using hm
    · simpa using hf
    · simpa using hi

theorem v4PublicPreAuth_eq {suf m f i : Bytes}
    (hh : Fits (header .V4 .Public suf)) (hm : Fits m) (hf : Fits f) (hi : Fits i) :
    v4PublicPreAuth suf m f i = Spec.v4Signed (header .V4 .Public suf) m f i := by
  have e := publicHeader_flatten .V4 suf
  unfold v4PublicPreAuth Spec.v4Signed
  rw [pae_eq_PAE]
  · simp [e, ← header_eq']
  · simp
  · simp only [List.mem_cons, List.not_mem_nil, or_false]
    rintro p (rfl | rfl | rfl | rfl)
    · rw [e]; exact hh
    · simpa using hm
    · simpa using hf
    · simpa using hi

theorem signRaw_eq {P : Prims} {v : Ver} (sk : Inner P v .Secret) {suf m f i : Bytes}
    (hh : Fits (header v .Public suf)) (hm : Fits m) (hf : Fits f) (hi : Fits i) :
    ((∃ s, signRaw P v sk suf m f i = .ok s ∧
        Spec.sigOf P v sk (header v .Public suf) m f i = some s.1) ∨
      signRaw P v sk suf m f i = .panic ∧ v = .V3 ∧
        Spec.sigOf P v sk (header v .Public suf) m f i = none) := by
  cases v
  · simp only [signRaw, Spec.sigOf, v3PublicPreAuth_eq hh hm hf hi]
    cases h : P.p384Sign sk (P.sha384 (Spec.v3Signed P (P.p384Public sk)
      (header .V3 .Public suf) m f i)) with
    | none => exact .inr ⟨rfl, trivial, rfl⟩
    | some s => exact .inl ⟨s, rfl, rfl⟩
  · simp only [signRaw, Spec.sigOf, v4PublicPreAuth_eq hh hm hf hi]
    exact .inl ⟨_, rfl, rfl⟩

theorem signRaw_ok {P : Prims} {v : Ver} {sk : Inner P v .Secret} {suf m f i : Bytes}
    {s : BytesN (sigSize v)} (h : signRaw P v sk suf m f i = .ok s)
    (hh : Fits (header v .Public suf)) (hm : Fits m) (hf : Fits f) (hi : Fits i) :
    Spec.sigOf P v sk (header v .Public suf) m f i = some s.1 := by
  rcases signRaw_eq sk hh hm hf hi with ⟨s', h1, h2⟩ | ⟨h1, -⟩
  · rw [h] at h1; cases h1; exact h2
  · rw [h] at h1; cases h1

theorem signRaw_ne_err {P : Prims} {v : Ver} (sk : Inner P v .Secret) (suf m f i : Bytes)
    (e : PasetoError) : signRaw P v sk suf m f i ≠ .err e := by
  cases v
  · exact Res.unwrap_ne_err
  · simp [signRaw]

section
variable {P : Prims} {v : Ver} {M F E : Type}

theorem sign_ok_iff [Payload E] [MessageEncoding E M] [Footer F]
    (b : TokenBuilder v .Public M F E) (key : Key P v .Secret) (i : Bytes)
    (tok : SecuredToken v .Public F E) :
    b.signWithAssertions P key i = .ok tok ↔
      ∃ m f s, MessageEncoding.encode b.tok.encoding b.tok.message = .ok m ∧
        Footer.encode b.tok.footer = some f ∧
        signRaw P v key.key (Payload.suffix E) m f i = .ok s ∧
        tok = { encoding := b.tok.encoding, footer := b.tok.footer, encodedFooter := f,
                payload := m ++ s.1 } := by
  unfold TokenBuilder.signWithAssertions
  simp only [Res.bind_eq_ok, Res.ofExcept_eq_ok, Res.unwrap_eq_ok, Res.pure_def, Res.ok.injEq]
  constructor
  · rintro ⟨m, hm, f, hf, s, hs, rfl⟩; exact ⟨m, f, s, hm, hf, hs, rfl⟩
  · rintro ⟨m, f, s, hm, hf, hs, rfl⟩; exact ⟨m, hm, f, hf, s, hs, rfl⟩

theorem verify_split [Payload E] [MessageDecoding E M] (t : SecuredToken v .Public F E)
    (key : Key P v .Public) (i m : Bytes) (s : BytesN (sigSize v)) (hp : t.payload = m ++ s.1) :
    t.verifyWithAssertions M P key i =
      (verifyRaw P v key.key (Payload.suffix E) m t.encodedFooter i s >>= fun ok =>
        if ok then
          (Res.ofExcept (MessageDecoding.decode t.encoding m) >>= fun message =>
            .ok { encoding := t.encoding, message, footer := t.footer })
        else .err .cryptoError) := by
  unfold SecuredToken.verifyWithAssertions
  have e1 : usizeSub t.payload.length (sigSize v) = .ok m.length := by
    unfold usizeSub
    have := s.2
    rw [hp, if_pos (by simp; omega)]
    simp [this]
  have e2 : splitAt m.length t.payload = .ok (m, s.1) := by
    unfold splitAt
    rw [hp, if_pos (by simp)]
    simp
  have e3 : BytesN.ofBytes? (sigSize v) s.1 = some s := BytesN.ofBytes?_eq_some.2 rfl
  simp only [e1, e2, e3, Res.ok_bind, Res.unwrap_some, Res.pure_def]

theorem public_payload_split (n : Nat) (p : Bytes) (h : n ≤ p.length) :
    ∃ (m : Bytes) (s : BytesN n), p = m ++ s.1 :=
  ⟨p.take (p.length - n), ⟨p.drop (p.length - n), by simp; omega⟩, by simp⟩

theorem verify_short [Payload E] [MessageDecoding E M] (t : SecuredToken v .Public F E)
    (key : Key P v .Public) (i : Bytes) (h : t.payload.length < sigSize v) :
    t.verifyWithAssertions M P key i = .panic := by
  unfold SecuredToken.verifyWithAssertions
  have e1 : usizeSub t.payload.length (sigSize v) = .panic := by
    unfold usizeSub; rw [if_neg (by omega)]
  simp only [e1, Res.panic_bind]

/-- The signature is in a form the code does not panic on. -/
def sigShapeOk : (v : Ver) → BytesN (sigSize v) → Prop
  | .V3, s => p384SigOk s
  | .V4, _ => True

theorem verifyRaw_panic (pk : Inner P v .Public) (suf m f i : Bytes) (s : BytesN (sigSize v)) :
    verifyRaw P v pk suf m f i s = .panic ↔ ¬ sigShapeOk v s := by
  cases v
  · have : ∀ s : BytesN 96, verifyRaw P .V3 pk suf m f i s = .panic ↔ ¬ p384SigOk s := by
      intro s
      simp only [verifyRaw, p384SigFromBytes]
      split
      · simp_all
      · simp_all
    exact this s
  · simp [verifyRaw, sigShapeOk]

theorem verifyRaw_ne_err (pk : Inner P v .Public) (suf m f i : Bytes) (s : BytesN (sigSize v))
    (e : PasetoError) : verifyRaw P v pk suf m f i s ≠ .err e := by
  cases v
  · have : ∀ s : BytesN 96, verifyRaw P .V3 pk suf m f i s ≠ .err e := by
      intro s
      simp only [verifyRaw, p384SigFromBytes]
      split <;> simp
    exact this s
  · simp [verifyRaw]

/-- In range, the code's verification is the specification's. -/
theorem verifyRaw_true (pk : Inner P v .Public) {suf m f i : Bytes} (s : BytesN (sigSize v))
    (hh : Fits (header v .Public suf)) (hm : Fits m) (hf : Fits f) (hi : Fits i) :
    verifyRaw P v pk suf m f i s = .ok true ↔
      Spec.sigValid P v pk (header v .Public suf) m f i s.1 := by
  cases v
  · have : ∀ s : BytesN 96, verifyRaw P .V3 pk suf m f i s = .ok true ↔
        Spec.sigValid P .V3 pk (header .V3 .Public suf) m f i s.1 := by
      intro s
      have e : v3PublicPreAuth (P.p384Compress pk).1 suf m f i =
        Spec.v3Signed P pk (header .V3 .Public suf) m f i := v3PublicPreAuth_eq hh hm hf hi
      simp only [verifyRaw, p384SigFromBytes, Spec.sigValid, e]
      constructor
      · intro h
        split at h
        · exact ⟨s, rfl, by assumption, by simpa using h⟩
        · simp at h
      · rintro ⟨s', h1, h2, h3⟩
        obtain rfl : s = s' := Subtype.ext h1
        rw [if_pos h2]
        simpa using h3
    exact this s
  · have : ∀ s : BytesN 64, verifyRaw P .V4 pk suf m f i s = .ok true ↔
        Spec.sigValid P .V4 pk (header .V4 .Public suf) m f i s.1 := by
      intro s
      simp only [verifyRaw, Spec.sigValid, v4PublicPreAuth_eq hh hm hf hi, Res.ok.injEq]
      constructor
      · intro h; exact ⟨s, rfl, h⟩
      · rintro ⟨s', h1, h3⟩
        obtain rfl : s = s' := Subtype.ext h1
        exact h3
    exact this s

end
end Pasta
