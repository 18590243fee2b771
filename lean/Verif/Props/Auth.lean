import Verif.Props.TokenSpec
import Verif.Props.TokenRoundtrip

/-!
# C09, C10, C11, C12, C13, C18 (authentication of raw footers): what authentication covers

The specification used here is that of `Spec/Paseto.lean`: `Spec.localMac`, `Spec.localAuthKey`,
`Spec.localPreAuth`, `Spec.sigValid`, ...
-/

namespace Pasta

open Spec (header Fits)

/-- Two different messages with the same tag under the key `ak`. -/
def MacCollision (P : Prims) (v : Ver) (ak x y : Bytes) : Prop :=
  x ≠ y ∧ Spec.localMac P v ak x = Spec.localMac P v ak y

theorem header_inj {v v' : Ver} {p p' : Purpose} {suf suf' : Bytes}
    (h : header v p suf = header v' p' suf') : v = v' ∧ p = p' ∧ suf = suf' := by
  have hlast : p = p' := by
    cases p <;> cases p' <;> first | rfl | skip
    · exfalso
      have := congrArg (fun l => l.reverse.take 7) h
      simp only [header, List.reverse_append] at this
      rw [List.take_append_of_le_length (by decide), List.take_append_of_le_length (by decide)] at this
      revert this; decide
    · exfalso
      have := congrArg (fun l => l.reverse.take 7) h
      simp only [header, List.reverse_append] at this
      rw [List.take_append_of_le_length (by decide), List.take_append_of_le_length (by decide)] at this
      revert this; decide
  subst hlast
  have h1 : Spec.versionText v ++ suf = Spec.versionText v' ++ suf' := by
    cases p
    · exact List.append_cancel_right h
    · exact List.append_cancel_right h
  have hl : ∀ v, (Spec.versionText v).length = 2 := by intro v; cases v <;> rfl
  obtain ⟨h2, h3⟩ := List.append_inj h1 (by rw [hl, hl])
  refine ⟨?_, rfl, h3⟩
  cases v <;> cases v' <;> first | rfl | (exfalso; revert h2; decide)

theorem localPreAuth_inj {h n c f i h' n' c' f' i' : Bytes}
    (hf : Fits h ∧ Fits n ∧ Fits c ∧ Fits f ∧ Fits i)
    (hf' : Fits h' ∧ Fits n' ∧ Fits c' ∧ Fits f' ∧ Fits i')
    (e : Spec.localPreAuth h n c f i = Spec.localPreAuth h' n' c' f' i') :
    h = h' ∧ n = n' ∧ c = c' ∧ f = f' ∧ i = i' :=
  PAE_inj5 hf hf' e

/-- The pieces of a payload fit if the payload does. -/
theorem fits_pieces {p n c g : Bytes} (h : Fits p) (hp : p = n ++ c ++ g) : Fits n ∧ Fits c := by
  unfold Fits at *
  rw [hp] at h
  simp only [List.length_append] at h
  omega

section
variable {v : Ver} {M M' F F' E E' : Type}

/-- Accepted tokens with one payload: two local tokens with the same payload, both past
authentication under the same key, agree on suffix, footer and assertion or show a MAC collision. -/
theorem local_binding (P : Prims) [Payload E] [MessageDecoding E M] [Payload E']
    [MessageDecoding E' M'] (t : SecuredToken v .Local F E) (t' : SecuredToken v .Local F' E')
    (key : Key P v .Local) (i i' : Bytes)
    (hfit : PartsFit (header v .Local (Payload.suffix E)) t.payload t.encodedFooter i)
    (hfit' : PartsFit (header v .Local (Payload.suffix E')) t'.payload t'.encodedFooter i')
    (hpay : t'.payload = t.payload)
    (hok : t.decryptWithAssertions M P key i ≠ .err .cryptoError ∧
      t.decryptWithAssertions M P key i ≠ .panic)
    (hdiff : Payload.suffix E ≠ Payload.suffix E' ∨ t.encodedFooter ≠ t'.encodedFooter ∨ i ≠ i') :
    t'.decryptWithAssertions M' P key i' = .err .cryptoError ∨
    ∃ n c tag, t.payload = n ++ c ++ tag ∧ n.length = 32 ∧ tag.length = Spec.tagLen v ∧
      MacCollision P v (Spec.localAuthKey P v key.key n)
        (Spec.localPreAuth (header v .Local (Payload.suffix E)) n c t.encodedFooter i)
        (Spec.localPreAuth (header v .Local (Payload.suffix E')) n c t'.encodedFooter i') := by
  obtain ⟨n, c, hn, hp⟩ := (C03.decrypt_accepts_iff P t key i hfit).1 hok
  rw [C03.decrypt_aux P t' key i' hfit' n c _ (hpay.trans hp) hn
    (by rw [localTag_length, tagSize_eq])]
  split
  · rename_i he
    right
    refine ⟨n, c, _, hp, hn, localTag_length _ _ _ _ _ _ _ _, ?_, he⟩
    intro e
    obtain ⟨hn', hc'⟩ := fits_pieces hfit.message hp
    have := localPreAuth_inj ⟨hfit.header, hn', hc', hfit.footer, hfit.implicit⟩
      ⟨hfit'.header, hn', hc', hfit'.footer, hfit'.implicit⟩ e
    have hs := (header_inj this.1).2.2
    rcases hdiff with h | h | h
    · exact h hs
    · exact h this.2.2.2.1
    · exact h this.2.2.2.2
  · exact .inl rfl

/-- The bytes the specification signs. -/
def signedBytes (P : Prims) : (v : Ver) → Inner P v .Public → (h m f i : Bytes) → Bytes
  | .V3, pk, h, m, f, i => Spec.v3Signed P pk h m f i
  | .V4, _, h, m, f, i => Spec.v4Signed h m f i

theorem signedBytes_inj (P : Prims) (pk : Inner P v .Public) {h m f i h' m' f' i' : Bytes}
    (hf : Fits h ∧ Fits m ∧ Fits f ∧ Fits i) (hf' : Fits h' ∧ Fits m' ∧ Fits f' ∧ Fits i')
    (e : signedBytes P v pk h m f i = signedBytes P v pk h' m' f' i') :
    h = h' ∧ m = m' ∧ f = f' ∧ i = i' := by
  cases v
  · have hc : Fits (P.p384Compress pk).1 := by
      have := (P.p384Compress pk).2
      simp [Fits, this]
    exact (PAE_inj5 ⟨hc, hf⟩ ⟨hc, hf'⟩ e).2
  · exact PAE_inj4 hf hf' e

/-- Accepted tokens with one payload, public version: the alternative to rejection is a signature
that is valid for two different signed byte strings. -/
theorem public_binding (P : Prims) [Payload E] [MessageDecoding E M] [Payload E']
    [MessageDecoding E' M'] (t : SecuredToken v .Public F E) (t' : SecuredToken v .Public F' E')
    (key : Key P v .Public) (i i' : Bytes)
    (hfit : PartsFit (header v .Public (Payload.suffix E)) t.payload t.encodedFooter i)
    (hfit' : PartsFit (header v .Public (Payload.suffix E')) t'.payload t'.encodedFooter i')
    (hpay : t'.payload = t.payload)
    (hok : t.verifyWithAssertions M P key i ≠ .err .cryptoError ∧
      t.verifyWithAssertions M P key i ≠ .panic)
    (hdiff : Payload.suffix E ≠ Payload.suffix E' ∨ t.encodedFooter ≠ t'.encodedFooter ∨ i ≠ i') :
    t'.verifyWithAssertions M' P key i' = .err .cryptoError ∨
    ∃ m sig, t.payload = m ++ sig ∧
      Spec.sigValid P v key.key (header v .Public (Payload.suffix E)) m t.encodedFooter i sig ∧
      Spec.sigValid P v key.key (header v .Public (Payload.suffix E')) m t'.encodedFooter i' sig ∧
      signedBytes P v key.key (header v .Public (Payload.suffix E)) m t.encodedFooter i ≠
        signedBytes P v key.key (header v .Public (Payload.suffix E')) m t'.encodedFooter i' := by
  obtain ⟨m, sig, hp, hv⟩ := (C04.verify_accepts_iff P t key i hfit).1 hok
  have hlen := C04.sigValid_length P _ _ _ _ _ _ hv
  have hm : Fits m := by
    have := hfit.message; unfold Fits at *; rw [hp] at this; simp at this; omega
  have hv1 := (verifyRaw_true key.key ⟨sig, hlen⟩ hfit.header hm hfit.footer hfit.implicit).2 hv
  rw [verify_split t' key i' m ⟨sig, hlen⟩ (hpay.trans hp)]
  cases hr : verifyRaw P v key.key (Payload.suffix E') m t'.encodedFooter i' ⟨sig, hlen⟩ with
  | panic =>
    exfalso
    rw [verifyRaw_panic] at hr
    have : verifyRaw P v key.key (Payload.suffix E) m t.encodedFooter i ⟨sig, hlen⟩ = .panic :=
      (verifyRaw_panic _ _ _ _ _ _).2 hr
    rw [hv1] at this; simp at this
  | err e => exact absurd hr (verifyRaw_ne_err _ _ _ _ _ _ _)
  | ok b =>
    cases b
    · left; simp
    · right
      refine ⟨m, sig, hp, hv,
        (verifyRaw_true key.key ⟨sig, hlen⟩ hfit'.header hm hfit'.footer hfit'.implicit).1 hr, ?_⟩
      intro e
      have := signedBytes_inj P key.key ⟨hfit.header, hm, hfit.footer, hfit.implicit⟩
        ⟨hfit'.header, hm, hfit'.footer, hfit'.implicit⟩ e
      have hs := (header_inj this.1).2.2
      rcases hdiff with h | h | h
      · exact h hs
      · exact h this.2.2.1
      · exact h this.2.2.2

end

/-! Samples for the non-vacuity examples: a genuine token with message, footer and assertion. -/

theorem sample_partsFit (v : Ver) (p : Purpose) (m f i : Bytes) (hm : m.length < 1000)
    (hf : f.length < 1000) (hi : i.length < 1000) :
    PartsFit (header v p (Payload.suffix Sample.Raw)) m f i := by
  refine ⟨?_, ?_, ?_, ?_⟩
  · cases v <;> cases p <;> (unfold Fits; decide)
  all_goals (unfold Fits; omega)

theorem sample_local (v : Ver) : ∃ tok rng',
    (Sample.builder v .Local Sample.Raw).encryptWithAssertionsAndRng Toy.prims (Toy.localKey v)
      (asc "ia") Toy.tape = .ok (tok, rng') ∧
    PartsFit (header v .Local (Payload.suffix Sample.Raw)) tok.payload tok.encodedFooter (asc "ia") ∧
    tok.decryptWithAssertions Bytes Toy.prims (Toy.localKey v) (asc "ia") =
      .ok (Sample.builder v .Local Sample.Raw).tok ∧
    tok.encodedFooter = asc "kid" := by
  obtain ⟨tok, h⟩ := ((C01.encrypt_outcome Toy.prims (Sample.builder v .Local Sample.Raw)
    (Toy.localKey v) (asc "ia") Toy.tape).2 Toy.tape_ok).2.2 (asc "hello") (asc "kid") rfl rfl
  have hf : tok.encodedFooter = asc "kid" := by
    have := (C19.encrypt_footer _ _ _ _ _ _ _ h).2
    exact (Option.some.inj this).symm
  refine ⟨tok, _, h, ?_, C01.local_roundtrip_direct Toy.prims _ _ _ _ _ tok h
    (by intro m hm; cases hm; rfl), hf⟩
  obtain ⟨m, n, c, t, hm, hp, -, hn, hc, ht⟩ := C21.local_layout _ _ _ _ _ _ _ h
  have hm' : m = asc "hello" := by cases hm; rfl
  apply sample_partsFit
  · rw [hp]
    simp only [List.length_append, hn, hc, ht, hm']
    cases v <;> decide
  · rw [hf]; decide
  · decide

theorem sample_public (v : Ver) (key : Key Toy.prims v .Secret) : ∃ tok,
    (Sample.builder v .Public Sample.Raw).signWithAssertions Toy.prims key (asc "ia") = .ok tok ∧
    PartsFit (header v .Public (Payload.suffix Sample.Raw)) tok.payload tok.encodedFooter
      (asc "ia") ∧
    tok.verifyWithAssertions Bytes Toy.prims key.publicKey (asc "ia") =
      .ok (Sample.builder v .Public Sample.Raw).tok ∧
    tok.encodedFooter = asc "kid" := by
  obtain ⟨tok, h⟩ : ∃ tok, (Sample.builder v .Public Sample.Raw).signWithAssertions Toy.prims key
    (asc "ia") = .ok tok :=
    Sample.sign_ok v key _ _ rfl rfl
  have hf : tok.encodedFooter = asc "kid" := by
    have := (C19.sign_footer _ _ _ _ _ h).2
    exact (Option.some.inj this).symm
  refine ⟨tok, h, ?_, C02.public_roundtrip_direct Toy.prims Toy.laws _ _ _ tok h
    (by intro m hm; cases hm; rfl), hf⟩
  obtain ⟨m, t, hm, hp, ht⟩ := C21.public_layout _ _ _ _ _ h
  have hm' : m = asc "hello" := by cases hm; rfl
  apply sample_partsFit
  · rw [hp]
    simp only [List.length_append, ht, hm']
    cases v <;> decide
  · rw [hf]; decide
  · decide

/-! ## C09 -/
namespace C09

variable {v : Ver} {M F E : Type}

/-- A local token accepted with one assertion is refused with `CryptoError` for any other, or the
MAC collides on the two authenticated inputs. -/
theorem decrypt_other_assertion (P : Prims) [Payload E] [MessageDecoding E M]
    (t : SecuredToken v .Local F E) (key : Key P v .Local) (i i' : Bytes)
    (hfit : PartsFit (header v .Local (Payload.suffix E)) t.payload t.encodedFooter i)
    (hi' : Fits i')
    (hok : t.decryptWithAssertions M P key i ≠ .err .cryptoError ∧
      t.decryptWithAssertions M P key i ≠ .panic)
    (hne : i ≠ i') :
    t.decryptWithAssertions M P key i' = .err .cryptoError ∨
    ∃ n c tag, t.payload = n ++ c ++ tag ∧ n.length = 32 ∧ tag.length = Spec.tagLen v ∧
      MacCollision P v (Spec.localAuthKey P v key.key n)
        (Spec.localPreAuth (header v .Local (Payload.suffix E)) n c t.encodedFooter i)
        (Spec.localPreAuth (header v .Local (Payload.suffix E)) n c t.encodedFooter i') :=
  local_binding P t t key i i' hfit ⟨hfit.header, hfit.message, hfit.footer, hi'⟩ rfl hok
    (.inr (.inr hne))

/-- The same for a public token: the alternative is a signature valid for both inputs. -/
theorem verify_other_assertion (P : Prims) [Payload E] [MessageDecoding E M]
    (t : SecuredToken v .Public F E) (key : Key P v .Public) (i i' : Bytes)
    (hfit : PartsFit (header v .Public (Payload.suffix E)) t.payload t.encodedFooter i)
    (hi' : Fits i')
    (hok : t.verifyWithAssertions M P key i ≠ .err .cryptoError ∧
      t.verifyWithAssertions M P key i ≠ .panic)
    (hne : i ≠ i') :
    t.verifyWithAssertions M P key i' = .err .cryptoError ∨
    ∃ m sig, t.payload = m ++ sig ∧
      Spec.sigValid P v key.key (header v .Public (Payload.suffix E)) m t.encodedFooter i sig ∧
      Spec.sigValid P v key.key (header v .Public (Payload.suffix E)) m t.encodedFooter i' sig ∧
      signedBytes P v key.key (header v .Public (Payload.suffix E)) m t.encodedFooter i ≠
        signedBytes P v key.key (header v .Public (Payload.suffix E)) m t.encodedFooter i' :=
  public_binding P t t key i i' hfit ⟨hfit.header, hfit.message, hfit.footer, hi'⟩ rfl hok
    (.inr (.inr hne))

/-- A genuine token and another assertion meet the hypotheses. -/
example (v : Ver) : ∃ t : SecuredToken v .Local Bytes Sample.Raw,
    PartsFit (header v .Local (Payload.suffix Sample.Raw)) t.payload t.encodedFooter (asc "ia") ∧
    Fits (asc "ib") ∧
    (t.decryptWithAssertions Bytes Toy.prims (Toy.localKey v) (asc "ia") ≠ .err .cryptoError ∧
      t.decryptWithAssertions Bytes Toy.prims (Toy.localKey v) (asc "ia") ≠ .panic) ∧
    asc "ia" ≠ asc "ib" := by
  obtain ⟨t, _, -, h1, h2, -⟩ := sample_local v
  exact ⟨t, h1, by unfold Fits; decide, by rw [h2]; simp, by decide⟩

example (v : Ver) (key : Key Toy.prims v .Secret) : ∃ t : SecuredToken v .Public Bytes Sample.Raw,
    PartsFit (header v .Public (Payload.suffix Sample.Raw)) t.payload t.encodedFooter (asc "ia") ∧
    Fits (asc "ib") ∧
    (t.verifyWithAssertions Bytes Toy.prims key.publicKey (asc "ia") ≠ .err .cryptoError ∧
      t.verifyWithAssertions Bytes Toy.prims key.publicKey (asc "ia") ≠ .panic) ∧
    asc "ia" ≠ asc "ib" := by
  obtain ⟨t, -, h1, h2, -⟩ := sample_public v key
  exact ⟨t, h1, by unfold Fits; decide, by rw [h2]; simp, by decide⟩

end C09

/-! ## C10 -/
namespace C10

variable {v : Ver} {M F F' E : Type}

/-- Replacing the footer (by other bytes, of any footer type) makes decryption fail with
`CryptoError`, or the MAC collides. -/
theorem decrypt_other_footer (P : Prims) [Payload E] [MessageDecoding E M]
    (t : SecuredToken v .Local F E) (t' : SecuredToken v .Local F' E) (key : Key P v .Local)
    (i : Bytes)
    (hfit : PartsFit (header v .Local (Payload.suffix E)) t.payload t.encodedFooter i)
    (hf' : Fits t'.encodedFooter) (hpay : t'.payload = t.payload)
    (hok : t.decryptWithAssertions M P key i ≠ .err .cryptoError ∧
      t.decryptWithAssertions M P key i ≠ .panic)
    (hne : t'.encodedFooter ≠ t.encodedFooter) :
    t'.decryptWithAssertions M P key i = .err .cryptoError ∨
    ∃ n c tag, t.payload = n ++ c ++ tag ∧ n.length = 32 ∧ tag.length = Spec.tagLen v ∧
      MacCollision P v (Spec.localAuthKey P v key.key n)
        (Spec.localPreAuth (header v .Local (Payload.suffix E)) n c t.encodedFooter i)
        (Spec.localPreAuth (header v .Local (Payload.suffix E)) n c t'.encodedFooter i) :=
  local_binding P t t' key i i hfit ⟨hfit.header, hpay ▸ hfit.message, hf', hfit.implicit⟩ hpay hok
    (.inr (.inl (Ne.symm hne)))

theorem verify_other_footer (P : Prims) [Payload E] [MessageDecoding E M]
    (t : SecuredToken v .Public F E) (t' : SecuredToken v .Public F' E) (key : Key P v .Public)
    (i : Bytes)
    (hfit : PartsFit (header v .Public (Payload.suffix E)) t.payload t.encodedFooter i)
    (hf' : Fits t'.encodedFooter) (hpay : t'.payload = t.payload)
    (hok : t.verifyWithAssertions M P key i ≠ .err .cryptoError ∧
      t.verifyWithAssertions M P key i ≠ .panic)
    (hne : t'.encodedFooter ≠ t.encodedFooter) :
    t'.verifyWithAssertions M P key i = .err .cryptoError ∨
    ∃ m sig, t.payload = m ++ sig ∧
      Spec.sigValid P v key.key (header v .Public (Payload.suffix E)) m t.encodedFooter i sig ∧
      Spec.sigValid P v key.key (header v .Public (Payload.suffix E)) m t'.encodedFooter i sig ∧
      signedBytes P v key.key (header v .Public (Payload.suffix E)) m t.encodedFooter i ≠
        signedBytes P v key.key (header v .Public (Payload.suffix E)) m t'.encodedFooter i :=
  public_binding P t t' key i i hfit ⟨hfit.header, hpay ▸ hfit.message, hf', hfit.implicit⟩ hpay hok
    (.inr (.inl (Ne.symm hne)))

/-- A genuine token and the same token with its footer removed meet the hypotheses. -/
example (v : Ver) : ∃ (t : SecuredToken v .Local Bytes Sample.Raw)
    (t' : SecuredToken v .Local Unit Sample.Raw),
    PartsFit (header v .Local (Payload.suffix Sample.Raw)) t.payload t.encodedFooter (asc "ia") ∧
    Fits t'.encodedFooter ∧ t'.payload = t.payload ∧
    (t.decryptWithAssertions Bytes Toy.prims (Toy.localKey v) (asc "ia") ≠ .err .cryptoError ∧
      t.decryptWithAssertions Bytes Toy.prims (Toy.localKey v) (asc "ia") ≠ .panic) ∧
    t'.encodedFooter ≠ t.encodedFooter := by
  obtain ⟨t, _, -, h1, h2, h3⟩ := sample_local v
  exact ⟨t, ⟨⟨⟩, t.payload, [], ()⟩, h1, by simp [Fits], rfl, by rw [h2]; simp, by rw [h3]; simp [asc]⟩

example (v : Ver) (key : Key Toy.prims v .Secret) : ∃ (t : SecuredToken v .Public Bytes Sample.Raw)
    (t' : SecuredToken v .Public Unit Sample.Raw),
    PartsFit (header v .Public (Payload.suffix Sample.Raw)) t.payload t.encodedFooter (asc "ia") ∧
    Fits t'.encodedFooter ∧ t'.payload = t.payload ∧
    (t.verifyWithAssertions Bytes Toy.prims key.publicKey (asc "ia") ≠ .err .cryptoError ∧
      t.verifyWithAssertions Bytes Toy.prims key.publicKey (asc "ia") ≠ .panic) ∧
    t'.encodedFooter ≠ t.encodedFooter := by
  obtain ⟨t, -, h1, h2, h3⟩ := sample_public v key
  exact ⟨t, ⟨⟨⟩, t.payload, [], ()⟩, h1, by simp [Fits], rfl, by rw [h2]; simp, by rw [h3]; simp [asc]⟩

end C10

/-! ## C11 -/
namespace C11

variable {v : Ver} {M F E : Type}

/-- A local token whose tag is not that of the specification gives `CryptoError` (or the panic of
C12 when it is too short to contain a tag), for every message type and decoder. -/
theorem decrypt_unauthentic (P : Prims) [Payload E] [MessageDecoding E M]
    (t : SecuredToken v .Local F E) (key : Key P v .Local) (i : Bytes)
    (hfit : PartsFit (header v .Local (Payload.suffix E)) t.payload t.encodedFooter i)
    (hna : ¬ Spec.LocalAuthentic P v key.key (header v .Local (Payload.suffix E)) t.payload
      t.encodedFooter i) :
    t.decryptWithAssertions M P key i =
      if t.payload.length < 32 + Spec.tagLen v then .panic else .err .cryptoError := by
  split
  · exact decrypt_short t key i (by rw [tagSize_eq]; assumption)
  · rename_i hs
    obtain ⟨n, c, g, hp, hn, hg⟩ := payload_split v t.payload (by rw [tagSize_eq]; omega)
    rw [C03.decrypt_aux P t key i hfit n c g hp hn hg, if_neg]
    rintro rfl
    exact hna ⟨n, c, hn, hp⟩

/-- The same for public tokens. -/
theorem verify_unauthentic (P : Prims) [Payload E] [MessageDecoding E M]
    (t : SecuredToken v .Public F E) (key : Key P v .Public) (i : Bytes)
    (hfit : PartsFit (header v .Public (Payload.suffix E)) t.payload t.encodedFooter i)
    (hna : ∀ m, ¬ Spec.PublicVerifies P v key.key (header v .Public (Payload.suffix E)) t.payload
      t.encodedFooter i m) :
    t.verifyWithAssertions M P key i = .err .cryptoError ∨
    t.verifyWithAssertions M P key i = .panic := by
  have h := mt (C04.verify_accepts_iff (M := M) P t key i hfit).1 (by rintro ⟨m, hm⟩; exact hna m hm)
  by_cases h1 : t.verifyWithAssertions M P key i = .err .cryptoError
  · exact .inl h1
  · right
    exact Classical.byContradiction fun h2 => h ⟨h1, h2⟩

/-- A payload error reports on authentic bytes: the token is authentic, and the decoder's error is
for the bytes to which it decrypts (in V3, with the code's counter, see C03). -/
theorem decrypt_payload_error (P : Prims) [Payload E] [MessageDecoding E M]
    (t : SecuredToken v .Local F E) (key : Key P v .Local) (i : Bytes)
    (hfit : PartsFit (header v .Local (Payload.suffix E)) t.payload t.encodedFooter i) (e : String)
    (h : t.decryptWithAssertions M P key i = .err (.payloadError e)) :
    Spec.LocalAuthentic P v key.key (header v .Local (Payload.suffix E)) t.payload
      t.encodedFooter i ∧
    ∃ m, (MessageDecoding.decode t.encoding m : Except String M) = .error e ∧
      Spec.LocalDecrypts P v key.key (header v .Local (Payload.suffix E)) t.payload
        t.encodedFooter i m .be64 := by
  have ha := (C03.decrypt_accepts_iff (M := M) P t key i hfit).1 (by rw [h]; simp)
  refine ⟨ha, ?_⟩
  obtain ⟨n, c, hn, hp⟩ := ha
  rw [C03.decrypt_aux P t key i hfit n c _ hp hn (by rw [localTag_length, tagSize_eq]),
    if_pos rfl, Res.bind_eq_err] at h
  simp only [Res.ofExcept_eq_err, PasetoError.payloadError.injEq, reduceCtorEq, and_false,
    exists_false, or_false] at h
  obtain ⟨e', h1, rfl⟩ := h
  refine ⟨_, h1, n, c, hn, hp, ?_⟩
  rw [C03.codeStream_be64, applyKeystream_eq_xorStream]

theorem verify_payload_error (P : Prims) [Payload E] [MessageDecoding E M]
    (t : SecuredToken v .Public F E) (key : Key P v .Public) (i : Bytes)
    (hfit : PartsFit (header v .Public (Payload.suffix E)) t.payload t.encodedFooter i) (e : String)
    (h : t.verifyWithAssertions M P key i = .err (.payloadError e)) :
    ∃ m, Spec.PublicVerifies P v key.key (header v .Public (Payload.suffix E)) t.payload
      t.encodedFooter i m ∧ (MessageDecoding.decode t.encoding m : Except String M) = .error e := by
  obtain ⟨m, sig, hp, hv⟩ := (C04.verify_accepts_iff (M := M) P t key i hfit).1 (by rw [h]; simp)
  refine ⟨m, ⟨sig, hp, hv⟩, ?_⟩
  have hlen := C04.sigValid_length P _ _ _ _ _ _ hv
  have hm : Fits m := by
    have := hfit.message; unfold Fits at *; rw [hp] at this; simp at this; omega
  rw [verify_split t key i m ⟨sig, hlen⟩ hp,
    (verifyRaw_true key.key ⟨sig, hlen⟩ hfit.header hm hfit.footer hfit.implicit).2 hv] at h
  simp only [Res.ok_bind, if_true, Res.bind_eq_err, Res.ofExcept_eq_err,
    PasetoError.payloadError.injEq, reduceCtorEq, and_false, exists_false, or_false] at h
  obtain ⟨e', h1, rfl⟩ := h
  exact h1

/-- Whether the result is `CryptoError` (or a panic) does not depend on the decoder, the message
type, nor on the decoded footer and its type. No size hypotheses. -/
theorem decrypt_status_independent {M' F' : Type} (P : Prims) [Payload E] (d : MessageDecoding E M)
    (d' : MessageDecoding E M') (t : SecuredToken v .Local F E) (t' : SecuredToken v .Local F' E)
    (hp : t'.payload = t.payload) (hf : t'.encodedFooter = t.encodedFooter)
    (key : Key P v .Local) (i : Bytes) :
    (t.decryptWithAssertions M P key i = .err .cryptoError ↔
      t'.decryptWithAssertions M' P key i = .err .cryptoError) ∧
    (t.decryptWithAssertions M P key i = .panic ↔
      t'.decryptWithAssertions M' P key i = .panic) := by
  by_cases hs : 32 + tagSize v ≤ t.payload.length
  · obtain ⟨n, c, g, hp1, hn, hg⟩ := payload_split v t.payload hs
    rw [decrypt_split t key i n c g hp1 hn hg, decrypt_split t' key i n c g (hp.trans hp1) hn hg, hf]
    split
    · simp [Res.bind_eq_err, Res.ofExcept_eq_err, Res.bind_eq_panic, Res.ofExcept_ne_panic]
    · simp
  · rw [decrypt_short t key i (by omega), decrypt_short t' key i (by rw [hp]; omega)]
    simp

theorem verify_status_independent {M' F' : Type} (P : Prims) [Payload E] (d : MessageDecoding E M)
    (d' : MessageDecoding E M') (t : SecuredToken v .Public F E) (t' : SecuredToken v .Public F' E)
    (hp : t'.payload = t.payload) (hf : t'.encodedFooter = t.encodedFooter)
    (key : Key P v .Public) (i : Bytes) :
    (t.verifyWithAssertions M P key i = .err .cryptoError ↔
      t'.verifyWithAssertions M' P key i = .err .cryptoError) ∧
    (t.verifyWithAssertions M P key i = .panic ↔
      t'.verifyWithAssertions M' P key i = .panic) := by
  by_cases hs : sigSize v ≤ t.payload.length
  · obtain ⟨m, s, hp1⟩ := public_payload_split (sigSize v) t.payload hs
    rw [verify_split t key i m s hp1, verify_split t' key i m s (hp.trans hp1), hf]
    cases hv : verifyRaw P v key.key (Payload.suffix E) m t.encodedFooter i s with
    | panic => simp
    | err e => exact absurd hv (verifyRaw_ne_err _ _ _ _ _ _ _)
    | ok b =>
      cases b <;>
      simp [Res.bind_eq_err, Res.ofExcept_eq_err, Res.bind_eq_panic, Res.ofExcept_ne_panic]
  · rw [verify_short t key i (by omega), verify_short t' key i (by rw [hp]; omega)]
    simp

/-- Unauthentic and long enough: 100 zero bytes under the toy primitives. And an authentic token
whose message the decoder refuses: the hypotheses of `decrypt_payload_error`. -/
example : ∃ t : SecuredToken .V4 .Local Bytes Sample.Raw,
    PartsFit (header .V4 .Local (Payload.suffix Sample.Raw)) t.payload t.encodedFooter [] ∧
    ¬ Spec.LocalAuthentic Toy.prims .V4 (Toy.localKey .V4).key
      (header .V4 .Local (Payload.suffix Sample.Raw)) t.payload t.encodedFooter [] ∧
    ¬ t.payload.length < 32 + Spec.tagLen .V4 := by
  refine ⟨⟨⟨⟩, List.replicate 100 0, [], []⟩, sample_partsFit _ _ _ _ _ (by simp) (by simp) (by simp),
    ?_, by simp [Spec.tagLen]⟩
  rintro ⟨n, c, hn, hp⟩
  simp only at hp
  have hc : c.length = 36 := by
    have := congrArg List.length hp
    simp only [List.length_append, localTag_length, Spec.tagLen, hn, List.length_replicate] at this
    omega
  have e : List.replicate 100 (0 : UInt8) =
      List.replicate 32 0 ++ (List.replicate 36 0 ++ List.replicate 32 0) := by
    simp
  rw [e, List.append_assoc] at hp
  obtain ⟨rfl, h2⟩ := List.append_inj hp (by simp [hn])
  obtain ⟨rfl, h3⟩ := List.append_inj h2 (by simp [hc])
  revert h3
  decide +kernel

example (v : Ver) : ∃ (t : SecuredToken v .Local Bytes Sample.Picky) (e : String),
    PartsFit (header v .Local (Payload.suffix Sample.Picky)) t.payload t.encodedFooter (asc "ia") ∧
    t.decryptWithAssertions Bytes Toy.prims (Toy.localKey v) (asc "ia") =
      .err (.payloadError e) := by
  obtain ⟨n, hn⟩ : ∃ n : Bytes, n.length = 32 := ⟨Toy.tape.take 32, by simp [Toy.tape_length]⟩
  refine ⟨⟨⟨⟩, n ++ applyKeystream (codeStream Toy.prims v (Toy.localKey v).key n) (asc "!no") ++
    Spec.localMac Toy.prims v (Spec.localAuthKey Toy.prims v (Toy.localKey v).key n)
      (localPreAuth v (Payload.suffix Sample.Picky) n
        (applyKeystream (codeStream Toy.prims v (Toy.localKey v).key n) (asc "!no")) (asc "kid")
        (asc "ia")), asc "kid", asc "kid"⟩, "bang", ⟨?_, ?_, ?_, ?_⟩, ?_⟩
  · cases v <;> (unfold Fits; decide)
  · unfold Fits
    simp only [List.length_append, hn, applyKeystream_length, localMac_length]
    cases v <;> decide
  · show Fits (asc "kid")
    unfold Fits; decide
  · unfold Fits; decide
  · rw [decrypt_split _ _ _ n _ _ rfl hn (by rw [localMac_length, tagSize_eq]), if_pos rfl,
      applyKeystream_twice]
    rfl

/-- A token with a V4 signature of zeros, and one whose signed message the decoder refuses, meet the
hypotheses of the theorems on `verify`. -/
example : ∃ (t : SecuredToken .V4 .Public Bytes Sample.Raw),
    PartsFit (header .V4 .Public (Payload.suffix Sample.Raw)) t.payload t.encodedFooter [] ∧
    ∀ m, ¬ Spec.PublicVerifies Toy.prims .V4 Toy.v4Secret.publicKey.key
      (header .V4 .Public (Payload.suffix Sample.Raw)) t.payload t.encodedFooter [] m := by
  refine ⟨⟨⟨⟩, List.replicate 100 0, [], []⟩, sample_partsFit _ _ _ _ _ (by simp) (by simp)
    (by simp), ?_⟩
  rintro m ⟨_, hp, s, rfl, hv⟩
  simp only at hp
  have e : List.replicate 100 (0 : UInt8) = List.replicate 36 0 ++ List.replicate 64 0 := by simp
  rw [e] at hp
  obtain ⟨rfl, h⟩ := List.append_inj' hp (by simp [s.2])
  obtain rfl : BytesN.fill 64 0 = s := Subtype.ext h
  revert hv
  decide +kernel

example (v : Ver) (key : Key Toy.prims v .Secret) :
    ∃ (t : SecuredToken v .Public Bytes Sample.Picky) (e : String),
    PartsFit (header v .Public (Payload.suffix Sample.Picky)) t.payload t.encodedFooter (asc "ia") ∧
    t.verifyWithAssertions Bytes Toy.prims key.publicKey (asc "ia") = .err (.payloadError e) := by
  obtain ⟨s, hs⟩ := Sample.signRaw_ok v key (Payload.suffix Sample.Picky) (asc "!no") (asc "kid")
    (asc "ia")
  refine ⟨⟨⟨⟩, asc "!no" ++ s.1, asc "kid", asc "kid"⟩, "bang", ⟨?_, ?_, ?_, ?_⟩, ?_⟩
  · cases v <;> (unfold Fits; decide)
  · unfold Fits
    simp only [List.length_append, s.2]
    cases v <;> decide
  · show Fits (asc "kid")
    unfold Fits; decide
  · unfold Fits; decide
  · rw [verify_split _ _ _ (asc "!no") s rfl]
    rw [C02.verifyRaw_signRaw Toy.laws key _ _ _ _ _ hs]
    rfl

/-- The same token bytes read with two decoders and two footer types. -/
example (v : Ver) : ∃ (t : SecuredToken v .Local Bytes Sample.Raw)
    (t' : SecuredToken v .Local Unit Sample.Raw),
    t'.payload = t.payload ∧ t'.encodedFooter = t.encodedFooter ∧
    t.decryptWithAssertions Bytes Toy.prims (Toy.localKey v) (asc "ia") ≠ .err .cryptoError := by
  obtain ⟨t, _, -, -, h2, h3⟩ := sample_local v
  exact ⟨t, ⟨⟨⟩, t.payload, t.encodedFooter, ()⟩, rfl, rfl, by rw [h2]; simp⟩

end C11

/-! ## C18: the footer is authenticated as received -/
namespace C18

variable {v : Ver} {M F F' E : Type}

/-- Decryption depends on the footer through its received bytes only: with the same payload and
footer bytes and the same encoding, tokens of any footer types and values decrypt to the same
message or fail alike. -/
theorem decrypt_raw_footer (P : Prims) [Payload E] [MessageDecoding E M]
    (t : SecuredToken v .Local F E) (t' : SecuredToken v .Local F' E)
    (hp : t'.payload = t.payload) (hf : t'.encodedFooter = t.encodedFooter)
    (he : t'.encoding = t.encoding) (key : Key P v .Local) (i : Bytes) :
    t'.decryptWithAssertions M P key i =
      (t.decryptWithAssertions M P key i >>= fun r =>
        .ok { encoding := r.encoding, message := r.message, footer := t'.footer }) := by
  by_cases hs : 32 + tagSize v ≤ t.payload.length
  · obtain ⟨n, c, g, hp1, hn, hg⟩ := payload_split v t.payload hs
    rw [decrypt_split t key i n c g hp1 hn hg, decrypt_split t' key i n c g (hp.trans hp1) hn hg, hf,
      he]
    split
    · rw [Res.bind_assoc']; rfl
    · rfl
  · rw [decrypt_short t key i (by omega), decrypt_short t' key i (by rw [hp]; omega)]
    rfl

theorem verify_raw_footer (P : Prims) [Payload E] [MessageDecoding E M]
    (t : SecuredToken v .Public F E) (t' : SecuredToken v .Public F' E)
    (hp : t'.payload = t.payload) (hf : t'.encodedFooter = t.encodedFooter)
    (he : t'.encoding = t.encoding) (key : Key P v .Public) (i : Bytes) :
    t'.verifyWithAssertions M P key i =
      (t.verifyWithAssertions M P key i >>= fun r =>
        .ok { encoding := r.encoding, message := r.message, footer := t'.footer }) := by
  by_cases hs : sigSize v ≤ t.payload.length
  · obtain ⟨m, s, hp1⟩ := public_payload_split (sigSize v) t.payload hs
    rw [verify_split t key i m s hp1, verify_split t' key i m s (hp.trans hp1), hf, he]
    cases verifyRaw P v key.key (Payload.suffix E) m t.encodedFooter i s with
    | panic => rfl
    | err e => rfl
    | ok b =>
      cases b
      · rfl
      · simp only [Res.ok_bind, if_true, Res.bind_assoc']
  · rw [verify_short t key i (by omega), verify_short t' key i (by rw [hp]; omega)]
    rfl

/-- A genuine token, and its bytes held with no footer value: decryption gives the same message. -/
example (v : Ver) : ∃ (t : SecuredToken v .Local Bytes Sample.Raw),
    (⟨⟨⟩, t.payload, t.encodedFooter, ()⟩ : SecuredToken v .Local Unit Sample.Raw).decryptWithAssertions
      Bytes Toy.prims (Toy.localKey v) (asc "ia") = .ok ⟨⟨⟩, asc "hello", ()⟩ := by
  obtain ⟨t, _, -, -, h2, h3⟩ := sample_local v
  refine ⟨t, ?_⟩
  have h := decrypt_raw_footer (M := Bytes) Toy.prims t ⟨t.encoding, t.payload, t.encodedFooter, ()⟩
    rfl rfl rfl (Toy.localKey v) (asc "ia")
  rw [h2] at h
  exact h

end C18

/-! ## C12 -/
namespace C12

variable {v : Ver} {M F E : Type}

/-- Exactly when decryption panics. -/
theorem decrypt_panic_iff (P : Prims) [Payload E] [MessageDecoding E M]
    (t : SecuredToken v .Local F E) (key : Key P v .Local) (i : Bytes) :
    t.decryptWithAssertions M P key i = .panic ↔ t.payload.length < 32 + Spec.tagLen v := by
  rw [← tagSize_eq]
  constructor
  · intro h
    apply Classical.byContradiction
    intro hs
    obtain ⟨n, c, g, hp, hn, hg⟩ := payload_split v t.payload (by omega)
    rw [decrypt_split t key i n c g hp hn hg] at h
    split at h
    · simp [Res.bind_eq_panic, Res.ofExcept_ne_panic] at h
    · simp at h
  · exact decrypt_short t key i

/-- Every outcome of decrypting a token parsed from any text: a panic exactly when the payload has not
the length of nonce and tag, and otherwise a value, `CryptoError` or the payload decoder's error. -/
theorem decrypt_outcomes (P : Prims) [Footer F] [Payload E] [MessageDecoding E M]
    (s : Bytes) (t : SecuredToken v .Local F E) (_h : SecuredToken.parse v .Local F E s = .ok t)
    (key : Key P v .Local) (i : Bytes) :
    (t.payload.length < 32 + Spec.tagLen v ∧ t.decryptWithAssertions M P key i = .panic) ∨
    (32 + Spec.tagLen v ≤ t.payload.length ∧
      ((∃ r, t.decryptWithAssertions M P key i = .ok r) ∨
        t.decryptWithAssertions M P key i = .err .cryptoError ∨
        ∃ e, t.decryptWithAssertions M P key i = .err (.payloadError e))) := by
  by_cases hlen : t.payload.length < 32 + Spec.tagLen v
  · exact .inl ⟨hlen, (decrypt_panic_iff P t key i).2 hlen⟩
  refine .inr ⟨by omega, ?_⟩
  obtain ⟨n, c, g, hp, hn, hg⟩ := payload_split v t.payload (by rw [tagSize_eq]; omega)
  rw [decrypt_split t key i n c g hp hn hg]
  split
  · cases hd : (MessageDecoding.decode t.encoding
      (applyKeystream (codeStream P v key.key n) c) : Except String M) with
    | ok a => exact .inl ⟨_, rfl⟩
    | error e => exact .inr (.inr ⟨e, rfl⟩)
  · exact .inr (.inl rfl)

/-- The panic is reachable: in both versions, for all primitives, keys and assertions, the text
`v3.local.` / `v4.local.` parses and decrypting the result panics. -/
theorem no_panic_refuted (v : Ver) (P : Prims) (key : Key P v .Local) (i : Bytes) (M : Type)
    [Deserialize M] :
    ∃ t : SecuredToken v .Local Unit (Json Unit),
      SecuredToken.parse v .Local Unit (Json Unit) (Spec.versionText v ++ asc ".local.") = .ok t ∧
      t.decryptWithAssertions M P key i = .panic := by
  refine ⟨⟨⟨()⟩, [], [], ()⟩, ?_, (decrypt_panic_iff P _ key i).2 (by cases v <;> decide)⟩
  cases v <;> rfl

/-- Two parsed texts: one panics, the other does not. -/
example : ∃ t t' : SecuredToken .V4 .Local Bytes (Json Unit),
    SecuredToken.parse .V4 .Local Bytes (Json Unit) (asc "v4.local.aGk.Zg") = .ok t ∧
    t.payload.length < 32 + Spec.tagLen .V4 ∧
    SecuredToken.parse .V4 .Local Bytes (Json Unit)
      (asc "v4.local." ++ Spec.base64url (List.replicate 64 0)) = .ok t' ∧
    ¬ t'.payload.length < 32 + Spec.tagLen .V4 := by
  refine ⟨⟨⟨()⟩, asc "hi", asc "f", asc "f"⟩, ⟨⟨()⟩, List.replicate 64 0, [], []⟩, rfl, by decide, ?_,
    by decide⟩
  rw [SecuredToken.parse_ok_iff]
  exact ⟨.inl ⟨rfl, rfl⟩, rfl, rfl⟩

end C12

/-! ## C13 -/
namespace C13

variable {v : Ver} {M F E : Type}

/-- The last 96 bytes are a pair of scalars in `[1, n-1]`. Only V3 needs it. -/
def SigInRange : Ver → Bytes → Prop
  | .V3, payload => ∃ (m : Bytes) (r s : BytesN 48), payload = m ++ r.1 ++ s.1 ∧
      (0 < beNat r.1 ∧ beNat r.1 < p384Order) ∧ (0 < beNat s.1 ∧ beNat s.1 < p384Order)
  | .V4, _ => True

/-- Exactly when verification panics. -/
theorem verify_panic_iff (P : Prims) [Payload E] [MessageDecoding E M]
    (t : SecuredToken v .Public F E) (key : Key P v .Public) (i : Bytes) :
    t.verifyWithAssertions M P key i = .panic ↔
      t.payload.length < Spec.sigLen v ∨ ¬ SigInRange v t.payload := by
  by_cases hs : sigSize v ≤ t.payload.length
  · obtain ⟨m, s, hp⟩ := public_payload_split (sigSize v) t.payload hs
    have h1 : t.verifyWithAssertions M P key i = .panic ↔ ¬ sigShapeOk v s := by
      rw [verify_split t key i m s hp, Res.bind_eq_panic,
        verifyRaw_panic key.key (Payload.suffix E) m t.encodedFooter i s]
      constructor
      · rintro (h | ⟨b, -, hb⟩)
        · exact h
        · split at hb <;> simp [Res.bind_eq_panic, Res.ofExcept_ne_panic] at hb
      · exact .inl
    have h2 : sigShapeOk v s ↔ SigInRange v t.payload := by
      cases v
      · have : ∀ s : BytesN 96, t.payload = m ++ s.1 → (p384SigOk s ↔ SigInRange .V3 t.payload) := by
          intro s hp
          constructor
          · intro h
            refine ⟨m, (s.split 48 48 rfl).1, (s.split 48 48 rfl).2, ?_, h.1, h.2⟩
            rw [hp]; simp [BytesN.split]
          · rintro ⟨m', r, s', hp', hr, hs'⟩
            rw [hp, List.append_assoc] at hp'
            obtain ⟨-, h3⟩ := List.append_inj' hp' (by simp [s.2, r.2, s'.2])
            have h4 : s = BytesN.append 96 rfl r s' := Subtype.ext h3
            unfold p384SigOk
            rw [h4, BytesN.split_append]
            exact ⟨hr, hs'⟩
        exact this s hp
      · simp [sigShapeOk, SigInRange]
    rw [h1, h2]
    constructor
    · exact .inr
    · rintro (h | h)
      · rw [sigSize_eq] at hs; omega
      · exact h
  · rw [verify_short t key i (by omega)]
    simp only [true_iff]
    left; rw [← sigSize_eq]; omega

/-- Every outcome of verifying a token parsed from any text: a panic exactly when the payload is
shorter than a signature or (V3) does not end in a pair of scalars in range, and otherwise a value,
`CryptoError` or the payload decoder's error. -/
theorem verify_outcomes (P : Prims) [Footer F] [Payload E] [MessageDecoding E M]
    (s : Bytes) (t : SecuredToken v .Public F E) (_h : SecuredToken.parse v .Public F E s = .ok t)
    (key : Key P v .Public) (i : Bytes) :
    ((t.payload.length < Spec.sigLen v ∨ ¬ SigInRange v t.payload) ∧
      t.verifyWithAssertions M P key i = .panic) ∨
    (Spec.sigLen v ≤ t.payload.length ∧ SigInRange v t.payload ∧
      ((∃ r, t.verifyWithAssertions M P key i = .ok r) ∨
        t.verifyWithAssertions M P key i = .err .cryptoError ∨
        ∃ e, t.verifyWithAssertions M P key i = .err (.payloadError e))) := by
  by_cases hc : t.payload.length < Spec.sigLen v ∨ ¬ SigInRange v t.payload
  · exact .inl ⟨hc, (verify_panic_iff P t key i).2 hc⟩
  have hnp := mt (verify_panic_iff (M := M) P t key i).1 hc
  rw [not_or, Nat.not_lt, Classical.not_not] at hc
  refine .inr ⟨hc.1, hc.2, ?_⟩
  obtain ⟨m, sg, hp⟩ := public_payload_split (sigSize v) t.payload (by rw [sigSize_eq]; exact hc.1)
  rw [verify_split t key i m sg hp] at hnp ⊢
  cases hv : verifyRaw P v key.key (Payload.suffix E) m t.encodedFooter i sg with
  | panic => rw [hv] at hnp; exact absurd rfl hnp
  | err e => exact absurd hv (verifyRaw_ne_err _ _ _ _ _ _ _)
  | ok b =>
    cases b
    · exact .inr (.inl rfl)
    · simp only [Res.ok_bind, if_true]
      cases hd : (MessageDecoding.decode t.encoding m : Except String M) with
      | ok a => exact .inl ⟨_, rfl⟩
      | error e => exact .inr (.inr ⟨e, rfl⟩)

/-- The panic is reachable in both versions: the text `v3.public.` / `v4.public.` parses and verifying panics. -/
theorem no_panic_refuted (v : Ver) (P : Prims) (key : Key P v .Public) (i : Bytes) (M : Type)
    [Deserialize M] :
    ∃ t : SecuredToken v .Public Unit (Json Unit),
      SecuredToken.parse v .Public Unit (Json Unit) (Spec.versionText v ++ asc ".public.") = .ok t ∧
      t.verifyWithAssertions M P key i = .panic := by
  refine ⟨⟨⟨()⟩, [], [], ()⟩, ?_, (verify_panic_iff P _ key i).2 (.inl (by cases v <;> decide))⟩
  cases v <;> rfl

/-- In V3 every message followed by 96 zero bytes makes verification panic: no secret is needed,
and the payload has a plausible length. -/
theorem no_panic_refuted_v3 (P : Prims) (key : Key P .V3 .Public) (i m : Bytes) (M : Type)
    [Deserialize M] :
    ∃ t : SecuredToken .V3 .Public Unit (Json Unit),
      SecuredToken.parse .V3 .Public Unit (Json Unit)
        (asc "v3.public." ++ Spec.base64url (m ++ List.replicate 96 0)) = .ok t ∧
      t.verifyWithAssertions M P key i = .panic := by
  refine ⟨⟨⟨()⟩, m ++ List.replicate 96 0, [], ()⟩, ?_,
    (verify_panic_iff P _ key i).2 (.inr ?_)⟩
  · rw [SecuredToken.parse_ok_iff]
    exact ⟨.inl ⟨rfl, rfl⟩, rfl, rfl⟩
  · rintro ⟨m', r, s, hp, -, hs, -⟩
    simp only [List.append_assoc] at hp
    obtain ⟨-, h2⟩ := List.append_inj' hp (by simp [r.2, s.2])
    have h3 : s.1 = List.replicate 48 0 := by
      have h4 : List.replicate 96 (0 : UInt8) = List.replicate 48 0 ++ List.replicate 48 0 := by
        rw [List.replicate_append_replicate]
      rw [h4] at h2
      exact (List.append_inj' h2 (by simp [s.2])).2.symm
    rw [h3] at hs
    revert hs
    decide +kernel

/-- A parsed text of each kind. -/
example : ∃ t t' : SecuredToken .V3 .Public Bytes (Json Unit),
    SecuredToken.parse .V3 .Public Bytes (Json Unit)
      (asc "v3.public." ++ Spec.base64url (List.replicate 96 0)) = .ok t ∧ ¬ SigInRange .V3 t.payload ∧
    SecuredToken.parse .V3 .Public Bytes (Json Unit)
      (asc "v3.public." ++ Spec.base64url (Toy.v3Scalar.1.1 ++ Toy.v3Scalar.1.1)) = .ok t' ∧
    SigInRange .V3 t'.payload := by
  refine ⟨⟨⟨()⟩, List.replicate 96 0, [], []⟩,
    ⟨⟨()⟩, Toy.v3Scalar.1.1 ++ Toy.v3Scalar.1.1, [], []⟩, ?_, ?_, ?_, ?_⟩
  · rw [SecuredToken.parse_ok_iff]
    exact ⟨.inl ⟨rfl, rfl⟩, rfl, rfl⟩
  · rintro ⟨m', r, s, hp, -, hs, -⟩
    have h4 : List.replicate 96 (0 : UInt8) = List.replicate 48 0 ++ List.replicate 48 0 := by
      rw [List.replicate_append_replicate]
    simp only [h4] at hp
    rw [← (List.append_inj' hp (by simp [s.2])).2] at hs
    revert hs
    decide +kernel
  · rw [SecuredToken.parse_ok_iff]
    exact ⟨.inl ⟨rfl, rfl⟩, rfl, rfl⟩
  · exact ⟨[], Toy.v3Scalar.1, Toy.v3Scalar.1, rfl, Toy.v3Scalar.2, Toy.v3Scalar.2⟩

end C13

namespace C11

variable {v : Ver} {M F E : Type}

/-- Exactly what verifying an unauthentic token gives: the panic of C13 where there is no signature, and
otherwise `CryptoError`. -/
theorem verify_unauthentic_exact (P : Prims) [Payload E] [MessageDecoding E M]
    (t : SecuredToken v .Public F E) (key : Key P v .Public) (i : Bytes)
    (hfit : PartsFit (header v .Public (Payload.suffix E)) t.payload t.encodedFooter i)
    (hna : ∀ m, ¬ Spec.PublicVerifies P v key.key (header v .Public (Payload.suffix E)) t.payload
      t.encodedFooter i m) :
    (t.payload.length < Spec.sigLen v ∨ ¬ C13.SigInRange v t.payload →
      t.verifyWithAssertions M P key i = .panic) ∧
    (Spec.sigLen v ≤ t.payload.length → C13.SigInRange v t.payload →
      t.verifyWithAssertions M P key i = .err .cryptoError) := by
  refine ⟨(C13.verify_panic_iff P t key i).2, fun h1 h2 => ?_⟩
  rcases verify_unauthentic (M := M) P t key i hfit hna with h | h
  · exact h
  · rcases (C13.verify_panic_iff P t key i).1 h with h | h
    · omega
    · exact absurd h2 h

end C11

end Pasta
