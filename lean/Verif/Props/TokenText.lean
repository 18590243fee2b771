import Verif.Props.History
import Verif.Props.Encoding
import Verif.Props.Grammar

/-!
# C08, C10, C14 on the text of tokens

The theorems of `Props/Auth.lean` and `Props/History.lean` are about token values. A user receives a
text, parses it and decrypts or verifies the result; these theorems are about that whole path, and
their only size hypothesis is that the received text and the assertion exist in memory.
-/

namespace Pasta

open Spec (header Fits IsToken tokenText base64url)

/-- The parts of a token whose text fits in memory fit in memory. -/
theorem isToken_partsFit {h s a b i : Bytes} (ht : IsToken h s a b) (hs : Fits s) (hi : Fits i) :
    PartsFit h a b i := by
  have la := C22.text_length a
  have lb := C22.text_length b
  unfold Fits at hs hi
  rcases ht with ⟨rfl, rfl⟩ | rfl
  · simp only [List.length_append] at hs
    refine ⟨?_, ?_, by simp [Fits], hi⟩ <;> unfold Fits <;> omega
  · simp only [List.length_append] at hs
    refine ⟨?_, ?_, ?_, hi⟩ <;> unfold Fits <;> omega

/-- A text of the grammar is the printed form of its parts, up to one trailing dot. -/
theorem isToken_text {h s a b : Bytes} (ht : IsToken h s a b) :
    s = tokenText h a b ∨ (b = [] ∧ s = tokenText h a b ++ asc ".") := by
  unfold tokenText
  rcases ht with ⟨rfl, rfl⟩ | rfl
  · left; rw [if_pos rfl]
  · by_cases hb : b = []
    · right
      subst hb
      refine ⟨rfl, ?_⟩
      rw [if_pos rfl]
      simp [base64url, Spec.sextets]
    · left; rw [if_neg hb]

/-! ## C10 -/
namespace C10

variable {v : Ver} {M F F' E : Type}

/-- Two local token texts with the same payload section and different footer sections: if decrypting
the first gets past authentication, decrypting the second fails with `CryptoError` — or the MAC
collides on the two authenticated inputs. -/
theorem decrypt_text_other_footer (P : Prims) [Footer F] [Footer F'] [Payload E]
    [MessageDecoding E M] (s s' payload f f' : Bytes)
    (hs : Fits s) (hs' : Fits s') (i : Bytes) (hi : Fits i)
    (htok : IsToken (header v .Local (Payload.suffix E)) s payload f)
    (htok' : IsToken (header v .Local (Payload.suffix E)) s' payload f') (hne : f' ≠ f)
    (key : Key P v .Local) (t : SecuredToken v .Local F E) (t' : SecuredToken v .Local F' E)
    (hp : SecuredToken.parse v .Local F E s = .ok t)
    (hp' : SecuredToken.parse v .Local F' E s' = .ok t')
    (hok : t.decryptWithAssertions M P key i ≠ .err .cryptoError ∧
      t.decryptWithAssertions M P key i ≠ .panic) :
    t'.decryptWithAssertions M P key i = .err .cryptoError ∨
    ∃ n c tag, payload = n ++ c ++ tag ∧ n.length = 32 ∧ tag.length = Spec.tagLen v ∧
      MacCollision P v (Spec.localAuthKey P v key.key n)
        (Spec.localPreAuth (header v .Local (Payload.suffix E)) n c f i)
        (Spec.localPreAuth (header v .Local (Payload.suffix E)) n c f' i) := by
  have h1 := ((C05.parse_iff s t).1 hp).1
  have h2 := ((C05.parse_iff s' t').1 hp').1
  obtain ⟨rfl, rfl⟩ := C05.grammar_unambiguous htok h1
  obtain ⟨e, rfl⟩ := C05.grammar_unambiguous htok' h2
  exact decrypt_other_footer P t t' key i (isToken_partsFit h1 hs hi)
    (isToken_partsFit h2 hs' hi).footer e.symm hok hne

/-- The same for public tokens: both footers would have to be covered by one signature. -/
theorem verify_text_other_footer (P : Prims) [Footer F] [Footer F'] [Payload E]
    [MessageDecoding E M] (s s' payload f f' : Bytes)
    (hs : Fits s) (hs' : Fits s') (i : Bytes) (hi : Fits i)
    (htok : IsToken (header v .Public (Payload.suffix E)) s payload f)
    (htok' : IsToken (header v .Public (Payload.suffix E)) s' payload f') (hne : f' ≠ f)
    (key : Key P v .Public) (t : SecuredToken v .Public F E) (t' : SecuredToken v .Public F' E)
    (hp : SecuredToken.parse v .Public F E s = .ok t)
    (hp' : SecuredToken.parse v .Public F' E s' = .ok t')
    (hok : t.verifyWithAssertions M P key i ≠ .err .cryptoError ∧
      t.verifyWithAssertions M P key i ≠ .panic) :
    t'.verifyWithAssertions M P key i = .err .cryptoError ∨
    ∃ m sig, payload = m ++ sig ∧
      Spec.sigValid P v key.key (header v .Public (Payload.suffix E)) m f i sig ∧
      Spec.sigValid P v key.key (header v .Public (Payload.suffix E)) m f' i sig ∧
      signedBytes P v key.key (header v .Public (Payload.suffix E)) m f i ≠
        signedBytes P v key.key (header v .Public (Payload.suffix E)) m f' i := by
  have h1 := ((C05.parse_iff s t).1 hp).1
  have h2 := ((C05.parse_iff s' t').1 hp').1
  obtain ⟨rfl, rfl⟩ := C05.grammar_unambiguous htok h1
  obtain ⟨e, rfl⟩ := C05.grammar_unambiguous htok' h2
  exact verify_other_footer P t t' key i (isToken_partsFit h1 hs hi)
    (isToken_partsFit h2 hs' hi).footer e.symm hok hne

end C10

theorem sample_text_fits (v : Ver) (p : Purpose) (m f : Bytes) (hm : m.length < 1000)
    (hf : f.length < 1000) : Fits (tokenText (header v p (Payload.suffix Sample.Raw)) m f) := by
  have la := C22.text_length m
  have lb := C22.text_length f
  have lh : (header v p (Payload.suffix Sample.Raw)).length < 20 := by
    cases v <;> cases p <;> decide
  unfold tokenText Fits
  split
  · simp only [List.length_append]; omega
  · simp only [List.length_append]
    have : (asc ".").length = 1 := rfl
    omega

/-- The text of a genuine local token of either version and of the same token with another footer
meet the hypotheses of `C10.decrypt_text_other_footer`. -/
theorem sample_local_text (v : Ver) : ∃ (s s' : Bytes) (t t' : SecuredToken v .Local Bytes Sample.Raw),
    Fits s ∧ Fits s' ∧
    IsToken (header v .Local (Payload.suffix Sample.Raw)) s t.payload (asc "kid") ∧
    IsToken (header v .Local (Payload.suffix Sample.Raw)) s' t.payload (asc "dik") ∧
    SecuredToken.parse v .Local Bytes Sample.Raw s = .ok t ∧
    SecuredToken.parse v .Local Bytes Sample.Raw s' = .ok t' ∧
    t.decryptWithAssertions Bytes Toy.prims (Toy.localKey v) (asc "ia") ≠ .err .cryptoError ∧
    t.decryptWithAssertions Bytes Toy.prims (Toy.localKey v) (asc "ia") ≠ .panic := by
  obtain ⟨t, r, h0, h1, h2, h3⟩ := sample_local v
  have hl : t.payload.length < 1000 := by
    obtain ⟨m, n, c, g, hm, hp, -, hn, hc, ht⟩ := C21.local_layout _ _ _ _ _ _ _ h0
    have hm' : m = asc "hello" := by cases hm; rfl
    rw [hp]
    simp only [List.length_append, hn, hc, ht, hm']
    cases v <;> decide
  refine ⟨tokenText (header v .Local (Payload.suffix Sample.Raw)) t.payload (asc "kid"),
    tokenText (header v .Local (Payload.suffix Sample.Raw)) t.payload (asc "dik"), t,
    ⟨⟨⟩, t.payload, asc "dik", asc "dik"⟩, ?_, ?_, SecuredToken.isToken_tokenText _ _ _,
    SecuredToken.isToken_tokenText _ _ _, ?_, ?_, ?_⟩
  · exact sample_text_fits v .Local _ _ hl (by decide)
  · exact sample_text_fits v .Local _ _ hl (by decide)
  · rw [C05.parse_iff, h3]
    refine ⟨SecuredToken.isToken_tokenText _ _ _, ?_, rfl⟩
    obtain ⟨_, _, _, _, _, _, hf, rfl⟩ := (encrypt_ok_iff _ _ _ _ _ _).1 h0
    rfl
  · rw [C05.parse_iff]
    exact ⟨SecuredToken.isToken_tokenText _ _ _, rfl, rfl⟩
  · rw [h2]; simp

/-- And so do the texts of a signed token and of the same token with another footer. -/
theorem sample_public_text (v : Ver) (key : Key Toy.prims v .Secret) :
    ∃ (s s' : Bytes) (t t' : SecuredToken v .Public Bytes Sample.Raw),
    Fits s ∧ Fits s' ∧
    IsToken (header v .Public (Payload.suffix Sample.Raw)) s t.payload (asc "kid") ∧
    IsToken (header v .Public (Payload.suffix Sample.Raw)) s' t.payload (asc "dik") ∧
    SecuredToken.parse v .Public Bytes Sample.Raw s = .ok t ∧
    SecuredToken.parse v .Public Bytes Sample.Raw s' = .ok t' ∧
    t.verifyWithAssertions Bytes Toy.prims key.publicKey (asc "ia") ≠ .err .cryptoError ∧
    t.verifyWithAssertions Bytes Toy.prims key.publicKey (asc "ia") ≠ .panic := by
  obtain ⟨t, h0, h1, h2, h3⟩ := sample_public v key
  have hl : t.payload.length < 1000 := by
    obtain ⟨m, g, hm, hp, hg⟩ := C21.public_layout _ _ _ _ _ h0
    have hm' : m = asc "hello" := by cases hm; rfl
    rw [hp]
    simp only [List.length_append, hg, hm']
    cases v <;> decide
  refine ⟨tokenText (header v .Public (Payload.suffix Sample.Raw)) t.payload (asc "kid"),
    tokenText (header v .Public (Payload.suffix Sample.Raw)) t.payload (asc "dik"), t,
    ⟨⟨⟩, t.payload, asc "dik", asc "dik"⟩, ?_, ?_, SecuredToken.isToken_tokenText _ _ _,
    SecuredToken.isToken_tokenText _ _ _, ?_, ?_, ?_⟩
  · exact sample_text_fits v .Public _ _ hl (by decide)
  · exact sample_text_fits v .Public _ _ hl (by decide)
  · rw [C05.parse_iff, h3]
    refine ⟨SecuredToken.isToken_tokenText _ _ _, ?_, rfl⟩
    obtain ⟨_, _, _, _, _, _, rfl⟩ := (sign_ok_iff _ _ _ _).1 h0
    rfl
  · rw [C05.parse_iff]
    exact ⟨SecuredToken.isToken_tokenText _ _ _, rfl, rfl⟩
  · rw [h2]; simp

/-! ## C08 -/
namespace C08

variable {v : Ver} {M F E : Type}

/-- The text of an issued token. -/
def Event.text (v : Ver) (e : Event) : Bytes := tokenText (header v .Local e.suffix) e.payload e.footer

/-- `Event.text` is what the issuer printed. -/
theorem event_text (P : Prims) (key : Key P v .Local) (e : Event) (h : IssuedBy P v key e) :
    ∃ (M F E : Type) (_ : Payload E) (_ : MessageEncoding E M) (_ : Footer F)
      (b : TokenBuilder v .Local M F E) (rng rng' : Rng) (tok : SecuredToken v .Local F E),
      b.encryptWithAssertionsAndRng P key e.implicit rng = .ok (tok, rng') ∧
      tok.display = e.text v := by
  obtain ⟨M, F, E, i1, i2, i3, b, rng, rng', tok, henc, -, hs, hp, hf⟩ := h
  refine ⟨M, F, E, i1, i2, i3, b, rng, rng', tok, henc, ?_⟩
  rw [SecuredToken.display_eq, Event.text, hs, hp, hf]

/-- After any history, a text that parses as a local token and whose decryption gets past
authentication is the text of an issued token with the same assertion — up to one trailing dot — or
its tag is a MAC forgery. -/
theorem unforgeable_text (P : Prims) (key : Key P v .Local) (hist : List Event)
    (hissued : Issued P v key hist) (hhist : ∀ e ∈ hist, e.Fits v)
    [Footer F] [Payload E] [MessageDecoding E M] (s i : Bytes) (hs : Fits s) (hi : Fits i)
    (t : SecuredToken v .Local F E) (hparse : SecuredToken.parse v .Local F E s = .ok t)
    (hok : t.decryptWithAssertions M P key i ≠ .err .cryptoError ∧
      t.decryptWithAssertions M P key i ≠ .panic) :
    (∃ e ∈ hist, IssuedBy P v key e ∧ e.implicit = i ∧
      (s = e.text v ∨ (e.footer = [] ∧ s = e.text v ++ asc "."))) ∨
    ∃ n c tag f, IsToken (header v .Local (Payload.suffix E)) s (n ++ c ++ tag) f ∧
      n.length = 32 ∧ tag.length = Spec.tagLen v ∧
      tag = Spec.localMac P v (Spec.localAuthKey P v key.key n)
        (Spec.localPreAuth (header v .Local (Payload.suffix E)) n c f i) ∧
      (Spec.localAuthKey P v key.key n,
        Spec.localPreAuth (header v .Local (Payload.suffix E)) n c f i) ∉
        hist.map (Event.macQuery P v key) := by
  have h1 := ((C05.parse_iff s t).1 hparse).1
  rcases unforgeable P key hist hissued hhist t i (isToken_partsFit h1 hs hi) hok with
    ⟨e, he, hby, hsuf, hp, hf, himp⟩ | ⟨n, c, tag, hp, hn, hl, ht, hq⟩
  · left
    refine ⟨e, he, hby, himp, ?_⟩
    have := isToken_text h1
    rw [Event.text, hsuf, hp, hf]
    exact this
  · right
    exact ⟨n, c, tag, t.encodedFooter, hp ▸ h1, hn, hl, ht, hq⟩

/-- A history of one token and its text meet the hypotheses. -/
example (v : Ver) : ∃ (hist : List Event) (s : Bytes) (t : SecuredToken v .Local Bytes Sample.Raw),
    Issued Toy.prims v (Toy.localKey v) hist ∧ (∀ e ∈ hist, e.Fits v) ∧ Fits s ∧
    SecuredToken.parse v .Local Bytes Sample.Raw s = .ok t ∧
    t.decryptWithAssertions Bytes Toy.prims (Toy.localKey v) (asc "ia") ≠ .err .cryptoError ∧
    t.decryptWithAssertions Bytes Toy.prims (Toy.localKey v) (asc "ia") ≠ .panic := by
  obtain ⟨s, -, t, -, hs, -, -, -, hp, -, h1, h2⟩ := sample_local_text v
  obtain ⟨t', r, h0, h3, -⟩ := sample_local v
  let e : Event := ⟨asc "r", asc "hello", t'.payload, t'.encodedFooter, asc "ia"⟩
  have he : IssuedBy Toy.prims v (Toy.localKey v) e :=
    ⟨Bytes, Bytes, Sample.Raw, _, _, _, _, _, _, _, h0, rfl, rfl, rfl, rfl⟩
  refine ⟨[e], s, t, .encrypt .start he, ?_, hs, hp, h1, h2⟩
  intro e' he'
  simp only [List.mem_cons, List.not_mem_nil, or_false] at he'
  subst he'
  exact ⟨h3⟩

end C08

/-! ## C14 -/
namespace C14

variable {v : Ver} {M F E : Type}

/-- After any history of signatures, a text that parses as a public token and whose verification
succeeds says a signed message, footer and assertion — the text is that of the message followed by
some signature, and of the footer — or it contains a signature forgery. -/
theorem unforgeable_text (P : Prims) (key : Key P v .Secret) (hist : List Event)
    (hsigned : Signed P v key hist) (hhist : ∀ e ∈ hist, e.Fits v)
    [Footer F] [Payload E] [MessageDecoding E M] (s i : Bytes) (hs : Fits s) (hi : Fits i)
    (t : SecuredToken v .Public F E) (hparse : SecuredToken.parse v .Public F E s = .ok t)
    (hok : t.verifyWithAssertions M P key.publicKey i ≠ .err .cryptoError ∧
      t.verifyWithAssertions M P key.publicKey i ≠ .panic) :
    (∃ e ∈ hist, SignedBy P v key e ∧ e.implicit = i ∧ ∃ sig, sig.length = Spec.sigLen v ∧
      IsToken (header v .Public e.suffix) s (e.message ++ sig) e.footer) ∨
    ∃ m sig f, IsToken (header v .Public (Payload.suffix E)) s (m ++ sig) f ∧
      Spec.sigValid P v key.publicKey.key (header v .Public (Payload.suffix E)) m f i sig ∧
      signedBytes P v key.publicKey.key (header v .Public (Payload.suffix E)) m f i ∉
        hist.map (fun e => signedBytes P v key.publicKey.key (header v .Public e.suffix) e.message
          e.footer e.implicit) := by
  have h1 := ((C05.parse_iff s t).1 hparse).1
  rcases unforgeable P key hist hsigned hhist t i (isToken_partsFit h1 hs hi) hok with
    ⟨e, he, hby, hsuf, hf, himp, sig, hp, hl⟩ | ⟨m, sig, hp, hv, hq⟩
  · left
    refine ⟨e, he, hby, himp, sig, hl, ?_⟩
    rw [hsuf, hf, ← hp]
    exact h1
  · right
    exact ⟨m, sig, t.encodedFooter, hp ▸ h1, hv, hq⟩

/-- A history with a signed token and its text meet the hypotheses. -/
example (v : Ver) (key : Key Toy.prims v .Secret) :
    ∃ (hist : List Event) (s : Bytes) (t : SecuredToken v .Public Bytes Sample.Raw),
    Signed Toy.prims v key hist ∧ (∀ e ∈ hist, e.Fits v) ∧ hist.length = 1 ∧ Fits s ∧
    SecuredToken.parse v .Public Bytes Sample.Raw s = .ok t ∧
    t.verifyWithAssertions Bytes Toy.prims key.publicKey (asc "ia") ≠ .err .cryptoError ∧
    t.verifyWithAssertions Bytes Toy.prims key.publicKey (asc "ia") ≠ .panic := by
  obtain ⟨s, -, t, -, hs, -, -, -, hp, -, h1, h2⟩ := sample_public_text v key
  obtain ⟨t', h0, h3, -⟩ := sample_public v key
  let e : Event := ⟨asc "r", asc "hello", t'.encodedFooter, asc "ia"⟩
  have he : SignedBy Toy.prims v key e :=
    ⟨Bytes, Bytes, Sample.Raw, _, _, _, _, _, h0, rfl, rfl, rfl⟩
  refine ⟨[e], s, t, .sign .start he, ?_, rfl, hs, hp, h1, h2⟩
  intro e' he'
  simp only [List.mem_cons, List.not_mem_nil, or_false] at he'
  subst he'
  exact ⟨h3.header, sample_partsFit v .Public (asc "hello") [] [] (by decide) (by decide)
    (by decide) |>.message, h3.footer, h3.implicit⟩

end C14

end Pasta
