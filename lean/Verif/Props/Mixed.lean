import Verif.Props.History
import Verif.Props.Pie

/-!
# C60, C61: tokens belong to their key; histories that mix tokens and key wraps

C60: a token that one key accepts is refused under every other key, short of a coincidence that is
spelled out.

C61: the same symmetric key may encrypt tokens and wrap keys (PASERK's `local-wrap.pie` takes a
`Key<V, Local>`, the type that encrypts tokens). A history is any interleaving of both. Forging
either kind needs a MAC value that no operation of either kind has computed.
-/

namespace Pasta

open Spec (header Fits pieAuthKey pieTagged)

/-! ## C60 -/
namespace C60

variable {v : Ver} {M F E : Type}

/-- A local token that `key` accepts gives `CryptoError` under another key, or the two keys derive
the same authentication key for the token's nonce, or two different authentication keys give the
same MAC of the token. -/
theorem decrypt_other_key (P : Prims) [Payload E] [MessageDecoding E M]
    (t : SecuredToken v .Local F E) (key key' : Key P v .Local) (i : Bytes)
    (hfit : PartsFit (header v .Local (Payload.suffix E)) t.payload t.encodedFooter i)
    (hne : key.key ≠ key'.key)
    (hok : t.decryptWithAssertions M P key i ≠ .err .cryptoError ∧
      t.decryptWithAssertions M P key i ≠ .panic) :
    t.decryptWithAssertions M P key' i = .err .cryptoError ∨
    ∃ n c tag, t.payload = n ++ c ++ tag ∧ n.length = 32 ∧ tag.length = Spec.tagLen v ∧
      ((key.key ≠ key'.key ∧
          Spec.localAuthKey P v key.key n = Spec.localAuthKey P v key'.key n) ∨
        (Spec.localAuthKey P v key.key n ≠ Spec.localAuthKey P v key'.key n ∧
          Spec.localMac P v (Spec.localAuthKey P v key.key n)
              (Spec.localPreAuth (header v .Local (Payload.suffix E)) n c t.encodedFooter i) =
            Spec.localMac P v (Spec.localAuthKey P v key'.key n)
              (Spec.localPreAuth (header v .Local (Payload.suffix E)) n c t.encodedFooter i))) := by
  obtain ⟨n, c, hn, hp⟩ := (C03.decrypt_accepts_iff P t key i hfit).1 hok
  have hl : (Spec.localTag P v key.key (header v .Local (Payload.suffix E)) n c t.encodedFooter
    i).length = Spec.tagLen v := localTag_length _ _ _ _ _ _ _ _
  by_cases h : Spec.LocalAuthentic P v key'.key (header v .Local (Payload.suffix E)) t.payload
      t.encodedFooter i
  · right
    obtain ⟨n', c', hn', hp'⟩ := h
    refine ⟨n, c, _, hp, hn, hl, ?_⟩
    rw [hp] at hp'
    obtain ⟨h1, h2⟩ := List.append_inj' hp' (by rw [localTag_length, localTag_length])
    obtain ⟨h3, h4⟩ := List.append_inj h1 (by rw [hn, hn'])
    subst h3 h4
    by_cases hk : Spec.localAuthKey P v key.key n = Spec.localAuthKey P v key'.key n
    · exact .inl ⟨hne, hk⟩
    · exact .inr ⟨hk, h2⟩
  · left
    rw [C11.decrypt_unauthentic P t key' i hfit h, if_neg]
    rw [hp]
    simp only [List.length_append, hn, hl]
    omega

/-- A public token that `key` accepts gives `CryptoError` under another public key, or its signature
is valid for the same message under both keys. (In V3 the signed bytes name the key, so it would be
a signature on two different byte strings.) -/
theorem verify_other_key (P : Prims) (L : P.Laws) [Payload E] [MessageDecoding E M]
    (t : SecuredToken v .Public F E) (key key' : Key P v .Public) (i : Bytes)
    (hfit : PartsFit (header v .Public (Payload.suffix E)) t.payload t.encodedFooter i)
    (hne : key.key ≠ key'.key)
    (hok : t.verifyWithAssertions M P key i ≠ .err .cryptoError ∧
      t.verifyWithAssertions M P key i ≠ .panic) :
    t.verifyWithAssertions M P key' i = .err .cryptoError ∨
    ∃ m sig, t.payload = m ++ sig ∧ sig.length = Spec.sigLen v ∧ key.key ≠ key'.key ∧
      Spec.sigValid P v key.key (header v .Public (Payload.suffix E)) m t.encodedFooter i sig ∧
      Spec.sigValid P v key'.key (header v .Public (Payload.suffix E)) m t.encodedFooter i sig ∧
      (v = .V3 → signedBytes P v key.key (header v .Public (Payload.suffix E)) m t.encodedFooter i ≠
        signedBytes P v key'.key (header v .Public (Payload.suffix E)) m t.encodedFooter i) := by
  obtain ⟨m, sig, hp, hv⟩ := (C04.verify_accepts_iff P t key i hfit).1 hok
  by_cases h1 : t.verifyWithAssertions M P key' i = .err .cryptoError
  · exact .inl h1
  · right
    have h2 : t.verifyWithAssertions M P key' i ≠ .panic := by
      rw [Ne, C13.verify_panic_iff, ← C13.verify_panic_iff P (M := M) t key i]
      exact hok.2
    obtain ⟨m', sig', hp', hv'⟩ := (C04.verify_accepts_iff P t key' i hfit).1 ⟨h1, h2⟩
    have hl := C04.sigValid_length P _ _ _ _ _ _ hv
    have hl' := C04.sigValid_length P _ _ _ _ _ _ hv'
    rw [hp] at hp'
    obtain ⟨h3, h4⟩ := List.append_inj' hp' (by rw [hl, hl'])
    subst h3 h4
    refine ⟨m, sig, hp, hl, hne, hv, hv', ?_⟩
    rintro rfl he
    have hm : Fits m := by
      have := hfit.message
      rw [hp] at this
      simp only [Fits, List.length_append] at this ⊢
      omega
    have hc : ∀ pk, Fits (P.p384Compress pk).1 := fun pk => by
      have := (P.p384Compress pk).2
      simp [Fits, this]
    have h5 := (PAE_inj5 ⟨hc _, hfit.header, hm, hfit.footer, hfit.implicit⟩
      ⟨hc _, hfit.header, hm, hfit.footer, hfit.implicit⟩ he).1
    have h6 := L.p384Parse_compress key.key
    rw [h5, L.p384Parse_compress] at h6
    exact hne (Option.some.inj h6).symm

-- an accepted token and another key, for both purposes
example (v : Ver) : ∃ (t : SecuredToken v .Local Bytes Sample.Raw) (key' : Key Toy.prims v .Local),
    PartsFit (header v .Local (Payload.suffix Sample.Raw)) t.payload t.encodedFooter (asc "ia") ∧
    (Toy.localKey v).key ≠ key'.key ∧
    t.decryptWithAssertions Bytes Toy.prims (Toy.localKey v) (asc "ia") ≠ .err .cryptoError ∧
    t.decryptWithAssertions Bytes Toy.prims (Toy.localKey v) (asc "ia") ≠ .panic := by
  obtain ⟨t, r, h0, h1, h2, h3⟩ := sample_local v
  refine ⟨t, Key.mk (show BytesN 32 from ⟨List.replicate 32 77, rfl⟩), h1, ?_, by rw [h2]; simp⟩
  cases v <;> (intro h; have := congrArg Subtype.val h; revert this; decide)

end C60

/-! ## C61 -/
namespace C61

variable {v : Ver} {M F E : Type} {k : WKind} {P : Prims}

/-- One operation under a symmetric key: an issued token, or a wrapped key. -/
inductive Op (v : Ver) where
  | token (e : C08.Event)
  | wrap (k : WKind) (w : PieWrappedKey v k)

/-- Any interleaving of encryptions and key wraps under one key, newest first. -/
inductive Used (P : Prims) (v : Ver) (key : Key P v .Local) : List (Op v) → Prop
  | start : Used P v key []
  | encrypt {e hist} : Used P v key hist → C08.IssuedBy P v key e → Used P v key (.token e :: hist)
  | wrap {hist k} {ptk : Key P v (WKind.kind k)} {rng rng' : Rng} {w : PieWrappedKey v k} :
    Used P v key hist → ptk.wrapPie key rng = .ok (w, rng') → Used P v key (.wrap k w :: hist)

/-- The MAC computation of an operation: authentication key and authenticated bytes. -/
def Op.macQuery (P : Prims) (v : Ver) (key : Key P v .Local) : Op v → Bytes × Bytes
  | .token e => e.macQuery P v key
  | .wrap k w => (pieAuthKey P v key.key w.nonce.1, pieTagged v k.kind w.nonce.1 w.wrappedKey.1)

/-- The parts of the tokens exist in memory. -/
def Op.Fits (v : Ver) : Op v → Prop
  | .token e => e.Fits v
  | .wrap _ _ => True

def Op.token? : Op v → Option C08.Event
  | .token e => some e
  | .wrap _ _ => none

def Op.wrap? : Op v → Option (Σ k, PieWrappedKey v k)
  | .token _ => none
  | .wrap k w => some ⟨k, w⟩

theorem used_tokens {key : Key P v .Local} {hist : List (Op v)} (h : Used P v key hist) :
    C08.Issued P v key (hist.filterMap Op.token?) := by
  induction h with
  | start => exact .start
  | encrypt _ h ih => exact .encrypt ih h
  | wrap _ _ ih => exact ih

theorem used_wraps {key : Key P v .Local} {hist : List (Op v)} (h : Used P v key hist) :
    C35.Wrapped P v key (hist.filterMap Op.wrap?) := by
  induction h with
  | start => exact .start
  | encrypt _ _ ih => exact ih
  | wrap _ h ih => exact .wrap ih h

theorem mem_tokens {hist : List (Op v)} {e : C08.Event} :
    e ∈ hist.filterMap Op.token? ↔ .token e ∈ hist := by
  rw [List.mem_filterMap]
  constructor
  · rintro ⟨o, h, ho⟩
    cases o <;> simp only [Op.token?, Option.some.injEq, reduceCtorEq] at ho
    subst ho; exact h
  · intro h; exact ⟨_, h, rfl⟩

theorem mem_wraps {hist : List (Op v)} {w : PieWrappedKey v k} :
    (⟨k, w⟩ : Σ k, PieWrappedKey v k) ∈ hist.filterMap Op.wrap? ↔ .wrap k w ∈ hist := by
  rw [List.mem_filterMap]
  constructor
  · rintro ⟨o, h, ho⟩
    cases o <;> simp only [Op.wrap?, Option.some.injEq, reduceCtorEq] at ho
    cases ho; exact h
  · intro h; exact ⟨_, h, rfl⟩

/-- Token and wrap inputs differ in the first byte. -/
theorem input_ne (h n c f i : Bytes) (v : Ver) (k : Kind) (n' c' : Bytes) :
    Spec.localPreAuth h n c f i ≠ pieTagged v k n' c' := by
  intro e
  have h1 : (Spec.localPreAuth h n c f i).head? = some 5 := rfl
  have h2 : (pieTagged v k n' c').head? = some 107 := by cases v <;> cases k <;> rfl
  rw [e, h2] at h1
  revert h1; decide

/-- After any interleaving of encryptions and key wraps under one key, a token that gets past
authentication is one of the issued tokens, or its tag is the MAC of an input that neither an
encryption nor a key wrap has computed. -/
theorem token_unforgeable (key : Key P v .Local) (hist : List (Op v)) (hused : Used P v key hist)
    (hhist : ∀ o ∈ hist, o.Fits) [Payload E] [MessageDecoding E M]
    (t : SecuredToken v .Local F E) (i : Bytes)
    (hfit : PartsFit (header v .Local (Payload.suffix E)) t.payload t.encodedFooter i)
    (hok : t.decryptWithAssertions M P key i ≠ .err .cryptoError ∧
      t.decryptWithAssertions M P key i ≠ .panic) :
    (∃ e, .token e ∈ hist ∧ C08.IssuedBy P v key e ∧ e.suffix = Payload.suffix E ∧
      e.payload = t.payload ∧ e.footer = t.encodedFooter ∧ e.implicit = i) ∨
    ∃ n c tag, t.payload = n ++ c ++ tag ∧ n.length = 32 ∧ tag.length = Spec.tagLen v ∧
      tag = Spec.localMac P v (Spec.localAuthKey P v key.key n)
        (Spec.localPreAuth (header v .Local (Payload.suffix E)) n c t.encodedFooter i) ∧
      (Spec.localAuthKey P v key.key n,
        Spec.localPreAuth (header v .Local (Payload.suffix E)) n c t.encodedFooter i) ∉
        hist.map (Op.macQuery P v key) := by
  rcases C08.unforgeable P key _ (used_tokens hused)
    (fun e he => hhist _ (mem_tokens.1 he)) t i hfit hok with ⟨e, he, h⟩ | ⟨n, c, tag, h1, h2, h3, h4, h5⟩
  · exact .inl ⟨e, mem_tokens.1 he, h⟩
  · refine .inr ⟨n, c, tag, h1, h2, h3, h4, fun hq => ?_⟩
    obtain ⟨o, ho, hq⟩ := List.mem_map.1 hq
    cases o with
    | token e => exact h5 (List.mem_map.2 ⟨e, mem_tokens.2 ho, hq⟩)
    | wrap k w => exact input_ne _ _ _ _ _ _ _ _ _ (Prod.mk.inj hq).2.symm

/-- And a wrapped key that gets past authentication is one of those made, or its tag is the MAC of
an input that neither kind of operation has computed. -/
theorem wrap_unforgeable (key : Key P v .Local) (hist : List (Op v)) (hused : Used P v key hist)
    (w : PieWrappedKey v k) (hok : w.unwrapKey P key ≠ .err .cryptoError) :
    .wrap k w ∈ hist ∨
      (w.tag.1 = Spec.mac P v (pieAuthKey P v key.key w.nonce.1)
          (pieTagged v k.kind w.nonce.1 w.wrappedKey.1) ∧
        (pieAuthKey P v key.key w.nonce.1, pieTagged v k.kind w.nonce.1 w.wrappedKey.1) ∉
          hist.map (Op.macQuery P v key)) := by
  rcases C35.unforgeable key _ (used_wraps hused) w hok with h | ⟨h1, h2⟩
  · exact .inl (mem_wraps.1 h)
  · refine .inr ⟨h1, fun hq => ?_⟩
    obtain ⟨o, ho, hq⟩ := List.mem_map.1 hq
    cases o with
    | token e => exact input_ne _ _ _ _ _ _ _ _ _ (Prod.mk.inj hq).2
    | wrap k' w' => exact h2 (List.mem_map.2 ⟨⟨k', w'⟩, mem_wraps.2 ho, hq⟩)

-- a history of a token and a wrap, with an accepted token and an accepted wrap
example (v : Ver) : ∃ (hist : List (Op v)) (t : SecuredToken v .Local Bytes Sample.Raw)
    (w : PieWrappedKey v .Local),
    Used Toy.prims v (Toy.localKey v) hist ∧ (∀ o ∈ hist, o.Fits) ∧ hist.length = 2 ∧
    PartsFit (header v .Local (Payload.suffix Sample.Raw)) t.payload t.encodedFooter (asc "ia") ∧
    (t.decryptWithAssertions Bytes Toy.prims (Toy.localKey v) (asc "ia") ≠ .err .cryptoError ∧
      t.decryptWithAssertions Bytes Toy.prims (Toy.localKey v) (asc "ia") ≠ .panic) ∧
    w.unwrapKey Toy.prims (Toy.localKey v) ≠ .err .cryptoError := by
  obtain ⟨t, r, h0, h1, h2, h3⟩ := sample_local v
  obtain ⟨w, s, h4, _, _, h5⟩ :=
    C33.pie_roundtrip (k := .Local) Toy.laws (Toy.localKey v) (Toy.localKey v) Toy.tape Toy.tape_ok
  let e : C08.Event := ⟨asc "r", asc "hello", t.payload, t.encodedFooter, asc "ia"⟩
  have he : C08.IssuedBy Toy.prims v (Toy.localKey v) e :=
    ⟨Bytes, Bytes, Sample.Raw, _, _, _, _, _, _, _, h0, rfl, rfl, rfl, rfl⟩
  refine ⟨[.token e, .wrap .Local w], t, w, .encrypt (.wrap .start h4) he, ?_, rfl, h1,
    by rw [h2]; simp, by rw [h5]; simp⟩
  intro o ho
  simp only [List.mem_cons, List.not_mem_nil, or_false] at ho
  rcases ho with rfl | rfl
  · exact ⟨h1⟩
  · trivial

end C61
end Pasta
