import Verif.Spec.Birthday
import Verif.Props.Birthday
import Verif.Lemmas.Local
import Verif.Props.TokenRoundtrip
import Verif.Props.Pbkw
import Verif.Props.Pke

/-! # C76: of all tags exactly one is accepted -/

namespace Pasta.C76

open Spec

variable {P : Prims} {v : Ver}

/-- How many tags there are: `2 ^ 384` in V3, `2 ^ 256` in V4. -/
theorem tags : Fintype.card (BytesN (Spec.tagLen .V3)) = 2 ^ 384 ∧
    Fintype.card (BytesN (Spec.tagLen .V4)) = 2 ^ 256 ∧
    ∀ v, tagSize v = Spec.tagLen v ∧ pieTagLen v = Spec.tagLen v ∧ pwTagLen v = Spec.tagLen v ∧
      pkeTagLen v = Spec.tagLen v := by
  refine ⟨?_, ?_, fun v => by cases v <;> exact ⟨rfl, rfl, rfl, rfl⟩⟩
  · rw [C75.card_bytes]; show 256 ^ 48 = _; rw [show 256 = 2 ^ 8 from rfl, ← pow_mul]
  · rw [C75.card_bytes]; show 256 ^ 32 = _; norm_num

/-- Whatever stands before it, exactly one tag makes a local token pass: with any other tag decryption
is `CryptoError`. -/
theorem token {F E M : Type} [Payload E] [MessageDecoding E M] (t : SecuredToken v .Local F E)
    (key : Key P v .Local) (i : Bytes) (nonce : BytesN 32) (c : Bytes) :
    ∃! tag : BytesN (tagSize v),
      ({ t with payload := nonce.1 ++ c ++ tag.1 } : SecuredToken v .Local F E).decryptWithAssertions
        M P key i ≠ .err .cryptoError := by
  have e : ∀ g : Bytes, g.length = tagSize v → _ := fun g hg => decrypt_split (M := M)
    ({ t with payload := nonce.1 ++ c ++ g } : SecuredToken v .Local F E) key i nonce.1 c g rfl
    nonce.2 hg
  refine ⟨⟨Spec.localMac P v (Spec.localAuthKey P v key.key nonce.1)
    (localPreAuth v (Payload.suffix E) nonce.1 c t.encodedFooter i), ?_⟩, ?_, ?_⟩
  · rw [tagSize_eq]; exact localMac_length P v _ _
  · dsimp only
    rw [e _ (by rw [tagSize_eq]; exact localMac_length P v _ _), if_pos rfl]
    dsimp only
    cases MessageDecoding.decode (M := M) t.encoding
      (applyKeystream (codeStream P v key.key nonce.1) c) with
    | ok m => exact fun h => nomatch h
    | error x => exact fun h => nomatch h
  · intro tag h
    rw [e _ tag.2] at h
    by_cases ht : tag.1 = Spec.localMac P v (Spec.localAuthKey P v key.key nonce.1)
        (localPreAuth v (Payload.suffix E) nonce.1 c t.encodedFooter i)
    · exact Subtype.ext ht
    · rw [if_neg ht] at h; exact absurd rfl h

/-- The same for a key wrapped with a key. -/
theorem pie {k : WKind} (w : PieWrappedKey v k) (wk : Key P v .Local) :
    ∃! tag : BytesN (pieTagLen v),
      ({ w with tag := tag } : PieWrappedKey v k).unwrapKey P wk ≠ .err .cryptoError := by
  refine ⟨⟨pieTag P v k.kind wk.key w.nonce.1 w.wrappedKey.1, ?_⟩, ?_, ?_⟩
  · rw [pieTagLen_eq]; exact mac_length P v _ _
  · refine (C35.authentic_iff _ wk).2 rfl
  · intro tag h
    exact Subtype.ext ((C35.authentic_iff _ wk).1 h)

/-- The same for a key wrapped with a password, unless parameters or password make every unwrap
panic (C41). -/
theorem pw {k : WKind} (w : PwWrappedKey v k) (pw : Bytes) (hs : C37.Valid w.settings)
    (hp : v = .V4 → pw.length < 2 ^ 32) :
    ∃! tag : BytesN (pwTagLen v),
      ({ w with tag := tag } : PwWrappedKey v k).unwrapKey P pw ≠ .err .cryptoError := by
  have hk : KdfOk w.state pw := (C37.kdfOk_iff _ _).2 ⟨hs, hp⟩
  have np : ∀ tag : BytesN (pwTagLen v),
      ({ w with tag := tag } : PwWrappedKey v k).unwrapKey P pw ≠ .err .cryptoError →
      tag.1 = pwTag P k.kind pw w.salt.1 (specParams w.state) w.nonce.1 w.edk.1 := by
    intro tag h
    rw [PwWrappedKey.unwrapKey_eq, if_pos (show KdfOk _ pw from hk)] at h
    by_contra ht
    exact h (if_neg ht)
  refine ⟨⟨pwTag P k.kind pw w.salt.1 (specParams w.state) w.nonce.1 w.edk.1,
    C37.tag_length _ _ _ _ _⟩, ?_, fun tag h => Subtype.ext (np tag h)⟩
  exact ((C42.authentic_iff ({ w with tag := ⟨_, C37.tag_length _ _ _ _ _⟩ }) pw).2 ⟨⟨hs, hp⟩, rfl⟩).1

/-- The same for a sealed key, unless its ephemeral key makes every unseal panic (C46). -/
theorem sealed (w : SealedKey v) (sk : Key P v .Secret) (h : w.unsealKey P sk ≠ .panic) :
    ∃! tag : BytesN (pkeTagLen v),
      ({ w with tag := tag } : SealedKey v).unsealKey P sk ≠ .err .cryptoError := by
  cases hx : unsealSecret P sk w.ephemeralPublicKey with
  | none => rw [SealedKey.unsealKey_eq, hx] at h; exact absurd rfl h
  | some xk =>
    have e : ∀ tag : BytesN (pkeTagLen v),
        ({ w with tag := tag } : SealedKey v).unsealKey P sk ≠ .err .cryptoError ↔
        tag.1 = sealTag P v xk w.ephemeralPublicKey.1 (sealPub P sk.publicKey)
          w.encryptedDataKey.1 := by
      intro tag
      rw [SealedKey.unsealKey_eq]
      dsimp only
      rw [hx]
      dsimp only
      split <;> simp_all
    exact ⟨⟨_, C43.tag_length _ _ _ _⟩, (e _).2 rfl, fun tag h => Subtype.ext ((e tag).1 h)⟩

/-- Tags that are accepted: of an encrypted token … -/
example (v : Ver) : ∃ r tok, (Sample.builder v .Local Sample.Raw).encryptWithAssertionsAndRng Toy.prims
      (Toy.localKey v) (asc "ia") Toy.tape = .ok (tok, r) ∧
    tok.decryptWithAssertions Bytes Toy.prims (Toy.localKey v) (asc "ia") ≠ .err .cryptoError := by
  obtain ⟨tok, h⟩ := ((C01.encrypt_outcome Toy.prims (Sample.builder v .Local Sample.Raw)
    (Toy.localKey v) (asc "ia") Toy.tape).2 (by rw [Toy.tape_length]; decide)).2.2 _ _ rfl rfl
  refine ⟨_, tok, h, ?_⟩
  rw [C01.local_roundtrip_direct Toy.prims _ _ _ _ _ tok h (by rintro m ⟨⟩; rfl)]
  simp

/-- … of a key wrapped with a password, and of a sealed key. -/
example (v : Ver) : (∃ (w : PwWrappedKey v .Local), C37.Valid w.settings ∧
      w.unwrapKey Toy.prims (asc "pw") ≠ .err .cryptoError) ∧
    ∃ w : SealedKey v, w.unsealKey Toy.prims (C43.sampleSecret v) ≠ .panic ∧
      w.unsealKey Toy.prims (C43.sampleSecret v) ≠ .err .cryptoError := by
  constructor
  · obtain ⟨w, s, -, -, -, h⟩ := C37.default_roundtrip (k := .Local) Toy.laws (Toy.localKey v) (asc "pw")
      Toy.tape (fun _ => by simp [asc]) (by rw [Toy.tape_length]; cases v <;> decide)
    have h1 : w.unwrapKey Toy.prims (asc "pw") ≠ .err .cryptoError := by rw [h]; simp
    exact ⟨w, ((C42.authentic_iff w _).1 ⟨h1, by rw [h]; simp⟩).1.1, h1⟩
  · obtain ⟨w, r, _, -, _, _, h⟩ := C43.seal_roundtrip Toy.laws (Toy.localKey v) (C43.sampleSecret v)
      C43.sampleRng (C43.sampleRng_enough v)
    exact ⟨w, by rw [h]; simp, by rw [h]; simp⟩

end Pasta.C76
