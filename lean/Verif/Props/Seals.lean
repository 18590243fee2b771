import Verif.Curve.Card384
import Verif.Curve.Mont25519
import Verif.Props.Actual

/-!
# C68-C70: key pairs and seals with the actual algorithms

As in `Verif.Props.Actual` the primitives are the algorithms themselves (`Real.prims`) and nothing is
assumed about them.

C68: which V4 secret keys share a public key. C69: when two seals have the same text. C70: seals to a
weak V4 public key can be opened by anyone.
-/

namespace Pasta

open Real (prims)
open Curve
open Spec (paserkText keyTypeText decodeScalar25519)

/-! ## C68 -/
namespace C68

/-- Bits 3 to 253 of the SHA-512 hash of a seed, as a little-endian number. -/
def hashBits (seed : Bytes) : Nat := leNat ((Real.sha512 seed).1.take 32) % 2 ^ 254 / 8

theorem half_val (seed : BytesN 32) :
    (prims.edSecretHalf seed).1 = (Real.sha512 seed.1).1.take 32 := by
  show (Real.fit 32 (Real.sha512 seed.1).1).1 = _
  have : ∀ b : BytesN 64, (Real.fit 32 b.1).1 = b.1.take 32 := by
    intro b
    have hl := b.2
    unfold Real.fit
    simp [hl]
  exact this _

theorem scalar_bits (seed : BytesN 32) :
    decodeScalar25519 (prims.edSecretHalf seed) = 2 ^ 254 + 8 * hashBits seed.1 := by
  unfold decodeScalar25519 hashBits
  rw [half_val]

/-- Two V4 secret keys have the same public key exactly when the SHA-512 hashes of their seeds agree
in bits 3 to 253. -/
theorem v4_publicKey_iff (a b : Key prims .V4 .Secret) :
    a.publicKey = b.publicKey ↔ hashBits a.key.1 = hashBits b.key.1 := by
  have h := E25519.edPublic_eq_iff a.key b.key
  rw [scalar_bits, scalar_bits] at h
  constructor
  · intro e
    have := h.1 (congrArg Key.key e)
    omega
  · intro e
    exact congrArg Key.mk (h.2 (by rw [e]))

/-- The same for the texts of the public keys. -/
theorem v4_public_text_iff (a b : Key prims .V4 .Secret) :
    (⟨a.publicKey⟩ : PlaintextKey prims .V4 .Public).display =
        (⟨b.publicKey⟩ : PlaintextKey prims .V4 .Public).display ↔
      hashBits a.key.1 = hashBits b.key.1 := by
  rw [← v4_publicKey_iff]
  refine ⟨fun e => ?_, fun e => by rw [e]⟩
  obtain ⟨s1, h1, _, h2⟩ := C25.plaintext_roundtrip Real.laws a.publicKey
  obtain ⟨s3, h3, _, h4⟩ := C25.plaintext_roundtrip Real.laws b.publicKey
  rw [h1, h3] at e
  rw [← Res.ok.inj e, h2] at h4
  exact congrArg PlaintextKey.key (Res.ok.inj h4)

/-- As recipients of seals, two V4 secret keys are indistinguishable exactly when those bits are the
same or are opposite modulo the group order. -/
theorem v4_recipient_iff (a b : Key prims .V4 .Secret) :
    Spec.sealPub prims a.publicKey = Spec.sealPub prims b.publicKey ↔
      hashBits a.key.1 = hashBits b.key.1 ∨
      2 ^ 252 + hashBits a.key.1 + hashBits b.key.1 = ed25519Order := by
  have h := E25519.edToMontgomery_eq_iff a.key b.key
  rw [scalar_bits, scalar_bits] at h
  rw [show Spec.sealPub prims a.publicKey = Spec.sealPub prims b.publicKey ↔ _ from
    Subtype.ext_iff.symm.trans h]
  generalize ed25519Order = n
  omega

/-- V3 recipients are indistinguishable only if they are the same secret key. -/
theorem v3_recipient_inj (a b : Key prims .V3 .Secret)
    (h : Spec.sealPub prims a.publicKey = Spec.sealPub prims b.publicKey) : a = b :=
  C65.v3_publicKey_inj a b (congrArg Key.mk (Subtype.ext (Subtype.ext h)))

/-- Two secret keys that differ in those bits, and so have different public keys, also as recipients. -/
example : ∃ a b : Key prims .V4 .Secret, a.publicKey ≠ b.publicKey ∧
    Spec.sealPub prims a.publicKey ≠ Spec.sealPub prims b.publicKey := by
  let a : Key prims .V4 .Secret := ⟨BytesN.fill 32 0⟩
  let b : Key prims .V4 .Secret := ⟨BytesN.fill 32 1⟩
  have h : hashBits (BytesN.fill 32 0).1 ≠ hashBits (BytesN.fill 32 1).1 ∧
      2 ^ 252 + hashBits (BytesN.fill 32 0).1 + hashBits (BytesN.fill 32 1).1 ≠ ed25519Order := by decide +kernel
  exact ⟨a, b, fun e => h.1 ((v4_publicKey_iff a b).1 e), fun e => ((v4_recipient_iff a b).1 e).elim h.1 h.2⟩

end C68

/-! ## C69 -/
namespace C69

/-- V3: two seals, of any keys to any recipients, have the same ephemeral public key exactly when the
same ephemeral secret was drawn for both. -/
theorem v3_ephemeral_iff (key key' : Key prims .V3 .Local) (pk pk' : Key prims .V3 .Public)
    (skipped skipped' : List (BytesN 48)) (esk esk' : P384Scalar) (r r' rng rng' : Rng)
    (w w' : SealedKey .V3)
    (hs : ∀ b ∈ skipped, ¬ p384ScalarOk b) (hs' : ∀ b ∈ skipped', ¬ p384ScalarOk b)
    (h : key.sealKey pk ((skipped.map (·.1)).flatten ++ esk.1.1 ++ r) = .ok (w, rng))
    (h' : key'.sealKey pk' ((skipped'.map (·.1)).flatten ++ esk'.1.1 ++ r') = .ok (w', rng')) :
    w.ephemeralPublicKey = w'.ephemeralPublicKey ↔ esk = esk' := by
  have draw : ∀ (key : Key prims .V3 .Local) (pk : Key prims .V3 .Public)
      (skipped : List (BytesN 48)) (esk : P384Scalar) (r rng : Rng) (w : SealedKey .V3),
      (∀ b ∈ skipped, ¬ p384ScalarOk b) →
      key.sealKey pk ((skipped.map (·.1)).flatten ++ esk.1.1 ++ r) = .ok (w, rng) →
      w.ephemeralPublicKey = prims.p384Compress (prims.p384Public esk) := by
    intro key pk skipped esk r rng w hs h
    obtain ⟨xk, ⟨e, h1, _, h2⟩, _, _⟩ := (Key.sealKey_ok_iff key pk _ rng w).1 h
    rw [(C27.p384Random_spec _ r esk).2 ⟨skipped, hs, rfl⟩] at h1
    cases h1
    exact Subtype.ext h2
  rw [draw _ _ _ _ _ _ _ hs h, draw _ _ _ _ _ _ _ hs' h']
  refine ⟨fun e => ?_, fun e => by rw [e]⟩
  have e : (Real.p384Public esk).1 = (Real.p384Public esk').1 := e
  exact E384.public_inj (Subtype.ext e)

/-- V4: two seals, of any keys to any recipients, have the same ephemeral public key exactly when the
clamped ephemeral secrets drawn for them are equal, or sum to eight times the group order. -/
theorem v4_ephemeral_iff (key key' : Key prims .V4 .Local) (pk pk' : Key prims .V4 .Public)
    (esk esk' : BytesN 32) (r r' rng rng' : Rng) (w w' : SealedKey .V4)
    (h : key.sealKey pk (esk.1 ++ r) = .ok (w, rng))
    (h' : key'.sealKey pk' (esk'.1 ++ r') = .ok (w', rng')) :
    w.ephemeralPublicKey = w'.ephemeralPublicKey ↔
      decodeScalar25519 esk = decodeScalar25519 esk' ∨
      decodeScalar25519 esk + decodeScalar25519 esk' = 8 * ed25519Order := by
  have draw : ∀ (key : Key prims .V4 .Local) (pk : Key prims .V4 .Public) (esk : BytesN 32)
      (r rng : Rng) (w : SealedKey .V4), key.sealKey pk (esk.1 ++ r) = .ok (w, rng) →
      w.ephemeralPublicKey = prims.montMulBase (scalarModOrder (clampInteger esk)) := by
    intro key pk esk r rng w h
    obtain ⟨xk, ⟨e, h1, _, h2⟩, _, _⟩ := (Key.sealKey_ok_iff key pk _ rng w).1 h
    have := List.append_inj_left h1 (by rw [esk.2, e.2])
    rw [Subtype.ext this]
    exact Subtype.ext h2
  rw [draw _ _ _ _ _ _ h, draw _ _ _ _ _ _ h']
  exact E25519.ephemeral_eq_iff esk esk'

/-- So seals with different ephemeral secrets never print the same text. -/
theorem v3_texts_differ (key key' : Key prims .V3 .Local) (pk pk' : Key prims .V3 .Public)
    (skipped skipped' : List (BytesN 48)) (esk esk' : P384Scalar) (r r' rng rng' : Rng)
    (w w' : SealedKey .V3)
    (hs : ∀ b ∈ skipped, ¬ p384ScalarOk b) (hs' : ∀ b ∈ skipped', ¬ p384ScalarOk b)
    (h : key.sealKey pk ((skipped.map (·.1)).flatten ++ esk.1.1 ++ r) = .ok (w, rng))
    (h' : key'.sealKey pk' ((skipped'.map (·.1)).flatten ++ esk'.1.1 ++ r') = .ok (w', rng'))
    (hne : esk ≠ esk') : w.display ≠ w'.display := by
  intro e
  refine hne ((v3_ephemeral_iff key key' pk pk' _ _ _ _ r r' rng rng' w w' hs hs' h h').1 ?_)
  obtain ⟨s, h1⟩ : ∃ s, w.display = .ok s := ⟨_, SealedKey.display_eq w⟩
  have h2 := (C43.seal_text_iff s w).2 h1
  have h3 := (C43.seal_text_iff s w').2 (e ▸ h1)
  rw [h2] at h3
  cases h3
  rfl

theorem v4_texts_differ (key key' : Key prims .V4 .Local) (pk pk' : Key prims .V4 .Public)
    (esk esk' : BytesN 32) (r r' rng rng' : Rng) (w w' : SealedKey .V4)
    (h : key.sealKey pk (esk.1 ++ r) = .ok (w, rng))
    (h' : key'.sealKey pk' (esk'.1 ++ r') = .ok (w', rng'))
    (hne : decodeScalar25519 esk ≠ decodeScalar25519 esk')
    (hne' : decodeScalar25519 esk + decodeScalar25519 esk' ≠ 8 * ed25519Order) :
    w.display ≠ w'.display := by
  intro e
  refine not_or.2 ⟨hne, hne'⟩ ((v4_ephemeral_iff key key' pk pk' _ _ r r' rng rng' w w' h h').1 ?_)
  obtain ⟨s, h1⟩ : ∃ s, w.display = .ok s := ⟨_, SealedKey.display_eq w⟩
  have h2 := (C43.seal_text_iff s w).2 h1
  have h3 := (C43.seal_text_iff s w').2 (e ▸ h1)
  rw [h2] at h3
  cases h3
  rfl

/-- Any two keys can be sealed to any two recipients with any ephemeral secrets … -/
example (key key' : Key prims .V3 .Local) (pk pk' : Key prims .V3 .Public) (esk esk' : P384Scalar) :
    ∃ w w', key.sealKey pk ((([] : List (BytesN 48)).map (·.1)).flatten ++ esk.1.1 ++ []) = .ok w ∧
      key'.sealKey pk' ((([] : List (BytesN 48)).map (·.1)).flatten ++ esk'.1.1 ++ []) = .ok w' := by
  have one : ∀ (key : Key prims .V3 .Local) (pk : Key prims .V3 .Public) (esk : P384Scalar),
      ∃ w, key.sealKey pk ((([] : List (BytesN 48)).map (·.1)).flatten ++ esk.1.1 ++ []) = .ok w := by
    intro key pk esk
    rcases C43.seal_outcome key pk ((([] : List (BytesN 48)).map (·.1)).flatten ++ esk.1.1 ++ [])
      with ⟨_, w, rng', h⟩ | ⟨hn, _⟩
    · exact ⟨_, h⟩
    · exact absurd ⟨[], esk, [], by simp, rfl⟩ hn
  obtain ⟨w, h⟩ := one key pk esk
  obtain ⟨w', h'⟩ := one key' pk' esk'
  exact ⟨w, w', h, h'⟩

example (key key' : Key prims .V4 .Local) (pk pk' : Key prims .V4 .Public) (esk esk' : BytesN 32) :
    ∃ w w', key.sealKey pk (esk.1 ++ []) = .ok w ∧ key'.sealKey pk' (esk'.1 ++ []) = .ok w' := by
  have one : ∀ (key : Key prims .V4 .Local) (pk : Key prims .V4 .Public) (esk : BytesN 32),
      ∃ w, key.sealKey pk (esk.1 ++ []) = .ok w := by
    intro key pk esk
    rcases C43.seal_outcome key pk (esk.1 ++ []) with ⟨_, w, rng', h⟩ | ⟨hn, _⟩
    · exact ⟨_, h⟩
    · exact absurd (show 32 ≤ (esk.1 ++ []).length by simp [esk.2]) hn
  obtain ⟨w, h⟩ := one key pk esk
  obtain ⟨w', h'⟩ := one key' pk' esk'
  exact ⟨w, w', h, h'⟩

/-- … and these ephemeral secrets are different, and opposite, clamped scalars: the exception of V4
is real. -/
example : decodeScalar25519 ⟨leBytes 32 8, by rfl⟩ ≠ decodeScalar25519 ⟨leBytes 32 16, by rfl⟩ ∧
    decodeScalar25519 ⟨leBytes 32 8, by rfl⟩ + decodeScalar25519 ⟨leBytes 32 16, by rfl⟩ ≠
      8 * ed25519Order ∧
    decodeScalar25519 ⟨leBytes 32 0, by rfl⟩ +
      decodeScalar25519 ⟨leBytes 32 (8 * (ed25519Order - 2 ^ 252)), by rfl⟩ = 8 * ed25519Order := by
  decide +kernel

end C69

/-! ## C70 -/
namespace C70

/-- What anyone can compute from a V4 seal: the decryption with a shared secret and a public key that
are 32 zero bytes. -/
def openWithZeros (w : SealedKey .V4) : Bytes :=
  Spec.xorStream w.encryptedDataKey.1 (Spec.sealStream prims .V4 (List.replicate 32 0)
    w.ephemeralPublicKey.1 (List.replicate 32 0))

/-- The text `k4.public.AQAA…` parses to a public key, sealing to it succeeds, and every local key
sealed to it can be read off the seal by anyone. -/
theorem weak_recipient : ∃ pk : Key prims .V4 .Public,
    PlaintextKey.parse prims .V4 .Public C64.weakText = .ok ⟨pk⟩ ∧
    ∀ (key : Key prims .V4 .Local) (rng : Rng), 32 ≤ rng.length →
      ∃ w rng', key.sealKey pk rng = .ok (w, rng') ∧ openWithZeros w = key.key.1 := by
  refine ⟨C64.weakKey, ?_, ?_⟩
  · rw [C64.weakText_eq]
    exact C64.parse_public _ _
  · intro key rng hr
    have xpk : prims.edToMontgomery C64.weakKey.key = ⟨List.replicate 32 0, by rfl⟩ :=
      (E25519.edToMontgomery_zero _ rfl).trans E25519.montEnc_zero
    have hxk : ∀ b, prims.montMul (scalarModOrder b) (prims.edToMontgomery C64.weakKey.key) =
        ⟨List.replicate 32 0, by rfl⟩ := by
      intro b
      rw [xpk, ← E25519.montEnc_zero]
      exact E25519.montMul_zero (scalarModOrder_lt b)
    have hpub : Spec.sealPub prims C64.weakKey = List.replicate 32 0 := congrArg Subtype.val xpk
    rcases C43.seal_outcome key C64.weakKey rng with ⟨_, w, rng', h⟩ | ⟨hn, _⟩
    · refine ⟨w, rng', h, ?_⟩
      obtain ⟨xk, ⟨b, _, h1, _⟩, h2, _⟩ := (Key.sealKey_ok_iff key _ rng rng' w).1 h
      rw [hxk] at h1
      unfold openWithZeros
      rw [h2, hpub, h1, ← applyKeystream_eq_xorStream]
      exact applyKeystream_twice _ _
    · exact absurd hr hn

end C70
end Pasta
