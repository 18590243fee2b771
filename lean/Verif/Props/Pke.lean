import Verif.Lemmas.Pke
import Verif.Props.Keys

/-!
# C43 to C46: sealing local keys to public keys
-/

namespace Pasta

open Spec (sealPub unsealSecret paserkText sealTag sealTagged sealAuthKey)

variable {P : Prims} {v : Ver}

namespace C43

/-- What a seal needs of the random source: 32 bytes in V4; in V3 blocks of 48 bytes up to one that
is a scalar of the curve. -/
def Enough : Ver → Rng → Prop
  | .V3, rng => ∃ (skipped : List (BytesN 48)) (s : P384Scalar) (rest : Rng),
      (∀ b ∈ skipped, ¬ p384ScalarOk b) ∧ rng = (skipped.map (·.1)).flatten ++ s.1.1 ++ rest
  | .V4, rng => 32 ≤ rng.length

theorem p384Random_total (rng : Rng) : (∃ x, p384Random rng = .ok x) ∨ p384Random rng = .panic := by
  have key : ∀ (n : Nat) (rng : Rng), rng.length ≤ n →
      (∃ x, p384Random rng = .ok x) ∨ p384Random rng = .panic := by
    intro n
    induction n with
    | zero =>
      intro rng h
      right; unfold p384Random; rw [dif_neg (by omega)]
    | succ n ih =>
      intro rng h
      unfold p384Random
      by_cases h48 : 48 ≤ rng.length
      · rw [dif_pos h48]
        dsimp only
        by_cases hb : p384ScalarOk ⟨rng.take 48, by simp; omega⟩
        · rw [dif_pos hb]; exact .inl ⟨_, rfl⟩
        · rw [dif_neg hb]; exact ih _ (by simp; omega)
      · rw [dif_neg h48]; exact .inr rfl
  exact key _ rng (Nat.le_refl _)

theorem tag_length (xk epk pk edk : Bytes) :
    (sealTag P v xk epk pk edk).length = pkeTagLen v := by
  have := mac_length P v (sealAuthKey P v xk epk pk) (sealTagged v epk edk)
  unfold Spec.sealTag
  rw [this]; cases v <;> rfl

/-- Sealing returns a sealed key exactly when the random source suffices, and otherwise panics. -/
theorem seal_outcome (key : Key P v .Local) (pk : Key P v .Public) (rng : Rng) :
    (Enough v rng ∧ ∃ w rng', key.sealKey pk rng = .ok (w, rng')) ∨
    (¬ Enough v rng ∧ key.sealKey pk rng = .panic) := by
  have mk : ∀ (xk : Bytes) (epk : BytesN (pkeEpkLen v)) (rng' : Rng), SealDraw P pk rng xk epk.1 rng' →
      ∃ w rng', key.sealKey pk rng = .ok (w, rng') := by
    intro xk epk rng' h
    let c : BytesN 32 := applyKeystreamN (pkeCodeStream P v xk epk.1 (sealPub P pk)) key.key
    exact ⟨⟨⟨_, tag_length (P := P) xk epk.1 (sealPub P pk) c.1⟩, epk, c⟩, rng', (Key.sealKey_ok_iff key pk rng rng' _).2
      ⟨xk, h, rfl, rfl⟩⟩
  cases v
  · rcases p384Random_total rng with ⟨⟨s, r⟩, h⟩ | h
    · left
      obtain ⟨sk, h1, h2⟩ := (C27.p384Random_spec rng r s).1 h
      exact ⟨⟨sk, s, r, h1, h2⟩, mk _ _ _ ⟨s, h, rfl, rfl⟩⟩
    · right
      refine ⟨?_, ?_⟩
      · rintro ⟨sk, s, r, h1, h2⟩
        rw [(C27.p384Random_spec rng r s).2 ⟨sk, h1, h2⟩] at h
        simp at h
      · show sealV3 P key pk rng = .panic
        unfold sealV3
        dsimp only
        rw [h]; rfl
  · by_cases h : 32 ≤ rng.length
    · left
      exact ⟨h, mk _ _ _ ⟨⟨rng.take 32, by simp; omega⟩, (List.take_append_drop 32 rng).symm, rfl, rfl⟩⟩
    · right
      refine ⟨h, ?_⟩
      show sealV4 P key pk rng = .panic
      unfold sealV4
      dsimp only
      rw [fillBytes_eq_panic.2 (by omega)]; rfl

/-- Both sides derive the same secret. -/
theorem shared_secret (L : P.Laws) (sk : Key P v .Secret) (rng rng' : Rng) (xk : Bytes)
    (epk : BytesN (pkeEpkLen v)) (h : SealDraw P sk.publicKey rng xk epk.1 rng') :
    unsealSecret P sk epk = some xk := by
  cases v
  · obtain ⟨esk, _, rfl, h⟩ := h
    show (P.p384Parse epk.1).map _ = _
    rw [h, L.p384Parse_compress]
    show some (P.p384Dh sk.key (P.p384Public esk)).1 = some (P.p384Dh esk (P.p384Public sk.key)).1
    rw [L.p384Dh_comm]
  · obtain ⟨b, _, rfl, h⟩ := h
    have h : epk = P.montMulBase (scalarModOrder (clampInteger b)) := Subtype.ext h
    subst h
    show some (P.montMul (_ % _) (P.montMulBase (scalarModOrder (clampInteger b)))).1 = _
    rw [← edScalar_eq, ← L.x25519_comm _ _ (scalarModOrder_lt _)]
    rfl

/-- Whatever a seal to a key's public key returned unseals to the key, also without printing. -/
theorem seal_roundtrip_direct (L : P.Laws) (key : Key P v .Local) (sk : Key P v .Secret)
    (rng rng' : Rng) (w : SealedKey v) (h : key.sealKey sk.publicKey rng = .ok (w, rng')) :
    w.unsealKey P sk = .ok key := by
  obtain ⟨xk, h1, h2, h3⟩ := (Key.sealKey_ok_iff key _ rng rng' w).1 h
  rw [SealedKey.unsealKey_eq, shared_secret L sk rng rng' xk _ h1]
  dsimp only
  rw [if_pos h3, h2, applyKeystreamN_twice]

/-- Seal to a public key, print, parse, unseal with its secret key: the key comes back. -/
theorem seal_roundtrip (L : P.Laws) (key : Key P v .Local) (sk : Key P v .Secret) (rng : Rng)
    (hr : Enough v rng) :
    ∃ w rng' s, key.sealKey sk.publicKey rng = .ok (w, rng') ∧ w.display = .ok s ∧
      SealedKey.parse v s = .ok w ∧ w.unsealKey P sk = .ok key := by
  rcases seal_outcome key sk.publicKey rng with ⟨_, w, rng', h⟩ | ⟨hn, _⟩
  · exact ⟨w, rng', _, h, SealedKey.display_eq w, SealedKey.parse_ok_iff.2 rfl,
      seal_roundtrip_direct L key sk rng rng' w h⟩
  · exact absurd hr hn

/-- The text form is canonical: parsing accepts exactly the printed forms. -/
theorem seal_text_iff (s : Bytes) (w : SealedKey v) :
    SealedKey.parse v s = .ok w ↔ w.display = .ok s := by
  rw [SealedKey.parse_ok_iff, SealedKey.display_eq, Res.ok.injEq, eq_comm]

/-- Random bytes that suffice for either version. -/
def sampleRng : Rng := Toy.v3Scalar.1.1 ++ [1, 2, 3]

theorem sampleRng_enough (v : Ver) : Enough v sampleRng := by
  cases v
  · exact ⟨[], Toy.v3Scalar, [1, 2, 3], by simp, rfl⟩
  · show 32 ≤ (Toy.v3Scalar.1.1 ++ [1, 2, 3]).length
    rw [List.length_append, Toy.v3Scalar.1.2]; decide

def sampleSecret : (v : Ver) → Key Toy.prims v .Secret
  | .V3 => Toy.v3Secret
  | .V4 => Toy.v4Secret

example (v : Ver) : ∃ w rng', (Toy.localKey v).sealKey (sampleSecret v).publicKey sampleRng = .ok (w, rng') ∧
    w.unsealKey Toy.prims (sampleSecret v) = .ok (Toy.localKey v) := by
  obtain ⟨w, r, _, h1, _, _, h2⟩ := seal_roundtrip Toy.laws (Toy.localKey v) (sampleSecret v) sampleRng
    (sampleRng_enough v)
  exact ⟨w, r, h1, h2⟩

/-- The draw of a seal, for `shared_secret`. -/
example (v : Ver) : ∃ xk epk rng', SealDraw Toy.prims (sampleSecret v).publicKey sampleRng xk
    (epk : BytesN (pkeEpkLen v)).1 rng' := by
  obtain ⟨w, r, _, h1, _⟩ := seal_roundtrip Toy.laws (Toy.localKey v) (sampleSecret v) sampleRng
    (sampleRng_enough v)
  obtain ⟨xk, h2, -⟩ := (Key.sealKey_ok_iff _ _ _ _ _).1 h1
  exact ⟨xk, _, r, h2⟩

end C43

namespace C44

/-- The V3 derived nonce. -/
def v3Nonce (P : Prims) (xk epk pk : Bytes) : Bytes :=
  (P.sha384 (Spec.sealKdfInput .V3 1 xk epk pk)).1.drop 32

/-- The low 64 bits of the derived nonce do not overflow within the two blocks of a key. -/
def CounterOk (P : Prims) (xk epk pk : Bytes) : Prop :=
  beNat ((v3Nonce P xk epk pk).drop 8) + 2 ≤ 2 ^ 64

theorem v3_stream_eq (xk epk pk : Bytes) (m : Bytes) (hm : m.length = 32) (h : CounterOk P xk epk pk) :
    applyKeystream (pkeCodeStream P .V3 xk epk pk) m =
      Spec.xorStream m (Spec.sealStream P .V3 xk epk pk) := by
  rw [applyKeystream_eq_xorStream]
  apply xorStream_congr
  intro i hi
  have h : beNat ((BytesN.split 32 16 rfl
    (P.sha384 (Spec.sealKdfInput .V3 1 xk epk pk))).2.1.drop 8) + 2 ≤ 2 ^ 64 := h
  exact aesCtr64_eq P _ _ i (by omega)

theorem sealBytes_be64_iff (xk epk pk pdk : Bytes) :
    Spec.sealBytes P v xk epk pk pdk .be64 = Spec.sealBytes P v xk epk pk pdk ↔
      ∀ j < pdk.length, Spec.sealStream P v xk epk pk .be64 j = Spec.sealStream P v xk epk pk .be128 j := by
  rw [← xorStream_eq_iff]
  unfold Spec.sealBytes
  dsimp only
  constructor
  · intro h
    exact (List.append_inj' h (by simp [Spec.xorStream])).2
  · intro h
    rw [h]

/-- V3: sealing draws the ephemeral secret from the random source (48 bytes at a time, until they are
a non-zero scalar below the group order) and gives the text of the specification with the counter of
CTR mode in the last 64 bits of the derived nonce, for every key and public key. -/
theorem v3_seal (key : Key P .V3 .Local) (pk : Key P .V3 .Public) (rng rng' : Rng)
    (w : SealedKey .V3) (h : key.sealKey pk rng = .ok (w, rng')) :
    ∃ (skipped : List (BytesN 48)) (esk : P384Scalar),
      (∀ b ∈ skipped, ¬ p384ScalarOk b) ∧
      rng = (skipped.map (·.1)).flatten ++ esk.1.1 ++ rng' ∧
      w.display = .ok (paserkText .V3 (asc "seal") (Spec.v3Seal P esk pk.key key.key.1 .be64)) := by
  obtain ⟨xk, ⟨esk, h1, rfl, h2⟩, h3, h4⟩ := (Key.sealKey_ok_iff key pk rng rng' w).1 h
  obtain ⟨sk, hs1, hs2⟩ := (C27.p384Random_spec rng rng' esk).1 h1
  refine ⟨sk, esk, hs1, hs2, ?_⟩
  rw [SealedKey.display_eq]
  rw [h2] at h3 h4
  have hw : w.encryptedDataKey.1 = applyKeystream (pkeCodeStream P .V3 (P.p384Dh esk pk.key).1
      (P.p384Compress (P.p384Public esk)).1 (P.p384Compress pk.key).1) key.key.1 := by rw [h3]; rfl
  rw [applyKeystream_eq_xorStream] at hw
  unfold SealedKey.data Spec.v3Seal Spec.sealBytes
  dsimp only
  rw [h4, h2, hw]
  rfl

/-- V3: so it is the standard's text (128-bit counter) exactly when the two key streams agree on the
bytes of the key. -/
theorem v3_standard_iff (key : Key P .V3 .Local) (pk : Key P .V3 .Public) (esk : P384Scalar) :
    Spec.v3Seal P esk pk.key key.key.1 .be64 = Spec.v3Seal P esk pk.key key.key.1 ↔
      ∀ j < 32, Spec.sealStream P .V3 (P.p384Dh esk pk.key).1 (P.p384Compress (P.p384Public esk)).1
          (P.p384Compress pk.key).1 .be64 j =
        Spec.sealStream P .V3 (P.p384Dh esk pk.key).1 (P.p384Compress (P.p384Public esk)).1
          (P.p384Compress pk.key).1 .be128 j := by
  unfold Spec.v3Seal
  rw [sealBytes_be64_iff, key.key.2]

/-- V3: in particular it is the standard's text when the last 64 bits of the derived nonce do not
overflow. -/
theorem v3_seal_standard (key : Key P .V3 .Local) (pk : Key P .V3 .Public) (rng rng' : Rng)
    (w : SealedKey .V3) (h : key.sealKey pk rng = .ok (w, rng')) :
    ∃ (skipped : List (BytesN 48)) (esk : P384Scalar),
      (∀ b ∈ skipped, ¬ p384ScalarOk b) ∧
      rng = (skipped.map (·.1)).flatten ++ esk.1.1 ++ rng' ∧
      (CounterOk P (P.p384Dh esk pk.key).1 (P.p384Compress (P.p384Public esk)).1
          (P.p384Compress pk.key).1 →
        w.display = .ok (paserkText .V3 (asc "seal") (Spec.v3Seal P esk pk.key key.key.1))) := by
  obtain ⟨sk, esk, h1, h2, h3⟩ := v3_seal key pk rng rng' w h
  refine ⟨sk, esk, h1, h2, fun hc => ?_⟩
  rw [h3, (v3_standard_iff key pk esk).2]
  intro j hj
  have hc : beNat ((BytesN.split 32 16 rfl (P.sha384 (Spec.sealKdfInput .V3 1 (P.p384Dh esk pk.key).1
    (P.p384Compress (P.p384Public esk)).1 (P.p384Compress pk.key).1))).2.1.drop 8) + 2 ≤ 2 ^ 64 := hc
  exact aesCtr64_eq P (BytesN.split 32 16 rfl (P.sha384 (Spec.sealKdfInput .V3 1 _ _ _))).1
    (BytesN.split 32 16 rfl (P.sha384 (Spec.sealKdfInput .V3 1 _ _ _))).2 j (by omega)

/-- V3: when the low half does overflow (and AES is injective, as it is), the printed text is not
the specification's. -/
theorem v3_ctr_deviates (key : Key P .V3 .Local) (pk : Key P .V3 .Public) (rng rng' : Rng)
    (w : SealedKey .V3) (h : key.sealKey pk rng = .ok (w, rng')) (esk : P384Scalar)
    (he : p384Random rng = .ok (esk, rng'))
    (hinj : ∀ ek x y, P.aes256 ek x = P.aes256 ek y → x = y)
    (hc : ¬ CounterOk P (P.p384Dh esk pk.key).1 (P.p384Compress (P.p384Public esk)).1
          (P.p384Compress pk.key).1) :
    w.display ≠ .ok (paserkText .V3 (asc "seal") (Spec.v3Seal P esk pk.key key.key.1)) := by
  obtain ⟨xk, ⟨esk', h1, rfl, h2⟩, h3, h4⟩ := (Key.sealKey_ok_iff key pk rng rng' w).1 h
  rw [he] at h1
  simp only [Res.ok.injEq, Prod.mk.injEq, and_true] at h1
  subst h1
  rw [SealedKey.display_eq]
  intro hd
  have hd := SecuredToken.base64url_inj (List.append_cancel_left (Res.ok.inj hd))
  unfold SealedKey.data Spec.v3Seal Spec.sealBytes at hd
  dsimp only at hd
  have hw := (List.append_inj' hd (by
    simp only [Spec.xorStream, w.encryptedDataKey.2, List.length_zipWith, List.length_map,
      List.length_range, key.key.2]
    rfl)).2
  rw [h3, h2] at hw
  have hw : applyKeystream (pkeCodeStream P .V3 (P.p384Dh esk pk.key).1
      (P.p384Compress (P.p384Public esk)).1 (P.p384Compress pk.key).1) key.key.1 = _ := hw
  rw [applyKeystream_eq_xorStream, xorStream_eq_iff] at hw
  let x := BytesN.split 32 16 rfl (P.sha384 (Spec.sealKdfInput .V3 1 (P.p384Dh esk pk.key).1
      (P.p384Compress (P.p384Public esk)).1 (P.p384Compress pk.key).1))
  have hc : ¬ beNat (x.2.1.drop 8) + 2 ≤ 2 ^ 64 := hc
  obtain ⟨i, hi1, hi2⟩ := aesCtr64_ne P x.1 x.2 (hinj _) 1 (by omega) (by omega)
  apply hi2
  apply hw i
  rw [key.key.2]
  omega

/-- V4: for every public key, sealing gives the text of the specification except that the ephemeral
scalar is reduced modulo the group order (its exact reach: `v4_seal_torsion_free`,
`v4_seal_refuted`). The ephemeral secret is the next 32 random bytes. -/
theorem v4_seal_reduced (L : P.Laws) (key : Key P .V4 .Local) (pk : Key P .V4 .Public)
    (rng rng' : Rng) (w : SealedKey .V4) (h : key.sealKey pk rng = .ok (w, rng')) :
    ∃ esk : BytesN 32, rng = esk.1 ++ rng' ∧
      w.display = .ok (paserkText .V4 (asc "seal") (Spec.sealBytes P .V4
        (P.montMul (Spec.decodeScalar25519 esk % ed25519Order) (P.edToMontgomery pk.key)).1
        (Spec.x25519Base P esk).1 (P.edToMontgomery pk.key).1 key.key.1)) := by
  obtain ⟨xk, ⟨esk, h1, rfl, h2⟩, h3, h4⟩ := (Key.sealKey_ok_iff key pk _ rng' w).1 h
  refine ⟨esk, h1, ?_⟩
  rw [scalar_eq] at h2 h3 h4
  rw [L.montMulBase_mod] at h2
  rw [SealedKey.display_eq]
  rw [h2] at h3 h4
  have hw : w.encryptedDataKey.1 = Spec.xorStream key.key.1 (Spec.sealStream P .V4
      (P.montMul (Spec.decodeScalar25519 esk % ed25519Order) (P.edToMontgomery pk.key)).1
      (P.montMulBase (Spec.decodeScalar25519 esk)).1 (P.edToMontgomery pk.key).1) := by
    rw [h3, ← applyKeystream_eq_xorStream]; rfl
  unfold SealedKey.data Spec.sealBytes
  dsimp only
  rw [h4, h2, hw]
  rfl

/-- V4, any public key on which that reduction makes no difference (that is, any key without a
small-order component): the specification's text. For other public keys it is not, see
`v4_seal_refuted`. -/
theorem v4_seal_torsion_free (L : P.Laws) (key : Key P .V4 .Local) (pk : Key P .V4 .Public)
    (esk : BytesN 32) (r rng' : Rng) (w : SealedKey .V4)
    (h : key.sealKey pk (esk.1 ++ r) = .ok (w, rng'))
    (ho : ∀ e < 2 ^ 255, P.montMul (e % ed25519Order) (P.edToMontgomery pk.key) =
      P.montMul e (P.edToMontgomery pk.key)) :
    w.display = .ok (paserkText .V4 (asc "seal") (Spec.v4Seal P esk pk.key key.key.1)) := by
  obtain ⟨b, h1, h2⟩ := v4_seal_reduced L key pk _ rng' w h
  obtain ⟨e1, _⟩ := List.append_inj h1 (by rw [esk.2, b.2])
  have e1 : esk = b := Subtype.ext e1
  subst e1
  rw [h2, ho _ (decodeScalar25519_lt esk)]
  rfl

/-- V4: sealing to the public key of a secret key gives the specification's text, for every local
key, secret key and ephemeral secret. -/
theorem v4_seal (L : P.Laws) (key : Key P .V4 .Local) (sk : Key P .V4 .Secret)
    (esk : BytesN 32) (r rng' : Rng) (w : SealedKey .V4)
    (h : key.sealKey sk.publicKey (esk.1 ++ r) = .ok (w, rng')) :
    w.display = .ok (paserkText .V4 (asc "seal")
      (Spec.v4Seal P esk (P.edPublic sk.key) key.key.1)) :=
  v4_seal_torsion_free L key sk.publicKey esk r rng' w h (fun e he => L.montMul_mod e sk.key he)

/-- Unsealing, V3: succeeds with a key exactly when the ephemeral key is a point and the
specification's unseal that counts in the last 64 bits of the nonce gives that key. -/
theorem v3_unseal (w : SealedKey .V3) (sk : Key P .V3 .Secret) (key : Key P .V3 .Local) :
    w.unsealKey P sk = .ok key ↔ ∃ e, P.p384Parse w.ephemeralPublicKey.1 = some e ∧
      Spec.Unseals P .V3 (P.p384Dh sk.key e).1 (P.p384Compress (P.p384Public sk.key)).1
        w.tag.1 w.ephemeralPublicKey.1 w.encryptedDataKey.1 key.key.1 .be64 := by
  rw [SealedKey.unsealKey_eq]
  have hu : unsealSecret P sk w.ephemeralPublicKey =
    (P.p384Parse w.ephemeralPublicKey.1).map fun e => (P.p384Dh sk.key e).1 := rfl
  cases hp : P.p384Parse w.ephemeralPublicKey.1 with
  | none =>
    rw [hp] at hu
    rw [hu]
    simp
  | some e =>
    rw [hp] at hu
    rw [hu]
    simp only [Option.map_some, Option.some.injEq, exists_eq_left']
    have hs : applyKeystream (pkeCodeStream P .V3 (P.p384Dh sk.key e).1 w.ephemeralPublicKey.1
        (sealPub P sk.publicKey)) w.encryptedDataKey.1 = _ := applyKeystream_eq_xorStream _ _
    constructor
    · intro h
      split at h
      · rename_i ht
        refine ⟨ht, ?_⟩
        rw [← Res.ok.inj h]
        exact hs
      · simp at h
    · rintro ⟨ht, hk⟩
      have ht : w.tag.1 = sealTag P .V3 (P.p384Dh sk.key e).1 w.ephemeralPublicKey.1
        (sealPub P sk.publicKey) w.encryptedDataKey.1 := ht
      rw [if_pos ht]
      congr 1
      apply Key.ext_iff'.2
      exact Subtype.ext (hs.trans hk.symm)

/-- Unsealing, V3: and so with the standard's unseal when the counter does not overflow. -/
theorem v3_unseal_standard (w : SealedKey .V3) (sk : Key P .V3 .Secret) (key : Key P .V3 .Local)
    (hc : ∀ e, P.p384Parse w.ephemeralPublicKey.1 = some e →
      CounterOk P (P.p384Dh sk.key e).1 w.ephemeralPublicKey.1
        (P.p384Compress (P.p384Public sk.key)).1) :
    w.unsealKey P sk = .ok key ↔ ∃ e, P.p384Parse w.ephemeralPublicKey.1 = some e ∧
      Spec.Unseals P .V3 (P.p384Dh sk.key e).1 (P.p384Compress (P.p384Public sk.key)).1
        w.tag.1 w.ephemeralPublicKey.1 w.encryptedDataKey.1 key.key.1 := by
  rw [v3_unseal]
  refine exists_congr fun e => and_congr_right fun hp => ?_
  have h1 := v3_stream_eq _ _ _ w.encryptedDataKey.1 w.encryptedDataKey.2 (hc e hp)
  rw [applyKeystream_eq_xorStream] at h1
  have h1 : Spec.xorStream w.encryptedDataKey.1 (Spec.sealStream P .V3 (P.p384Dh sk.key e).1
    w.ephemeralPublicKey.1 (P.p384Compress (P.p384Public sk.key)).1 .be64) = _ := h1
  unfold Spec.Unseals
  rw [h1]

/-- Unsealing, V4: succeeds with a key exactly when the specification's unseal, with the secret scalar
reduced modulo the group order, gives that key. -/
theorem v4_unseal_reduced (w : SealedKey .V4) (sk : Key P .V4 .Secret) (key : Key P .V4 .Local) :
    w.unsealKey P sk = .ok key ↔
      Spec.Unseals P .V4 (P.montMul (Spec.decodeScalar25519 (P.edSecretHalf sk.key) % ed25519Order)
          w.ephemeralPublicKey).1
        (P.edToMontgomery (P.edPublic sk.key)).1
        w.tag.1 w.ephemeralPublicKey.1 w.encryptedDataKey.1 key.key.1 := by
  rw [SealedKey.unsealKey_eq]
  let xk := P.montMul (Spec.decodeScalar25519 (P.edSecretHalf sk.key) % ed25519Order)
    w.ephemeralPublicKey
  have hx : unsealSecret P sk w.ephemeralPublicKey = some xk.1 := rfl
  rw [hx]
  dsimp only
  have hs : applyKeystream (pkeCodeStream P .V4 xk.1 w.ephemeralPublicKey.1
      (sealPub P sk.publicKey)) w.encryptedDataKey.1 = _ := applyKeystream_eq_xorStream _ _
  constructor
  · intro h
    split at h
    · rename_i ht
      refine ⟨ht, ?_⟩
      rw [← Res.ok.inj h]
      exact hs
    · simp at h
  · rintro ⟨ht, hk⟩
    have ht : w.tag.1 = sealTag P .V4 xk.1 w.ephemeralPublicKey.1 (sealPub P sk.publicKey)
      w.encryptedDataKey.1 := ht
    rw [if_pos ht]
    congr 1
    apply Key.ext_iff'.2
    exact Subtype.ext (hs.trans hk.symm)

/-- Unsealing, V4, when the ephemeral public key has no small-order component (such as every honest
one, see `v4_unseal_honest`): succeeds with a key exactly when the specification's unseal gives
that key. -/
theorem v4_unseal_torsion_free (w : SealedKey .V4) (sk : Key P .V4 .Secret) (key : Key P .V4 .Local)
    (ho : ∀ e < 2 ^ 255, P.montMul (e % ed25519Order) w.ephemeralPublicKey =
      P.montMul e w.ephemeralPublicKey) :
    w.unsealKey P sk = .ok key ↔
      Spec.Unseals P .V4 (Spec.x25519 P (P.edSecretHalf sk.key) w.ephemeralPublicKey).1
        (P.edToMontgomery (P.edPublic sk.key)).1
        w.tag.1 w.ephemeralPublicKey.1 w.encryptedDataKey.1 key.key.1 := by
  rw [v4_unseal_reduced, ho _ (decodeScalar25519_lt _)]
  rfl

/-- The condition of `v4_unseal_torsion_free` holds for every ephemeral key made as the specification
says. -/
theorem v4_unseal_honest (L : P.Laws) (w : SealedKey .V4) (sk : Key P .V4 .Secret)
    (key : Key P .V4 .Local) (esk : BytesN 32) (he : w.ephemeralPublicKey = Spec.x25519Base P esk) :
    w.unsealKey P sk = .ok key ↔
      Spec.Unseals P .V4 (Spec.x25519 P (P.edSecretHalf sk.key) w.ephemeralPublicKey).1
        (P.edToMontgomery (P.edPublic sk.key)).1
        w.tag.1 w.ephemeralPublicKey.1 w.encryptedDataKey.1 key.key.1 := by
  apply v4_unseal_torsion_free
  intro e hlt
  rw [he]
  exact L.montMul_mod_base e _ hlt

/-- The V3 counter condition is met by a concrete seal … -/
example : CounterOk Toy.prims (Toy.prims.p384Dh Toy.v3Scalar Toy.v3Scalar).1
    (Toy.p384Compress Toy.v3Scalar).1 (Toy.p384Compress Toy.v3Scalar).1 := by
  show _ ≤ _
  decide +kernel

/-- … and violated by another, where `v3_ctr_deviates` applies. -/
example (key : Key Sample.ones .V3 .Local) (pk : Key Sample.ones .V3 .Public) :
    (∃ w, key.sealKey pk (Toy.v3Scalar.1.1 ++ []) = .ok (w, [])) ∧
    p384Random (Toy.v3Scalar.1.1 ++ []) = .ok (Toy.v3Scalar, []) ∧
    (∀ ek x y, Sample.ones.aes256 ek x = Sample.ones.aes256 ek y → x = y) ∧
    ∀ xk epk p, ¬ CounterOk Sample.ones xk epk p := by
  have hr := (C27.p384Random_spec (Toy.v3Scalar.1.1 ++ []) [] Toy.v3Scalar).2 ⟨[], by simp, rfl⟩
  refine ⟨?_, hr, Sample.ones_aes_inj, fun xk epk p => ?_⟩
  · rcases C43.seal_outcome key pk (Toy.v3Scalar.1.1 ++ []) with ⟨_, w, rng', h⟩ | ⟨h, _⟩
    · obtain ⟨xk, ⟨esk, h1, _⟩, _⟩ := (Key.sealKey_ok_iff key pk _ rng' w).1 h
      rw [hr] at h1
      simp only [Res.ok.injEq, Prod.mk.injEq] at h1
      exact ⟨w, by rw [h, h1.2]⟩
    · exact absurd ⟨[], Toy.v3Scalar, [], by simp, rfl⟩ h
  · show ¬ beNat (((BytesN.fill 48 0xff).1.drop 32).drop 8) + 2 ≤ 2 ^ 64
    decide +kernel

/-- A V4 seal prints the specification's text, and its ephemeral key is honest: the hypotheses of
`v4_seal`, `v4_unseal_honest` and (by the laws) of the torsion-free variants. -/
example : ∃ w, (Toy.localKey .V4).sealKey Toy.v4Secret.publicKey (Toy.key32.1 ++ [1]) = .ok (w, [1]) ∧
    w.display = .ok (paserkText .V4 (asc "seal")
      (Spec.v4Seal Toy.prims Toy.key32 (Toy.prims.edPublic Toy.v4Secret.key) (Toy.localKey .V4).key.1)) ∧
    (∃ esk, w.ephemeralPublicKey = Spec.x25519Base Toy.prims esk) ∧
    ∀ e < 2 ^ 255, Toy.prims.montMul (e % ed25519Order) (Toy.prims.edToMontgomery Toy.v4Secret.publicKey.key) =
      Toy.prims.montMul e (Toy.prims.edToMontgomery Toy.v4Secret.publicKey.key) := by
  rcases C43.seal_outcome (Toy.localKey .V4) Toy.v4Secret.publicKey (Toy.key32.1 ++ [1]) with
    ⟨_, w, r, h⟩ | ⟨h, _⟩
  · obtain ⟨xk, ⟨b, h1, h2, h3⟩, -⟩ := (Key.sealKey_ok_iff _ _ _ _ _).1 h
    obtain ⟨h4, h5⟩ := List.append_inj h1 (by rw [Toy.key32.2, b.2])
    rw [← h5] at h
    refine ⟨w, h, v4_seal Toy.laws _ _ _ _ _ w h, ⟨b, Subtype.ext ?_⟩,
      fun e he => Toy.laws.montMul_mod e Toy.v4Secret.key he⟩
    rw [h3, scalar_eq, Toy.laws.montMulBase_mod]
    rfl
  · exact absurd (show 32 ≤ (Toy.key32.1 ++ [1]).length by simp [Toy.key32.2]) h

/-- A V3 seal and its text. -/
example : ∃ w r, (Toy.localKey .V3).sealKey Toy.v3Secret.publicKey C43.sampleRng = .ok (w, r) ∧
    w.unsealKey Toy.prims Toy.v3Secret = .ok (Toy.localKey .V3) := by
  obtain ⟨w, r, _, h1, _, _, h2⟩ := C43.seal_roundtrip Toy.laws (Toy.localKey .V3) Toy.v3Secret
    C43.sampleRng (C43.sampleRng_enough .V3)
  exact ⟨w, r, h1, h2⟩

end C44

namespace C45

theorem sealTagged_inj {epk epk' : BytesN (pkeEpkLen v)} {c c' : Bytes}
    (h : sealTagged v epk.1 c = sealTagged v epk'.1 c') : epk = epk' ∧ c = c' := by
  unfold Spec.sealTagged at h
  rw [List.append_assoc, List.append_assoc] at h
  obtain ⟨h1, h2⟩ := List.append_inj (List.append_cancel_left h) (by rw [epk.2, epk'.2])
  exact ⟨Subtype.ext h1, h2⟩

/-- Unsealing succeeds exactly when the ephemeral key decodes and the tag is the MAC of header,
ephemeral key and ciphertext under the key derived for this recipient and ephemeral key. -/
theorem authentic_iff (w : SealedKey v) (sk : Key P v .Secret) :
    (∃ key, w.unsealKey P sk = .ok key) ↔
      ∃ xk, unsealSecret P sk w.ephemeralPublicKey = some xk ∧
        w.tag.1 = Spec.mac P v (sealAuthKey P v xk w.ephemeralPublicKey.1 (sealPub P sk.publicKey))
          (Spec.sealHeader v ++ w.ephemeralPublicKey.1 ++ w.encryptedDataKey.1) := by
  rw [SealedKey.unsealKey_eq]
  cases hx : unsealSecret P sk w.ephemeralPublicKey with
  | none => simp
  | some xk =>
    simp only [Option.some.injEq, exists_eq_left']
    constructor
    · rintro ⟨key, h⟩
      split at h
      · assumption
      · simp at h
    · intro h
      have h : w.tag.1 = sealTag P v xk w.ephemeralPublicKey.1 (sealPub P sk.publicKey)
        w.encryptedDataKey.1 := h
      rw [if_pos h]
      exact ⟨_, rfl⟩

/-- There are three outcomes: a key, `CryptoError`, or (V3 with an undecodable ephemeral key) the
panic of C46. -/
theorem outcomes (w : SealedKey v) (sk : Key P v .Secret) :
    (∃ key, w.unsealKey P sk = .ok key) ∨ w.unsealKey P sk = .err .cryptoError ∨
      (w.unsealKey P sk = .panic ∧ unsealSecret P sk w.ephemeralPublicKey = none) := by
  rw [SealedKey.unsealKey_eq]
  cases hx : unsealSecret P sk w.ephemeralPublicKey with
  | none => exact .inr (.inr ⟨rfl, rfl⟩)
  | some xk =>
    dsimp only
    split
    · exact .inl ⟨_, rfl⟩
    · exact .inr (.inl rfl)

/-- Changing the tag of an accepted sealed key: always `CryptoError`. -/
theorem wrong_tag (w : SealedKey v) (sk : Key P v .Secret) (key : Key P v .Local)
    (hok : w.unsealKey P sk = .ok key) (t' : BytesN (pkeTagLen v)) (ht : t' ≠ w.tag) :
    ({ w with tag := t' } : SealedKey v).unsealKey P sk = .err .cryptoError := by
  obtain ⟨xk, h1, h2⟩ := (authentic_iff w sk).1 ⟨key, hok⟩
  rw [SealedKey.unsealKey_eq]
  dsimp only
  rw [h1]
  dsimp only
  rw [if_neg]
  intro he
  exact ht (Subtype.ext (he.trans h2.symm))

/-- Changing the ephemeral key or the ciphertext under the tag of an accepted sealed key: an error
(or the panic of C46), or the two different authenticated messages have the same MAC, each under
the key its own ephemeral key derives. -/
theorem tampered (w w' : SealedKey v) (sk : Key P v .Secret) (key : Key P v .Local)
    (hok : w.unsealKey P sk = .ok key) (ht : w'.tag = w.tag) (hne : w' ≠ w) :
    w'.unsealKey P sk = .err .cryptoError ∨ w'.unsealKey P sk = .panic ∨
      ∃ xk xk', unsealSecret P sk w.ephemeralPublicKey = some xk ∧
        unsealSecret P sk w'.ephemeralPublicKey = some xk' ∧
        sealTagged v w.ephemeralPublicKey.1 w.encryptedDataKey.1 ≠
          sealTagged v w'.ephemeralPublicKey.1 w'.encryptedDataKey.1 ∧
        Spec.mac P v (sealAuthKey P v xk w.ephemeralPublicKey.1 (sealPub P sk.publicKey))
            (sealTagged v w.ephemeralPublicKey.1 w.encryptedDataKey.1) =
          Spec.mac P v (sealAuthKey P v xk' w'.ephemeralPublicKey.1 (sealPub P sk.publicKey))
            (sealTagged v w'.ephemeralPublicKey.1 w'.encryptedDataKey.1) := by
  rcases outcomes w' sk with h | h | h
  · right; right
    obtain ⟨xk', h1', h2'⟩ := (authentic_iff w' sk).1 h
    obtain ⟨xk, h1, h2⟩ := (authentic_iff w sk).1 ⟨key, hok⟩
    refine ⟨xk, xk', h1, h1', ?_, ?_⟩
    · intro he
      obtain ⟨e1, e2⟩ := sealTagged_inj he
      have e2 : w.encryptedDataKey = w'.encryptedDataKey := Subtype.ext e2
      apply hne
      cases w; cases w'; simp_all
    · exact h2.symm.trans ((congrArg Subtype.val ht).symm.trans h2')
  · exact .inl h
  · exact .inr (.inl h.1)

/-- A sealed key accepted for one recipient and opened by another: `CryptoError`, or the keys
derived for the two recipients give the same MAC of this message. For different public keys these
keys are hashes of different inputs. -/
theorem wrong_recipient (w : SealedKey v) (sk sk' : Key P v .Secret) (key : Key P v .Local)
    (hok : w.unsealKey P sk = .ok key) :
    w.unsealKey P sk' = .err .cryptoError ∨
      ∃ xk xk', unsealSecret P sk w.ephemeralPublicKey = some xk ∧
        unsealSecret P sk' w.ephemeralPublicKey = some xk' ∧
        Spec.mac P v (sealAuthKey P v xk w.ephemeralPublicKey.1 (sealPub P sk.publicKey))
            (sealTagged v w.ephemeralPublicKey.1 w.encryptedDataKey.1) =
          Spec.mac P v (sealAuthKey P v xk' w.ephemeralPublicKey.1 (sealPub P sk'.publicKey))
            (sealTagged v w.ephemeralPublicKey.1 w.encryptedDataKey.1) ∧
        (sealPub P sk.publicKey ≠ sealPub P sk'.publicKey →
          Spec.sealKdfInput v 2 xk w.ephemeralPublicKey.1 (sealPub P sk.publicKey) ≠
            Spec.sealKdfInput v 2 xk' w.ephemeralPublicKey.1 (sealPub P sk'.publicKey)) := by
  obtain ⟨xk, h1, h2⟩ := (authentic_iff w sk).1 ⟨key, hok⟩
  rcases outcomes w sk' with h | h | ⟨_, h⟩
  · obtain ⟨xk', h1', h2'⟩ := (authentic_iff w sk').1 h
    refine .inr ⟨xk, xk', h1, h1', h2.symm.trans h2', fun hne e => hne ?_⟩
    exact (List.append_inj' (List.cons.inj e).2 (by rw [sealPub_length, sealPub_length])).2
  · exact .inl h
  · exfalso
    cases v
    · have h1 : (P.p384Parse w.ephemeralPublicKey.1).map _ = some xk := h1
      have h : (P.p384Parse w.ephemeralPublicKey.1).map _ = none := h
      rw [Option.map_eq_none_iff] at h
      rw [h] at h1
      simp at h1
    · simp [unsealSecret] at h

/-- The recipient's secret with an ephemeral key, and the MAC computation of a sealed key. -/
def macQuery (P : Prims) (sk : Key P v .Secret) (w : SealedKey v) : Option (Bytes × Bytes) :=
  (unsealSecret P sk w.ephemeralPublicKey).map fun xk =>
    (sealAuthKey P v xk w.ephemeralPublicKey.1 (sealPub P sk.publicKey),
      sealTagged v w.ephemeralPublicKey.1 w.encryptedDataKey.1)

/-- Histories: all seals made so far to one recipient. -/
inductive Sealed (P : Prims) {v : Ver} (sk : Key P v .Secret) : List (SealedKey v) → Prop
  | start : Sealed P sk []
  | add {hist} {key : Key P v .Local} {rng rng' : Rng} {w : SealedKey v} :
    Sealed P sk hist → key.sealKey sk.publicKey rng = .ok (w, rng') → Sealed P sk (w :: hist)

theorem sealed_mem {sk : Key P v .Secret} {hist : List (SealedKey v)} (h : Sealed P sk hist)
    {w : SealedKey v} (hw : w ∈ hist) :
    ∃ (key : Key P v .Local) (rng rng' : Rng), key.sealKey sk.publicKey rng = .ok (w, rng') := by
  induction h with
  | start => cases hw
  | add _ h ih =>
    rcases List.mem_cons.1 hw with rfl | hw'
    · exact ⟨_, _, _, h⟩
    · exact ih hw'

/-- After any history of seals to a recipient, a sealed key the recipient can open is one of those
made, or its tag is the MAC, under the key derived from a Diffie-Hellman secret with the recipient,
of a message that no seal in the history authenticated. -/
theorem unforgeable (L : P.Laws) (sk : Key P v .Secret) (hist : List (SealedKey v))
    (hh : Sealed P sk hist) (w : SealedKey v) (key : Key P v .Local)
    (hok : w.unsealKey P sk = .ok key) :
    w ∈ hist ∨ ∃ q, macQuery P sk w = some q ∧ w.tag.1 = Spec.mac P v q.1 q.2 ∧
      some q ∉ hist.map (macQuery P sk) := by
  obtain ⟨xk, h1, h2⟩ := (authentic_iff w sk).1 ⟨key, hok⟩
  have hq : macQuery P sk w = some (sealAuthKey P v xk w.ephemeralPublicKey.1 (sealPub P sk.publicKey),
      sealTagged v w.ephemeralPublicKey.1 w.encryptedDataKey.1) := by
    unfold macQuery; rw [h1]; rfl
  by_cases hm : macQuery P sk w ∈ hist.map (macQuery P sk)
  · left
    obtain ⟨w', hw', he⟩ := List.mem_map.1 hm
    obtain ⟨key', rng, rng', hs⟩ := sealed_mem hh hw'
    have hok' := C43.seal_roundtrip_direct L key' sk rng rng' w' hs
    obtain ⟨xk', h1', h2'⟩ := (authentic_iff w' sk).1 ⟨key', hok'⟩
    rw [hq] at he
    unfold macQuery at he
    rw [h1'] at he
    simp only [Option.map_some, Option.some.injEq, Prod.mk.injEq] at he
    obtain ⟨e1, e2⟩ := sealTagged_inj he.2
    have e2 : w'.encryptedDataKey = w.encryptedDataKey := Subtype.ext e2
    have hx : xk' = xk := by
      rw [e1, h1] at h1'
      exact (Option.some.inj h1').symm
    have e3 : w'.tag = w.tag := by
      apply Subtype.ext
      rw [h2', h2, e1, e2, hx]
    have : w' = w := by cases w; cases w'; simp_all
    rw [← this]; exact hw'
  · exact .inr ⟨_, hq, h2, by rw [← hq]; exact hm⟩

/-- What the recipient opens from the history is what was sealed. -/
theorem history_key (L : P.Laws) (sk : Key P v .Secret) (hist : List (SealedKey v))
    (hh : Sealed P sk hist) (w : SealedKey v) (hm : w ∈ hist) :
    ∃ (key : Key P v .Local) (rng rng' : Rng), key.sealKey sk.publicKey rng = .ok (w, rng') ∧
      w.unsealKey P sk = .ok key := by
  obtain ⟨key, rng, rng', h⟩ := sealed_mem hh hm
  exact ⟨key, rng, rng', h, C43.seal_roundtrip_direct L key sk rng rng' w h⟩

/-- On texts: two different texts never parse to the same sealed key, so any change to the text of
an accepted sealed key that still parses is covered by `wrong_tag` or `tampered`. -/
theorem text_tampered (s s' : Bytes) (w w' : SealedKey v) (h : SealedKey.parse v s = .ok w)
    (h' : SealedKey.parse v s' = .ok w') (hne : s' ≠ s) : w' ≠ w := by
  rintro rfl
  exact hne ((SealedKey.parse_ok_iff.1 h').trans (SealedKey.parse_ok_iff.1 h).symm)

-- a history of two seals; an accepted and a rejected sealed key
example (v : Ver) : ∃ hist : List (SealedKey v), ∃ w w' : SealedKey v,
    Sealed Toy.prims (C43.sampleSecret v) hist ∧ hist.length = 2 ∧
    w.unsealKey Toy.prims (C43.sampleSecret v) = .ok (Toy.localKey v) ∧
    w'.unsealKey Toy.prims (C43.sampleSecret v) = .err .cryptoError := by
  obtain ⟨w, r, _, h1, _, _, h2⟩ := C43.seal_roundtrip Toy.laws (Toy.localKey v) (C43.sampleSecret v)
    C43.sampleRng (C43.sampleRng_enough v)
  let t' : BytesN (pkeTagLen v) := ⟨w.tag.1.map (· + 1), by simp [w.tag.2]⟩
  have hne : t' ≠ w.tag := by
    intro h
    have h := congrArg Subtype.val h
    have hpos : 0 < w.tag.1.length := by rw [w.tag.2]; cases v <;> decide
    have := congrArg (fun l => l[0]?) h
    simp only [t', List.getElem?_map] at this
    rw [List.getElem?_eq_getElem hpos] at this
    simp only [Option.map_some, Option.some.injEq] at this
    revert this
    generalize w.tag.1[0] = x
    revert x
    apply B64.forall_uint8; decide +kernel
  exact ⟨[w, w], w, _, .add (.add .start h1) h1, rfl, h2, wrong_tag w _ _ h2 t' hne⟩

/-- The text of a sealed key that unseals, and that of another key with the same tag. -/
example (v : Ver) : ∃ (s s' : Bytes) (w w' : SealedKey v),
    SealedKey.parse v s = .ok w ∧ w.unsealKey Toy.prims (C43.sampleSecret v) = .ok (Toy.localKey v) ∧
    SealedKey.parse v s' = .ok w' ∧ s' ≠ s ∧ w'.tag = w.tag ∧ w' ≠ w := by
  obtain ⟨w, r, s, -, h0, h1, h2⟩ := C43.seal_roundtrip Toy.laws (Toy.localKey v) (C43.sampleSecret v)
    C43.sampleRng (C43.sampleRng_enough v)
  obtain ⟨b, hb⟩ : ∃ b : BytesN 32, b ≠ w.encryptedDataKey := by
    by_cases h : BytesN.fill 32 0 = w.encryptedDataKey
    · refine ⟨BytesN.fill 32 1, fun h' => ?_⟩
      have := congrArg Subtype.val (h'.trans h.symm)
      revert this
      decide
    · exact ⟨_, h⟩
  have hw : ({ w with encryptedDataKey := b } : SealedKey v) ≠ w :=
    fun h => hb (congrArg SealedKey.encryptedDataKey h)
  have h4 := SealedKey.display_eq { w with encryptedDataKey := b }
  have h3 := (C43.seal_text_iff _ _).2 h4
  refine ⟨s, _, w, _, h1, h2, h3, ?_, rfl, hw⟩
  intro h
  rw [h, h1] at h3
  exact hw (Res.ok.inj h3).symm

end C45

namespace C46

/-- Unsealing panics exactly in V3, when the ephemeral public key is not a valid SEC1 encoding. -/
theorem unseal_panic_iff (w : SealedKey v) (sk : Key P v .Secret) :
    w.unsealKey P sk = .panic ↔ v = .V3 ∧ P.p384Parse w.ephemeralPublicKey.1 = none := by
  have : w.unsealKey P sk = .panic ↔ unsealSecret P sk w.ephemeralPublicKey = none := by
    rcases C45.outcomes w sk with ⟨key, h⟩ | h | ⟨h, hx⟩
    · obtain ⟨xk, h1, _⟩ := (C45.authentic_iff w sk).1 ⟨key, h⟩
      rw [h, h1]; simp
    · rw [SealedKey.unsealKey_eq] at h ⊢
      cases hx : unsealSecret P sk w.ephemeralPublicKey with
      | none => rw [hx] at h; simp at h
      | some xk => rw [hx] at h; dsimp only at h ⊢; rw [h]; simp
    · rw [h, hx]; simp
  rw [this]
  cases v
  · simp [unsealSecret]
  · simp [unsealSecret]

/-- Every outcome of unsealing: the panic, exactly under that condition, and otherwise a key or
`CryptoError`. -/
theorem unseal_outcomes (w : SealedKey v) (sk : Key P v .Secret) :
    ((v = .V3 ∧ P.p384Parse w.ephemeralPublicKey.1 = none) ∧ w.unsealKey P sk = .panic) ∨
    (¬ (v = .V3 ∧ P.p384Parse w.ephemeralPublicKey.1 = none) ∧
      ((∃ key, w.unsealKey P sk = .ok key) ∨ w.unsealKey P sk = .err .cryptoError)) := by
  by_cases hc : v = .V3 ∧ P.p384Parse w.ephemeralPublicKey.1 = none
  · exact .inl ⟨hc, (unseal_panic_iff w sk).2 hc⟩
  · refine .inr ⟨hc, ?_⟩
    rcases C45.outcomes w sk with h | h | ⟨h, _⟩
    · exact .inl h
    · exact .inr h
    · exact absurd ((unseal_panic_iff w sk).1 h) hc

/-- V4: unsealing never panics. -/
theorem v4_unseal_total (w : SealedKey .V4) (sk : Key P .V4 .Secret) :
    (∃ key, w.unsealKey P sk = .ok key) ∨ w.unsealKey P sk = .err .cryptoError := by
  rcases unseal_outcomes w sk with ⟨h, _⟩ | ⟨_, h⟩
  · exact absurd h.1 (by simp)
  · exact h

/-- V3: the panic is reachable whenever some 49 bytes are not a point (as is the case: the leading
byte must be 2, 3 or 5): there is a text that parses and makes every unsealing panic. -/
theorem no_panic_refuted (P : Prims) (b : BytesN 49) (hb : P.p384Parse b.1 = none) :
    ∃ s w, SealedKey.parse .V3 s = .ok w ∧
      ∀ sk : Key P .V3 .Secret, w.unsealKey P sk = .panic :=
  ⟨_, ⟨BytesN.fill _ 0, b, BytesN.fill _ 0⟩, SealedKey.parse_ok_iff.2 rfl,
    fun sk => (unseal_panic_iff _ sk).2 ⟨rfl, hb⟩⟩

example : Toy.p384Parse (BytesN.fill 49 0).1 = none := by decide +kernel

-- so there is such a text
example : ∃ s w, SealedKey.parse .V3 s = .ok w ∧
    ∀ sk : Key Toy.prims .V3 .Secret, w.unsealKey Toy.prims sk = .panic :=
  no_panic_refuted Toy.prims (BytesN.fill 49 0) (by decide +kernel)

end C46
end Pasta
