import Verif.Lemmas.Wrap
import Verif.Model.Pke
import Verif.Spec.Seal

/-! # Lemmas about sealing -/

namespace Pasta

open Spec (sealPub unsealSecret paserkText sealTag sealTagged sealKdfInput sealHeader)

variable {P : Prims} {v : Ver}

theorem pkeKdfInput_eq (v : Ver) (b : UInt8) (xk epk pk : Bytes) :
    pkeKdfInput v b xk epk pk = sealKdfInput v b xk epk pk := by
  unfold pkeKdfInput Spec.sealKdfInput
  rw [← sealHeader_eq]
  simp

theorem pkeTagInput_eq (v : Ver) (epk edk : Bytes) :
    pkeTagInput v epk edk = sealTagged v epk edk := by
  unfold pkeTagInput Spec.sealTagged
  rw [← sealHeader_eq]

/-- The key stream the code uses: the specification's derived key and nonce, with the code's
counter mode in V3. -/
def pkeCodeStream (P : Prims) : (v : Ver) → (xk epk pk : Bytes) → Nat → UInt8
  | .V3, xk, epk, pk =>
    let x := BytesN.split 32 16 rfl (P.sha384 (sealKdfInput .V3 1 xk epk pk))
    P.aesCtr64 x.1 x.2
  | .V4, xk, epk, pk =>
    P.xchacha20 (P.blake2b 32 (sealKdfInput .V4 1 xk epk pk)) (P.blake2b 24 (epk ++ pk))

/-- The sealer's ephemeral key: shared secret and ephemeral public key drawn from the random
source, leaving `rng'`. -/
def SealDraw (P : Prims) : {v : Ver} → Key P v .Public → Rng → (xk epk : Bytes) → Rng → Prop
  | .V3, pk, rng, xk, epk, rng' => ∃ esk, p384Random rng = .ok (esk, rng') ∧
      xk = (P.p384Dh esk pk.key).1 ∧ epk = (P.p384Compress (P.p384Public esk)).1
  | .V4, pk, rng, xk, epk, rng' => ∃ b : BytesN 32, rng = b.1 ++ rng' ∧
      xk = (P.montMul (scalarModOrder (clampInteger b)) (P.edToMontgomery pk.key)).1 ∧
      epk = (P.montMulBase (scalarModOrder (clampInteger b))).1

theorem sealPub_length (pk : Key P v .Public) : (sealPub P pk).length = pkeEpkLen v := by
  cases v
  · exact (P.p384Compress pk.key).2
  · exact (P.edToMontgomery pk.key).2

/-! ### Clamping -/

theorem and248 : ∀ x : UInt8, (x &&& 248).toNat = 8 * (x.toNat / 8) := by
  apply B64.forall_uint8; decide +kernel

theorem clampTop : ∀ x : UInt8, ((x &&& 127) ||| 64).toNat = 64 + x.toNat % 64 := by
  apply B64.forall_uint8; decide +kernel

/-- The byte operations of `clamp_integer` are RFC 7748's `decodeScalar25519`. -/
theorem leNat_clampInteger (b : BytesN 32) :
    leNat (clampInteger b).1 = Spec.decodeScalar25519 b := by
  obtain ⟨b, hb⟩ := b
  obtain ⟨x, t, rfl⟩ : ∃ x t, b = x :: t := by
    cases b with
    | nil => simp at hb
    | cons x t => exact ⟨x, t, rfl⟩
  have ht : t.length = 31 := by simpa using hb
  obtain ⟨m, y, rfl⟩ : ∃ m y, t = m ++ [y] := by
    refine ⟨t.take 30, t[30]'(by omega), ?_⟩
    have := List.take_append_drop 30 t
    rw [List.drop_eq_getElem_cons (by omega), List.drop_of_length_le (by omega)] at this
    exact this.symm
  have hm : m.length = 30 := by simpa using ht
  have e : (clampInteger ⟨x :: (m ++ [y]), hb⟩).1 = (x &&& 248) :: (m ++ [(y &&& 127) ||| 64]) := by
    unfold clampInteger
    simp only [List.modify_zero_cons, List.modify_succ_cons]
    congr 1
    have : ∀ (f : UInt8 → UInt8), (m ++ [y]).modify m.length f = m ++ [f y] := by
      intro f
      clear hm ht hb
      induction m with
      | nil => rfl
      | cons a m ih => simp [List.modify_succ_cons, ih]
    rw [show (30 : Nat) = m.length by omega, this]
  rw [e]
  unfold Spec.decodeScalar25519
  simp only [leNat, leNat_append, hm, and248, clampTop]
  have hx := x.toNat_lt
  have hy := y.toNat_lt
  have hM := leNat_lt m
  rw [hm] at hM
  generalize leNat m = M at *
  generalize x.toNat = X at *
  generalize y.toNat = Y at *
  omega

theorem scalar_eq (b : BytesN 32) :
    scalarModOrder (clampInteger b) = Spec.decodeScalar25519 b % ed25519Order := by
  unfold scalarModOrder
  rw [leNat_clampInteger]

theorem edScalar_eq (seed : BytesN 32) :
    P.edScalar seed = Spec.decodeScalar25519 (P.edSecretHalf seed) % ed25519Order :=
  scalar_eq _

theorem Key.sealKey_ok_iff (key : Key P v .Local) (pk : Key P v .Public) (rng rng' : Rng)
    (w : SealedKey v) :
    key.sealKey pk rng = .ok (w, rng') ↔
      ∃ xk, SealDraw P pk rng xk w.ephemeralPublicKey.1 rng' ∧
        w.encryptedDataKey =
          applyKeystreamN (pkeCodeStream P v xk w.ephemeralPublicKey.1 (sealPub P pk)) key.key ∧
        w.tag.1 = sealTag P v xk w.ephemeralPublicKey.1 (sealPub P pk) w.encryptedDataKey.1 := by
  obtain ⟨tag, epk, edk⟩ := w
  cases v
  · show sealV3 P key pk rng = _ ↔ _
    unfold sealV3
    dsimp only
    rw [Res.bind_eq_ok]
    constructor
    · rintro ⟨⟨esk, r⟩, h1, h2⟩
      simp only [Prims.hmac, Res.ok_bind, Res.pure_def, Res.ok.injEq, Prod.mk.injEq,
        pkeKdfInput_eq, pkeTagInput_eq] at h2
      obtain ⟨⟨rfl, rfl, rfl⟩, rfl⟩ := h2
      exact ⟨_, ⟨esk, h1, rfl, rfl⟩, rfl, rfl⟩
    · rintro ⟨xk, ⟨esk, h1, rfl, h2⟩, h3, h4⟩
      refine ⟨(esk, rng'), h1, ?_⟩
      have h2 : epk = P.p384Compress (P.p384Public esk) := Subtype.ext h2
      subst h2
      simp only [Prims.hmac, Res.ok_bind, Res.pure_def, Res.ok.injEq, Prod.mk.injEq,
        pkeKdfInput_eq, pkeTagInput_eq, and_true]
      subst h3
      congr 1
      exact Subtype.ext h4.symm
  · show sealV4 P key pk rng = _ ↔ _
    unfold sealV4
    dsimp only
    rw [Res.bind_eq_ok]
    have hmac : ∀ (ak : BytesN 32) (m : Bytes), P.blakeMac 32 ak.1 m = .ok (P.blake2bMac 32 ak.1 m) := by
      intro ak m; unfold Prims.blakeMac; rw [if_pos (by rw [ak.2]; decide)]
    constructor
    · rintro ⟨⟨b, r⟩, h1, h2⟩
      rw [fillBytes_eq_ok] at h1
      simp only [hmac, Res.ok_bind, Res.pure_def, Res.ok.injEq, Prod.mk.injEq,
        pkeKdfInput_eq, pkeTagInput_eq] at h2
      obtain ⟨⟨rfl, rfl, rfl⟩, rfl⟩ := h2
      exact ⟨_, ⟨b, h1, rfl, rfl⟩, rfl, rfl⟩
    · rintro ⟨xk, ⟨b, h1, rfl, h2⟩, h3, h4⟩
      refine ⟨(b, rng'), fillBytes_eq_ok.2 h1, ?_⟩
      have h2 : epk = P.montMulBase (scalarModOrder (clampInteger b)) := Subtype.ext h2
      subst h2
      simp only [hmac, Res.ok_bind, Res.pure_def, Res.ok.injEq, Prod.mk.injEq,
        pkeKdfInput_eq, pkeTagInput_eq, and_true]
      subst h3
      congr 1
      exact Subtype.ext h4.symm

/-- Unsealing: decode the ephemeral key (or panic), check the tag, decrypt. -/
theorem SealedKey.unsealKey_eq (w : SealedKey v) (sk : Key P v .Secret) :
    w.unsealKey P sk =
      match unsealSecret P sk w.ephemeralPublicKey with
      | none => .panic
      | some xk =>
        if w.tag.1 = sealTag P v xk w.ephemeralPublicKey.1 (sealPub P sk.publicKey)
            w.encryptedDataKey.1 then
          .ok ⟨applyKeystreamN (pkeCodeStream P v xk w.ephemeralPublicKey.1
            (sealPub P sk.publicKey)) w.encryptedDataKey⟩
        else .err .cryptoError := by
  cases v
  · show unsealV3 P w sk = _
    unfold unsealV3 unsealSecret
    dsimp only
    cases hp : P.p384Parse w.ephemeralPublicKey.1 with
    | none => simp [Res.unwrap_none]
    | some e =>
      simp only [Res.unwrap_some, Res.ok_bind, Prims.hmac, Option.map_some, pkeKdfInput_eq,
        pkeTagInput_eq, Res.pure_def]
      by_cases hc : w.tag.1 = (P.hmacSha384 (P.sha384 (sealKdfInput .V3 2 (P.p384Dh sk.key e).1
          w.ephemeralPublicKey.1 (P.p384Compress (P.p384Public sk.key)).1)).1
          (sealTagged .V3 w.ephemeralPublicKey.1 w.encryptedDataKey.1)).1
      · rw [if_neg (by rw [← hc, ctNe_self]; simp), if_pos (show _ = sealTag _ _ _ _ _ _ from hc)]
        rfl
      · rw [if_pos (ctNe_eq_true.2 hc), if_neg (show ¬ _ = sealTag _ _ _ _ _ _ from hc)]
  · show unsealV4 P w sk = _
    have hs : unsealSecret P sk w.ephemeralPublicKey =
        some (P.montMul (P.edScalar sk.key) w.ephemeralPublicKey).1 := by
      rw [edScalar_eq]; rfl
    rw [hs]
    unfold unsealV4
    have hmac : ∀ (ak : BytesN 32) (m : Bytes), P.blakeMac 32 ak.1 m = .ok (P.blake2bMac 32 ak.1 m) := by
      intro ak m; unfold Prims.blakeMac; rw [if_pos (by rw [ak.2]; decide)]
    simp only [hmac, Res.ok_bind, pkeKdfInput_eq, pkeTagInput_eq, Res.pure_def]
    have epk : BytesN 32 := w.ephemeralPublicKey
    by_cases hc : w.tag.1 = sealTag P .V4 (P.montMul (P.edScalar sk.key) w.ephemeralPublicKey).1
        w.ephemeralPublicKey.1 (sealPub P sk.publicKey) w.encryptedDataKey.1
    · rw [if_pos hc]
      refine Eq.trans (if_neg ?_) rfl
      intro h
      exact ctNe_eq_true.1 h hc
    · rw [if_neg hc]
      exact if_pos (ctNe_eq_true.2 hc)

/-- The data part of a sealed key. -/
def SealedKey.data (w : SealedKey v) : Bytes :=
  w.tag.1 ++ w.ephemeralPublicKey.1 ++ w.encryptedDataKey.1

theorem SealedKey.display_eq (w : SealedKey v) :
    w.display = .ok (paserkText v (asc "seal") w.data) := by
  unfold SealedKey.display
  rw [writeB64_eq]
  simp only [Res.ok_bind, Res.pure_def, sealHeader_eq]
  rfl

theorem SealedKey.parse_eq (v : Ver) (s : Bytes) :
    SealedKey.parse v s =
      (Res.okOr .invalidToken (stripPrefix (sealHeader v) s) >>= fun s =>
        readB64 (pkeTotalLen v) s >>= fun total => .ok (SealedKey.splitTotal total)) := by
  unfold SealedKey.parse
  rw [← sealHeader_eq, strip_bind_strip]
  rfl

theorem SealedKey.parse_ok_iff {s : Bytes} {w : SealedKey v} :
    SealedKey.parse v s = .ok w ↔ s = paserkText v (asc "seal") w.data := by
  rw [SealedKey.parse_eq]
  show (Res.okOr .invalidToken (stripPrefix (Spec.paserkHeader v (asc "seal")) s) >>= _) = _ ↔ _
  rw [strip_read]
  constructor
  · rintro ⟨b, hs, hf⟩
    simp only [Res.ok.injEq] at hf
    rw [hs, ← hf]
    unfold Spec.paserkText SealedKey.data SealedKey.splitTotal
    congr 2
    have h1 := congrArg Subtype.val (BytesN.append_split (pkeTotalLen_eq v) b)
    have h2 := congrArg Subtype.val (BytesN.append_split (k := pkeEpkLen v + 32) rfl
      (BytesN.split (pkeTagLen v) (pkeEpkLen v + 32) (pkeTotalLen_eq v) b).2)
    simp only [BytesN.append_val] at h1 h2
    dsimp only
    rw [List.append_assoc, h2, h1]
  · intro h
    refine ⟨BytesN.append (pkeTotalLen v) (pkeTotalLen_eq v) w.tag
      (BytesN.append (pkeEpkLen v + 32) rfl w.ephemeralPublicKey w.encryptedDataKey), ?_, ?_⟩
    · rw [h]; simp [SealedKey.data, BytesN.append, Spec.paserkText]
    · unfold SealedKey.splitTotal
      simp only [BytesN.split_append]

theorem scalarModOrder_lt (b : BytesN 32) : scalarModOrder b < 2 ^ 255 := by
  have h : scalarModOrder b < ed25519Order := Nat.mod_lt _ (by decide)
  exact Nat.lt_trans h (by decide)

theorem decodeScalar25519_lt (b : BytesN 32) : Spec.decodeScalar25519 b < 2 ^ 255 := by
  unfold Spec.decodeScalar25519
  have : leNat b.1 % 2 ^ 254 < 2 ^ 254 := Nat.mod_lt _ (by decide)
  omega

end Pasta
