import Verif.Spec.Secrecy
import Verif.Lemmas.Pbkw
import Verif.Lemmas.Pke

/-! # Lemmas about the left-or-right game -/

namespace Pasta

open Spec (header paserkText tokenText pieType pwType)

variable {P : Prims}

theorem Prims.withCiphers_self (P : Prims) : P.withCiphers P.ciphers = P := rfl

theorem Key.under_toBytes (c : Ciphers) {v : Ver} {k : Kind} (x : Key P v k) :
    (x.under c).toBytes = x.toBytes := by cases v <;> cases k <;> rfl

theorem Key.under_local (c : Ciphers) {v : Ver} (x : Key P v .Local) :
    (x.under c).key = x.key := by cases v <;> rfl

/-- Every operation is: a fixed cipher key and IV, the key stream applied to the secret, and a text
in which the ciphers play no further part. -/
def Act.Core (a : Act P) (rng : Rng) (ek : BytesN 32) (iv : BytesN (ivLen a.ver)) : Prop :=
  ∃ Shape : Bytes → Bytes → Rng → Prop, ∀ c s text r,
    a.run c s rng = .ok (text, r) ↔
      ∃ m, a.secret s = .ok m ∧
        Shape (applyKeystream (stream (P.withCiphers c) a.ver ek iv) m) text r

theorem fillBytes_unique {n m r r' : Bytes} (hn : n.length = m.length) (h : n ++ r = m ++ r') :
    n = m ∧ r = r' := List.append_inj h hn

/-- Cipher key and IV of a local token. -/
def encPair (P : Prims) : (v : Ver) → BytesN 32 → Bytes → BytesN 32 × BytesN (ivLen v)
  | .V3, k, n => Spec.v3EncKey P k n
  | .V4, k, n => Spec.v4EncKey P k n

/-- Cipher key and IV of a PIE-wrapped key. -/
def piePair (P : Prims) : (v : Ver) → BytesN 32 → Bytes → BytesN 32 × BytesN (ivLen v)
  | .V3, k, n => Spec.v3PieEnc P k n
  | .V4, k, n => Spec.v4PieEnc P k n

theorem codeStream_pair (c : Ciphers) (v : Ver) (k : BytesN 32) (n : Bytes) :
    codeStream (P.withCiphers c) v k n =
      stream (P.withCiphers c) v (encPair P v k n).1 (encPair P v k n).2 := by cases v <;> rfl

theorem pieCodeStream_pair (c : Ciphers) (v : Ver) (k : BytesN 32) (n : Bytes) :
    pieCodeStream (P.withCiphers c) v k n =
      stream (P.withCiphers c) v (piePair P v k n).1 (piePair P v k n).2 := by cases v <;> rfl

theorem localMac_withCiphers (c : Ciphers) (v : Ver) :
    Spec.localMac (P.withCiphers c) v = Spec.localMac P v := by cases v <;> rfl

theorem localAuthKey_withCiphers (c : Ciphers) (v : Ver) :
    Spec.localAuthKey (P.withCiphers c) v = Spec.localAuthKey P v := by cases v <;> rfl

theorem pieTag_withCiphers (c : Ciphers) (v : Ver) :
    Spec.pieTag (P.withCiphers c) v = Spec.pieTag P v := by cases v <;> rfl

theorem pwKey_withCiphers (c : Ciphers) {v : Ver} (p : Spec.PwParams v) :
    Spec.pwKey (P.withCiphers c) p = Spec.pwKey P p := by cases p <;> rfl

theorem pwEncKey_withCiphers (c : Ciphers) (v : Ver) :
    Spec.pwEncKey (P.withCiphers c) v = Spec.pwEncKey P v := by cases v <;> rfl

theorem pwTag_withCiphers (c : Ciphers) {v : Ver} (k : Kind) (pw s : Bytes) (p : Spec.PwParams v) :
    Spec.pwTag (P.withCiphers c) k pw s p = Spec.pwTag P k pw s p := by cases p <;> rfl

theorem token_core {v : Ver} {M F E : Type} (iP : Payload E) (iM : MessageEncoding E M)
    (iF : Footer F) (encoding : Side → E) (message : Side → M) (footer : F) (key : Key P v .Local)
    (i : Bytes) (rng : Rng) :
    (Act.token v M F E iP iM iF encoding message footer key i).Core rng
      (encPair P v key.key (rng.take 32)).1 (encPair P v key.key (rng.take 32)).2 := by
  refine ⟨fun ct text r => ∃ n f, n.length = 32 ∧ rng = n ++ r ∧ Footer.encode footer = some f ∧
    text = tokenText (header v .Local (Payload.suffix E)) (n ++ ct ++
      Spec.localMac P v (Spec.localAuthKey P v key.key n)
        (localPreAuth v (Payload.suffix E) n ct f i)) f, ?_⟩
  intro c s text r
  unfold Act.run Act.secret
  simp only [Res.bind_eq_ok, Res.pure_def, Res.ok.injEq, Prod.mk.injEq, Prod.exists, encrypt_ok_iff,
    Key.under_local, codeStream_pair, localMac_withCiphers, localAuthKey_withCiphers]
  constructor
  · rintro ⟨tok, r', ⟨n, m, f, hn, rfl, hm, hf, rfl⟩, rfl, rfl⟩
    have e : (n ++ r').take 32 = n := by simp [← hn]
    refine ⟨m, hm, n, f, hn, rfl, hf, ?_⟩
    rw [e, SecuredToken.display_eq]
    rfl
  · rintro ⟨m, hm, n, f, hn, rfl, hf, rfl⟩
    have e : (n ++ r).take 32 = n := by simp [← hn]
    refine ⟨_, r, ⟨n, m, f, hn, rfl, hm, hf, rfl⟩, ?_, rfl⟩
    rw [e, SecuredToken.display_eq]
    rfl

theorem pie_core {v : Ver} {k : WKind} (hidden : Side → Key P v k.kind) (wk : Key P v .Local)
    (rng : Rng) :
    (Act.pie v k hidden wk).Core rng
      (piePair P v wk.key (rng.take 32)).1 (piePair P v wk.key (rng.take 32)).2 := by
  refine ⟨fun ct text r => ∃ w : PieWrappedKey v k, rng = w.nonce.1 ++ r ∧ w.wrappedKey.1 = ct ∧
    w.tag.1 = Spec.pieTag P v k.kind wk.key w.nonce.1 ct ∧
    text = paserkText v (pieType k.kind) w.data, ?_⟩
  intro c s text r
  unfold Act.run Act.secret
  simp only [Res.bind_eq_ok, Res.pure_def, Res.ok.injEq, Prod.mk.injEq, Prod.exists,
    Key.wrapPie_ok_iff, Key.under_local, Key.under_toBytes, pieCodeStream_pair, pieTag_withCiphers,
    PieWrappedKey.display_eq]
  constructor
  · rintro ⟨w, r', ⟨rfl, h2, h3⟩, _, rfl, rfl, rfl⟩
    have e : (w.nonce.1 ++ r').take 32 = w.nonce.1 := by
      rw [List.take_append_of_le_length (by rw [w.nonce.2]; exact Nat.le_refl _),
        List.take_of_length_le (by rw [w.nonce.2]; exact Nat.le_refl _)]
    rw [e]
    have h2' := congrArg Subtype.val h2
    exact ⟨_, rfl, w, rfl, h2', by rw [h3, h2']; rfl, rfl⟩
  · rintro ⟨m, hm, w, rfl, h2, h3, rfl⟩
    cases hm
    have e : (w.nonce.1 ++ r).take 32 = w.nonce.1 := by
      rw [List.take_append_of_le_length (by rw [w.nonce.2]; exact Nat.le_refl _),
        List.take_of_length_le (by rw [w.nonce.2]; exact Nat.le_refl _)]
    rw [e] at h2 h3
    exact ⟨w, r, ⟨rfl, Subtype.ext h2, by rw [h2]; exact h3⟩, _, rfl, rfl, rfl⟩

theorem pw_core {v : Ver} {k : WKind} (hidden : Side → Key P v k.kind) (pw : Bytes)
    (st : KdfState v) (rng : Rng) (salt : BytesN (pwSaltLen v)) (n : BytesN (ivLen v)) (r0 : Rng)
    (hr : rng = salt.1 ++ n.1 ++ r0) :
    (Act.pw v k hidden pw st).Core rng
      (Spec.pwEncKey P v (Spec.pwKey P (specParams st) pw salt.1)) n := by
  refine ⟨fun ct text r => ∃ w : PwWrappedKey v k, KdfOk st pw ∧ w.salt = salt ∧ w.nonce = n ∧
    r = r0 ∧ w.state = st ∧ w.edk.1 = ct ∧
    w.tag.1 = Spec.pwTag P k.kind pw salt.1 (specParams st) n.1 ct ∧
    text = paserkText v (pwType k.kind) (w.dataWith (specParams w.state).encode), ?_⟩
  intro c s text r
  unfold Act.run Act.secret
  simp only [Res.bind_eq_ok, Res.pure_def, Res.ok.injEq, Prod.mk.injEq, Prod.exists,
    Key.pwWrap_ok_iff, Key.under_toBytes, pwTag_withCiphers, PwWrappedKey.display_eq, pwCodeStream,
    pwKey_withCiphers, pwEncKey_withCiphers]
  constructor
  · rintro ⟨w, r', ⟨hk, h1, h2, h3, h4⟩, _, rfl, rfl, rfl⟩
    rw [hr] at h1
    obtain ⟨h5, h6⟩ := List.append_inj h1 (by simp [salt.2, n.2, w.salt.2, w.nonce.2])
    obtain ⟨h7, h8⟩ := List.append_inj h5 (by simp [salt.2, w.salt.2])
    have h7 : w.salt = salt := Subtype.ext h7.symm
    have h8 : w.nonce = n := Subtype.ext h8.symm
    rw [h7, h8] at h3 h4
    have h3' := congrArg Subtype.val h3
    exact ⟨_, rfl, w, hk, h7, h8, h6.symm, h2, h3', by rw [h4, h3']; rfl, rfl⟩
  · rintro ⟨m, hm, w, hk, rfl, rfl, rfl, h2, h3, h4, rfl⟩
    cases hm
    exact ⟨w, r, ⟨hk, hr, h2, Subtype.ext h3, by rw [h3]; exact h4⟩, _, rfl, rfl, rfl⟩

theorem sealing_core_v3 (hidden : Side → Key P .V3 .Local) (pk : Key P .V3 .Public) (rng r0 : Rng)
    (esk : P384Scalar) (hr : p384Random rng = .ok (esk, r0)) :
    (Act.sealing .V3 hidden pk).Core rng
      (BytesN.split 32 16 rfl (P.sha384 (Spec.sealKdfInput .V3 1 (P.p384Dh esk pk.key).1
        (P.p384Compress (P.p384Public esk)).1 (P.p384Compress pk.key).1))).1
      (BytesN.split 32 16 rfl (P.sha384 (Spec.sealKdfInput .V3 1 (P.p384Dh esk pk.key).1
        (P.p384Compress (P.p384Public esk)).1 (P.p384Compress pk.key).1))).2 := by
  refine ⟨fun ct text r => ∃ w : SealedKey .V3, r = r0 ∧
    w.ephemeralPublicKey.1 = (P.p384Compress (P.p384Public esk)).1 ∧ w.encryptedDataKey.1 = ct ∧
    w.tag.1 = Spec.sealTag P .V3 (P.p384Dh esk pk.key).1 (P.p384Compress (P.p384Public esk)).1
      (P.p384Compress pk.key).1 ct ∧
    text = paserkText .V3 (asc "seal") w.data, ?_⟩
  intro c s text r
  unfold Act.run Act.secret
  simp only [Res.bind_eq_ok, Res.pure_def, Res.ok.injEq, Prod.mk.injEq, Prod.exists,
    Key.sealKey_ok_iff, SealedKey.display_eq, SealDraw]
  constructor
  · rintro ⟨w, r', ⟨xk, ⟨e, h1, rfl, h2⟩, h3, h4⟩, _, rfl, rfl, rfl⟩
    rw [hr] at h1
    cases h1
    rw [h2] at h3 h4
    have h3' := congrArg Subtype.val h3
    exact ⟨_, rfl, w, rfl, h2, h3', by rw [h4, h3']; rfl, rfl⟩
  · rintro ⟨m, hm, w, rfl, h2, h3, h4, rfl⟩
    cases hm
    refine ⟨w, r, ⟨_, ⟨esk, hr, rfl, h2⟩, Subtype.ext ?_, ?_⟩, _, rfl, rfl, rfl⟩
    · rw [h2, h3]; rfl
    · rw [h2, h3]; exact h4

theorem sealing_core_v4 (hidden : Side → Key P .V4 .Local) (pk : Key P .V4 .Public) (rng r0 : Rng)
    (b : BytesN 32) (hr : rng = b.1 ++ r0) :
    let e := scalarModOrder (clampInteger b)
    (Act.sealing .V4 hidden pk).Core rng
      (P.blake2b 32 (Spec.sealKdfInput .V4 1 (P.montMul e (P.edToMontgomery pk.key)).1
        (P.montMulBase e).1 (P.edToMontgomery pk.key).1))
      (P.blake2b 24 ((P.montMulBase e).1 ++ (P.edToMontgomery pk.key).1)) := by
  intro e
  refine ⟨fun ct text r => ∃ w : SealedKey .V4, r = r0 ∧
    w.ephemeralPublicKey.1 = (P.montMulBase e).1 ∧ w.encryptedDataKey.1 = ct ∧
    w.tag.1 = Spec.sealTag P .V4 (P.montMul e (P.edToMontgomery pk.key)).1 (P.montMulBase e).1
      (P.edToMontgomery pk.key).1 ct ∧
    text = paserkText .V4 (asc "seal") w.data, ?_⟩
  intro c s text r
  unfold Act.run Act.secret
  simp only [Res.bind_eq_ok, Res.pure_def, Res.ok.injEq, Prod.mk.injEq, Prod.exists,
    Key.sealKey_ok_iff, SealedKey.display_eq, SealDraw]
  constructor
  · rintro ⟨w, r', ⟨xk, ⟨b', h1, rfl, h2⟩, h3, h4⟩, _, rfl, rfl, rfl⟩
    rw [hr] at h1
    obtain ⟨h5, h6⟩ := List.append_inj h1 (by simp [b.2, b'.2])
    have h5 : b' = b := Subtype.ext h5.symm
    subst h5
    rw [h2] at h3 h4
    have h3' := congrArg Subtype.val h3
    exact ⟨_, rfl, w, h6.symm, h2, h3', by rw [h4, h3']; rfl, rfl⟩
  · rintro ⟨m, hm, w, rfl, h2, h3, h4, rfl⟩
    cases hm
    refine ⟨w, r, ⟨_, ⟨b, hr, rfl, h2⟩, Subtype.ext ?_, ?_⟩, _, rfl, rfl, rfl⟩
    · rw [h2, h3]; rfl
    · rw [h2, h3]; exact h4

/-- A successful operation has a cipher key, and everything goes through it. -/
theorem Act.core (a : Act P) (rng : Rng) (c0 : Ciphers) (s0 : Side) (x0 : Bytes × Rng)
    (h : a.run c0 s0 rng = .ok x0) :
    ∃ ek iv, a.cipherKey rng = some ek ∧ a.Core rng ek iv := by
  cases a with
  | token v M F E iP iM iF encoding message footer key i =>
    refine ⟨_, _, ?_, token_core iP iM iF encoding message footer key i rng⟩
    cases v <;> rfl
  | pie v k hidden wk =>
    refine ⟨_, _, ?_, pie_core hidden wk rng⟩
    cases v <;> rfl
  | pw v k hidden pw st =>
    obtain ⟨t0, r0⟩ := x0
    unfold Act.run at h
    simp only [Res.bind_eq_ok, Res.pure_def, Res.ok.injEq, Prod.mk.injEq, Prod.exists,
      Key.pwWrap_ok_iff] at h
    obtain ⟨w, r, ⟨-, h, -⟩, -⟩ := h
    refine ⟨_, _, ?_, pw_core hidden pw st rng w.salt w.nonce r h⟩
    have e : rng.take (pwSaltLen v) = w.salt.1 := by
      rw [h, List.append_assoc, List.take_append_of_le_length (by rw [w.salt.2]; exact Nat.le_refl _),
        List.take_of_length_le (by rw [w.salt.2]; exact Nat.le_refl _)]
    rw [← e]
    cases v <;> rfl
  | sealing v hidden pk =>
    obtain ⟨t0, r0⟩ := x0
    unfold Act.run at h
    simp only [Res.bind_eq_ok, Res.pure_def, Res.ok.injEq, Prod.mk.injEq, Prod.exists,
      Key.sealKey_ok_iff] at h
    obtain ⟨w, r, ⟨xk, h, -⟩, -⟩ := h
    cases v with
    | V3 =>
      obtain ⟨esk, h, -⟩ := h
      refine ⟨_, _, ?_, sealing_core_v3 hidden pk rng r esk h⟩
      simp only [Act.cipherKey, h]
    | V4 =>
      obtain ⟨b, h, -⟩ := h
      refine ⟨_, _, ?_, sealing_core_v4 hidden pk rng r b h⟩
      simp only [Act.cipherKey, fillBytes_eq_ok.2 h]

/-! ## Shifting a key stream -/

theorem ctr64Block_index (iv : BytesN 16) (j : Nat) (hj : j < 2 ^ 64) :
    (beNat ((Prims.ctr64Block iv j).drop 8) + 2 ^ 64 - beNat (iv.1.drop 8)) % 2 ^ 64 = j := by
  have e : (Prims.ctr64Block iv j).drop 8 = beBytes 8 (beNat (iv.1.drop 8) + j) := by
    unfold Prims.ctr64Block
    rw [List.drop_append_of_le_length (by rw [take8_length]; exact Nat.le_refl _),
      List.drop_of_length_le (by rw [take8_length]; exact Nat.le_refl _), List.nil_append]
  rw [e, beNat_beBytes]
  have := beNat_lt (iv.1.drop 8)
  rw [drop8_length] at this
  have h2 : (256 : Nat) ^ 8 = 2 ^ 64 := by decide
  rw [h2] at this ⊢
  omega

/-- AES with the key stream under `ek` and `iv` shifted by `d`. -/
def shiftAes (P : Prims) (ek : BytesN 32) (iv : BytesN 16) (d : Nat → UInt8) (k : BytesN 32)
    (b : BytesN 16) : BytesN 16 :=
  if k = ek then
    ⟨(P.aes256 k b).1.mapIdx fun r x =>
      x ^^^ d (16 * ((beNat (b.1.drop 8) + 2 ^ 64 - beNat (iv.1.drop 8)) % 2 ^ 64) + r), by
      simp [(P.aes256 k b).2]⟩
  else P.aes256 k b

/-- XChaCha20 with the key stream under `ek` shifted by `d`. -/
def shiftXchacha (P : Prims) (ek : BytesN 32) (d : Nat → UInt8) (k : BytesN 32) (n : BytesN 24)
    (i : Nat) : UInt8 :=
  if k = ek then P.xchacha20 k n i ^^^ d i else P.xchacha20 k n i

theorem exists_shift (P : Prims) (v : Ver) (ek : BytesN 32) (iv : BytesN (ivLen v))
    (d : Nat → UInt8) :
    ∃ c : Ciphers, (∀ x, x ≠ (v, ek) → c.AgreeAt P.ciphers x) ∧
      ∀ i, i < 2 ^ 64 → stream (P.withCiphers c) v ek iv i = stream P v ek iv i ^^^ d i := by
  cases v with
  | V4 =>
    refine ⟨⟨P.aes256, shiftXchacha P ek d⟩, ?_, ?_⟩
    · rintro ⟨v, k⟩ hx
      cases v with
      | V3 => rfl
      | V4 =>
        have : k ≠ ek := fun e => hx (by rw [e])
        funext n i
        simp [shiftXchacha, this, Prims.ciphers]
    · intro i _
      simp [stream, Prims.withCiphers, shiftXchacha]
  | V3 =>
    refine ⟨⟨shiftAes P ek iv d, P.xchacha20⟩, ?_, ?_⟩
    · rintro ⟨v, k⟩ hx
      cases v with
      | V4 => rfl
      | V3 =>
        have : k ≠ ek := fun e => hx (by rw [e])
        funext n
        simp [shiftAes, this, Prims.ciphers]
    · intro i hi
      have hj : i / 16 < 2 ^ 64 := by omega
      have hl : ∀ b, i % 16 < (P.aes256 ek b).1.length := by
        intro b; rw [(P.aes256 ek b).2]; omega
      have he : 16 * (i / 16) + i % 16 = i := by omega
      show (P.withCiphers _).aesCtr64 ek iv i = P.aesCtr64 ek iv i ^^^ d i
      unfold Prims.aesCtr64
      simp only [Prims.withCiphers, shiftAes, if_true]
      rw [List.getElem?_mapIdx, List.getElem?_eq_getElem (hl _)]
      simp only [Option.map_some, Option.getD_some]
      rw [ctr64Block_index iv _ hj, he]

theorem xor_shift (x y k : UInt8) : y ^^^ (k ^^^ (x ^^^ y)) = x ^^^ k := by
  rw [← UInt8.xor_assoc k x y, UInt8.xor_comm (k ^^^ x) y, ← UInt8.xor_assoc y y, UInt8.xor_self,
    UInt8.zero_xor, UInt8.xor_comm]

theorem stream_agree {c d : Ciphers} {v : Ver} {ek : BytesN 32} (h : c.AgreeAt d (v, ek))
    (iv : BytesN (ivLen v)) :
    stream (P.withCiphers c) v ek iv = stream (P.withCiphers d) v ek iv := by
  cases v with
  | V3 =>
    have h : c.aes ek = d.aes ek := h
    funext i
    simp only [stream, Prims.aesCtr64, Prims.withCiphers, h]
  | V4 =>
    have h : c.xchacha ek = d.xchacha ek := h
    funext i
    simp only [stream, Prims.withCiphers, h]

/-- An operation uses the ciphers only under its own cipher key. -/
theorem Act.run_local (a : Act P) (rng : Rng) (c d : Ciphers) (s : Side) (x : Bytes × Rng)
    (h : a.run c s rng = .ok x) (hk : ∀ k, a.cipherKey rng = some k → d.AgreeAt c (a.ver, k)) :
    a.run d s rng = .ok x := by
  obtain ⟨ek, iv, h1, Shape, h2⟩ := a.core rng c s x h
  rw [h2] at h ⊢
  rwa [stream_agree (hk ek h1)]

/-- One operation: the other candidate gives the same text with the ciphers changed under its own
cipher key. -/
theorem Act.run_swap (a : Act P) (rng : Rng) (x : Bytes × Rng) (ha : a.Comparable)
    (h : a.run P.ciphers .left rng = .ok x) :
    ∃ k c, a.cipherKey rng = some k ∧ (∀ y, y ≠ (a.ver, k) → Ciphers.AgreeAt c P.ciphers y) ∧
      a.run c .right rng = .ok x := by
  obtain ⟨ek, iv, h1, Shape, h2⟩ := a.core rng _ _ x h
  obtain ⟨m, m', e1, e2, hl, hf⟩ := ha
  obtain ⟨c, hc, hs⟩ := exists_shift P a.ver ek iv
    (fun i => m[i]?.getD 0 ^^^ m'[i]?.getD 0)
  refine ⟨ek, c, h1, hc, ?_⟩
  rw [h2] at h ⊢
  obtain ⟨m0, e0, h⟩ := h
  rw [e1] at e0
  cases e0
  refine ⟨m', e2, ?_⟩
  have : applyKeystream (stream (P.withCiphers c) a.ver ek iv) m' =
      applyKeystream (stream (P.withCiphers P.ciphers) a.ver ek iv) m := by
    unfold applyKeystream
    apply List.ext_getElem
    · simp [hl]
    · intro i h1 h2
      simp only [List.length_mapIdx] at h1 h2
      have hf : m.length < 2 ^ 63 := hf
      simp only [List.getElem_mapIdx]
      rw [hs i (by omega), List.getElem?_eq_getElem h2, List.getElem?_eq_getElem h1]
      exact xor_shift _ _ _
  rwa [this]

/-- Which random bytes are left does not depend on candidates or ciphers. -/
theorem Act.cipherKeys_cons (a : Act P) (as : List (Act P)) (rng rng' : Rng) (t : Bytes)
    (k : BytesN 32) (hk : a.cipherKey rng = some k)
    (h : a.run P.ciphers .left rng = .ok (t, rng')) :
    Act.cipherKeys (a :: as) rng = (a.ver, k) :: Act.cipherKeys as rng' := by
  simp only [Act.cipherKeys, hk, h]

theorem Ciphers.AgreeAt.refl (c : Ciphers) (y : Ver × BytesN 32) : c.AgreeAt c y := by
  obtain ⟨v, k⟩ := y
  cases v <;> rfl

theorem Ciphers.AgreeAt.trans {c d e : Ciphers} {y : Ver × BytesN 32} (h : c.AgreeAt d y)
    (h' : d.AgreeAt e y) : c.AgreeAt e y := by
  obtain ⟨v, k⟩ := y
  cases v
  · exact Eq.trans (b := d.aes k) h h'
  · exact Eq.trans (b := d.xchacha k) h h'

/-- `c` under the key `x` and `d` elsewhere. -/
def Ciphers.merge (x : Ver × BytesN 32) (c d : Ciphers) : Ciphers where
  aes k := if (Ver.V3, k) = x then c.aes k else d.aes k
  xchacha k := if (Ver.V4, k) = x then c.xchacha k else d.xchacha k

theorem Ciphers.merge_at (x : Ver × BytesN 32) (c d : Ciphers) :
    (Ciphers.merge x c d).AgreeAt c x := by
  obtain ⟨v, k⟩ := x
  cases v
  · show (if _ then _ else _) = _
    rw [if_pos rfl]
  · show (if _ then _ else _) = _
    rw [if_pos rfl]

theorem Ciphers.merge_off (x y : Ver × BytesN 32) (c d : Ciphers) (h : y ≠ x) :
    (Ciphers.merge x c d).AgreeAt d y := by
  obtain ⟨v, k⟩ := y
  cases v
  · show (if _ then _ else _) = _
    rw [if_neg h]
  · show (if _ then _ else _) = _
    rw [if_neg h]

theorem Act.runAll_swap (as : List (Act P)) (rng : Rng) (x : List Bytes × Rng)
    (h : Act.runAll P.ciphers .left as rng = .ok x) (hcmp : ∀ a ∈ as, a.Comparable)
    (hnd : (Act.cipherKeys as rng).Nodup) :
    ∃ c : Ciphers, (∀ y, y ∉ Act.cipherKeys as rng → c.AgreeAt P.ciphers y) ∧
      ∀ d : Ciphers, (∀ y ∈ Act.cipherKeys as rng, d.AgreeAt c y) →
        Act.runAll d .right as rng = .ok x := by
  induction as generalizing rng x with
  | nil => exact ⟨P.ciphers, fun y _ => .refl _ _, fun d _ => h⟩
  | cons a as ih =>
    simp only [Act.runAll, Res.bind_eq_ok, Res.pure_def, Prod.exists] at h
    obtain ⟨t, r1, h1, ts, r2, h2, h3⟩ := h
    cases h3
    obtain ⟨k, ca, hk, hca, hra⟩ := a.run_swap rng _ (hcmp a (by simp)) h1
    rw [Act.cipherKeys_cons a as rng r1 t k hk h1] at hnd ⊢
    rw [List.nodup_cons] at hnd
    obtain ⟨cs, hcs, hrs⟩ := ih r1 _ h2 (fun b hb => hcmp b (by simp [hb])) hnd.2
    refine ⟨Ciphers.merge (a.ver, k) ca cs, ?_, ?_⟩
    · intro y hy
      simp only [List.mem_cons, not_or] at hy
      exact (Ciphers.merge_off _ _ _ _ hy.1).trans (hcs y hy.2)
    · intro d hd
      have ha : a.run d .right rng = .ok (t, r1) := by
        refine a.run_local rng ca d .right _ hra ?_
        intro k' hk'
        rw [hk] at hk'
        cases hk'
        exact (hd _ (by simp)).trans (Ciphers.merge_at _ _ _)
      have has : Act.runAll d .right as r1 = .ok (ts, r2) := by
        refine hrs d ?_
        intro y hy
        have hne : y ≠ (a.ver, k) := fun e => hnd.1 (e ▸ hy)
        exact (hd y (by simp [hy])).trans (Ciphers.merge_off _ _ _ _ hne)
      simp only [Act.runAll, ha, has, Res.ok_bind, Res.pure_def]

end Pasta
