import Verif.Lemmas.Pbkw
import Verif.Props.Keys

/-!
# C37 to C42: password-based key wrapping
-/

namespace Pasta

open Spec (paserkText pwType pwTag pwTagged pwKey pwAuthKey PwParams)

variable {P : Prims} {v : Ver} {k : WKind}

namespace C37

/-- The settings the API can wrap with: anything in V3. In V4 Argon2 wants at least 8 KiB of memory,
8 KiB for each lane, one pass, and 1 to 2^24-1 lanes. The memory setting is in bytes. -/
def Valid : {v : Ver} → KdfState v → Prop
  | .V3, _ => True
  | .V4, st => 8 * 1024 ≤ st.mem.toNat ∧ 8 * 1024 * st.para.toNat ≤ st.mem.toNat ∧
      1 ≤ st.time.toNat ∧ 1 ≤ st.para.toNat ∧ st.para.toNat < 2 ^ 24

theorem kdfOk_iff (st : KdfState v) (pw : Bytes) :
    KdfOk st pw ↔ Valid st ∧ (v = .V4 → pw.length < 2 ^ 32) := by
  cases v
  · simp [KdfOk, Valid]
  · show argon2ParamsOk _ _ _ ∧ _ ↔ _
    unfold argon2ParamsOk Valid
    have : (st.mem / 1024).toNat = st.mem.toNat / 1024 := by
      rw [UInt32.toNat_div]; rfl
    rw [this]
    constructor
    · rintro ⟨⟨h1, h2, h3, h4, h5⟩, h6⟩
      exact ⟨⟨by omega, by omega, h3, h4, by omega⟩, fun _ => by omega⟩
    · rintro ⟨⟨h1, h2, h3, h4, h5⟩, h6⟩
      have := h6 rfl
      exact ⟨⟨by omega, by omega, h3, h4, by omega⟩, by omega⟩

theorem tag_length (pw s : Bytes) (st : KdfState v) (n c : Bytes) :
    (pwTag P k.kind pw s (specParams st) n c).length = pwTagLen v := by
  rw [pwTagLen_eq]; exact mac_length P v _ _

/-- Wrap, print, parse, unwrap with the same password: the key comes back. The wrap takes the salt
and then the nonce from the random source. -/
theorem pw_roundtrip (L : P.Laws) (key : Key P v k.kind) (pw : Bytes) (st : KdfState v) (rng : Rng)
    (hv : Valid st) (hp : v = .V4 → pw.length < 2 ^ 32)
    (hr : pwSaltLen v + ivLen v ≤ rng.length) :
    ∃ w s, key.pwWrapWithSettings pw st rng = .ok (w, rng.drop (pwSaltLen v + ivLen v)) ∧
      w.display = .ok s ∧ PwWrappedKey.parse v k s = .ok w ∧ w.unwrapKey P pw = .ok key := by
  have hk := (kdfOk_iff st pw).2 ⟨hv, hp⟩
  let s : BytesN (pwSaltLen v) := ⟨rng.take (pwSaltLen v), by simp; omega⟩
  let n : BytesN (ivLen v) := ⟨(rng.drop (pwSaltLen v)).take (ivLen v), by simp; omega⟩
  let c := applyKeystreamN (pwCodeStream P st pw s.1 n) key.toBytes
  let w : PwWrappedKey v k := ⟨s, st, n, c, ⟨_, tag_length (P := P) (k := k) pw s.1 st n.1 c.1⟩⟩
  refine ⟨w, _, ?_, PwWrappedKey.display_eq w, ?_, ?_⟩
  · refine (Key.pwWrap_ok_iff key pw st rng _ w).2 ⟨hk, ?_, rfl, rfl, rfl⟩
    show rng = rng.take _ ++ (rng.drop _).take _ ++ rng.drop _
    rw [List.append_assoc, ← List.drop_drop, List.take_append_drop, List.take_append_drop]
  · have := PwWrappedKey.parse_display w
    rw [PwWrappedKey.display_eq] at this
    exact this
  · rw [PwWrappedKey.unwrapKey_eq, if_pos hk, if_pos rfl]
    show Key.fromBytes P v k.kind (applyKeystreamN _ (applyKeystreamN _ key.toBytes)) = _
    rw [applyKeystreamN_twice]
    exact Key.fromBytes_toBytes L key

/-- Whatever a wrap returned unwraps to the key, also without printing. -/
theorem pw_roundtrip_direct (L : P.Laws) (key : Key P v k.kind) (pw : Bytes) (st : KdfState v)
    (rng rng' : Rng) (w : PwWrappedKey v k)
    (h : key.pwWrapWithSettings pw st rng = .ok (w, rng')) : w.unwrapKey P pw = .ok key := by
  obtain ⟨hk, _, h2, h3, h4⟩ := (Key.pwWrap_ok_iff key pw st rng rng' w).1 h
  rw [PwWrappedKey.unwrapKey_eq, h2, if_pos hk, if_pos h4, h3, applyKeystreamN_twice]
  exact Key.fromBytes_toBytes L key

/-- Wrapping returns a wrapped key, or panics; it panics exactly when the settings are invalid, the
password too long for Argon2, or the random source runs dry. -/
theorem wrap_outcome (key : Key P v k.kind) (pw : Bytes) (st : KdfState v) (rng : Rng) :
    (∃ w, key.pwWrapWithSettings pw st rng = .ok (w, rng.drop (pwSaltLen v + ivLen v)) ∧
      Valid st ∧ (v = .V4 → pw.length < 2 ^ 32) ∧ pwSaltLen v + ivLen v ≤ rng.length) ∨
    (key.pwWrapWithSettings pw st rng = .panic ∧
      ¬ (Valid st ∧ (v = .V4 → pw.length < 2 ^ 32) ∧ pwSaltLen v + ivLen v ≤ rng.length)) := by
  by_cases h : Valid st ∧ (v = .V4 → pw.length < 2 ^ 32) ∧ pwSaltLen v + ivLen v ≤ rng.length
  · left
    obtain ⟨hv, hp, hr⟩ := h
    have hk := (kdfOk_iff st pw).2 ⟨hv, hp⟩
    let s : BytesN (pwSaltLen v) := ⟨rng.take (pwSaltLen v), by simp; omega⟩
    let n : BytesN (ivLen v) := ⟨(rng.drop (pwSaltLen v)).take (ivLen v), by simp; omega⟩
    let c := applyKeystreamN (pwCodeStream P st pw s.1 n) key.toBytes
    refine ⟨⟨s, st, n, c, ⟨_, tag_length (P := P) (k := k) pw s.1 st n.1 c.1⟩⟩, ?_, hv, hp, hr⟩
    refine (Key.pwWrap_ok_iff key pw st rng _ _).2 ⟨hk, ?_, rfl, rfl, rfl⟩
    show rng = rng.take _ ++ (rng.drop _).take _ ++ rng.drop _
    rw [List.append_assoc, ← List.drop_drop, List.take_append_drop, List.take_append_drop]
  · right
    refine ⟨?_, h⟩
    unfold Key.pwWrapWithSettings
    by_cases h1 : pwSaltLen v ≤ rng.length
    · have : rng = (⟨rng.take (pwSaltLen v), by simp; omega⟩ : BytesN (pwSaltLen v)).1 ++
          rng.drop (pwSaltLen v) := (List.take_append_drop _ _).symm
      rw [fillBytes_eq_ok.2 this]
      simp only [Res.ok_bind]
      rw [pwKdf_eq]
      by_cases h2 : KdfOk st pw
      · rw [if_pos h2]
        simp only [Res.ok_bind]
        rw [kdfOk_iff] at h2
        rw [fillBytes_eq_panic.2 (by
          rw [List.length_drop]
          have : ¬ (pwSaltLen v + ivLen v ≤ rng.length) := fun h3 => h ⟨h2.1, h2.2, h3⟩
          omega)]
        rfl
      · rw [if_neg h2]; rfl
    · rw [fillBytes_eq_panic.2 (by omega)]
      rfl

/-- The default settings are valid, so `pw_wrap` without settings works for every password (V4:
below 4 GiB). -/
theorem default_roundtrip (L : P.Laws) (key : Key P v k.kind) (pw : Bytes) (rng : Rng)
    (hp : v = .V4 → pw.length < 2 ^ 32) (hr : pwSaltLen v + ivLen v ≤ rng.length) :
    ∃ w s, key.pwWrap pw rng = .ok (w, rng.drop (pwSaltLen v + ivLen v)) ∧
      w.display = .ok s ∧ PwWrappedKey.parse v k s = .ok w ∧ w.unwrapKey P pw = .ok key :=
  pw_roundtrip L key pw _ rng (by
    cases v
    · trivial
    · simp [Valid, KdfState.default]) hp hr

example : Valid (v := .V4) ⟨8192, 1, 1⟩ ∧ ¬ Valid (v := .V4) ⟨8191, 1, 1⟩ := by
  constructor <;> simp [Valid]

example (v : Ver) : ∃ w r, (Toy.localKey v).pwWrap (k := .Local) (asc "pw") Toy.tape = .ok (w, r) ∧
    w.unwrapKey Toy.prims (asc "pw") = .ok (Toy.localKey v) := by
  obtain ⟨w, s, h1, _, _, h2⟩ := default_roundtrip (k := .Local) Toy.laws (Toy.localKey v) (asc "pw")
    Toy.tape (fun _ => by simp [asc]) (by rw [Toy.tape_length]; cases v <;> decide)
  exact ⟨w, _, h1, h2⟩

end C37

namespace C38

/-- The nonce with its length as in the specification. -/
def asNonce (n : BytesN (ivLen v)) : BytesN (Spec.cipherNonceLen v) :=
  ⟨n.1, by rw [n.2]; cases v <;> rfl⟩

/-- No carry out of the low half of the CTR nonce (V3); V4 has no such condition. -/
def CounterOk : (v : Ver) → (n : Bytes) → (len : Nat) → Prop
  | .V3, n, len => beNat (n.drop 8) + (len + 15) / 16 ≤ 2 ^ 64
  | .V4, _, _ => True

theorem stream_be64 (st : KdfState v) (pw s : Bytes) (n : BytesN (ivLen v)) :
    pwCodeStream P st pw s n =
      Spec.cipher P v (Spec.pwEncKey P v (pwKey P (specParams st) pw s)) (asNonce n) .be64 := by
  cases v <;> rfl

theorem cipher_be64_eq (ek : BytesN 32) (n : BytesN (Spec.cipherNonceLen v)) (len : Nat)
    (h : CounterOk v n.1 len) (i : Nat) (hi : i < len) :
    Spec.cipher P v ek n .be64 i = Spec.cipher P v ek n .be128 i := by
  cases v
  · simp only [CounterOk] at h
    exact aesCtr64_eq P _ _ i (by omega)
  · rfl

theorem draws {s : BytesN (pwSaltLen v)} {n : BytesN (ivLen v)} {salt : BytesN (pwSaltLen v)}
    {nonce : BytesN (Spec.cipherNonceLen v)} {r r' : Rng}
    (h : s.1 ++ n.1 ++ r = salt.1 ++ nonce.1 ++ r') : s = salt ∧ asNonce n = nonce ∧ r = r' := by
  rw [List.append_assoc, List.append_assoc] at h
  obtain ⟨h1, h2⟩ := List.append_inj h (by rw [s.2, salt.2])
  obtain ⟨h2, h3⟩ := List.append_inj h2 (by rw [n.2, nonce.2]; cases v <;> rfl)
  exact ⟨Subtype.ext h1, Subtype.ext h2, h3⟩

theorem wrap_be64 (key : Key P v k.kind) (pw : Bytes) (st : KdfState v) (salt : BytesN (pwSaltLen v))
    (nonce : BytesN (Spec.cipherNonceLen v)) (r rng' : Rng) (w : PwWrappedKey v k)
    (h : key.pwWrapWithSettings pw st (salt.1 ++ nonce.1 ++ r) = .ok (w, rng')) :
    w.display = .ok (paserkText v (pwType k.kind)
      (Spec.pwWrap P k.kind pw salt.1 (specParams st) nonce key.toBytes.1 .be64)) := by
  obtain ⟨_, h1, h2, h3, h4⟩ := (Key.pwWrap_ok_iff key pw st _ rng' w).1 h
  obtain ⟨rfl, rfl, rfl⟩ := draws h1.symm
  rw [PwWrappedKey.display_eq]
  have hw : w.edk.1 = applyKeystream (pwCodeStream P st pw w.salt.1 w.nonce) key.toBytes.1 := by
    rw [h3]; rfl
  rw [applyKeystream_eq_xorStream, stream_be64] at hw
  unfold PwWrappedKey.dataWith Spec.pwWrap
  dsimp only
  rw [h4, hw, h2]
  rfl

theorem pwWrap_be64_iff (pw s : Bytes) (params : Spec.PwParams v) (n : BytesN (Spec.cipherNonceLen v))
    (ptk : Bytes) :
    Spec.pwWrap P k.kind pw s params n ptk .be64 = Spec.pwWrap P k.kind pw s params n ptk ↔
      ∀ j < ptk.length, Spec.cipher P v (Spec.pwEncKey P v (pwKey P params pw s)) n .be64 j =
        Spec.cipher P v (Spec.pwEncKey P v (pwKey P params pw s)) n .be128 j := by
  rw [← xorStream_eq_iff]
  unfold Spec.pwWrap
  dsimp only
  constructor
  · intro h
    simp only [List.append_assoc] at h
    exact (List.append_inj (List.append_cancel_left (List.append_cancel_left
      (List.append_cancel_left h))) (by simp [Spec.xorStream])).1
  · intro h
    rw [h]

/-- V4: the text is that of the PASERK specification for these settings, salt and nonce. -/
theorem v4_wrap (key : Key P .V4 k.kind) (pw : Bytes) (st : Argon2State) (salt : BytesN 16)
    (nonce : BytesN 24) (r rng' : Rng) (w : PwWrappedKey .V4 k)
    (h : key.pwWrapWithSettings pw st (salt.1 ++ nonce.1 ++ r) = .ok (w, rng')) :
    w.display = .ok (paserkText .V4 (pwType k.kind) (Spec.pwWrap P k.kind pw salt.1
      (.argon2id st.mem.toNat st.time st.para) nonce key.toBytes.1)) :=
  wrap_be64 key pw st salt nonce r rng' w h

/-- V3: the text is that of the PASERK specification with the counter of CTR mode in the last 64 bits
of the nonce, for every key, password, settings, salt and nonce. -/
theorem v3_wrap (key : Key P .V3 k.kind) (pw : Bytes) (st : Pbkdf2State) (salt : BytesN 32)
    (nonce : BytesN 16) (r rng' : Rng) (w : PwWrappedKey .V3 k)
    (h : key.pwWrapWithSettings pw st (salt.1 ++ nonce.1 ++ r) = .ok (w, rng')) :
    w.display = .ok (paserkText .V3 (pwType k.kind) (Spec.pwWrap P k.kind pw salt.1
      (.pbkdf2 st.iterations) nonce key.toBytes.1 .be64)) :=
  wrap_be64 key pw st salt nonce r rng' w h

/-- V3: so it is the standard's text (128-bit counter) exactly when the two key streams agree on the
bytes of the key. -/
theorem v3_standard_iff (key : Key P .V3 k.kind) (pw : Bytes) (st : Pbkdf2State) (salt : BytesN 32)
    (nonce : BytesN 16) (r rng' : Rng) (w : PwWrappedKey .V3 k)
    (h : key.pwWrapWithSettings pw st (salt.1 ++ nonce.1 ++ r) = .ok (w, rng')) :
    w.display = .ok (paserkText .V3 (pwType k.kind) (Spec.pwWrap P k.kind pw salt.1
        (.pbkdf2 st.iterations) nonce key.toBytes.1)) ↔
      ∀ j < Spec.keyBytes .V3 k.kind,
        Spec.aes256ctr P (Spec.pwEncKey P .V3 (pwKey P (.pbkdf2 st.iterations) pw salt.1)) nonce .be64 j =
        Spec.aes256ctr P (Spec.pwEncKey P .V3 (pwKey P (.pbkdf2 st.iterations) pw salt.1)) nonce .be128 j := by
  have e := pwWrap_be64_iff (P := P) (v := .V3) (k := k) pw salt.1 (.pbkdf2 st.iterations) nonce
    key.toBytes.1
  rw [key.toBytes.2.trans (keyLen_eq _ _)] at e
  rw [v3_wrap key pw st salt nonce r rng' w h]
  refine Iff.trans ?_ e
  exact ⟨fun h => SecuredToken.base64url_inj (List.append_cancel_left (Res.ok.inj h)),
    fun h => by rw [h]⟩

/-- V3: in particular it is the standard's text when the last 64 bits of the nonce do not
overflow. -/
theorem v3_wrap_standard (key : Key P .V3 k.kind) (pw : Bytes) (st : Pbkdf2State) (salt : BytesN 32)
    (nonce : BytesN 16) (r rng' : Rng) (w : PwWrappedKey .V3 k)
    (h : key.pwWrapWithSettings pw st (salt.1 ++ nonce.1 ++ r) = .ok (w, rng'))
    (hc : beNat (nonce.1.drop 8) + (Spec.keyBytes .V3 k.kind + 15) / 16 ≤ 2 ^ 64) :
    w.display = .ok (paserkText .V3 (pwType k.kind) (Spec.pwWrap P k.kind pw salt.1
      (.pbkdf2 st.iterations) nonce key.toBytes.1)) :=
  (v3_standard_iff key pw st salt nonce r rng' w h).2
    (cipher_be64_eq (v := .V3) _ nonce (Spec.keyBytes .V3 k.kind) hc)

/-- V3: when the low half does overflow (and AES is injective, as it is), the printed text is not
the specification's. -/
theorem v3_ctr_deviates (key : Key P .V3 k.kind) (pw : Bytes) (st : Pbkdf2State) (salt : BytesN 32)
    (nonce : BytesN 16) (r rng' : Rng) (w : PwWrappedKey .V3 k)
    (h : key.pwWrapWithSettings pw st (salt.1 ++ nonce.1 ++ r) = .ok (w, rng'))
    (hinj : ∀ ek x y, P.aes256 ek x = P.aes256 ek y → x = y)
    (hc : ¬ beNat (nonce.1.drop 8) + (Spec.keyBytes .V3 k.kind + 15) / 16 ≤ 2 ^ 64) :
    w.display ≠ .ok (paserkText .V3 (pwType k.kind) (Spec.pwWrap P k.kind pw salt.1
      (.pbkdf2 st.iterations) nonce key.toBytes.1)) := by
  obtain ⟨_, h1, h2, h3, h4⟩ := (Key.pwWrap_ok_iff key pw st _ rng' w).1 h
  obtain ⟨e1, e2, _⟩ := draws (v := .V3) (salt := salt) (nonce := nonce) h1.symm
  subst e1 e2
  rw [PwWrappedKey.display_eq]
  intro he
  have he := SecuredToken.base64url_inj (List.append_cancel_left (Res.ok.inj he))
  unfold PwWrappedKey.dataWith Spec.pwWrap at he
  dsimp only at he
  rw [h2] at he
  have he := (List.append_inj he (by
    simp [Spec.xorStream, w.edk.2, key.toBytes.2, asNonce, specParams])).1
  have hw := (List.append_inj he (by simp [asNonce, specParams])).2
  rw [h3] at hw
  have hw : applyKeystream (pwCodeStream P st pw w.salt.1 w.nonce) key.toBytes.1 = _ := hw
  rw [applyKeystream_eq_xorStream, xorStream_eq_iff] at hw
  have hlo := beNat_lt (w.nonce.1.drop 8)
  have hl8 : (w.nonce.1.drop 8).length = 8 := by rw [List.length_drop, w.nonce.2]; rfl
  rw [hl8] at hlo
  have hc : ¬ beNat (w.nonce.1.drop 8) + (Spec.keyBytes .V3 k.kind + 15) / 16 ≤ 2 ^ 64 := hc
  have hkb : Spec.keyBytes .V3 k.kind = 32 ∨ Spec.keyBytes .V3 k.kind = 48 := by
    cases k
    · exact .inl rfl
    · exact .inr rfl
  obtain ⟨i, hi1, hi2⟩ := aesCtr64_ne P
    (Spec.pwEncKey P .V3 (pwKey P (specParams (v := .V3) st) pw w.salt.1)) w.nonce (hinj _)
    ((Spec.keyBytes .V3 k.kind + 15) / 16 - 1) (by omega) (by omega)
  apply hi2
  apply hw i
  rw [key.toBytes.2, keyLen_eq]
  rcases hkb with hkb | hkb <;> rw [hkb] at hi1 ⊢ <;> omega

theorem unwrap_be64 (w : PwWrappedKey v k) (pw : Bytes) (key : Key P v k.kind)
    (hk : KdfOk w.state pw) :
    w.unwrapKey P pw = .ok key ↔
      ∃ ptk : BytesN (keyLen v k.kind),
        Spec.PwUnwraps P k.kind pw w.salt.1 (specParams w.state) (asNonce w.nonce) w.edk.1 w.tag.1
          ptk.1 .be64 ∧ Key.fromBytes P v k.kind ptk = .ok key := by
  rw [PwWrappedKey.unwrapKey_eq, if_pos hk]
  have hs : applyKeystream (pwCodeStream P w.state pw w.salt.1 w.nonce) w.edk.1 =
      Spec.xorStream w.edk.1 (Spec.cipher P v (Spec.pwEncKey P v (pwKey P (specParams w.state) pw
        w.salt.1)) (asNonce w.nonce) .be64) := by
    rw [applyKeystream_eq_xorStream, stream_be64]
  constructor
  · intro h
    split at h
    · rename_i ht
      exact ⟨_, ⟨ht, hs⟩, h⟩
    · simp at h
  · rintro ⟨ptk, ⟨ht, hp⟩, hf⟩
    have ht : w.tag.1 = pwTag P k.kind pw w.salt.1 (specParams w.state) w.nonce.1 w.edk.1 := ht
    rw [if_pos ht, ← hf]
    congr 1
    exact Subtype.ext (hs.trans hp.symm)

/-- Unwrapping, V4: succeeds with a key exactly when the specification's unwrap gives bytes that
are that key (for parameters on which Argon2 is defined). -/
theorem v4_unwrap (w : PwWrappedKey .V4 k) (pw : Bytes) (key : Key P .V4 k.kind)
    (hv : C37.Valid w.state) (hp : pw.length < 2 ^ 32) :
    w.unwrapKey P pw = .ok key ↔
      ∃ ptk : BytesN (keyLen .V4 k.kind),
        Spec.PwUnwraps P k.kind pw w.salt.1
          (.argon2id w.settings.mem.toNat w.settings.time w.settings.para) w.nonce w.edk.1 w.tag.1
          ptk.1 ∧ Key.fromBytes P .V4 k.kind ptk = .ok key :=
  unwrap_be64 w pw key ((C37.kdfOk_iff w.state pw).2 ⟨hv, fun _ => hp⟩)

/-- Unwrapping, V3: succeeds with a key exactly when the specification's unwrap that counts in the
last 64 bits of the nonce gives bytes that are that key. -/
theorem v3_unwrap (w : PwWrappedKey .V3 k) (pw : Bytes) (key : Key P .V3 k.kind) :
    w.unwrapKey P pw = .ok key ↔
      ∃ ptk : BytesN (keyLen .V3 k.kind),
        Spec.PwUnwraps P k.kind pw w.salt.1 (.pbkdf2 w.settings.iterations) w.nonce w.edk.1 w.tag.1
          ptk.1 .be64 ∧ Key.fromBytes P .V3 k.kind ptk = .ok key :=
  unwrap_be64 w pw key trivial

/-- Unwrapping, V3: and so with the standard's unwrap when the counter does not overflow. -/
theorem v3_unwrap_standard (w : PwWrappedKey .V3 k) (pw : Bytes) (key : Key P .V3 k.kind)
    (hc : beNat (w.nonce.1.drop 8) + (Spec.keyBytes .V3 k.kind + 15) / 16 ≤ 2 ^ 64) :
    w.unwrapKey P pw = .ok key ↔
      ∃ ptk : BytesN (keyLen .V3 k.kind),
        Spec.PwUnwraps P k.kind pw w.salt.1 (.pbkdf2 w.settings.iterations) w.nonce w.edk.1 w.tag.1
          ptk.1 ∧ Key.fromBytes P .V3 k.kind ptk = .ok key := by
  rw [v3_unwrap]
  have hs : Spec.xorStream w.edk.1 (Spec.cipher P .V3 (Spec.pwEncKey P .V3
        (pwKey P (.pbkdf2 w.settings.iterations) pw w.salt.1)) w.nonce .be64) =
      Spec.xorStream w.edk.1 (Spec.cipher P .V3 (Spec.pwEncKey P .V3
        (pwKey P (.pbkdf2 w.settings.iterations) pw w.salt.1)) w.nonce .be128) :=
    xorStream_congr (cipher_be64_eq (v := .V3) _ w.nonce w.edk.1.length
      (by rw [w.edk.2, keyLen_eq]; exact hc))
  unfold Spec.PwUnwraps
  rw [hs]

-- a V3 wrap that meets the counter condition
example : ∃ w r, Toy.v3Secret.pwWrapWithSettings (k := .Secret) (asc "pw") ⟨5⟩
      ((BytesN.fill 32 7).1 ++ (BytesN.fill 16 9).1 ++ []) = .ok (w, r) ∧
    beNat ((BytesN.fill 16 9).1.drop 8) + (Spec.keyBytes .V3 .Secret + 15) / 16 ≤ 2 ^ 64 := by
  rcases C37.wrap_outcome (k := .Secret) Toy.v3Secret (asc "pw") ⟨5⟩
    ((BytesN.fill 32 7).1 ++ (BytesN.fill 16 9).1 ++ []) with ⟨w, h, _⟩ | ⟨_, h⟩
  · exact ⟨w, _, h, by decide +kernel⟩
  · exact absurd ⟨trivial, by simp, by decide⟩ h

-- … and one that violates it, where `v3_ctr_deviates` applies
example : ∃ w r, (⟨Toy.key32⟩ : Key Sample.ones .V3 .Local).pwWrapWithSettings (k := .Local)
      (asc "pw") ⟨5⟩ ((BytesN.fill 32 7).1 ++ (BytesN.fill 16 0xff).1 ++ []) = .ok (w, r) ∧
    (∀ ek x y, Sample.ones.aes256 ek x = Sample.ones.aes256 ek y → x = y) ∧
    ¬ beNat ((BytesN.fill 16 0xff).1.drop 8) + (Spec.keyBytes .V3 .Local + 15) / 16 ≤ 2 ^ 64 := by
  rcases C37.wrap_outcome (k := .Local) (⟨Toy.key32⟩ : Key Sample.ones .V3 .Local) (asc "pw") ⟨5⟩
    ((BytesN.fill 32 7).1 ++ (BytesN.fill 16 0xff).1 ++ []) with ⟨w, h, _⟩ | ⟨_, h⟩
  · exact ⟨w, _, h, Sample.ones_aes_inj, by decide +kernel⟩
  · exact absurd ⟨trivial, by simp, by decide⟩ h

end C38

namespace C39

/-- The settings given to a wrap are reported by `settings()` after printing and parsing, for every
settings value (`parse` and `settings` do not take the primitives: no key derivation happens). -/
theorem settings_preserved (key : Key P v k.kind) (pw : Bytes) (st : KdfState v) (rng rng' : Rng)
    (w : PwWrappedKey v k) (h : key.pwWrapWithSettings pw st rng = .ok (w, rng')) :
    ∃ s w', w.display = .ok s ∧ PwWrappedKey.parse v k s = .ok w' ∧ w'.settings = st := by
  obtain ⟨_, _, h2, _⟩ := (Key.pwWrap_ok_iff key pw st rng rng' w).1 h
  refine ⟨_, w, PwWrappedKey.display_eq w, ?_, h2⟩
  have := PwWrappedKey.parse_display w
  rw [PwWrappedKey.display_eq] at this
  exact this

/-- V3: `settings()` reports the 32-bit number written after the salt. -/
theorem v3_settings_reported (salt : BytesN 32) (i : UInt32) (n : BytesN 16)
    (c : BytesN (Spec.keyBytes .V3 k.kind)) (t : BytesN 48) :
    ∃ w, PwWrappedKey.parse .V3 k (paserkText .V3 (pwType k.kind)
        (salt.1 ++ Spec.BE 4 i.toNat ++ n.1 ++ c.1 ++ t.1)) = .ok w ∧ w.settings.iterations = i := by
  refine ⟨⟨salt, ⟨i⟩, n, ⟨c.1, by rw [c.2, keyLen_eq]⟩, t⟩, ?_, rfl⟩
  rw [PwWrappedKey.parse_ok_iff]
  refine ⟨u32be i, ?_, ?_⟩
  · rw [BE_eq]; rfl
  · show (⟨u32ofBe (u32be i)⟩ : Pbkdf2State) = _
    rw [u32ofBe_u32be]

/-- V4: `settings()` reports the passes and lanes written after the salt and the 64-bit memory
parameter modulo 2^32. So it reports exactly what is written iff that is below 2^32. -/
theorem v4_settings_reported (salt : BytesN 16) (m : Nat) (ti pa : UInt32) (n : BytesN 24)
    (c : BytesN (Spec.keyBytes .V4 k.kind)) (t : BytesN 32) :
    ∃ w, PwWrappedKey.parse .V4 k (paserkText .V4 (pwType k.kind)
        (salt.1 ++ (Spec.BE 8 m ++ Spec.BE 4 ti.toNat ++ Spec.BE 4 pa.toNat) ++ n.1 ++ c.1 ++ t.1)) =
        .ok w ∧
      w.settings.time = ti ∧ w.settings.para = pa ∧ w.settings.mem.toNat = m % 2 ^ 32 := by
  refine ⟨⟨salt, ⟨UInt32.ofNat m, ti, pa⟩, n, ⟨c.1, by rw [c.2, keyLen_eq]⟩, t⟩, ?_, rfl, rfl, ?_⟩
  · rw [PwWrappedKey.parse_ok_iff]
    let hi : BytesN 4 := ⟨beBytes 4 (m / 256 ^ 4), beBytes_length _ _⟩
    refine ⟨BytesN.append 16 rfl hi (BytesN.append 12 rfl (u32be (UInt32.ofNat m))
      (BytesN.append 8 rfl (u32be ti) (u32be pa))), ?_, ?_⟩
    · have : beBytes 4 m = beBytes 4 (UInt32.ofNat m).toNat := by
        simp only [UInt32.toNat_ofNat']
        unfold beBytes
        congr 1
        have h := leNat_leBytes 4 m
        rw [← leBytes_leNat (leBytes 4 m), leNat_leBytes, leBytes_length]
      rw [BE_eq, BE_eq, BE_eq, beBytes_append 4 4, this]
      simp [PwWrappedKey.dataWith, BytesN.append, hi, u32be]
    · unfold decodeState
      simp only [BytesN.split_append, u32ofBe_u32be]
  · show (UInt32.ofNat m).toNat = _
    simp

/-- The derivation done by `unwrap` uses the reported settings: whatever unwraps is authenticated
under the key derived with those parameters. In V3 `iterations` is the number of rounds; in
V4 the cost is `mem` bytes, `time` passes and `para` lanes. -/
theorem unwrap_uses_settings (w : PwWrappedKey v k) (pw : Bytes)
    (key : Key P v k.kind) (h : w.unwrapKey P pw = .ok key) :
    w.tag.1 = Spec.mac P v (pwAuthKey P v (pwKey P (specParams w.settings) pw w.salt.1))
      (pwTagged k.kind w.salt.1 (specParams w.settings) w.nonce.1 w.edk.1) := by
  rw [PwWrappedKey.unwrapKey_eq] at h
  split at h
  · split at h
    · assumption
    · simp at h
  · simp at h

/-- A text whose 64-bit memory parameter does not fit 32 bits is reported with another value. -/
theorem v4_settings_refuted : ∃ s w, PwWrappedKey.parse .V4 .Local s = .ok w ∧
    s = paserkText .V4 (pwType .Local) ((BytesN.fill 16 0).1 ++
      (Spec.BE 8 (2 ^ 32 + 8192) ++ Spec.BE 4 1 ++ Spec.BE 4 1) ++ (BytesN.fill 24 0).1 ++
      (BytesN.fill 32 0).1 ++ (BytesN.fill 32 0).1) ∧
    w.settings.mem = 8192 := by
  obtain ⟨w, h, _, _, h3⟩ := v4_settings_reported (k := .Local) (BytesN.fill 16 0)
    (2 ^ 32 + 8192) 1 1 (BytesN.fill 24 0) (BytesN.fill 32 0) (BytesN.fill 32 0)
  exact ⟨_, w, h, rfl, UInt32.toNat_inj.1 (by rw [h3]; rfl)⟩

/-- Without settings a V3 wrap uses, and its text reports, 100000 rounds. -/
theorem v3_defaults (key : Key P .V3 k.kind) (pw : Bytes) (rng rng' : Rng) (w : PwWrappedKey .V3 k)
    (h : key.pwWrap pw rng = .ok (w, rng')) :
    key.pwWrapWithSettings pw (show KdfState .V3 from (⟨100000⟩ : Pbkdf2State)) rng = .ok (w, rng') ∧
    ∃ s w', w.display = .ok s ∧ PwWrappedKey.parse .V3 k s = .ok w' ∧
      w'.settings.iterations = 100000 := by
  obtain ⟨s, w', h1, h2, h3⟩ := settings_preserved key pw _ rng rng' w h
  exact ⟨h, s, w', h1, h2, by rw [h3]; rfl⟩

/-- Without settings a V4 wrap uses, and its text reports, 64 MiB, two passes and one lane. -/
theorem v4_defaults (key : Key P .V4 k.kind) (pw : Bytes) (rng rng' : Rng) (w : PwWrappedKey .V4 k)
    (h : key.pwWrap pw rng = .ok (w, rng')) :
    key.pwWrapWithSettings pw (show KdfState .V4 from (⟨64 * 1024 * 1024, 2, 1⟩ : Argon2State)) rng =
      .ok (w, rng') ∧
    ∃ s w', w.display = .ok s ∧ PwWrappedKey.parse .V4 k s = .ok w' ∧
      w'.settings.mem = 64 * 1024 * 1024 ∧ w'.settings.time = 2 ∧ w'.settings.para = 1 := by
  obtain ⟨s, w', h1, h2, h3⟩ := settings_preserved key pw _ rng rng' w h
  exact ⟨h, s, w', h1, h2, by rw [h3]; exact ⟨rfl, rfl, rfl⟩⟩

example (v : Ver) : ∃ (w : PwWrappedKey v .Local) (r : Rng),
    (Toy.localKey v).pwWrap (k := .Local) (asc "pw") Toy.tape = .ok (w, r) := by
  obtain ⟨w, s, h1, -⟩ := C37.default_roundtrip (k := .Local) Toy.laws (Toy.localKey v) (asc "pw")
    Toy.tape (fun _ => by simp [asc]) (by rw [Toy.tape_length]; cases v <;> decide)
  exact ⟨w, _, h1⟩

/-- A wrap with unusual settings, which the unwrapped key was authenticated with. -/
example : ∃ (w : PwWrappedKey .V4 .Local) (r : Rng), (Toy.localKey .V4).pwWrapWithSettings (asc "pw")
      (show KdfState .V4 from (⟨65536, 7, 3⟩ : Argon2State)) Toy.tape = .ok (w, r) ∧
    w.unwrapKey Toy.prims (asc "pw") = .ok (Toy.localKey .V4) := by
  obtain ⟨w, s, h1, -, -, h2⟩ := C37.pw_roundtrip (k := .Local) Toy.laws (Toy.localKey .V4) (asc "pw")
    (show KdfState .V4 from (⟨65536, 7, 3⟩ : Argon2State)) Toy.tape (by simp [C37.Valid])
    (fun _ => by simp [asc]) (by rw [Toy.tape_length]; decide)
  exact ⟨w, _, h1, h2⟩

end C39

namespace C40

/-- V3: parsing accepts exactly the printed forms. -/
theorem v3_canonical (s : Bytes) (w : PwWrappedKey .V3 k) :
    PwWrappedKey.parse .V3 k s = .ok w ↔ w.display = .ok s := by
  rw [PwWrappedKey.parse_ok_iff, PwWrappedKey.display_eq, Res.ok.injEq, ← encodeState_eq]
  constructor
  · rintro ⟨st, rfl, h⟩
    rw [← h]
    exact congrArg (fun b : BytesN 4 => paserkText .V3 (pwType k.kind) (w.dataWith b.1))
      (encode_decodeState_v3 st)
  · rintro rfl
    exact ⟨_, rfl, decode_encodeState _⟩

/-- Two V3 texts that parse to the same wrapped key are the same. -/
theorem v3_injective (s s' : Bytes) (w : PwWrappedKey .V3 k)
    (h : PwWrappedKey.parse .V3 k s = .ok w) (h' : PwWrappedKey.parse .V3 k s' = .ok w) : s = s' :=
  Res.ok.inj (((v3_canonical s w).1 h).symm.trans ((v3_canonical s' w).1 h'))

/-- V4: the texts that parse to a given wrapped key are those of its fields with any four bytes
in front of the memory parameter. -/
theorem v4_texts (s : Bytes) (w : PwWrappedKey .V4 k) :
    PwWrappedKey.parse .V4 k s = .ok w ↔
      ∃ hi : BytesN 4, s = paserkText .V4 (pwType k.kind)
        (w.salt.1 ++ (hi.1 ++ Spec.BE 4 w.state.mem.toNat ++ Spec.BE 4 w.state.time.toNat ++
          Spec.BE 4 w.state.para.toNat) ++ w.nonce.1 ++ w.edk.1 ++ w.tag.1) := by
  rw [PwWrappedKey.parse_ok_iff]
  constructor
  · rintro ⟨st, rfl, h⟩
    refine ⟨(BytesN.split 4 12 rfl st).1, ?_⟩
    unfold PwWrappedKey.dataWith
    congr 5
    have := encode_decodeState_v4 st
    rw [h] at this
    have e : (encodeState .V4 w.state).1 = List.replicate 4 0 ++
      (Spec.BE 4 w.state.mem.toNat ++ Spec.BE 4 w.state.time.toNat ++
        Spec.BE 4 w.state.para.toNat) := by
      rw [BE_eq, BE_eq, BE_eq]
      show List.replicate 4 0 ++ _ ++ _ ++ _ = _
      simp [u32be]
    rw [e] at this
    have := List.append_cancel_left this
    show st.1 = st.1.take 4 ++ _ ++ _ ++ _
    rw [List.append_assoc, List.append_assoc, ← List.append_assoc (Spec.BE 4 w.state.mem.toNat),
      this, List.take_append_drop]
  · rintro ⟨hi, rfl⟩
    refine ⟨BytesN.append 16 rfl hi (BytesN.append 12 rfl (u32be w.state.mem)
      (BytesN.append 8 rfl (u32be w.state.time) (u32be w.state.para))), ?_, ?_⟩
    · rw [BE_eq, BE_eq, BE_eq]
      simp [PwWrappedKey.dataWith, BytesN.append, u32be]
    · unfold decodeState
      simp only [BytesN.split_append, u32ofBe_u32be]

/-- V4: a text is the printed form of what it parses to exactly when those four bytes are zero:
canonicity holds for memory parameters below 2^32. -/
theorem v4_printed_iff (s : Bytes) (w : PwWrappedKey .V4 k) :
    w.display = .ok s ↔ s = paserkText .V4 (pwType k.kind)
        (w.salt.1 ++ ([0, 0, 0, 0] ++ Spec.BE 4 w.state.mem.toNat ++ Spec.BE 4 w.state.time.toNat ++
          Spec.BE 4 w.state.para.toNat) ++ w.nonce.1 ++ w.edk.1 ++ w.tag.1) := by
  rw [PwWrappedKey.display_eq, Res.ok.injEq, ← encodeState_eq, BE_eq, BE_eq, BE_eq, eq_comm]
  rfl

/-- V4: the property is false. Every wrapped key has two different texts that parse to it (2^32 of
them: one for each choice of the four bytes). -/
theorem v4_not_canonical (w : PwWrappedKey .V4 k) (hi hi' : BytesN 4) (hne : hi ≠ hi') :
    ∃ s s', s ≠ s' ∧ PwWrappedKey.parse .V4 k s = .ok w ∧ PwWrappedKey.parse .V4 k s' = .ok w := by
  refine ⟨_, _, ?_, (v4_texts _ w).2 ⟨hi, rfl⟩, (v4_texts _ w).2 ⟨hi', rfl⟩⟩
  intro he
  have he := SecuredToken.base64url_inj (List.append_cancel_left he)
  simp only [List.append_assoc] at he
  exact hne (Subtype.ext (List.append_inj (List.append_cancel_left he) (by rw [hi.2, hi'.2])).1)

/-- Both versions: printing and parsing gives back the wrapped key. -/
theorem parse_display (w : PwWrappedKey v k) :
    ∃ s, w.display = .ok s ∧ PwWrappedKey.parse v k s = .ok w := by
  have := PwWrappedKey.parse_display w
  rw [PwWrappedKey.display_eq] at this
  exact ⟨_, PwWrappedKey.display_eq w, this⟩

/-- The length of every accepted text is fixed by version and key type. -/
theorem text_length (s : Bytes) (w : PwWrappedKey v k) (h : PwWrappedKey.parse v k s = .ok w) :
    s.length = (Spec.paserkHeader v (pwType k.kind)).length + (4 * pwTotalLen v k + 2) / 3 := by
  obtain ⟨st, rfl, _⟩ := PwWrappedKey.parse_ok_iff.1 h
  unfold Spec.paserkText PwWrappedKey.dataWith
  rw [List.length_append, base64url_length]
  simp only [List.length_append, w.salt.2, st.2, w.nonce.2, w.edk.2, w.tag.2]
  rw [pwTotalLen_eq, pwSaltStateIvEdkLen_eq, pwSaltStateIvLen_eq, pwSaltStateLen_eq]
  cases v <;> cases k <;> rfl

example : (BytesN.fill 4 0 : BytesN 4) ≠ BytesN.fill 4 1 := by decide

/-- A text that parses, in either version. -/
example (v : Ver) : ∃ s w, PwWrappedKey.parse v .Local s = .ok w := by
  obtain ⟨w, s, -, -, h, -⟩ := C37.default_roundtrip (k := .Local) Toy.laws (Toy.localKey v)
    (asc "pw") Toy.tape (fun _ => by simp [asc]) (by rw [Toy.tape_length]; cases v <;> decide)
  exact ⟨s, w, h⟩

end C40

namespace C41

/-- Unwrapping panics exactly in V4, when the parameters in the text are invalid for Argon2 or the
password has 2^32 bytes or more. -/
theorem unwrap_panic_iff (w : PwWrappedKey v k) (pw : Bytes) :
    w.unwrapKey P pw = .panic ↔ ¬ (C37.Valid w.settings ∧ (v = .V4 → pw.length < 2 ^ 32)) := by
  rw [← C37.kdfOk_iff, PwWrappedKey.unwrapKey_eq]
  constructor
  · intro h hk
    rw [if_pos (show KdfOk w.state pw from hk)] at h
    split at h
    · exact Key.fromBytes_ne_panic _ h
    · simp at h
  · intro h
    rw [if_neg (show ¬ KdfOk w.state pw from h)]

/-- Every outcome of unwrapping: the panic, exactly under that condition, and otherwise a key,
`CryptoError` or `InvalidKey`. -/
theorem unwrap_outcomes (w : PwWrappedKey v k) (pw : Bytes) :
    (¬ (C37.Valid w.settings ∧ (v = .V4 → pw.length < 2 ^ 32)) ∧ w.unwrapKey P pw = .panic) ∨
    ((C37.Valid w.settings ∧ (v = .V4 → pw.length < 2 ^ 32)) ∧
      ((∃ key, w.unwrapKey P pw = .ok key) ∨ w.unwrapKey P pw = .err .cryptoError ∨
        w.unwrapKey P pw = .err .invalidKey)) := by
  by_cases hk : C37.Valid w.settings ∧ (v = .V4 → pw.length < 2 ^ 32)
  · refine .inr ⟨hk, ?_⟩
    rw [PwWrappedKey.unwrapKey_eq, if_pos ((C37.kdfOk_iff w.state pw).2 hk)]
    split
    · rcases Key.fromBytes_cases (P := P)
        (applyKeystreamN (pwCodeStream P w.state pw w.salt.1 w.nonce) w.edk) with ⟨x, h⟩ | h
      · exact .inl ⟨x, h⟩
      · exact .inr (.inr h)
    · exact .inr (.inl rfl)
  · exact .inl ⟨hk, (unwrap_panic_iff w pw).2 hk⟩

/-- V3: unwrapping never panics. -/
theorem v3_unwrap_total (w : PwWrappedKey .V3 k) (pw : Bytes) :
    (∃ key, w.unwrapKey P pw = .ok key) ∨ w.unwrapKey P pw = .err .cryptoError ∨
      w.unwrapKey P pw = .err .invalidKey := by
  rcases unwrap_outcomes (P := P) w pw with ⟨h, _⟩ | ⟨_, h⟩
  · exact absurd ⟨trivial, by simp⟩ h
  · exact h

/-- V4: unwrapping does not panic when the caller checked `settings()` first. -/
theorem v4_unwrap_total (w : PwWrappedKey .V4 k) (pw : Bytes) (hv : C37.Valid w.settings)
    (hp : pw.length < 2 ^ 32) :
    (∃ key, w.unwrapKey P pw = .ok key) ∨ w.unwrapKey P pw = .err .cryptoError ∨
      w.unwrapKey P pw = .err .invalidKey := by
  rcases unwrap_outcomes (P := P) w pw with ⟨h, _⟩ | ⟨_, h⟩
  · exact absurd ⟨hv, fun _ => hp⟩ h
  · exact h

/-- V4: the panic is reachable. There is a text that parses and panics the unwrapping, whatever the
password and the primitives. -/
theorem no_panic_refuted (k : WKind) : ∃ s w, PwWrappedKey.parse .V4 k s = .ok w ∧
    ∀ (P : Prims) (pw : Bytes), w.unwrapKey P pw = .panic := by
  let w : PwWrappedKey .V4 k :=
    ⟨BytesN.fill _ 0, ⟨0, 0, 0⟩, BytesN.fill _ 0, BytesN.fill _ 0, BytesN.fill _ 0⟩
  obtain ⟨s, _, h⟩ := C40.parse_display w
  refine ⟨s, w, h, fun P pw => (unwrap_panic_iff w pw).2 ?_⟩
  rintro ⟨⟨h1, _⟩, _⟩
  exact absurd (show 8 * 1024 ≤ (0 : UInt32).toNat from h1) (by decide)

example : C37.Valid (v := .V4) (KdfState.default .V4) := by
  simp [C37.Valid, KdfState.default]

/-- A wrapped key with valid settings. -/
example : ∃ w : PwWrappedKey .V4 .Local, C37.Valid w.settings ∧ (asc "pw").length < 2 ^ 32 :=
  ⟨⟨BytesN.fill 16 0, KdfState.default .V4, BytesN.fill 24 0, BytesN.fill 32 0, BytesN.fill 32 0⟩,
    by simp [C37.Valid, KdfState.default, PwWrappedKey.settings], by decide⟩

/-- A V4 wrap for the theorems of C38, with the settings of the default. -/
example : ∃ w r, Toy.v4Secret.pwWrapWithSettings (k := .Secret) (asc "pw") (KdfState.default .V4)
      ((BytesN.fill 16 7).1 ++ (BytesN.fill 24 9).1 ++ []) = .ok (w, r) ∧ C37.Valid w.state ∧
    (asc "pw").length < 2 ^ 32 := by
  rcases C37.wrap_outcome (k := .Secret) Toy.v4Secret (asc "pw") (KdfState.default .V4)
    ((BytesN.fill 16 7).1 ++ (BytesN.fill 24 9).1 ++ []) with ⟨w, h, _⟩ | ⟨_, h⟩
  · refine ⟨w, _, h, ?_, by decide⟩
    obtain ⟨s, w', h1, h2, h3⟩ := C39.settings_preserved _ _ _ _ _ w h
    obtain ⟨s', h4, h5⟩ := C40.parse_display w
    rw [h4] at h1
    obtain rfl := Res.ok.inj h1
    rw [h5] at h2
    obtain rfl := Res.ok.inj h2
    rw [show w.state = KdfState.default .V4 from h3]
    simp [C37.Valid, KdfState.default]
  · exact absurd ⟨by simp [C37.Valid, KdfState.default], by simp [asc], by decide⟩ h

end C41

namespace C42

theorem encode_inj {st st' : KdfState v} (h : (specParams st).encode = (specParams st').encode) :
    st = st' := by
  rw [← encodeState_eq, ← encodeState_eq] at h
  rw [← decode_encodeState st, Subtype.ext h, decode_encodeState]

theorem pwTagged_inj {k k' : WKind} {s s' : BytesN (pwSaltLen v)} {st st' : KdfState v}
    {n n' : BytesN (ivLen v)} {c c' : Bytes}
    (h : pwTagged k.kind s.1 (specParams st) n.1 c = pwTagged k'.kind s'.1 (specParams st') n'.1 c') :
    k = k' ∧ s = s' ∧ st = st' ∧ n = n' ∧ c = c' := by
  have h4 := congrArg (List.take 4) h
  have hk : k = k' := by
    cases v <;> cases k <;> cases k' <;>
      first | rfl | (exfalso; revert h4; simp [pwTagged, Spec.paserkHeader, Spec.paserkVersion, pwType, WKind.kind, asc])
  subst hk
  refine ⟨rfl, ?_⟩
  unfold Spec.pwTagged at h
  simp only [List.append_assoc] at h
  obtain ⟨h1, h⟩ := List.append_inj (List.append_cancel_left
    (List.append_cancel_left (List.append_cancel_left (List.append_cancel_left
      (by simpa only [Spec.paserkHeader, List.append_assoc] using h))))) (by rw [s.2, s'.2])
  obtain ⟨h2, h⟩ := List.append_inj h (by
    rw [← encodeState_eq, ← encodeState_eq, (encodeState v st).2, (encodeState v st').2])
  obtain ⟨h3, h⟩ := List.append_inj h (by rw [n.2, n'.2])
  exact ⟨Subtype.ext h1, encode_inj h2, Subtype.ext h3, h⟩

/-- The outcome past the key derivation: authentication succeeds exactly when the tag is the MAC of
header, salt, parameters, nonce and ciphertext under the key derived from this password. -/
theorem authentic_iff (w : PwWrappedKey v k) (pw : Bytes) :
    (w.unwrapKey P pw ≠ .err .cryptoError ∧ w.unwrapKey P pw ≠ .panic) ↔
      (C37.Valid w.settings ∧ (v = .V4 → pw.length < 2 ^ 32)) ∧
      w.tag.1 = Spec.mac P v (pwAuthKey P v (pwKey P (specParams w.settings) pw w.salt.1))
        (Spec.paserkHeader v (pwType k.kind) ++ w.salt.1 ++ (specParams w.settings).encode ++
          w.nonce.1 ++ w.edk.1) := by
  rw [← C37.kdfOk_iff, PwWrappedKey.unwrapKey_eq]
  constructor
  · rintro ⟨h1, h2⟩
    split at h1
    · rename_i hk
      refine ⟨hk, ?_⟩
      split at h1
      · assumption
      · simp at h1
    · rename_i hk
      rw [if_neg hk] at h2
      simp at h2
  · rintro ⟨hk, h⟩
    have h : w.tag.1 = pwTag P k.kind pw w.salt.1 (specParams w.state) w.nonce.1 w.edk.1 := h
    rw [if_pos (show KdfOk w.state pw from hk), if_pos h]
    rcases Key.fromBytes_cases (P := P)
      (applyKeystreamN (pwCodeStream P w.state pw w.salt.1 w.nonce) w.edk) with ⟨_, h⟩ | h <;>
      rw [h] <;> simp

/-- Nothing is decrypted from an unauthentic wrap: the result is the constant `CryptoError` (or the
panic of C41). -/
theorem unauthentic (w : PwWrappedKey v k) (pw : Bytes)
    (h : w.tag.1 ≠ pwTag P k.kind pw w.salt.1 (specParams w.settings) w.nonce.1 w.edk.1) :
    w.unwrapKey P pw = .err .cryptoError ∨ w.unwrapKey P pw = .panic := by
  rw [PwWrappedKey.unwrapKey_eq]
  split
  · rw [if_neg (show ¬ _ = pwTag P k.kind pw _ (specParams w.state) _ _ from h)]; exact .inl rfl
  · exact .inr rfl

/-- Which of the two it is does not depend on the tag: an unauthentic wrap panics exactly when its
parameters are out of range or the password is too long, and gives `CryptoError` otherwise. -/
theorem unauthentic_exact (w : PwWrappedKey v k) (pw : Bytes)
    (h : w.tag.1 ≠ pwTag P k.kind pw w.salt.1 (specParams w.settings) w.nonce.1 w.edk.1) :
    (w.unwrapKey P pw = .err .cryptoError ↔
      (C37.Valid w.settings ∧ (v = .V4 → pw.length < 2 ^ 32))) ∧
    (w.unwrapKey P pw = .panic ↔ ¬ (C37.Valid w.settings ∧ (v = .V4 → pw.length < 2 ^ 32))) := by
  have hp := C41.unwrap_panic_iff (P := P) w pw
  refine ⟨⟨fun e => ?_, fun hv => ?_⟩, hp⟩
  · exact Classical.not_not.1 fun hn => by rw [hp.2 hn] at e; cases e
  · rcases unauthentic w pw h with e | e
    · exact e
    · exact absurd hv (hp.1 e)

/-- Changing the tag of an accepted wrap: always `CryptoError`. -/
theorem wrong_tag (w : PwWrappedKey v k) (pw : Bytes) (key : Key P v k.kind)
    (hok : w.unwrapKey P pw = .ok key) (t' : BytesN (pwTagLen v)) (ht : t' ≠ w.tag) :
    ({ w with tag := t' } : PwWrappedKey v k).unwrapKey P pw = .err .cryptoError := by
  have h := (authentic_iff w pw).1 (by rw [hok]; simp)
  rw [PwWrappedKey.unwrapKey_eq, if_pos (show KdfOk w.state pw from (C37.kdfOk_iff _ _).2 h.1),
    if_neg]
  intro he
  exact ht (Subtype.ext (he.trans h.2.symm))

/-- Changing salt, parameters, nonce, ciphertext or key type under the tag of an accepted wrap:
`CryptoError` (or the panic of C41), or the two different authenticated messages have the same
MAC, each under the key its own salt and parameters derive. -/
theorem tampered {k' : WKind} (w : PwWrappedKey v k) (w' : PwWrappedKey v k') (pw : Bytes)
    (key : Key P v k.kind) (hok : w.unwrapKey P pw = .ok key) (ht : w'.tag = w.tag)
    (hne : ¬ (k' = k ∧ w'.salt = w.salt ∧ w'.settings = w.settings ∧ w'.nonce = w.nonce ∧
      w'.edk.1 = w.edk.1)) :
    w'.unwrapKey P pw = .err .cryptoError ∨ w'.unwrapKey P pw = .panic ∨
      (pwTagged k.kind w.salt.1 (specParams w.settings) w.nonce.1 w.edk.1 ≠
          pwTagged k'.kind w'.salt.1 (specParams w'.settings) w'.nonce.1 w'.edk.1 ∧
        Spec.mac P v (pwAuthKey P v (pwKey P (specParams w.settings) pw w.salt.1))
            (pwTagged k.kind w.salt.1 (specParams w.settings) w.nonce.1 w.edk.1) =
          Spec.mac P v (pwAuthKey P v (pwKey P (specParams w'.settings) pw w'.salt.1))
            (pwTagged k'.kind w'.salt.1 (specParams w'.settings) w'.nonce.1 w'.edk.1)) := by
  by_cases h1 : w'.unwrapKey P pw = .err .cryptoError
  · exact .inl h1
  by_cases h2 : w'.unwrapKey P pw = .panic
  · exact .inr (.inl h2)
  right; right
  have h' := (authentic_iff w' pw).1 ⟨h1, h2⟩
  have hw := (authentic_iff w pw).1 (by rw [hok]; simp)
  refine ⟨?_, ?_⟩
  · intro he
    obtain ⟨e1, e2, e3, e4, e5⟩ := pwTagged_inj he
    exact hne ⟨e1.symm, e2.symm, e3.symm, e4.symm, e5.symm⟩
  · exact hw.2.symm.trans ((congrArg Subtype.val ht).symm.trans h'.2)

/-- Unwrapping an accepted wrap with another password: `CryptoError`, or the keys derived from the
two passwords give the same MAC of this one message. (A V4 password of 2^32 bytes panics.) -/
theorem wrong_password (w : PwWrappedKey v k) (pw pw' : Bytes) (key : Key P v k.kind)
    (hok : w.unwrapKey P pw = .ok key) (hp : v = .V4 → pw'.length < 2 ^ 32) :
    w.unwrapKey P pw' = .err .cryptoError ∨
      Spec.mac P v (pwAuthKey P v (pwKey P (specParams w.settings) pw w.salt.1))
          (pwTagged k.kind w.salt.1 (specParams w.settings) w.nonce.1 w.edk.1) =
        Spec.mac P v (pwAuthKey P v (pwKey P (specParams w.settings) pw' w.salt.1))
          (pwTagged k.kind w.salt.1 (specParams w.settings) w.nonce.1 w.edk.1) := by
  have hw := (authentic_iff w pw).1 (by rw [hok]; simp)
  by_cases h : w.unwrapKey P pw' = .err .cryptoError
  · exact .inl h
  · right
    have hp : w.unwrapKey P pw' ≠ .panic := fun he =>
      (C41.unwrap_panic_iff w pw').1 he ⟨hw.1.1, hp⟩
    exact hw.2.symm.trans ((authentic_iff w pw').1 ⟨h, hp⟩).2

/-- V3 texts: any other text in place of an accepted one has another tag or differs in what the tag
covers, so `wrong_tag` or `tampered` applies to it. -/
theorem v3_text_tampered (s s' : Bytes) (w w' : PwWrappedKey .V3 k)
    (h : PwWrappedKey.parse .V3 k s = .ok w) (h' : PwWrappedKey.parse .V3 k s' = .ok w')
    (hne : s ≠ s') :
    w'.tag ≠ w.tag ∨ ¬ (w'.salt = w.salt ∧ w'.settings = w.settings ∧ w'.nonce = w.nonce ∧
      w'.edk = w.edk) := by
  by_cases ht : w'.tag = w.tag
  · right
    rintro ⟨e1, e2, e3, e4⟩
    apply hne
    apply C40.v3_injective s s' w h
    have : w' = w := by
      cases w; cases w'
      simp only [PwWrappedKey.settings] at *
      simp_all
    rw [← this]; exact h'
  · exact .inl ht

/-- V4 texts: any other text in place of an accepted one has another tag, or differs in what the tag
covers, or differs exactly in the four bytes in front of the memory parameter and unwraps like it. -/
theorem v4_text_tampered (s s' : Bytes) (w w' : PwWrappedKey .V4 k)
    (h : PwWrappedKey.parse .V4 k s = .ok w) (h' : PwWrappedKey.parse .V4 k s' = .ok w') :
    w'.tag ≠ w.tag ∨
    ¬ (w'.salt = w.salt ∧ w'.settings = w.settings ∧ w'.nonce = w.nonce ∧ w'.edk = w.edk) ∨
    (w' = w ∧ ∃ (a b : Bytes) (hi hi' : BytesN 4), a.length = 16 ∧
      s = paserkText .V4 (pwType k.kind) (a ++ hi.1 ++ b) ∧
      s' = paserkText .V4 (pwType k.kind) (a ++ hi'.1 ++ b)) := by
  by_cases ht : w'.tag = w.tag
  · right
    by_cases hs : w'.salt = w.salt ∧ w'.settings = w.settings ∧ w'.nonce = w.nonce ∧ w'.edk = w.edk
    · right
      have hw : w' = w := by
        obtain ⟨e1, e2, e3, e4⟩ := hs
        cases w; cases w'
        simp only [PwWrappedKey.settings] at *
        simp_all
      subst hw
      obtain ⟨hi, h⟩ := (C40.v4_texts s w').1 h
      obtain ⟨hi', h'⟩ := (C40.v4_texts s' w').1 h'
      refine ⟨rfl, w'.salt.1, Spec.BE 4 w'.state.mem.toNat ++ Spec.BE 4 w'.state.time.toNat ++
        Spec.BE 4 w'.state.para.toNat ++ w'.nonce.1 ++ w'.edk.1 ++ w'.tag.1, hi, hi', w'.salt.2,
        ?_, ?_⟩
      · rw [h]; simp only [List.append_assoc]
      · rw [h']; simp only [List.append_assoc]
    · exact .inl hs
  · exact .inl ht

/-- V4 texts: the last case of `v4_text_tampered` is real. The four bytes are not covered by the tag
the code checks: every accepted text stays accepted, with the same key, whatever is
written there. -/
theorem v4_text_malleable (s : Bytes) (w : PwWrappedKey .V4 k) (pw : Bytes) (key : Key P .V4 k.kind)
    (h : PwWrappedKey.parse .V4 k s = .ok w) (hok : w.unwrapKey P pw = .ok key) :
    ∃ s' w', s' ≠ s ∧ PwWrappedKey.parse .V4 k s' = .ok w' ∧ w'.unwrapKey P pw = .ok key := by
  obtain ⟨hi, hs⟩ := (C40.v4_texts s w).1 h
  have : ∃ hi' : BytesN 4, hi' ≠ hi := by
    by_cases h0 : hi = BytesN.fill 4 0
    · exact ⟨BytesN.fill 4 1, by rw [h0]; decide⟩
    · exact ⟨BytesN.fill 4 0, fun h => h0 h.symm⟩
  obtain ⟨hi', hne⟩ := this
  refine ⟨_, w, ?_, (C40.v4_texts _ w).2 ⟨hi', rfl⟩, hok⟩
  rw [hs]
  intro he
  have he := SecuredToken.base64url_inj (List.append_cancel_left he)
  simp only [List.append_assoc] at he
  exact hne (Subtype.ext (List.append_inj (List.append_cancel_left he) (by rw [hi.2, hi'.2])).1)

/-- Histories: all wraps made so far with one password, of keys of both types, with any settings. -/
inductive Wrapped (P : Prims) (v : Ver) (pw : Bytes) : List (Σ k, PwWrappedKey v k) → Prop
  | start : Wrapped P v pw []
  | wrap {hist k} {key : Key P v (WKind.kind k)} {st : KdfState v} {rng rng' : Rng}
      {w : PwWrappedKey v k} :
    Wrapped P v pw hist → key.pwWrapWithSettings pw st rng = .ok (w, rng') →
      Wrapped P v pw (⟨k, w⟩ :: hist)

/-- The MAC computation of a wrap: key and message. -/
def macQuery (P : Prims) (v : Ver) (pw : Bytes) (e : Σ k, PwWrappedKey v k) : Bytes × Bytes :=
  (pwAuthKey P v (pwKey P (specParams e.2.settings) pw e.2.salt.1),
    pwTagged e.1.kind e.2.salt.1 (specParams e.2.settings) e.2.nonce.1 e.2.edk.1)

theorem wrapped_mem {pw : Bytes} {hist : List (Σ k, PwWrappedKey v k)} (h : Wrapped P v pw hist)
    {e : Σ k, PwWrappedKey v k} (he : e ∈ hist) :
    ∃ (key : Key P v (WKind.kind e.1)) (st : KdfState v) (rng rng' : Rng),
      key.pwWrapWithSettings pw st rng = .ok (e.2, rng') := by
  induction h with
  | start => cases he
  | wrap _ h ih =>
    rcases List.mem_cons.1 he with rfl | he'
    · exact ⟨_, _, _, _, h⟩
    · exact ih he'

/-- After any history of wraps with a password, a wrapped key of either type that unwraps with it is
one of those made, or its tag is the MAC of a message never authenticated before: a forgery. -/
theorem unforgeable (pw : Bytes) (hist : List (Σ k, PwWrappedKey v k)) (hh : Wrapped P v pw hist)
    (w : PwWrappedKey v k) (hok : w.unwrapKey P pw ≠ .err .cryptoError)
    (hnp : w.unwrapKey P pw ≠ .panic) :
    (⟨k, w⟩ : Σ k, PwWrappedKey v k) ∈ hist ∨
      (w.tag.1 = Spec.mac P v (macQuery P v pw ⟨k, w⟩).1 (macQuery P v pw ⟨k, w⟩).2 ∧
        macQuery P v pw ⟨k, w⟩ ∉ hist.map (macQuery P v pw)) := by
  have ht := ((authentic_iff w pw).1 ⟨hok, hnp⟩).2
  by_cases hq : macQuery P v pw ⟨k, w⟩ ∈ hist.map (macQuery P v pw)
  · left
    obtain ⟨⟨k', w'⟩, he, hq⟩ := List.mem_map.1 hq
    obtain ⟨key, st, rng, rng', hw⟩ := wrapped_mem hh he
    obtain ⟨_, _, e0, _, h3⟩ := (Key.pwWrap_ok_iff key pw st rng rng' w').1 hw
    obtain ⟨e1, e2, e3, e4, e5⟩ := pwTagged_inj (Prod.mk.inj hq).2
    dsimp only at e0 e1 e2 e3 e4 e5 h3
    subst e1
    have e5 : w'.edk = w.edk := Subtype.ext e5
    have e3' : st = w.settings := e0.symm.trans e3
    have e6 : w'.tag = w.tag := by
      apply Subtype.ext
      rw [h3, e2, e3', e4, e5]; exact ht.symm
    have : w' = w := by
      cases w; cases w'
      simp only [PwWrappedKey.settings] at *
      simp_all
    rw [← this]; exact he
  · exact .inr ⟨ht, hq⟩

/-- A wrap from the history unwraps to the key that was wrapped. -/
theorem history_key (L : P.Laws) (pw : Bytes) (hist : List (Σ k, PwWrappedKey v k))
    (hh : Wrapped P v pw hist) (w : PwWrappedKey v k)
    (hm : (⟨k, w⟩ : Σ k, PwWrappedKey v k) ∈ hist) :
    ∃ (key : Key P v k.kind) (st : KdfState v) (rng rng' : Rng),
      key.pwWrapWithSettings pw st rng = .ok (w, rng') ∧ w.unwrapKey P pw = .ok key := by
  obtain ⟨key, st, rng, rng', h⟩ := wrapped_mem hh hm
  exact ⟨key, st, rng, rng', h, C37.pw_roundtrip_direct L key pw st rng rng' w h⟩

-- a history of two wraps; an accepted wrap and a rejected one
example (v : Ver) : ∃ hist : List (Σ k, PwWrappedKey v k), ∃ w w' : PwWrappedKey v .Local,
    Wrapped Toy.prims v (asc "pw") hist ∧ hist.length = 2 ∧
    w.unwrapKey Toy.prims (asc "pw") = .ok (Toy.localKey v) ∧
    w'.unwrapKey Toy.prims (asc "pw") = .err .cryptoError := by
  obtain ⟨w, s, h1, _, _, h2⟩ := C37.default_roundtrip (k := .Local) Toy.laws (Toy.localKey v)
    (asc "pw") Toy.tape (fun _ => by simp [asc]) (by rw [Toy.tape_length]; cases v <;> decide)
  let t' : BytesN (pwTagLen v) := ⟨w.tag.1.map (· + 1), by simp [w.tag.2]⟩
  have hne : t' ≠ w.tag := by
    intro h
    have h := congrArg Subtype.val h
    have hpos : 0 < w.tag.1.length := by rw [w.tag.2]; cases v <;> decide
    have := congrArg (fun l => l[0]?) h
    simp only [t', List.getElem?_map] at this
    rw [List.getElem?_eq_getElem hpos] at this
    simp only [Option.map_some, Option.some.injEq] at this
    revert this
    generalize w.tag.1[0] = x
    revert x
    apply B64.forall_uint8; decide +kernel
  exact ⟨[⟨_, w⟩, ⟨_, w⟩], w, _, .wrap (.wrap .start h1) h1, rfl, h2, wrong_tag w _ _ h2 t' hne⟩

/-- The text of a wrapped key that unwraps, and two changes of it: another salt with the same tag,
and another text. -/
example (v : Ver) : ∃ (s s' : Bytes) (w w' : PwWrappedKey v .Local),
    PwWrappedKey.parse v .Local s = .ok w ∧ w.unwrapKey Toy.prims (asc "pw") = .ok (Toy.localKey v) ∧
    PwWrappedKey.parse v .Local s' = .ok w' ∧ w'.tag = w.tag ∧ w'.salt ≠ w.salt ∧ s ≠ s' := by
  obtain ⟨w, s, -, h0, h1, h2⟩ := C37.default_roundtrip (k := .Local) Toy.laws (Toy.localKey v)
    (asc "pw") Toy.tape (fun _ => by simp [asc]) (by rw [Toy.tape_length]; cases v <;> decide)
  obtain ⟨b, hb⟩ : ∃ b : BytesN (pwSaltLen v), b ≠ w.salt := by
    by_cases h : BytesN.fill (pwSaltLen v) 0 = w.salt
    · refine ⟨BytesN.fill (pwSaltLen v) 1, fun h' => ?_⟩
      have := congrArg Subtype.val (h'.trans h.symm)
      revert this
      cases v <;> decide
    · exact ⟨_, h⟩
  obtain ⟨s', h3, h4⟩ := C40.parse_display { w with salt := b }
  refine ⟨s, s', w, _, h1, h2, h4, rfl, hb, ?_⟩
  rintro rfl
  rw [h1] at h4
  exact hb (congrArg PwWrappedKey.salt (Res.ok.inj h4)).symm

end C42
end Pasta
