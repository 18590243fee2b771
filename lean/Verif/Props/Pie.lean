import Verif.Lemmas.Wrap
import Verif.Props.Keys

/-!
# C33, C34, C35, C36: PIE key wrapping
-/

namespace Pasta

open Spec (paserkText pieType pieTag pieTagged pieAuthKey)

variable {P : Prims} {v : Ver} {k : WKind}

namespace C33

/-- Wrap, print, parse, unwrap with the same wrapping key: the key comes back. The wrap consumes
exactly 32 bytes of randomness. -/
theorem pie_roundtrip (L : P.Laws) (key : Key P v k.kind) (wk : Key P v .Local) (rng : Rng)
    (hr : 32 ≤ rng.length) :
    ∃ w s, key.wrapPie wk rng = .ok (w, rng.drop 32) ∧ w.display = .ok s ∧
      PieWrappedKey.parse v k s = .ok w ∧ w.unwrapKey P wk = .ok key := by
  let n : BytesN 32 := ⟨rng.take 32, by simp; omega⟩
  let c := applyKeystreamN (pieCodeStream P v wk.key n.1) key.toBytes
  have hl : (pieTag P v k.kind wk.key n.1 c.1).length = pieTagLen v := by
    rw [pieTagLen_eq]; exact mac_length P v _ _
  let w : PieWrappedKey v k := ⟨⟨_, hl⟩, n, c⟩
  refine ⟨w, _, ?_, PieWrappedKey.display_eq w, PieWrappedKey.parse_ok_iff.2 rfl, ?_⟩
  · exact (Key.wrapPie_ok_iff key wk rng _ w).2 ⟨(List.take_append_drop 32 rng).symm, rfl, rfl⟩
  · rw [PieWrappedKey.unwrapKey_eq, if_pos rfl]
    show Key.fromBytes P v k.kind (applyKeystreamN _ (applyKeystreamN _ key.toBytes)) = _
    rw [applyKeystreamN_twice]
    exact Key.fromBytes_toBytes L key

/-- Whatever a wrap returned unwraps to the key, also without printing. -/
theorem pie_roundtrip_direct (L : P.Laws) (key : Key P v k.kind) (wk : Key P v .Local)
    (rng rng' : Rng) (w : PieWrappedKey v k) (h : key.wrapPie wk rng = .ok (w, rng')) :
    w.unwrapKey P wk = .ok key := by
  obtain ⟨_, h2, h3⟩ := (Key.wrapPie_ok_iff key wk rng rng' w).1 h
  rw [PieWrappedKey.unwrapKey_eq, if_pos h3, h2, applyKeystreamN_twice]
  exact Key.fromBytes_toBytes L key

/-- Wrapping fails only when the random source runs dry (which an OS source does not). -/
theorem wrap_outcome (key : Key P v k.kind) (wk : Key P v .Local) (rng : Rng) :
    (∃ w, key.wrapPie wk rng = .ok (w, rng.drop 32)) ∨
      (rng.length < 32 ∧ key.wrapPie wk rng = .panic) := by
  by_cases h : 32 ≤ rng.length
  · left
    let n : BytesN 32 := ⟨rng.take 32, by simp; omega⟩
    let c := applyKeystreamN (pieCodeStream P v wk.key n.1) key.toBytes
    have hl : (pieTag P v k.kind wk.key n.1 c.1).length = pieTagLen v := by
      rw [pieTagLen_eq]; exact mac_length P v _ _
    exact ⟨⟨⟨_, hl⟩, n, c⟩, (Key.wrapPie_ok_iff key wk rng _ _).2
      ⟨(List.take_append_drop 32 rng).symm, rfl, rfl⟩⟩
  · right
    refine ⟨by omega, ?_⟩
    unfold Key.wrapPie
    rw [fillBytes_eq_panic.2 (by omega)]
    rfl

/-- The text form is canonical: parsing accepts exactly the printed forms. -/
theorem pie_text_iff (s : Bytes) (w : PieWrappedKey v k) :
    PieWrappedKey.parse v k s = .ok w ↔ w.display = .ok s := by
  rw [PieWrappedKey.parse_ok_iff, PieWrappedKey.display_eq, Res.ok.injEq, eq_comm]

example (v : Ver) : ∃ w r, (Toy.localKey v).wrapPie (k := .Local) (Toy.localKey v) Toy.tape = .ok (w, r) ∧
    w.unwrapKey Toy.prims (Toy.localKey v) = .ok (Toy.localKey v) := by
  obtain ⟨w, s, h1, _, _, h2⟩ :=
    pie_roundtrip (k := .Local) Toy.laws (Toy.localKey v) (Toy.localKey v) Toy.tape Toy.tape_ok
  exact ⟨w, _, h1, h2⟩

end C33

namespace C34

/-- No carry out of the low half of the CTR nonce (V3); V4 has no such condition. -/
def CounterOk (P : Prims) (wk : BytesN 32) (n : Bytes) (len : Nat) : Ver → Prop
  | .V3 => beNat ((Spec.v3PieEnc P wk n).2.1.drop 8) + (len + 15) / 16 ≤ 2 ^ 64
  | .V4 => True

theorem stream_eq (wk : BytesN 32) (n m : Bytes) (h : CounterOk P wk n m.length v) :
    applyKeystream (pieCodeStream P v wk n) m = Spec.xorStream m (Spec.pieStream P v wk n) := by
  rw [applyKeystream_eq_xorStream]
  apply xorStream_congr
  intro i hi
  cases v
  · simp only [CounterOk] at h
    exact aesCtr64_eq P _ _ i (by omega)
  · rfl

theorem stream_be64 (wk : BytesN 32) (n : Bytes) :
    pieCodeStream P v wk n = Spec.pieStream P v wk n .be64 := by
  cases v <;> rfl

theorem wrap_be64 (key : Key P v k.kind) (wk : Key P v .Local) (rng rng' : Rng)
    (w : PieWrappedKey v k) (h : key.wrapPie wk rng = .ok (w, rng')) :
    w.display = .ok (paserkText v (pieType k.kind)
      (Spec.pieWrap P v k.kind wk.key (rng.take 32) key.toBytes.1 .be64)) := by
  obtain ⟨h1, h2, h3⟩ := (Key.wrapPie_ok_iff key wk rng rng' w).1 h
  have hn : rng.take 32 = w.nonce.1 := by
    rw [h1]; simp [← w.nonce.2]
  rw [hn, PieWrappedKey.display_eq]
  unfold PieWrappedKey.data Spec.pieWrap
  dsimp only
  have hw : w.wrappedKey.1 = Spec.xorStream key.toBytes.1 (Spec.pieStream P v wk.key w.nonce.1 .be64) := by
    rw [← stream_be64, ← applyKeystream_eq_xorStream, h2]; rfl
  rw [h3, hw]

theorem pieWrap_be64_iff (wk : BytesN 32) (n ptk : Bytes) :
    Spec.pieWrap P v k.kind wk n ptk .be64 = Spec.pieWrap P v k.kind wk n ptk ↔
      ∀ j < ptk.length, Spec.pieStream P v wk n .be64 j = Spec.pieStream P v wk n .be128 j := by
  rw [← xorStream_eq_iff]
  unfold Spec.pieWrap
  dsimp only
  constructor
  · intro h
    exact (List.append_inj' h (by simp [Spec.xorStream])).2
  · intro h
    rw [h]

/-- V4: the wrapped text is that of the PASERK specification, for every key, wrapping key and
nonce. -/
theorem v4_wrap (key : Key P .V4 k.kind) (wk : Key P .V4 .Local) (rng rng' : Rng)
    (w : PieWrappedKey .V4 k) (h : key.wrapPie wk rng = .ok (w, rng')) :
    w.display = .ok (paserkText .V4 (pieType k.kind)
      (Spec.pieWrap P .V4 k.kind wk.key (rng.take 32) key.toBytes.1)) :=
  wrap_be64 key wk rng rng' w h

/-- V3: the wrapped text is that of the PASERK specification with the counter of CTR mode in the last
64 bits of the nonce, for every key, wrapping key and nonce. -/
theorem v3_wrap (key : Key P .V3 k.kind) (wk : Key P .V3 .Local) (rng rng' : Rng)
    (w : PieWrappedKey .V3 k) (h : key.wrapPie wk rng = .ok (w, rng')) :
    w.display = .ok (paserkText .V3 (pieType k.kind)
      (Spec.pieWrap P .V3 k.kind wk.key (rng.take 32) key.toBytes.1 .be64)) :=
  wrap_be64 key wk rng rng' w h

/-- V3: so it is the standard's text (128-bit counter) exactly when the two key streams agree on the
bytes of the key. -/
theorem v3_standard_iff (key : Key P .V3 k.kind) (wk : Key P .V3 .Local) (rng rng' : Rng)
    (w : PieWrappedKey .V3 k) (h : key.wrapPie wk rng = .ok (w, rng')) :
    w.display = .ok (paserkText .V3 (pieType k.kind)
        (Spec.pieWrap P .V3 k.kind wk.key (rng.take 32) key.toBytes.1)) ↔
      ∀ j < Spec.keyBytes .V3 k.kind, Spec.pieStream P .V3 wk.key (rng.take 32) .be64 j =
        Spec.pieStream P .V3 wk.key (rng.take 32) .be128 j := by
  have e := pieWrap_be64_iff (P := P) (v := .V3) (k := k) wk.key (rng.take 32) key.toBytes.1
  rw [key.toBytes.2.trans (keyLen_eq _ _)] at e
  rw [v3_wrap key wk rng rng' w h, ← e]
  exact ⟨fun h => SecuredToken.base64url_inj (List.append_cancel_left (Res.ok.inj h)),
    fun h => by rw [h]⟩

/-- V3: in particular it is the standard's text when the last 64 bits of the CTR nonce do not
overflow. -/
theorem v3_wrap_standard (key : Key P .V3 k.kind) (wk : Key P .V3 .Local) (rng rng' : Rng)
    (w : PieWrappedKey .V3 k) (h : key.wrapPie wk rng = .ok (w, rng'))
    (hc : CounterOk P wk.key (rng.take 32) (Spec.keyBytes .V3 k.kind) .V3) :
    w.display = .ok (paserkText .V3 (pieType k.kind)
      (Spec.pieWrap P .V3 k.kind wk.key (rng.take 32) key.toBytes.1)) := by
  rw [v3_standard_iff key wk rng rng' w h]
  intro j hj
  simp only [CounterOk] at hc
  exact aesCtr64_eq P _ _ j (by omega)

/-- V3: when the low half does overflow (and AES is injective, as it is), the printed text is not
the specification's. -/
theorem v3_ctr_deviates (key : Key P .V3 k.kind) (wk : Key P .V3 .Local) (rng rng' : Rng)
    (w : PieWrappedKey .V3 k) (h : key.wrapPie wk rng = .ok (w, rng'))
    (hinj : ∀ ek x y, P.aes256 ek x = P.aes256 ek y → x = y)
    (hc : ¬ CounterOk P wk.key (rng.take 32) (Spec.keyBytes .V3 k.kind) .V3) :
    w.display ≠ .ok (paserkText .V3 (pieType k.kind)
      (Spec.pieWrap P .V3 k.kind wk.key (rng.take 32) key.toBytes.1)) := by
  obtain ⟨h1, h2, h3⟩ := (Key.wrapPie_ok_iff key wk rng rng' w).1 h
  have hn : rng.take 32 = w.nonce.1 := by
    rw [h1]; simp [← w.nonce.2]
  rw [hn] at hc ⊢
  rw [PieWrappedKey.display_eq]
  intro he
  have he := SecuredToken.base64url_inj (List.append_cancel_left (Res.ok.inj he))
  unfold PieWrappedKey.data Spec.pieWrap at he
  dsimp only at he
  have hw := (List.append_inj' he (by simp [Spec.xorStream, w.wrappedKey.2, key.toBytes.2])).2
  rw [h2] at hw
  have hw : applyKeystream (pieCodeStream P .V3 wk.key w.nonce.1) key.toBytes.1 = _ := hw
  rw [applyKeystream_eq_xorStream, xorStream_eq_iff] at hw
  simp only [CounterOk, Nat.not_le] at hc
  have hlo := beNat_lt ((Spec.v3PieEnc P wk.key w.nonce.1).2.1.drop 8)
  rw [drop8_length] at hlo
  have hkb : Spec.keyBytes .V3 k.kind = 32 ∨ Spec.keyBytes .V3 k.kind = 48 := by
    cases k
    · exact .inl rfl
    · exact .inr rfl
  obtain ⟨i, hi1, hi2⟩ := aesCtr64_ne P (Spec.v3PieEnc P wk.key w.nonce.1).1
    (Spec.v3PieEnc P wk.key w.nonce.1).2 (hinj _)
    ((Spec.keyBytes .V3 k.kind + 15) / 16 - 1) (by omega) (by omega)
  apply hi2
  apply hw i
  rw [key.toBytes.2, keyLen_eq]
  rcases hkb with hkb | hkb <;> rw [hkb] at hi1 ⊢ <;> omega

theorem unwrap_be64 (w : PieWrappedKey v k) (wk : Key P v .Local) (key : Key P v k.kind) :
    w.unwrapKey P wk = .ok key ↔
      ∃ ptk : BytesN (keyLen v k.kind),
        Spec.PieUnwraps P v k.kind wk.key w.tag.1 w.nonce.1 w.wrappedKey.1 ptk.1 .be64 ∧
        Key.fromBytes P v k.kind ptk = .ok key := by
  rw [PieWrappedKey.unwrapKey_eq]
  have hs : applyKeystream (pieCodeStream P v wk.key w.nonce.1) w.wrappedKey.1 =
      Spec.xorStream w.wrappedKey.1 (Spec.pieStream P v wk.key w.nonce.1 .be64) := by
    rw [applyKeystream_eq_xorStream, stream_be64]
  constructor
  · intro h
    split at h
    · rename_i ht
      exact ⟨_, ⟨ht, hs⟩, h⟩
    · simp at h
  · rintro ⟨ptk, ⟨ht, hp⟩, hk⟩
    rw [if_pos ht, ← hk]
    congr 1
    exact Subtype.ext (hs.trans hp.symm)

/-- Unwrapping, V4: succeeds with a key exactly when the specification's unwrap gives bytes that
are that key. -/
theorem v4_unwrap (w : PieWrappedKey .V4 k) (wk : Key P .V4 .Local) (key : Key P .V4 k.kind) :
    w.unwrapKey P wk = .ok key ↔
      ∃ ptk : BytesN (keyLen .V4 k.kind),
        Spec.PieUnwraps P .V4 k.kind wk.key w.tag.1 w.nonce.1 w.wrappedKey.1 ptk.1 ∧
        Key.fromBytes P .V4 k.kind ptk = .ok key :=
  unwrap_be64 w wk key

/-- Unwrapping, V3: the same with the specification's unwrap that counts in the last 64 bits of the
nonce. -/
theorem v3_unwrap (w : PieWrappedKey .V3 k) (wk : Key P .V3 .Local) (key : Key P .V3 k.kind) :
    w.unwrapKey P wk = .ok key ↔
      ∃ ptk : BytesN (keyLen .V3 k.kind),
        Spec.PieUnwraps P .V3 k.kind wk.key w.tag.1 w.nonce.1 w.wrappedKey.1 ptk.1 .be64 ∧
        Key.fromBytes P .V3 k.kind ptk = .ok key :=
  unwrap_be64 w wk key

/-- Unwrapping, V3: and so with the standard's unwrap when the counter does not overflow. -/
theorem v3_unwrap_standard (w : PieWrappedKey .V3 k) (wk : Key P .V3 .Local)
    (key : Key P .V3 k.kind)
    (hc : CounterOk P wk.key w.nonce.1 (Spec.keyBytes .V3 k.kind) .V3) :
    w.unwrapKey P wk = .ok key ↔
      ∃ ptk : BytesN (keyLen .V3 k.kind),
        Spec.PieUnwraps P .V3 k.kind wk.key w.tag.1 w.nonce.1 w.wrappedKey.1 ptk.1 ∧
        Key.fromBytes P .V3 k.kind ptk = .ok key := by
  rw [PieWrappedKey.unwrapKey_eq]
  have hs : applyKeystream (pieCodeStream P .V3 wk.key w.nonce.1) w.wrappedKey.1 = _ :=
    stream_eq (v := .V3) wk.key w.nonce.1 w.wrappedKey.1
      (by rw [w.wrappedKey.2, keyLen_eq]; exact hc)
  constructor
  · intro h
    split at h
    · rename_i ht
      exact ⟨_, ⟨ht, hs⟩, h⟩
    · simp at h
  · rintro ⟨ptk, ⟨ht, hp⟩, hk⟩
    rw [if_pos ht, ← hk]
    congr 1
    exact Subtype.ext (hs.trans hp.symm)

/-- The nonce written out is the random source's first 32 bytes; sizes are fixed. -/
theorem wrap_layout (key : Key P v k.kind) (wk : Key P v .Local) (rng rng' : Rng)
    (w : PieWrappedKey v k) (h : key.wrapPie wk rng = .ok (w, rng')) :
    ∃ t c, w.display = .ok (paserkText v (pieType k.kind) (t ++ rng.take 32 ++ c)) ∧
      t.length = Spec.tagLen v ∧ c.length = Spec.keyBytes v k.kind ∧
      t = pieTag P v k.kind wk.key (rng.take 32) c := by
  obtain ⟨h1, h2, h3⟩ := (Key.wrapPie_ok_iff key wk rng rng' w).1 h
  have hn : rng.take 32 = w.nonce.1 := by
    rw [h1]; simp [← w.nonce.2]
  refine ⟨w.tag.1, w.wrappedKey.1, ?_, ?_, ?_, ?_⟩
  · rw [PieWrappedKey.display_eq, hn]; rfl
  · rw [w.tag.2, pieTagLen_eq]
  · rw [w.wrappedKey.2, keyLen_eq]
  · rw [hn]; exact h3

-- the V3 counter condition is met by a concrete wrap
example : ∃ w r, Toy.v3Secret.wrapPie (k := .Secret) (Toy.localKey .V3) Toy.tape = .ok (w, r) ∧
    CounterOk Toy.prims (Toy.localKey .V3).key (Toy.tape.take 32) (Spec.keyBytes .V3 .Secret) .V3 := by
  obtain ⟨w, s, h1, _⟩ :=
    C33.pie_roundtrip (k := .Secret) Toy.laws Toy.v3Secret (Toy.localKey .V3) Toy.tape Toy.tape_ok
  refine ⟨w, _, h1, ?_⟩
  show _ ≤ _
  decide +kernel

-- … and violated by another, where `v3_ctr_deviates` applies
example : ∃ w r, (⟨Toy.key32⟩ : Key Sample.ones .V3 .Local).wrapPie (k := .Local) ⟨Toy.key32⟩ Toy.tape =
      .ok (w, r) ∧
    (∀ ek x y, Sample.ones.aes256 ek x = Sample.ones.aes256 ek y → x = y) ∧
    ¬ CounterOk Sample.ones Toy.key32 (Toy.tape.take 32) (Spec.keyBytes .V3 .Local) .V3 := by
  rcases C33.wrap_outcome (k := .Local) (⟨Toy.key32⟩ : Key Sample.ones .V3 .Local) ⟨Toy.key32⟩
    Toy.tape with ⟨w, h⟩ | ⟨h, _⟩
  · exact ⟨w, _, h, Sample.ones_aes_inj, by show ¬ _ ≤ _; decide +kernel⟩
  · have := Toy.tape_ok; omega

/-- A V4 wrap of a secret key prints the specification's text. -/
example : ∃ w r, Toy.v4Secret.wrapPie (k := .Secret) (Toy.localKey .V4) Toy.tape = .ok (w, r) ∧
    w.display = .ok (paserkText .V4 (pieType .Secret) (Spec.pieWrap Toy.prims .V4 .Secret
      (Toy.localKey .V4).key (Toy.tape.take 32) Toy.v4Secret.toBytes.1)) := by
  obtain ⟨w, s, h1, _⟩ :=
    C33.pie_roundtrip (k := .Secret) Toy.laws Toy.v4Secret (Toy.localKey .V4) Toy.tape Toy.tape_ok
  exact ⟨w, _, h1, v4_wrap _ _ _ _ w h1⟩

end C34

namespace C35

theorem pieTagged_inj {v v' : Ver} {k k' : WKind} {n n' : BytesN 32} {c c' : Bytes}
    (h : pieTagged v k.kind n.1 c = pieTagged v' k'.kind n'.1 c') :
    v = v' ∧ k = k' ∧ n = n' ∧ c = c' := by
  have h4 : ((pieTagged v k.kind n.1 c).take 4) = ((pieTagged v' k'.kind n'.1 c').take 4) := by rw [h]
  have hv : v = v' ∧ k = k' := by
    cases v <;> cases v' <;> cases k <;> cases k' <;>
      first | exact ⟨rfl, rfl⟩ | (exfalso; revert h4; simp [pieTagged, Spec.paserkHeader, Spec.paserkVersion, pieType, WKind.kind, asc])
  obtain ⟨rfl, rfl⟩ := hv
  refine ⟨rfl, rfl, ?_⟩
  unfold Spec.pieTagged at h
  rw [List.append_assoc, List.append_assoc] at h
  obtain ⟨h1, h2⟩ := List.append_inj (List.append_cancel_left h) (by rw [n.2, n'.2])
  exact ⟨Subtype.ext h1, h2⟩

/-- Unwrapping gets past authentication exactly when the tag is the MAC of header, nonce and
ciphertext under the key derived from this wrapping key and nonce. -/
theorem authentic_iff (w : PieWrappedKey v k) (wk : Key P v .Local) :
    w.unwrapKey P wk ≠ .err .cryptoError ↔
      w.tag.1 = Spec.mac P v (pieAuthKey P v wk.key w.nonce.1)
        (Spec.paserkHeader v (pieType k.kind) ++ w.nonce.1 ++ w.wrappedKey.1) := by
  rw [PieWrappedKey.unwrapKey_eq]
  constructor
  · intro h
    split at h
    · assumption
    · simp at h
  · intro h
    have h : w.tag.1 = pieTag P v k.kind wk.key w.nonce.1 w.wrappedKey.1 := h
    rw [if_pos h]
    rcases Key.fromBytes_cases (P := P)
      (applyKeystreamN (pieCodeStream P v wk.key w.nonce.1) w.wrappedKey) with ⟨_, h⟩ | h <;>
      rw [h] <;> simp

/-- Nothing is decrypted from an unauthentic wrap: the result is the constant `CryptoError`. -/
theorem unauthentic (w : PieWrappedKey v k) (wk : Key P v .Local)
    (h : w.tag.1 ≠ pieTag P v k.kind wk.key w.nonce.1 w.wrappedKey.1) :
    w.unwrapKey P wk = .err .cryptoError := by
  rw [PieWrappedKey.unwrapKey_eq, if_neg h]

/-- Changing the tag of an accepted wrap: always `CryptoError`. -/
theorem wrong_tag (w w' : PieWrappedKey v k) (wk : Key P v .Local)
    (hok : w.unwrapKey P wk ≠ .err .cryptoError) (hn : w'.nonce = w.nonce)
    (hc : w'.wrappedKey = w.wrappedKey) (ht : w'.tag ≠ w.tag) :
    w'.unwrapKey P wk = .err .cryptoError := by
  apply unauthentic
  rw [authentic_iff] at hok
  rw [hn, hc]
  intro h
  exact ht (Subtype.ext (h.trans hok.symm))

/-- Changing nonce, ciphertext or key type under the tag of an accepted wrap: `CryptoError`, or the
two different authenticated messages have the same MAC (under the keys of the two nonces). -/
theorem tampered {k' : WKind} (w : PieWrappedKey v k) (w' : PieWrappedKey v k')
    (wk : Key P v .Local) (hok : w.unwrapKey P wk ≠ .err .cryptoError) (ht : w'.tag = w.tag)
    (hne : ¬ (k' = k ∧ w'.nonce = w.nonce ∧ w'.wrappedKey.1 = w.wrappedKey.1)) :
    w'.unwrapKey P wk = .err .cryptoError ∨
      (pieTagged v k.kind w.nonce.1 w.wrappedKey.1 ≠
          pieTagged v k'.kind w'.nonce.1 w'.wrappedKey.1 ∧
        Spec.mac P v (pieAuthKey P v wk.key w.nonce.1)
            (pieTagged v k.kind w.nonce.1 w.wrappedKey.1) =
          Spec.mac P v (pieAuthKey P v wk.key w'.nonce.1)
            (pieTagged v k'.kind w'.nonce.1 w'.wrappedKey.1)) := by
  by_cases h : w'.unwrapKey P wk = .err .cryptoError
  · exact .inl h
  · right
    have h' := (authentic_iff w' wk).1 h
    have hw := (authentic_iff w wk).1 hok
    refine ⟨?_, ?_⟩
    · intro he
      obtain ⟨_, h1, h2, h3⟩ := pieTagged_inj he
      exact hne ⟨h1.symm, h2.symm, h3.symm⟩
    · exact hw.symm.trans ((congrArg Subtype.val ht).symm.trans h')

/-- Unwrapping an accepted wrap with another wrapping key: `CryptoError`, or the two derived
authentication keys give the same MAC of this one message. -/
theorem wrong_key (w : PieWrappedKey v k) (wk wk' : Key P v .Local)
    (hok : w.unwrapKey P wk ≠ .err .cryptoError) :
    w.unwrapKey P wk' = .err .cryptoError ∨
      Spec.mac P v (pieAuthKey P v wk.key w.nonce.1)
          (pieTagged v k.kind w.nonce.1 w.wrappedKey.1) =
        Spec.mac P v (pieAuthKey P v wk'.key w.nonce.1)
          (pieTagged v k.kind w.nonce.1 w.wrappedKey.1) := by
  by_cases h : w.unwrapKey P wk' = .err .cryptoError
  · exact .inl h
  · exact .inr (((authentic_iff w wk).1 hok).symm.trans ((authentic_iff w wk').1 h))

/-- Histories: all wraps made so far under one wrapping key, of keys of both types. -/
inductive Wrapped (P : Prims) (v : Ver) (wk : Key P v .Local) :
    List (Σ k, PieWrappedKey v k) → Prop
  | start : Wrapped P v wk []
  | wrap {hist k} {key : Key P v (WKind.kind k)} {rng rng' : Rng} {w : PieWrappedKey v k} :
    Wrapped P v wk hist → key.wrapPie wk rng = .ok (w, rng') → Wrapped P v wk (⟨k, w⟩ :: hist)

/-- The MAC computation of a wrap: key and message. -/
def macQuery (P : Prims) (v : Ver) (wk : Key P v .Local) (e : Σ k, PieWrappedKey v k) :
    Bytes × Bytes :=
  (pieAuthKey P v wk.key e.2.nonce.1, pieTagged v e.1.kind e.2.nonce.1 e.2.wrappedKey.1)

theorem wrapped_mem {wk : Key P v .Local} {hist : List (Σ k, PieWrappedKey v k)}
    (h : Wrapped P v wk hist) {e : Σ k, PieWrappedKey v k} (he : e ∈ hist) :
    ∃ (key : Key P v (WKind.kind e.1)) (rng rng' : Rng), key.wrapPie wk rng = .ok (e.2, rng') := by
  induction h with
  | start => cases he
  | wrap _ h ih =>
    rcases List.mem_cons.1 he with rfl | he'
    · exact ⟨_, _, _, h⟩
    · exact ih he'

/-- After any history of wraps under a wrapping key, a wrapped key of either type that gets past
authentication is one of those made, or its tag is the MAC of a message never authenticated before
under that key: a MAC forgery. -/
theorem unforgeable (wk : Key P v .Local) (hist : List (Σ k, PieWrappedKey v k))
    (hh : Wrapped P v wk hist) (w : PieWrappedKey v k)
    (hok : w.unwrapKey P wk ≠ .err .cryptoError) :
    (⟨k, w⟩ : Σ k, PieWrappedKey v k) ∈ hist ∨
      (w.tag.1 = Spec.mac P v (pieAuthKey P v wk.key w.nonce.1)
          (pieTagged v k.kind w.nonce.1 w.wrappedKey.1) ∧
        (pieAuthKey P v wk.key w.nonce.1, pieTagged v k.kind w.nonce.1 w.wrappedKey.1) ∉
          hist.map (macQuery P v wk)) := by
  have ht := (authentic_iff w wk).1 hok
  by_cases hq : (pieAuthKey P v wk.key w.nonce.1, pieTagged v k.kind w.nonce.1 w.wrappedKey.1) ∈
      hist.map (macQuery P v wk)
  · left
    obtain ⟨⟨k', w'⟩, he, hq⟩ := List.mem_map.1 hq
    obtain ⟨key, rng, rng', hw⟩ := wrapped_mem hh he
    obtain ⟨_, _, h3⟩ := (Key.wrapPie_ok_iff key wk rng rng' w').1 hw
    obtain ⟨_, e1, e2, e3⟩ := pieTagged_inj (Prod.mk.inj hq).2
    dsimp only at e1 e2 e3 h3
    subst e1
    have e3 : w'.wrappedKey = w.wrappedKey := Subtype.ext e3
    have e4 : w'.tag = w.tag := by
      apply Subtype.ext
      rw [h3, e2, e3]; exact ht.symm
    have : w' = w := by
      cases w; cases w'; simp_all
    rw [← this]; exact he
  · exact .inr ⟨ht, hq⟩

/-- An accepted wrap from the history unwraps to the key that was wrapped. -/
theorem history_key (L : P.Laws) (wk : Key P v .Local) (hist : List (Σ k, PieWrappedKey v k))
    (hh : Wrapped P v wk hist) (w : PieWrappedKey v k)
    (hm : (⟨k, w⟩ : Σ k, PieWrappedKey v k) ∈ hist) :
    ∃ (key : Key P v k.kind) (rng rng' : Rng), key.wrapPie wk rng = .ok (w, rng') ∧
      w.unwrapKey P wk = .ok key := by
  obtain ⟨key, rng, rng', h⟩ := wrapped_mem hh hm
  exact ⟨key, rng, rng', h, C33.pie_roundtrip_direct L key wk rng rng' w h⟩

-- a history of two wraps, one accepted and one rejected wrap
example (v : Ver) : ∃ hist : List (Σ k, PieWrappedKey v k), ∃ w w' : PieWrappedKey v .Local,
    Wrapped Toy.prims v (Toy.localKey v) hist ∧ hist.length = 2 ∧
    w.unwrapKey Toy.prims (Toy.localKey v) ≠ .err .cryptoError ∧
    w'.unwrapKey Toy.prims (Toy.localKey v) = .err .cryptoError := by
  obtain ⟨w, s, h1, _, _, h2⟩ :=
    C33.pie_roundtrip (k := .Local) Toy.laws (Toy.localKey v) (Toy.localKey v) Toy.tape Toy.tape_ok
  let t' : BytesN (pieTagLen v) := ⟨w.tag.1.map (· + 1), by simp [w.tag.2]⟩
  have hne : t' ≠ w.tag := by
    intro h
    have h := congrArg Subtype.val h
    have hl := w.tag.2
    have hpos : 0 < w.tag.1.length := by rw [hl]; cases v <;> decide
    have := congrArg (fun l => l[0]?) h
    simp only [t', List.getElem?_map] at this
    rw [List.getElem?_eq_getElem hpos] at this
    simp only [Option.map_some, Option.some.injEq] at this
    revert this
    generalize w.tag.1[0] = x
    revert x
    apply B64.forall_uint8; decide +kernel
  exact ⟨[⟨_, w⟩, ⟨_, w⟩], w, ⟨t', w.nonce, w.wrappedKey⟩, .wrap (.wrap .start h1) h1, rfl,
    by rw [h2]; simp, wrong_tag w _ _ (by rw [h2]; simp) rfl rfl hne⟩

end C35

namespace C36

/-- Unwrapping returns a key, `CryptoError` or `InvalidKey`; it never panics. -/
theorem unwrap_total (w : PieWrappedKey v k) (wk : Key P v .Local) :
    (∃ key, w.unwrapKey P wk = .ok key) ∨ w.unwrapKey P wk = .err .cryptoError ∨
      w.unwrapKey P wk = .err .invalidKey := by
  rw [PieWrappedKey.unwrapKey_eq]
  split
  · rcases Key.fromBytes_cases (P := P)
      (applyKeystreamN (pieCodeStream P v wk.key w.nonce.1) w.wrappedKey) with h | h
    · exact .inl h
    · exact .inr (.inr h)
  · exact .inr (.inl rfl)

/-- Wrapped local keys give no `InvalidKey`: any authentic wrap unwraps. -/
theorem local_unwrap_total (w : PieWrappedKey v .Local) (wk : Key P v .Local) :
    (∃ key, w.unwrapKey P wk = .ok key) ∨ w.unwrapKey P wk = .err .cryptoError := by
  rw [PieWrappedKey.unwrapKey_eq]
  split
  · exact .inl (Key.fromBytes_local _)
  · exact .inr rfl

/-- From text: parsing and unwrapping any string never panics. -/
theorem text_unwrap_total (s : Bytes) (wk : Key P v .Local) :
    (PieWrappedKey.parse v k s >>= fun w => w.unwrapKey P wk) ≠ .panic := by
  intro h
  rcases Res.bind_eq_panic.1 h with h | ⟨w, _, h⟩
  · rw [PieWrappedKey.parse_eq] at h
    rcases Res.bind_eq_panic.1 h with h | ⟨r, _, h⟩
    · exact Res.okOr_ne_panic h
    · rcases Res.bind_eq_panic.1 h with h | ⟨b, _, h⟩
      · rcases readB64_cases (n := pieOutputLen v k) (s := r) with ⟨b, hb⟩ | hb <;>
          rw [hb] at h <;> simp at h
      · simp at h
  · rcases unwrap_total w wk with ⟨_, h'⟩ | h' | h' <;> rw [h'] at h <;> simp at h

/-- All three happen: a wrap of a key unwraps (C33), one with a changed tag is refused (C35), and here are 64
bytes that are no V4 secret key, wrapped with a right tag. -/
example : ∃ w : PieWrappedKey .V4 .Secret, w.unwrapKey Toy.prims (Toy.localKey .V4) = .err .invalidKey := by
  let bad : BytesN 64 := ⟨Toy.key32.1 ++ List.replicate 32 0, rfl⟩
  let c : BytesN 64 := applyKeystreamN (pieCodeStream Toy.prims .V4 (Toy.localKey .V4).key Toy.key32.1) bad
  refine ⟨⟨⟨pieTag Toy.prims .V4 .Secret (Toy.localKey .V4).key Toy.key32.1 c.1, by
    rfl⟩, Toy.key32, c⟩, ?_⟩
  have h : applyKeystreamN (pieCodeStream Toy.prims .V4 (Toy.localKey .V4).key Toy.key32.1) c = bad :=
    applyKeystreamN_twice _ _
  exact (PieWrappedKey.unwrapKey_eq _ _).trans ((if_pos rfl).trans
    ((congrArg (Key.fromBytes Toy.prims .V4 .Secret) h).trans (by rfl)))

end C36
end Pasta
