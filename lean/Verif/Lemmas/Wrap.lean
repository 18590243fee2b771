import Verif.Lemmas.Key
import Verif.Lemmas.Local
import Verif.Lemmas.Ctr

/-! # Lemmas about PIE wrapping -/

namespace Pasta

open Spec (paserkText pieType pieTag pieTagged)

variable {P : Prims} {v : Ver} {k : WKind}

/-- The key stream the code uses: the specification's derived key and nonce, with the code's
counter mode in V3. -/
def pieCodeStream (P : Prims) : (v : Ver) → BytesN 32 → Bytes → Nat → UInt8
  | .V3, wk, n => P.aesCtr64 (Spec.v3PieEnc P wk n).1 (Spec.v3PieEnc P wk n).2
  | .V4, wk, n => P.xchacha20 (Spec.v4PieEnc P wk n).1 (Spec.v4PieEnc P wk n).2

theorem pieEncKeyMac_eq (P : Prims) (v : Ver) (wk : BytesN 32) (n : Bytes) :
    ∃ x, pieEncKeyMac P v wk.1 ([0x80] ++ n) = .ok x ∧
      stream P v (BytesN.split 32 (ivLen v) (pieEncKeyLen_eq v) x).1
        (BytesN.split 32 (ivLen v) (pieEncKeyLen_eq v) x).2 = pieCodeStream P v wk n := by
  cases v
  · exact ⟨P.hmacSha384 wk.1 (0x80 :: n), rfl, rfl⟩
  · refine ⟨P.blake2bMac 56 wk.1 (0x80 :: n), ?_, rfl⟩
    show P.blakeMac 56 wk.1 _ = _
    unfold Prims.blakeMac
    rw [if_pos (by rw [wk.2]; decide)]
    rfl

theorem pieAuthKeyMac_eq (P : Prims) (v : Ver) (wk : BytesN 32) (n : Bytes) :
    ∃ x, pieAuthKeyMac P v wk.1 ([0x81] ++ n) = .ok x ∧ x.1.take 32 = Spec.pieAuthKey P v wk n := by
  cases v
  · exact ⟨P.hmacSha384 wk.1 (0x81 :: n), rfl, rfl⟩
  · refine ⟨P.blake2bMac 32 wk.1 (0x81 :: n), ?_, ?_⟩
    · show P.blakeMac 32 wk.1 _ = _
      unfold Prims.blakeMac
      rw [if_pos (by rw [wk.2]; decide)]
      rfl
    · show (P.blake2bMac 32 wk.1 (0x81 :: n)).1.take 32 = (P.blake2bMac 32 wk.1 (0x81 :: n)).1
      rw [List.take_of_length_le]
      rw [(P.blake2bMac 32 wk.1 (0x81 :: n)).2]; exact Nat.le_refl _

theorem mac_length (P : Prims) (v : Ver) (ak m : Bytes) :
    (Spec.mac P v ak m).length = Spec.tagLen v := by
  cases v
  · exact (P.hmacSha384 ak m).2
  · exact (P.blake2bMac 32 ak m).2

theorem pieTagLen_eq (v : Ver) : pieTagLen v = Spec.tagLen v := by cases v <;> rfl

theorem pieTagMac_eq (P : Prims) (v : Ver) (ak m : Bytes) (h : ak.length ≤ 64) :
    ∃ t, pieTagMac P v ak m = .ok t ∧ t.1 = Spec.mac P v ak m := by
  cases v
  · exact ⟨P.hmacSha384 ak m, rfl, rfl⟩
  · refine ⟨P.blake2bMac 32 ak m, ?_, rfl⟩
    show P.blakeMac 32 ak m = _
    unfold Prims.blakeMac
    rw [if_pos h]
    rfl

theorem pieAuthKey_length (P : Prims) (v : Ver) (wk : BytesN 32) (n : Bytes) :
    (Spec.pieAuthKey P v wk n).length = 32 := by
  cases v
  · show ((P.hmacSha384 wk.1 (0x81 :: n)).1.take 32).length = 32
    rw [List.length_take, (P.hmacSha384 wk.1 (0x81 :: n)).2]
    rfl
  · exact (P.blake2bMac 32 wk.1 (0x81 :: n)).2

theorem pieTagInput_eq (v : Ver) (k : WKind) (n c : Bytes) :
    pieTagInput v k n c = pieTagged v k.kind n c := by
  unfold pieTagInput Spec.pieTagged
  rw [pieHeader_eq]

theorem Key.wrapPie_ok_iff (key : Key P v k.kind) (wk : Key P v .Local) (rng rng' : Rng)
    (w : PieWrappedKey v k) :
    key.wrapPie wk rng = .ok (w, rng') ↔
      rng = w.nonce.1 ++ rng' ∧
      w.wrappedKey = applyKeystreamN (pieCodeStream P v wk.key w.nonce.1) key.toBytes ∧
      w.tag.1 = pieTag P v k.kind wk.key w.nonce.1 w.wrappedKey.1 := by
  have core : ∀ n : BytesN 32, ∃ t : BytesN (pieTagLen v),
      t.1 = pieTag P v k.kind wk.key n.1
        (applyKeystreamN (pieCodeStream P v wk.key n.1) key.toBytes).1 ∧
      (do
        let ek ← pieEncKeyMac P v wk.key.1 ([0x80] ++ n.1)
        let (ek, n2) := BytesN.split 32 (ivLen v) (pieEncKeyLen_eq v) ek
        let ak ← pieAuthKeyMac P v wk.key.1 ([0x81] ++ n.1)
        let c := applyKeystreamN (stream P v ek n2) key.toBytes
        let tag ← pieTagMac P v (ak.1.take 32) (pieTagInput v k n.1 c.1)
        return (({ wrappedKey := c, nonce := n, tag := tag }, rng') : PieWrappedKey v k × Rng)) =
      .ok (⟨t, n, applyKeystreamN (pieCodeStream P v wk.key n.1) key.toBytes⟩, rng') := by
    intro n
    obtain ⟨x, h1, h2⟩ := pieEncKeyMac_eq P v wk.key n.1
    obtain ⟨y, h3, h4⟩ := pieAuthKeyMac_eq P v wk.key n.1
    obtain ⟨t, h5, h6⟩ := pieTagMac_eq P v (y.1.take 32)
      (pieTagInput v k n.1 (applyKeystreamN (pieCodeStream P v wk.key n.1) key.toBytes).1)
      (by rw [h4, pieAuthKey_length]; decide)
    refine ⟨t, ?_, ?_⟩
    · rw [h6, h4, pieTagInput_eq]; rfl
    · rw [h1]
      simp only [Res.ok_bind, Res.pure_def]
      rw [h3]
      simp only [Res.ok_bind]
      rw [h2, h5]
      rfl
  unfold Key.wrapPie
  rw [Res.bind_eq_ok]
  constructor
  · rintro ⟨⟨n, r⟩, h1, h2⟩
    rw [fillBytes_eq_ok] at h1
    have hr : r = rng' := by
      obtain ⟨_, _, h2⟩ := Res.bind_eq_ok.1 h2
      obtain ⟨_, _, h2⟩ := Res.bind_eq_ok.1 h2
      obtain ⟨_, _, h2⟩ := Res.bind_eq_ok.1 h2
      simp only [Res.pure_def, Res.ok.injEq, Prod.mk.injEq] at h2
      exact h2.2
    subst hr
    obtain ⟨t, ht, he⟩ := core n
    have := h2.symm.trans he
    simp only [Res.ok.injEq, Prod.mk.injEq, and_true] at this
    subst this
    exact ⟨h1, rfl, ht⟩
  · rintro ⟨h1, h2, h3⟩
    obtain ⟨t, ht, he⟩ := core w.nonce
    refine ⟨(w.nonce, rng'), fillBytes_eq_ok.2 h1, ?_⟩
    refine he.trans ?_
    rw [← h2] at ht ⊢
    have : t = w.tag := Subtype.ext (ht.trans h3.symm)
    rw [this]

/-- Unwrapping: check the tag, then decrypt and rebuild the key. -/
theorem PieWrappedKey.unwrapKey_eq (w : PieWrappedKey v k) (wk : Key P v .Local) :
    w.unwrapKey P wk =
      if w.tag.1 = pieTag P v k.kind wk.key w.nonce.1 w.wrappedKey.1 then
        Key.fromBytes P v k.kind
          (applyKeystreamN (pieCodeStream P v wk.key w.nonce.1) w.wrappedKey)
      else .err .cryptoError := by
  obtain ⟨x, h1, h2⟩ := pieEncKeyMac_eq P v wk.key w.nonce.1
  obtain ⟨y, h3, h4⟩ := pieAuthKeyMac_eq P v wk.key w.nonce.1
  obtain ⟨t, h5, h6⟩ := pieTagMac_eq P v (y.1.take 32)
    (pieTagInput v k w.nonce.1 w.wrappedKey.1) (by rw [h4, pieAuthKey_length]; decide)
  have ht : t.1 = pieTag P v k.kind wk.key w.nonce.1 w.wrappedKey.1 := by
    rw [h6, h4, pieTagInput_eq]; rfl
  unfold PieWrappedKey.unwrapKey
  dsimp only
  rw [h3]
  simp only [Res.ok_bind]
  rw [h5]
  simp only [Res.ok_bind]
  by_cases hc : w.tag.1 = t.1
  · rw [if_neg (by rw [hc, ctNe_self]; simp), if_pos (by rw [hc, ht]), h1]
    simp only [Res.ok_bind]
    rw [h2]
  · rw [if_pos (ctNe_eq_true.2 hc), if_neg (by rw [← ht]; exact hc)]

/-- The data part of a wrapped key. -/
def PieWrappedKey.data (w : PieWrappedKey v k) : Bytes := w.tag.1 ++ w.nonce.1 ++ w.wrappedKey.1

theorem PieWrappedKey.display_eq (w : PieWrappedKey v k) :
    w.display = .ok (paserkText v (pieType k.kind) w.data) := by
  unfold PieWrappedKey.display
  dsimp only
  rw [writeB64_eq]
  simp only [Res.ok_bind, Res.pure_def, pieHeader_eq]
  rfl

theorem PieWrappedKey.parse_eq (v : Ver) (k : WKind) (s : Bytes) :
    PieWrappedKey.parse v k s =
      (Res.okOr .invalidToken (stripPrefix (Spec.paserkHeader v (pieType k.kind)) s) >>= fun s =>
        readB64 (pieOutputLen v k) s >>= fun total =>
          .ok { tag := (BytesN.split (pieTagLen v) 32 (pieTagIvLen_eq v)
                  (BytesN.split (pieTagIvLen v) (keyLen v k.kind) (pieOutputLen_eq v k) total).1).1,
                nonce := (BytesN.split (pieTagLen v) 32 (pieTagIvLen_eq v)
                  (BytesN.split (pieTagIvLen v) (keyLen v k.kind) (pieOutputLen_eq v k) total).1).2,
                wrappedKey := (BytesN.split (pieTagIvLen v) (keyLen v k.kind)
                  (pieOutputLen_eq v k) total).2 }) := by
  unfold PieWrappedKey.parse
  rw [← pieHeader_eq, strip_bind_strip, strip_bind_strip, strip_bind_strip]
  rfl

theorem PieWrappedKey.parse_ok_iff {s : Bytes} {w : PieWrappedKey v k} :
    PieWrappedKey.parse v k s = .ok w ↔ s = paserkText v (pieType k.kind) w.data := by
  rw [PieWrappedKey.parse_eq, strip_read]
  constructor
  · rintro ⟨b, hs, hf⟩
    simp only [Res.ok.injEq] at hf
    rw [hs, ← hf]
    unfold Spec.paserkText PieWrappedKey.data
    congr 2
    have h1 := BytesN.append_split (pieOutputLen_eq v k) b
    have h2 := BytesN.append_split (pieTagIvLen_eq v)
      (BytesN.split (pieTagIvLen v) (keyLen v k.kind) (pieOutputLen_eq v k) b).1
    have h1 := congrArg Subtype.val h1
    have h2 := congrArg Subtype.val h2
    simp only [BytesN.append_val] at h1 h2
    rw [h2, h1]
  · intro h
    refine ⟨BytesN.append (pieOutputLen v k) (pieOutputLen_eq v k)
      (BytesN.append (pieTagIvLen v) (pieTagIvLen_eq v) w.tag w.nonce) w.wrappedKey, h, ?_⟩
    simp only [BytesN.split_append]

end Pasta
