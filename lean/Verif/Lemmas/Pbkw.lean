import Verif.Lemmas.Wrap
import Verif.Model.Pbkw

/-! # Lemmas about password-based wrapping -/

namespace Pasta

open Spec (paserkText pwType pwTag pwTagged PwParams)

variable {P : Prims} {v : Ver} {k : WKind}

/-- The specification's parameters for the settings of the API. -/
def specParams : {v : Ver} → KdfState v → PwParams v
  | .V3, st => .pbkdf2 st.iterations
  | .V4, st => .argon2id st.mem.toNat st.time st.para

/-- The inputs for which the key derivation does not panic. -/
def KdfOk : {v : Ver} → KdfState v → Bytes → Prop
  | .V3, _, _ => True
  | .V4, st, pw => argon2ParamsOk (st.mem / 1024) st.time st.para ∧ pw.length ≤ 0xFFFFFFFF

instance kdfOkDec : {v : Ver} → (st : KdfState v) → (pw : Bytes) → Decidable (KdfOk st pw)
  | .V3, _, _ => isTrue trivial
  | .V4, st, pw => inferInstanceAs (Decidable (_ ∧ _))

theorem BE_eq (k n : Nat) : Spec.BE k n = beBytes k n := by
  unfold Spec.BE beBytes
  have h : ∀ k n, leBytes k n = (List.range k).map (fun i => UInt8.ofNat ((n >>> (8 * i)) % 256)) := by
    intro k
    induction k with
    | zero => intro n; rfl
    | succ k ih =>
      intro n
      rw [List.range_succ_eq_map]
      simp only [leBytes, List.map_cons, List.map_map, Nat.mul_zero, Nat.shiftRight_zero, ih]
      congr 1
      apply List.map_congr_left
      intro i _
      simp only [Function.comp]
      congr 2
      rw [Nat.shiftRight_eq_div_pow, Nat.shiftRight_eq_div_pow, Nat.div_div_eq_div_mul,
        show (256 : Nat) = 2 ^ 8 from rfl, ← Nat.pow_add]
      congr 2
      omega
  rw [h, ← List.map_reverse]
  rw [show (List.range k).reverse = (List.range k).map (fun i => k - 1 - i) by
    apply List.ext_getElem
    · simp
    · intro i h1 h2; simp at h1 ⊢]
  rw [List.map_map]
  rfl

theorem encodeState_eq (st : KdfState v) : (encodeState v st).1 = (specParams st).encode := by
  cases v
  · show beBytes 4 st.iterations.toNat = Spec.BE 4 st.iterations.toNat
    rw [BE_eq]
  · show List.replicate 4 0 ++ beBytes 4 st.mem.toNat ++ beBytes 4 st.time.toNat ++
      beBytes 4 st.para.toNat =
      Spec.BE 8 st.mem.toNat ++ Spec.BE 4 st.time.toNat ++ Spec.BE 4 st.para.toNat
    rw [BE_eq, BE_eq, BE_eq, beBytes_append 4 4, Nat.div_eq_of_lt]
    · rfl
    · have := st.mem.toNat_lt; omega

theorem u32ofBe_u32be (x : UInt32) : u32ofBe (u32be x) = x := by
  unfold u32ofBe u32be
  rw [beNat_beBytes, Nat.mod_eq_of_lt (by have := x.toNat_lt; omega)]
  simp

theorem u32be_u32ofBe (b : BytesN 4) : u32be (u32ofBe b) = b := by
  apply Subtype.ext
  unfold u32ofBe u32be
  have h := beNat_lt b.1
  rw [b.2] at h
  have h2 := beBytes_beNat b.1
  rw [b.2] at h2
  simp only [UInt32.toNat_ofNat']
  rw [Nat.mod_eq_of_lt (by omega), h2]

theorem decode_encodeState (st : KdfState v) : decodeState v (encodeState v st) = st := by
  cases v
  · show (⟨u32ofBe (u32be st.iterations)⟩ : Pbkdf2State) = st
    rw [u32ofBe_u32be]
  · show decodeState .V4 (BytesN.append 16 rfl (BytesN.append 12 rfl (BytesN.append 8 rfl
      (BytesN.fill 4 0) (u32be st.mem)) (u32be st.time)) (u32be st.para)) = st
    have e : (BytesN.append 16 rfl (BytesN.append 12 rfl (BytesN.append 8 rfl
        (BytesN.fill 4 0) (u32be st.mem)) (u32be st.time)) (u32be st.para) : BytesN 16) =
        BytesN.append 16 rfl (BytesN.fill 4 0 : BytesN 4) (BytesN.append 12 rfl (u32be st.mem)
          (BytesN.append 8 rfl (u32be st.time) (u32be st.para))) := by
      apply Subtype.ext; simp [BytesN.append]
    rw [e]
    unfold decodeState
    simp only [BytesN.split_append, u32ofBe_u32be]

/-- V3 settings bytes are determined by the settings. -/
theorem encode_decodeState_v3 (b : BytesN 4) : encodeState .V3 (decodeState .V3 b) = b :=
  u32be_u32ofBe b

/-- V4 settings bytes are determined by the settings but for the first four. -/
theorem encode_decodeState_v4 (b : BytesN 16) :
    (encodeState .V4 (decodeState .V4 b)).1 = List.replicate 4 0 ++ b.1.drop 4 := by
  unfold decodeState encodeState
  simp only [BytesN.append_val, u32be_u32ofBe, BytesN.split_fst_val, BytesN.split_snd_val]
  show List.replicate 4 0 ++ _ ++ _ ++ _ = _
  simp only [List.append_assoc, List.take_append_drop]

theorem decodeState_v4_iff (b b' : BytesN 16) :
    decodeState .V4 b = decodeState .V4 b' ↔ b.1.drop 4 = b'.1.drop 4 := by
  constructor
  · intro h
    have := congrArg (fun s => (encodeState .V4 s).1) h
    simp only [encode_decodeState_v4] at this
    exact List.append_cancel_left this
  · intro h
    have : (BytesN.split 4 12 rfl b).2 = (BytesN.split 4 12 rfl b').2 := Subtype.ext h
    unfold decodeState
    simp only [this]

theorem pwKdf_eq (pw : Bytes) (salt : BytesN (pwSaltLen v)) (st : KdfState v) :
    pwKdf P v pw salt st =
      if KdfOk st pw then .ok (Spec.pwKey P (specParams st) pw salt.1) else .panic := by
  cases v
  · rw [if_pos (show KdfOk (v := .V3) st pw from trivial)]; rfl
  · unfold pwKdf
    dsimp only
    by_cases h1 : argon2ParamsOk (st.mem / 1024) st.time st.para
    · rw [if_pos h1]
      simp only [Res.unwrap_some, Res.ok_bind]
      by_cases h2 : pw.length ≤ 0xFFFFFFFF
      · rw [if_pos h2, if_pos (show KdfOk (v := .V4) st pw from ⟨h1, h2⟩)]
        simp only [Res.unwrap_some]
        show _ = Res.ok (P.argon2id pw salt.1 (UInt32.ofNat (st.mem.toNat / 1024)) st.time st.para)
        have : UInt32.ofNat (st.mem.toNat / 1024) = st.mem / 1024 := by
          apply UInt32.toNat_inj.1
          simp only [UInt32.toNat_ofNat', UInt32.toNat_div]
          have := st.mem.toNat_lt
          rw [Nat.mod_eq_of_lt (by omega)]
          rfl
        rw [this]
      · rw [if_neg h2, if_neg (fun h : KdfOk (v := .V4) st pw => h2 h.2)]; rfl
    · rw [if_neg h1, if_neg (fun h : KdfOk (v := .V4) st pw => h1 h.1)]; rfl

theorem pwEncKey_eq (P : Prims) (v : Ver) (kk : BytesN 32) :
    splitEk v (pwKeyHash P v ([0xff] ++ kk.1)) = Spec.pwEncKey P v kk := by
  cases v <;> rfl

theorem pwAuthKey_eq (P : Prims) (v : Ver) (kk : BytesN 32) :
    (pwKeyHash P v ([0xfe] ++ kk.1)).1 = Spec.pwAuthKey P v kk := by
  cases v <;> rfl

theorem pwAuthKey_length (P : Prims) (v : Ver) (kk : BytesN 32) :
    (Spec.pwAuthKey P v kk).length ≤ 64 := by
  cases v
  · show (P.sha384 (0xfe :: kk.1)).1.length ≤ 64
    rw [(P.sha384 (0xfe :: kk.1)).2]; decide
  · show (P.blake2b 32 (0xfe :: kk.1)).1.length ≤ 64
    rw [(P.blake2b 32 (0xfe :: kk.1)).2]; decide

theorem pwTagLen_eq (v : Ver) : pwTagLen v = Spec.tagLen v := by cases v <;> rfl

theorem pwTagMac_eq (P : Prims) (v : Ver) (ak m : Bytes) (h : ak.length ≤ 64) :
    ∃ t, pwTagMac P v ak m = .ok t ∧ t.1 = Spec.mac P v ak m := by
  cases v
  · exact ⟨P.hmacSha384 ak m, rfl, rfl⟩
  · refine ⟨P.blake2bMac 32 ak m, ?_, rfl⟩
    show P.blakeMac 32 ak m = _
    unfold Prims.blakeMac
    rw [if_pos h]
    rfl

theorem pwTagInput_eq (v : Ver) (k : WKind) (salt : Bytes) (st : KdfState v) (n c : Bytes) :
    pwTagInput v k salt st n c = pwTagged k.kind salt (specParams st) n c := by
  unfold pwTagInput Spec.pwTagged
  rw [pwHeader_eq, encodeState_eq]

/-- The key stream the code uses. -/
def pwCodeStream (P : Prims) (st : KdfState v) (pw : Bytes) (salt : Bytes) (n : BytesN (ivLen v)) :
    Nat → UInt8 :=
  stream P v (Spec.pwEncKey P v (Spec.pwKey P (specParams st) pw salt)) n

theorem Key.pwWrap_ok_iff (key : Key P v k.kind) (pw : Bytes) (st : KdfState v) (rng rng' : Rng)
    (w : PwWrappedKey v k) :
    key.pwWrapWithSettings pw st rng = .ok (w, rng') ↔
      KdfOk st pw ∧ rng = w.salt.1 ++ w.nonce.1 ++ rng' ∧ w.state = st ∧
      w.edk = applyKeystreamN (pwCodeStream P st pw w.salt.1 w.nonce) key.toBytes ∧
      w.tag.1 = pwTag P k.kind pw w.salt.1 (specParams st) w.nonce.1 w.edk.1 := by
  have tag : ∀ (salt : BytesN (pwSaltLen v)) (n : BytesN (ivLen v)) (edk : BytesN (keyLen v k.kind)),
      ∃ t, pwTagMac P v (pwKeyHash P v ([0xfe] ++ (Spec.pwKey P (specParams st) pw salt.1).1)).1
        (pwTagInput v k salt.1 st n.1 edk.1) = .ok t ∧
        t.1 = pwTag P k.kind pw salt.1 (specParams st) n.1 edk.1 := by
    intro salt n edk
    rw [pwAuthKey_eq, pwTagInput_eq]
    exact pwTagMac_eq P v _ _ (pwAuthKey_length _ _ _)
  unfold Key.pwWrapWithSettings
  rw [Res.bind_eq_ok]
  constructor
  · rintro ⟨⟨salt, r⟩, h1, h2⟩
    rw [fillBytes_eq_ok] at h1
    dsimp only at h2
    rw [pwKdf_eq] at h2
    by_cases hk : KdfOk st pw
    · rw [if_pos hk] at h2
      simp only [Res.ok_bind] at h2
      obtain ⟨⟨n, r2⟩, h3, h4⟩ := Res.bind_eq_ok.1 h2
      rw [fillBytes_eq_ok] at h3
      dsimp only at h4
      rw [pwEncKey_eq] at h4
      obtain ⟨t, h5, h6⟩ := tag salt n (applyKeystreamN (stream P v (Spec.pwEncKey P v
        (Spec.pwKey P (specParams st) pw salt.1)) n) key.toBytes)
      rw [h5] at h4
      simp only [Res.ok_bind, Res.pure_def, Res.ok.injEq, Prod.mk.injEq] at h4
      obtain ⟨rfl, rfl⟩ := h4
      exact ⟨hk, by rw [h1, h3, List.append_assoc], rfl, rfl, h6⟩
    · rw [if_neg hk] at h2
      simp at h2
  · rintro ⟨hk, h1, h2, h3, h4⟩
    refine ⟨(w.salt, w.nonce.1 ++ rng'), fillBytes_eq_ok.2 (by rw [h1, List.append_assoc]), ?_⟩
    dsimp only
    rw [pwKdf_eq, if_pos hk]
    simp only [Res.ok_bind]
    rw [fillBytes_eq_ok.2 rfl]
    simp only [Res.ok_bind]
    rw [pwEncKey_eq]
    obtain ⟨t, h5, h6⟩ := tag w.salt w.nonce w.edk
    have h3' : applyKeystreamN (stream P v (Spec.pwEncKey P v
        (Spec.pwKey P (specParams st) pw w.salt.1)) w.nonce) key.toBytes = w.edk := h3.symm
    rw [h3', h5]
    simp only [Res.ok_bind, Res.pure_def]
    have ht : t = w.tag := Subtype.ext (h6.trans h4.symm)
    rw [ht, ← h2]

/-- Unwrapping: derive (or panic), check the tag, decrypt and rebuild the key. -/
theorem PwWrappedKey.unwrapKey_eq (w : PwWrappedKey v k) (pw : Bytes) :
    w.unwrapKey P pw =
      if KdfOk w.state pw then
        if w.tag.1 = pwTag P k.kind pw w.salt.1 (specParams w.state) w.nonce.1 w.edk.1 then
          Key.fromBytes P v k.kind
            (applyKeystreamN (pwCodeStream P w.state pw w.salt.1 w.nonce) w.edk)
        else .err .cryptoError
      else .panic := by
  unfold PwWrappedKey.unwrapKey
  rw [pwKdf_eq]
  by_cases hk : KdfOk w.state pw
  · rw [if_pos hk, if_pos hk]
    simp only [Res.ok_bind]
    rw [pwAuthKey_eq, pwTagInput_eq]
    obtain ⟨t, h5, h6⟩ := pwTagMac_eq P v
      (Spec.pwAuthKey P v (Spec.pwKey P (specParams w.state) pw w.salt.1))
      (pwTagged k.kind w.salt.1 (specParams w.state) w.nonce.1 w.edk.1) (pwAuthKey_length _ _ _)
    rw [h5]
    simp only [Res.ok_bind]
    have h6 : t.1 = pwTag P k.kind pw w.salt.1 (specParams w.state) w.nonce.1 w.edk.1 := h6
    by_cases hc : w.tag.1 = t.1
    · rw [if_neg (by rw [hc, ctNe_self]; simp), if_pos (by rw [hc, h6]), pwEncKey_eq]
      rfl
    · rw [if_pos (ctNe_eq_true.2 (Ne.symm hc)), if_neg (by rw [← h6]; exact hc)]
  · rw [if_neg hk, if_neg hk]
    rfl

/-- The data part of the text, with the bytes of the settings. -/
def PwWrappedKey.dataWith (w : PwWrappedKey v k) (st : Bytes) : Bytes :=
  w.salt.1 ++ st ++ w.nonce.1 ++ w.edk.1 ++ w.tag.1

theorem PwWrappedKey.display_eq (w : PwWrappedKey v k) :
    w.display = .ok (paserkText v (pwType k.kind) (w.dataWith (specParams w.state).encode)) := by
  unfold PwWrappedKey.display
  dsimp only
  rw [writeB64_eq]
  simp only [Res.ok_bind, Res.pure_def, pwHeader_eq, ← encodeState_eq]
  rfl

theorem PwWrappedKey.parse_eq (v : Ver) (k : WKind) (s : Bytes) :
    PwWrappedKey.parse v k s =
      (Res.okOr .invalidToken (stripPrefix (Spec.paserkHeader v (pwType k.kind)) s) >>= fun s =>
        readB64 (pwTotalLen v k) s >>= fun total =>
          let a := BytesN.split (pwSaltStateIvEdkLen v k) (pwTagLen v) (pwTotalLen_eq v k) total
          let b := BytesN.split (pwSaltStateIvLen v) (keyLen v k.kind) (pwSaltStateIvEdkLen_eq v k) a.1
          let c := BytesN.split (pwSaltStateLen v) (ivLen v) (pwSaltStateIvLen_eq v) b.1
          let d := BytesN.split (pwSaltLen v) (pwStateLen v) (pwSaltStateLen_eq v) c.1
          .ok ⟨d.1, decodeState v d.2, c.2, b.2, a.2⟩) := by
  unfold PwWrappedKey.parse
  rw [← pwHeader_eq, strip_bind_strip, strip_bind_strip]
  rfl

theorem PwWrappedKey.parse_ok_iff {s : Bytes} {w : PwWrappedKey v k} :
    PwWrappedKey.parse v k s = .ok w ↔
      ∃ st : BytesN (pwStateLen v), s = paserkText v (pwType k.kind) (w.dataWith st.1) ∧
        decodeState v st = w.state := by
  rw [PwWrappedKey.parse_eq, strip_read]
  constructor
  · rintro ⟨b, hs, hf⟩
    simp only [Res.ok.injEq] at hf
    subst hf
    refine ⟨_, ?_, rfl⟩
    rw [hs]
    unfold Spec.paserkText PwWrappedKey.dataWith
    congr 2
    have h1 := congrArg Subtype.val (BytesN.append_split (pwTotalLen_eq v k) b)
    have h2 := congrArg Subtype.val (BytesN.append_split (pwSaltStateIvEdkLen_eq v k)
      (BytesN.split (pwSaltStateIvEdkLen v k) (pwTagLen v) (pwTotalLen_eq v k) b).1)
    have h3 := congrArg Subtype.val (BytesN.append_split (pwSaltStateIvLen_eq v)
      (BytesN.split (pwSaltStateIvLen v) (keyLen v k.kind) (pwSaltStateIvEdkLen_eq v k)
        (BytesN.split (pwSaltStateIvEdkLen v k) (pwTagLen v) (pwTotalLen_eq v k) b).1).1)
    have h4 := congrArg Subtype.val (BytesN.append_split (pwSaltStateLen_eq v)
      (BytesN.split (pwSaltStateLen v) (ivLen v) (pwSaltStateIvLen_eq v)
      (BytesN.split (pwSaltStateIvLen v) (keyLen v k.kind) (pwSaltStateIvEdkLen_eq v k)
        (BytesN.split (pwSaltStateIvEdkLen v k) (pwTagLen v) (pwTotalLen_eq v k) b).1).1).1)
    simp only [BytesN.append_val] at h1 h2 h3 h4
    rw [h4, h3, h2, h1]
  · rintro ⟨st, hs, hd⟩
    refine ⟨BytesN.append (pwTotalLen v k) (pwTotalLen_eq v k)
      (BytesN.append (pwSaltStateIvEdkLen v k) (pwSaltStateIvEdkLen_eq v k)
        (BytesN.append (pwSaltStateIvLen v) (pwSaltStateIvLen_eq v)
          (BytesN.append (pwSaltStateLen v) (pwSaltStateLen_eq v) w.salt st) w.nonce) w.edk) w.tag,
      hs, ?_⟩
    simp only [BytesN.split_append, hd]

theorem PwWrappedKey.parse_display (w : PwWrappedKey v k) :
    (w.display >>= PwWrappedKey.parse v k) = .ok w := by
  rw [PwWrappedKey.display_eq]
  simp only [Res.ok_bind]
  rw [PwWrappedKey.parse_ok_iff]
  exact ⟨encodeState v w.state, by rw [encodeState_eq], decode_encodeState _⟩

end Pasta
