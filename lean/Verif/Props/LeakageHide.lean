import Verif.Model.LeakageHide
import Verif.Props.Leakage
import Verif.Props.Work

/-!
# C87: what the steps of hiding and signing depend on

The instrumented programs of `Model/LeakageHide.lean` compute the same results as the plain ones,
and the steps they take depend on lengths and settings only: not on keys, messages, passwords or
random bytes. The one exception is the sealing of keys in version 3, where the number of attempts at
drawing an ephemeral key depends on the random bytes, though on nothing else.
-/

namespace Pasta

variable {P : Prims} {v : Ver} {k : WKind}

namespace C87

/-! ### The instrumented programs are the programs of the model -/

theorem encrypt_same {M F E : Type} [Payload E] [MessageEncoding E M] [Footer F]
    (t : TokenBuilder v .Local M F E) (key : Key P v .Local) (i : Bytes) (rng : Rng) :
    (t.encryptT P key i rng).res = t.encryptWithAssertionsAndRng P key i rng := by
  unfold TokenBuilder.encryptT TokenBuilder.encryptWithAssertionsAndRng
    ValidatedToken.encryptInner genericEncryptT genericEncrypt fillBytesT localKdfT genericDigestT
  simp only [Traced.bind_res, Traced.lift_def, Traced.step_def, Traced.prim_def, Res.ok_bind,
    Traced.pure_def, Res.bind_assoc', Res.pure_def]

theorem sign_same {M F E : Type} [Payload E] [MessageEncoding E M] [Footer F]
    (t : TokenBuilder v .Public M F E) (key : Key P v .Secret) (i : Bytes) :
    (t.signT P key i).res = t.signWithAssertions P key i := by
  have e : ∀ sk h m f, (signRawT P v sk h m f i).res = signRaw P v sk h m f i := by
    intro sk h m f
    cases v <;> rfl
  unfold TokenBuilder.signT TokenBuilder.signWithAssertions
  simp only [e, Traced.bind_res, Traced.lift_def, Traced.step_def, Res.ok_bind,
    Traced.pure_def, Res.pure_def]

theorem pie_same (key : Key P v k.kind) (wk : Key P v .Local) (rng : Rng) :
    (key.wrapPieT wk rng).res = key.wrapPie wk rng := by
  unfold Key.wrapPieT Key.wrapPie fillBytesT
  simp only [Traced.bind_res, Traced.step_def, Traced.prim_def, Res.ok_bind, Traced.pure_def,
    Res.pure_def]

theorem pw_same (key : Key P v k.kind) (pw : Bytes) (st : KdfState v) (rng : Rng) :
    (key.pwWrapT pw st rng).res = key.pwWrapWithSettings pw st rng := by
  unfold Key.pwWrapT Key.pwWrapWithSettings fillBytesT
  simp only [Traced.bind_res, Traced.step_def, Traced.prim_def, Res.ok_bind, Traced.pure_def,
    Res.pure_def, pwKdfT_res]

theorem random_same (rng : Rng) : (p384RandomT rng).res = p384Random rng := by
  induction h : rng.length using Nat.strongRecOn generalizing rng with
  | _ n ih =>
    unfold p384RandomT p384Random
    by_cases h48 : 48 ≤ rng.length
    · rw [dif_pos h48, dif_pos h48]
      dsimp only
      split
      · rfl
      · exact ih _ (by simp; omega) _ rfl
    · rw [dif_neg h48, dif_neg h48]

theorem seal_same (key : Key P v .Local) (pk : Key P v .Public) (rng : Rng) :
    (key.sealKeyT pk rng).res = key.sealKey pk rng := by
  cases v
  · show (sealV3T P key pk rng).res = sealV3 P key pk rng
    unfold sealV3T sealV3
    simp only [Traced.bind_res, Traced.step_def, Traced.prim_def, Res.ok_bind, Traced.pure_def,
      Res.pure_def, random_same]
  · show (sealV4T P key pk rng).res = sealV4 P key pk rng
    unfold sealV4T sealV4 fillBytesT
    simp only [Traced.bind_res, Traced.step_def, Traced.prim_def, Res.ok_bind, Traced.pure_def,
      Res.pure_def]

/-! ### Local tokens -/

section
variable {M F E : Type} [Payload E] [MessageEncoding E M] [Footer F]

/-- The steps of an encryption, from lengths only -/
def encryptSteps (v : Ver) (suf m f i : Nat) : List Event :=
  [.prim "random" 32 0 0, .prim "encode" m 0 0, .prim "encode" f 0 0,
    .prim "kdf" (keyIvPair v) 32 53, .prim "kdf" (authKeySize v) 32 56, .stream m,
    .prim "mac" (tagSize v) (authKeySize v) (89 + suf + m + f + i)]

/-- The steps of encrypting a message are a function of four lengths. -/
theorem encrypt_steps (t : TokenBuilder v .Local M F E) (key : Key P v .Local) (i : Bytes)
    (rng : Rng) (m f : Bytes) (hr : 32 ≤ rng.length)
    (hm : MessageEncoding.encode t.tok.encoding t.tok.message = .ok m)
    (hf : Footer.encode t.tok.footer = some f) :
    (t.encryptT P key i rng).trace =
      encryptSteps v (Payload.suffix E).length m.length f.length i.length := by
  obtain ⟨x, hx, hs⟩ := localKdf_enc P v key.key (rng.take 32)
  obtain ⟨ak, ha, hak⟩ := localKdf_auth P v key.key (rng.take 32)
  obtain ⟨g, hg, -⟩ := genericDigest_eq P v key.key ak (Payload.suffix E) (rng.take 32)
    (applyKeystream (keyIvStream P v x) m) f i hak
  have e1 : (asc "paseto-encryption-key").length = 21 := rfl
  have e2 : (asc "paseto-auth-key-for-aead").length = 24 := rfl
  have e3 : v.pasetoHeader.length = 2 := by cases v <;> rfl
  have e4 : (rng.take 32).length = 32 := by simp; omega
  have e5 : key.key.1.length = 32 := key.key.2
  unfold TokenBuilder.encryptT genericEncryptT fillBytesT localKdfT genericDigestT fillBytes
    encryptSteps
  rw [dif_pos hr]
  simp only [Traced.prim_def, Traced.ok_bind, hm, hf, Res.ofExcept, Res.unwrap_some, Traced.lift_def,
    Traced.step_def, hx, ha, hg, Traced.pure_def, localPreAuth_length, applyKeystream_length, e3, e4,
    e5, ak.2]
  simp [e1, e2, e4]
  omega

/-- Two encryptions with the same lengths take the same steps, whatever the keys, the messages, the
footers, the assertions and the random bytes are. -/
theorem encrypt_trace (t t' : TokenBuilder v .Local M F E) (key key' : Key P v .Local)
    (i i' : Bytes) (rng rng' : Rng) (m m' f f' : Bytes) (hr : 32 ≤ rng.length)
    (hr' : 32 ≤ rng'.length)
    (hm : MessageEncoding.encode t.tok.encoding t.tok.message = .ok m)
    (hm' : MessageEncoding.encode t'.tok.encoding t'.tok.message = .ok m')
    (hf : Footer.encode t.tok.footer = some f) (hf' : Footer.encode t'.tok.footer = some f')
    (hml : m.length = m'.length) (hfl : f.length = f'.length) (hil : i.length = i'.length) :
    (t.encryptT P key i rng).trace = (t'.encryptT P key' i' rng').trace := by
  rw [encrypt_steps t key i rng m f hr hm hf, encrypt_steps t' key' i' rng' m' f' hr' hm' hf', hml,
    hfl, hil]

/-- What a token shows determines the steps that made it. -/
theorem encrypt_visible (t : TokenBuilder v .Local M F E) (key : Key P v .Local) (i : Bytes)
    (rng rng' : Rng) (s : SecuredToken v .Local F E)
    (h : t.encryptWithAssertionsAndRng P key i rng = .ok (s, rng')) :
    (t.encryptT P key i rng).trace =
      encryptSteps v (Payload.suffix E).length (s.payload.length - 32 - tagSize v)
        s.encodedFooter.length i.length := by
  unfold TokenBuilder.encryptWithAssertionsAndRng ValidatedToken.encryptInner fillBytes at h
  by_cases hr : 32 ≤ rng.length
  · rw [dif_pos hr] at h
    simp only [Res.ok_bind, Res.bind_eq_ok] at h
    obtain ⟨a, ⟨m, hm, f, hf, ⟨c, tag⟩, hg, ha⟩, hs⟩ := h
    have hm' : MessageEncoding.encode t.tok.encoding t.tok.message = .ok m := by
      cases e : MessageEncoding.encode t.tok.encoding t.tok.message <;> rw [e] at hm
      · cases hm
      · cases hm; rfl
    have hf' : Footer.encode t.tok.footer = some f := by
      cases e : Footer.encode t.tok.footer <;> rw [e] at hf
      · cases hf
      · cases hf; rfl
    rw [encrypt_steps t key i rng m f hr hm' hf']
    have hc : c.length = m.length := by
      unfold genericEncrypt at hg
      simp only [Res.bind_eq_ok] at hg
      obtain ⟨_, _, _, _, _, _, hg⟩ := hg
      cases hg
      exact applyKeystream_length _ _
    cases ha
    cases hs
    have e4 : (rng.take 32).length = 32 := by simp; omega
    simp [sandwich, hc, tag.2, e4]
  · rw [dif_neg hr] at h
    cases h

/-- A message that cannot be encoded is refused before the key is used. -/
theorem encrypt_refused (t : TokenBuilder v .Local M F E) (key : Key P v .Local) (i : Bytes)
    (rng : Rng) (e : String)
    (hm : MessageEncoding.encode t.tok.encoding t.tok.message = .error e) :
    (t.encryptT P key i rng).trace = [.prim "random" 32 0 0] := by
  unfold TokenBuilder.encryptT fillBytesT fillBytes
  by_cases hr : 32 ≤ rng.length
  · rw [dif_pos hr]
    simp [hm, Res.ofExcept]
  · rw [dif_neg hr]
    simp

/-! ### Signed tokens -/

/-- The steps of signing, from lengths only -/
def signSteps (suf m f i : Nat) : (v : Ver) → List Event
  | .V3 => [.prim "encode" m 0 0, .prim "encode" f 0 0, .prim "public" 49 48 0,
      .prim "sha384" 48 0 (107 + suf + m + f + i), .prim "sign" 96 48 48]
  | .V4 => [.prim "encode" m 0 0, .prim "encode" f 0 0, .prim "sign" 64 32 (50 + suf + m + f + i)]

theorem last_trace {α β : Type} (t : List Event) (r : Res α) (g : α → Traced β)
    (hg : ∀ a, (g a).trace = []) : ((⟨t, r⟩ : Traced α) >>= g).trace = t := by
  cases r
  · simp [hg]
  · rfl
  · rfl

/-- The steps of signing a message are a function of four lengths. -/
theorem sign_steps (t : TokenBuilder v .Public M F E) (key : Key P v .Secret) (i m f : Bytes)
    (hm : MessageEncoding.encode t.tok.encoding t.tok.message = .ok m)
    (hf : Footer.encode t.tok.footer = some f) :
    (t.signT P key i).trace =
      signSteps (Payload.suffix E).length m.length f.length i.length v := by
  have h8 : ∀ n, (leBytes 8 n).length = 8 := Prims.leBytes_length 8
  have hh : Purpose.Public.header.length = 6 := rfl
  have hd : (asc ".").length = 1 := rfl
  unfold TokenBuilder.signT
  simp only [hm, hf, Res.ofExcept, Res.unwrap_some, Traced.lift_def, Traced.step_def,
    Traced.ok_bind, List.nil_append, List.cons_append]
  cases v
  · have hl : (v3PublicPreAuth (P.p384Compress (P.p384Public key.key)).1 (Payload.suffix E) m f
        i).length = 107 + (Payload.suffix E).length + m.length + f.length + i.length := by
      have := (P.p384Compress (P.p384Public key.key)).2
      have hv : Ver.V3.pasetoHeader.length = 2 := rfl
      unfold v3PublicPreAuth
      rw [pae_eq]
      simp [h8, hh, hd, hv, this]
      omega
    unfold signRawT signSteps
    dsimp only
    simp only [Traced.prim_def, Traced.ok_bind, hl]
    rw [last_trace _ _ _ fun _ => rfl]
    rfl
  · have hl : (v4PublicPreAuth (Payload.suffix E) m f i).length =
        50 + (Payload.suffix E).length + m.length + f.length + i.length := by
      have hv : Ver.V4.pasetoHeader.length = 2 := rfl
      unfold v4PublicPreAuth
      rw [pae_eq]
      simp [h8, hh, hd, hv]
      omega
    unfold signRawT signSteps
    dsimp only
    simp only [Traced.prim_def, hl]
    rw [last_trace _ _ _ fun _ => rfl]

/-- Two signatures with the same lengths take the same steps, whatever the keys and the messages
are. -/
theorem sign_trace (t t' : TokenBuilder v .Public M F E) (key key' : Key P v .Secret)
    (i i' m m' f f' : Bytes)
    (hm : MessageEncoding.encode t.tok.encoding t.tok.message = .ok m)
    (hm' : MessageEncoding.encode t'.tok.encoding t'.tok.message = .ok m')
    (hf : Footer.encode t.tok.footer = some f) (hf' : Footer.encode t'.tok.footer = some f')
    (hml : m.length = m'.length) (hfl : f.length = f'.length) (hil : i.length = i'.length) :
    (t.signT P key i).trace = (t'.signT P key' i').trace := by
  rw [sign_steps t key i m f hm hf, sign_steps t' key' i' m' f' hm' hf', hml, hfl, hil]

/-- A message that cannot be encoded is refused before the key is used. -/
theorem sign_refused (t : TokenBuilder v .Public M F E) (key : Key P v .Secret) (i : Bytes)
    (e : String) (hm : MessageEncoding.encode t.tok.encoding t.tok.message = .error e) :
    (t.signT P key i).trace = [] := by
  unfold TokenBuilder.signT
  simp [hm, Res.ofExcept]

end

/-! ### Wrapped keys -/

/-- The steps of wrapping a key with a key -/
def pieSteps (v : Ver) (k : WKind) : List Event :=
  [.prim "random" 32 0 0, .prim "encKeyMac" (pieEncKeyLen v) 32 33,
    .prim "authKeyMac" (pieAuthKeyLen v) 32 33, .stream (keyLen v k.kind),
    .prim "tagMac" (pieTagLen v) 32
      (v.paserkHeader.length + 1 + k.pieHeader.length + 4 + 32 + keyLen v k.kind)]

theorem pie_steps (key : Key P v k.kind) (wk : Key P v .Local) (rng : Rng)
    (hr : 32 ≤ rng.length) : (key.wrapPieT wk rng).trace = pieSteps v k := by
  obtain ⟨x, h1, -⟩ := pieEncKeyMac_eq P v wk.key (rng.take 32)
  obtain ⟨y, h3, h4⟩ := pieAuthKeyMac_eq P v wk.key (rng.take 32)
  have h4' : (y.1.take 32).length = 32 := by rw [h4, pieAuthKey_length]
  have e4 : (rng.take 32).length = 32 := by simp; omega
  have hw : wk.key.1.length = 32 := wk.key.2
  have hl : ∀ c : BytesN (keyLen v k.kind), (pieTagInput v k (rng.take 32) c.1).length =
      v.paserkHeader.length + 1 + k.pieHeader.length + 4 + 32 + keyLen v k.kind := by
    intro c
    have e1 : (asc ".").length = 1 := rfl
    have e2 : (asc "pie.").length = 4 := rfl
    simp only [pieTagInput, List.length_append, e1, e2, e4, c.2]
  have h5 : ∀ m, ∃ t, pieTagMac P v (y.1.take 32) m = .ok t := fun m => by
    obtain ⟨t, h, -⟩ := pieTagMac_eq P v (y.1.take 32) m (by rw [h4']; decide)
    exact ⟨t, h⟩
  unfold Key.wrapPieT fillBytesT fillBytes pieSteps
  rw [dif_pos hr]
  dsimp only
  simp only [Traced.prim_def, h1, h3, Traced.ok_bind, Traced.step_def, hl, h4', key.toBytes.2]
  obtain ⟨t, ht⟩ := h5 (pieTagInput v k (rng.take 32) (applyKeystreamN (stream P v
    (BytesN.split 32 (ivLen v) (pieEncKeyLen_eq v) x).1
    (BytesN.split 32 (ivLen v) (pieEncKeyLen_eq v) x).2) key.toBytes).1)
  rw [ht]
  simp [e4, hw]

/-- Wrapping any key with any key takes the same steps. -/
theorem pie_trace (key key' : Key P v k.kind) (wk wk' : Key P v .Local) (rng rng' : Rng)
    (hr : 32 ≤ rng.length) (hr' : 32 ≤ rng'.length) :
    (key.wrapPieT wk rng).trace = (key'.wrapPieT wk' rng').trace := by
  rw [pie_steps key wk rng hr, pie_steps key' wk' rng' hr']

/-- The steps of wrapping a key with a password -/
def pwSteps {v : Ver} (k : WKind) (st : KdfState v) (pw : Nat) : List Event :=
  [.prim "random" (pwSaltLen v) 0 0, kdfCost st, .prim "pwKdf" 32 pw (pwSaltLen v),
    .prim "keyHash" (pwKeyHashLen v) 0 33, .prim "keyHash" (pwKeyHashLen v) 0 33,
    .prim "random" (ivLen v) 0 0, .stream (keyLen v k.kind),
    .prim "tagMac" (pwTagLen v) (pwKeyHashLen v)
      (v.paserkHeader.length + 1 + k.pwHeader.length + pwSaltLen v + pwStateLen v + ivLen v +
        keyLen v k.kind)]

theorem pw_steps (key : Key P v k.kind) (pw : Bytes) (st : KdfState v) (rng : Rng)
    (hr : pwSaltLen v + ivLen v ≤ rng.length) :
    (key.pwWrapT pw st rng).trace =
      if KdfOk st pw then pwSteps k st pw.length else [.prim "random" (pwSaltLen v) 0 0] := by
  unfold Key.pwWrapT fillBytesT
  have f1 : fillBytes (pwSaltLen v) rng = .ok (⟨rng.take (pwSaltLen v), by simp; omega⟩,
      rng.drop (pwSaltLen v)) := by
    unfold fillBytes
    rw [dif_pos (by omega)]
  have f2 : fillBytes (ivLen v) (rng.drop (pwSaltLen v)) =
      .ok (⟨(rng.drop (pwSaltLen v)).take (ivLen v), by simp; omega⟩,
        (rng.drop (pwSaltLen v)).drop (ivLen v)) := by
    unfold fillBytes
    rw [dif_pos (by simp; omega)]
  rw [f1]
  generalize hsalt : (⟨rng.take (pwSaltLen v), _⟩ : BytesN (pwSaltLen v)) = salt
  simp only [Traced.prim_def, Traced.ok_bind]
  rw [pwKdfT_eq, pwKdf_eq, f2]
  generalize hn : (⟨(rng.drop (pwSaltLen v)).take (ivLen v), _⟩ : BytesN (ivLen v)) = n
  by_cases hk : KdfOk st pw
  · rw [if_pos hk, if_pos hk, if_pos hk]
    generalize Spec.pwKey P (specParams st) pw salt.1 = kk
    have hak : (pwKeyHash P v ([0xfe] ++ kk.1)).1.length ≤ 64 := by
      rw [(pwKeyHash P v ([0xfe] ++ kk.1)).2]
      cases v <;> decide
    have hl : ∀ c : BytesN (keyLen v k.kind), (pwTagInput v k salt.1 st n.1 c.1).length =
        v.paserkHeader.length + 1 + k.pwHeader.length + pwSaltLen v + pwStateLen v + ivLen v +
          keyLen v k.kind := by
      intro c
      have e1 : (asc ".").length = 1 := rfl
      simp only [pwTagInput, List.length_append, e1, n.2, c.2, salt.2, (encodeState v st).2]
    simp only [Traced.ok_bind, Traced.step_def, hl, (pwKeyHash P v _).2, key.toBytes.2]
    obtain ⟨t, ht, -⟩ := pwTagMac_eq P v (pwKeyHash P v ([0xfe] ++ kk.1)).1
      (pwTagInput v k salt.1 st n.1 (applyKeystreamN (stream P v
        (splitEk v (pwKeyHash P v ([0xff] ++ kk.1))) n) key.toBytes).1) hak
    rw [ht]
    simp [pwSteps]
  · rw [if_neg hk, if_neg hk]
    simp

/-- Wrapping any key with any password of the same length takes the same steps. -/
theorem pw_trace (key key' : Key P v k.kind) (pw pw' : Bytes) (st : KdfState v) (rng rng' : Rng)
    (hr : pwSaltLen v + ivLen v ≤ rng.length) (hr' : pwSaltLen v + ivLen v ≤ rng'.length)
    (hl : pw.length = pw'.length) :
    (key.pwWrapT pw st rng).trace = (key'.pwWrapT pw' st rng').trace := by
  have hk : KdfOk st pw ↔ KdfOk st pw' := by
    cases v <;> simp [KdfOk, hl]
  rw [pw_steps key pw st rng hr, pw_steps key' pw' st rng' hr', hl]
  by_cases h : KdfOk st pw
  · rw [if_pos h, if_pos (hk.1 h)]
  · rw [if_neg h, if_neg (fun h' => h (hk.2 h'))]

/-! ### Sealed keys -/

/-- The steps of sealing a key in version 4 -/
def sealStepsV4 : List Event :=
  [.prim "random" 32 0 0, .prim "public" 32 32 0, .prim "dh" 32 32 32, .prim "blake2b" 32 0 105,
    .prim "blake2b" 32 0 105, .prim "blake2b" 24 0 64, .stream 32, .prim "blake2bMac" 32 32 72]

theorem seal_steps_v4 (key : Key P .V4 .Local) (pk : Key P .V4 .Public) (rng : Rng)
    (hr : 32 ≤ rng.length) : (key.sealKeyT pk rng).trace = sealStepsV4 := by
  have hi : ∀ (d : UInt8) (xk epk pk : BytesN 32),
      (pkeKdfInput .V4 d xk.1 epk.1 pk.1).length = 105 := by
    intro d xk epk pk
    have := xk.2
    have := pk.2
    have := epk.2
    have e4 : (asc ".seal.").length = 6 := rfl
    have e6 : (Ver.paserkHeader .V4).length = 2 := rfl
    simp [pkeKdfInput, *]
  have ht : ∀ epk edk : BytesN 32, (pkeTagInput .V4 epk.1 edk.1).length = 72 := by
    intro epk edk
    have := edk.2
    have := epk.2
    have e4 : (asc ".seal.").length = 6 := rfl
    have e6 : (Ver.paserkHeader .V4).length = 2 := rfl
    simp [pkeTagInput, *]
  have hm : ∀ b : BytesN 32, b.1.length ≤ 64 := fun b => by rw [b.2]; decide
  have hkl : key.toBytes.1.length = 32 := key.toBytes.2
  show (sealV4T P key pk rng).trace = _
  unfold sealV4T fillBytesT fillBytes sealStepsV4
  rw [dif_pos hr]
  simp only [Traced.prim_def, Traced.ok_bind, Prims.blakeMac, hm, if_true, Traced.step_def, hi, ht,
    List.length_append, (P.montMulBase _).2, (P.edToMontgomery _).2, (P.blake2b _ _).2,
    Traced.pure_def, hkl]
  simp

/-- The bytes drawn are not a secret scalar (zero or too large). -/
def Rejected (b : Bytes) : Prop := ∀ s : BytesN 48, s.1 = b → ¬ p384ScalarOk s

/-- `n` attempts at drawing an ephemeral key fail, the next one succeeds. -/
def Attempts (n : Nat) (rng : Rng) : Prop :=
  48 * n + 48 ≤ rng.length ∧ (∀ j < n, Rejected ((rng.drop (48 * j)).take 48)) ∧
    ¬ Rejected ((rng.drop (48 * n)).take 48)

/-- The steps of drawing an ephemeral key in version 3, after `n` failed attempts -/
def randomSteps (n : Nat) : List Event :=
  (List.replicate n [Event.prim "random" 48 0 0, .branch false]).flatten ++
    [.prim "random" 48 0 0, .branch true]

theorem random_steps (n : Nat) (rng : Rng) (h : Attempts n rng) :
    ∃ s, p384RandomT rng = ⟨randomSteps n, .ok s⟩ := by
  induction n generalizing rng with
  | zero =>
    obtain ⟨h1, -, h3⟩ := h
    have h48 : 48 ≤ rng.length := by omega
    unfold p384RandomT
    rw [dif_pos h48]
    have hok : p384ScalarOk ⟨rng.take 48, by simp; omega⟩ := by
      refine Decidable.byContradiction fun hn => h3 ?_
      intro s hs
      have : s = ⟨rng.take 48, by simp; omega⟩ := Subtype.ext (by simpa using hs)
      rwa [this]
    dsimp only
    rw [dif_pos hok]
    exact ⟨_, rfl⟩
  | succ n ih =>
    obtain ⟨h1, h2, h3⟩ := h
    have h48 : 48 ≤ rng.length := by omega
    have hd : ∀ j, (rng.drop 48).drop (48 * j) = rng.drop (48 * (j + 1)) := by
      intro j
      rw [List.drop_drop]
      congr 1
      omega
    obtain ⟨s, hs⟩ := ih (rng.drop 48) ⟨by simp; omega, fun j hj => by
      rw [hd]; exact h2 (j + 1) (by omega), by rw [hd]; exact h3⟩
    have hno : ¬ p384ScalarOk ⟨rng.take 48, by simp; omega⟩ :=
      h2 0 (by omega) ⟨rng.take 48, by simp; omega⟩ (by simp)
    unfold p384RandomT
    rw [dif_pos h48]
    dsimp only
    rw [dif_neg hno, hs]
    exact ⟨s, by simp [randomSteps, List.replicate_succ]⟩

/-- The steps of sealing a key in version 3, after `n` failed attempts -/
def sealStepsV3 (n : Nat) : List Event :=
  randomSteps n ++ [.prim "public" 49 48 0, .prim "dh" 48 48 49, .prim "sha384" 48 0 155,
    .prim "sha384" 48 0 155, .stream 32, .prim "hmac" 48 48 89]

theorem seal_steps_v3 (key : Key P .V3 .Local) (pk : Key P .V3 .Public) (rng : Rng) (n : Nat)
    (hr : Attempts n rng) : (key.sealKeyT pk rng).trace = sealStepsV3 n := by
  obtain ⟨⟨esk, rng'⟩, hs⟩ := random_steps n rng hr
  have hi : ∀ (d : UInt8) (xk : BytesN 48) (epk pk : BytesN 49),
      (pkeKdfInput .V3 d xk.1 epk.1 pk.1).length = 155 := by
    intro d xk epk pk
    have := xk.2
    have := pk.2
    have := epk.2
    have e4 : (asc ".seal.").length = 6 := rfl
    have e6 : (Ver.paserkHeader .V3).length = 2 := rfl
    simp [pkeKdfInput, *]
  have ht : ∀ (epk : BytesN 49) (edk : BytesN 32),
      (pkeTagInput .V3 epk.1 edk.1).length = 89 := by
    intro epk edk
    have := edk.2
    have := epk.2
    have e4 : (asc ".seal.").length = 6 := rfl
    have e6 : (Ver.paserkHeader .V3).length = 2 := rfl
    simp [pkeTagInput, *]
  have hkl : key.toBytes.1.length = 32 := key.toBytes.2
  show (sealV3T P key pk rng).trace = _
  unfold sealV3T sealStepsV3
  simp only [hs, Traced.prim_def, Traced.ok_bind, Prims.hmac, Traced.step_def, ht,
    (P.sha384 _).2, Traced.pure_def, hkl]
  have hb : ∀ d, (pkeKdfInput .V3 d (P.p384Dh esk pk.key).1 (P.p384Compress (P.p384Public esk)).1
      pk.toBytes.1).length = 155 := fun d => hi d _ _ pk.toBytes
  simp [hb]

/-- Sealing any key for any recipient takes the same steps in version 4; in version 3 the number of
attempts at drawing the ephemeral key adds to them, and that depends on the random bytes only. -/
theorem seal_trace (key key' : Key P v .Local) (pk pk' : Key P v .Public) (rng rng' : Rng)
    (hr : match v with
      | .V3 => ∃ n, Attempts n rng ∧ Attempts n rng'
      | .V4 => 32 ≤ rng.length ∧ 32 ≤ rng'.length) :
    (key.sealKeyT pk rng).trace = (key'.sealKeyT pk' rng').trace := by
  cases v
  · obtain ⟨n, h1, h2⟩ := hr
    rw [seal_steps_v3 key pk rng n h1, seal_steps_v3 key' pk' rng' n h2]
  · rw [seal_steps_v4 key pk rng hr.1, seal_steps_v4 key' pk' rng' hr.2]

/-! ### Work -/

open C77 (work work_append Event.work)

/-- Encrypting: every byte of the message at most three times, of the footer twice. -/
theorem encrypt_work {M F E : Type} [Payload E] [MessageEncoding E M] [Footer F]
    (t : TokenBuilder v .Local M F E) (key : Key P v .Local) (i : Bytes)
    (rng : Rng) (m f : Bytes) (hr : 32 ≤ rng.length)
    (hm : MessageEncoding.encode t.tok.encoding t.tok.message = .ok m)
    (hf : Footer.encode t.tok.footer = some f) :
    work (t.encryptT P key i rng).trace ≤
      3 * m.length + 2 * f.length + i.length + (Payload.suffix E).length + 600 := by
  rw [encrypt_steps t key i rng m f hr hm hf]
  cases v <;> simp [encryptSteps, work, Event.work, keyIvPair, authKeySize, tagSize] <;> omega

/-- Signing: every byte at most twice. -/
theorem sign_work {M F E : Type} [Payload E] [MessageEncoding E M] [Footer F]
    (t : TokenBuilder v .Public M F E) (key : Key P v .Secret) (i m f : Bytes)
    (hm : MessageEncoding.encode t.tok.encoding t.tok.message = .ok m)
    (hf : Footer.encode t.tok.footer = some f) :
    work (t.signT P key i).trace ≤
      2 * m.length + 2 * f.length + i.length + (Payload.suffix E).length + 600 := by
  rw [sign_steps t key i m f hm hf]
  cases v <;> simp [signSteps, work, Event.work] <;> omega

/-- Wrapping a key with a key. -/
theorem pie_work (key : Key P v k.kind) (wk : Key P v .Local) (rng : Rng) (hr : 32 ≤ rng.length) :
    work (key.wrapPieT wk rng).trace ≤ 1000 := by
  rw [pie_steps key wk rng hr]
  cases v <;> cases k <;> decide

/-- Wrapping a key with a password, apart from the password hash itself. -/
theorem pw_work (key : Key P v k.kind) (pw : Bytes) (st : KdfState v) (rng : Rng)
    (hr : pwSaltLen v + ivLen v ≤ rng.length) :
    work (key.pwWrapT pw st rng).trace ≤ pw.length + 1000 := by
  rw [pw_steps key pw st rng hr]
  by_cases h : KdfOk st pw
  · rw [if_pos h]
    have e : work (pwSteps k st pw.length) = work (pwSteps k st 0) + pw.length := by
      simp [pwSteps, work, Event.work]
      omega
    have e' : work (pwSteps k st 0) ≤ 1000 := by
      cases v <;> cases k <;>
        simp [pwSteps, work, Event.work, kdfCost, pwSaltLen, pwKeyHashLen, ivLen, keyLen, WKind.kind,
          pwTagLen, pwStateLen, Ver.paserkHeader, WKind.pwHeader, asc]
    omega
  · rw [if_neg h]
    cases v <;> simp [work, Event.work, pwSaltLen]

/-- Sealing a key: a constant, and 49 for every failed attempt in version 3. -/
theorem seal_work (key : Key P v .Local) (pk : Key P v .Public) (rng : Rng) (n : Nat)
    (hr : match v with
      | .V3 => Attempts n rng
      | .V4 => 32 ≤ rng.length) :
    work (key.sealKeyT pk rng).trace ≤ 1000 + 49 * n := by
  cases v
  · rw [seal_steps_v3 key pk rng n hr]
    unfold sealStepsV3 randomSteps
    rw [work_append, work_append]
    have : work (List.replicate n [Event.prim "random" 48 0 0, .branch false]).flatten = 49 * n := by
      induction n with
      | zero => rfl
      | succ n ih =>
        have ih' : ∀ l : List (List Event), work l.flatten = (l.map work).sum := by
          intro l
          induction l with
          | nil => rfl
          | cons a l h => rw [List.flatten_cons, work_append, h]; simp
        rw [ih']
        simp [List.map_replicate]
        show (n + 1) * 49 = _
        omega
    rw [this]
    have e1 : work [Event.prim "random" 48 0 0, .branch true] = 49 := rfl
    have e2 : work [Event.prim "public" 49 48 0, .prim "dh" 48 48 49, .prim "sha384" 48 0 155,
      .prim "sha384" 48 0 155, .stream 32, .prim "hmac" 48 48 89] = 865 := rfl
    rw [e1, e2]
    omega
  · rw [seal_steps_v4 key pk rng hr]
    have e : work sealStepsV4 = 722 := by decide
    omega

/-! ### Examples -/

open Sample (Raw)

/-- Two builders with different messages of the same length. -/
def bA (v : Ver) (p : Purpose) : TokenBuilder v p Bytes Bytes Raw := ⟨⟨⟨⟩, asc "hello", asc "kid"⟩⟩
def bB (v : Ver) (p : Purpose) : TokenBuilder v p Bytes Bytes Raw := ⟨⟨⟨⟩, asc "world", asc "abc"⟩⟩

/-- Different messages, footers, keys, assertions and random bytes: the same steps. -/
example (P : Prims) (v : Ver) (key key' : Key P v .Local) :
    ((bA v .Local).encryptT P key (asc "ia") (List.replicate 32 0)).trace =
      ((bB v .Local).encryptT P key' (asc "bi") (List.replicate 40 7)).trace :=
  encrypt_trace _ _ key key' _ _ _ _ (asc "hello") (asc "world") (asc "kid") (asc "abc") (by decide)
    (by decide) rfl rfl rfl rfl rfl rfl rfl

example (P : Prims) (v : Ver) (key key' : Key P v .Secret) :
    ((bA v .Public).signT P key (asc "ia")).trace = ((bB v .Public).signT P key' (asc "bi")).trace :=
  sign_trace _ _ key key' _ _ (asc "hello") (asc "world") (asc "kid") (asc "abc") rfl rfl rfl rfl rfl
    rfl rfl

/-- Messages of different lengths: other steps. -/
example (key : Key P v .Local) :
    ((bA v .Local).encryptT P key [] (List.replicate 32 0)).trace ≠
      ((⟨⟨⟨⟩, asc "hello!", asc "kid"⟩⟩ : TokenBuilder v .Local Bytes Bytes Raw).encryptT P key []
        (List.replicate 32 0)).trace := by
  rw [encrypt_steps (bA v .Local) key [] _ (asc "hello") (asc "kid") (by decide) rfl rfl,
    encrypt_steps (⟨⟨⟨⟩, asc "hello!", asc "kid"⟩⟩ : TokenBuilder v .Local Bytes Bytes Raw) key [] _
      (asc "hello!") (asc "kid") (by decide) rfl rfl]
  intro h
  have := congrArg (fun l : List Event => l[1]?) h
  simp [encryptSteps, asc] at this

/-- An encoding that refuses everything. -/
structure Never where

instance : Payload Never where
  suffix := []
  default := ⟨⟩

instance : MessageEncoding Never Bytes where
  encode _ _ := .error "no"

example (key : Key P v .Local) : ((⟨⟨⟨⟩, asc "m", []⟩⟩ : TokenBuilder v .Local Bytes Bytes
    Never).encryptT P key [] []).trace = [.prim "random" 32 0 0] :=
  encrypt_refused _ key [] [] "no" rfl

/-- A tape whose first attempt fails (zero is not a scalar) and whose second succeeds. -/
theorem attempts_one : Attempts 1 (List.replicate 48 0 ++ List.replicate 48 1) := by
  refine ⟨by decide, ?_, ?_⟩
  · intro j hj s hs
    obtain rfl : j = 0 := by omega
    have : s = BytesN.fill 48 0 := Subtype.ext (by rw [hs]; decide)
    rw [this]
    decide
  · intro h
    exact h (BytesN.fill 48 1) (by decide) (by decide)

/-- A tape whose first attempt succeeds. -/
theorem attempts_zero : Attempts 0 (List.replicate 48 1) := by
  refine ⟨by decide, fun j hj => by omega, fun h => ?_⟩
  exact h (BytesN.fill 48 1) (by decide) (by decide)

/-- The number of attempts shows, and depends on the random bytes. -/
example (key : Key P .V3 .Local) (pk : Key P .V3 .Public) :
    (key.sealKeyT pk (List.replicate 48 0 ++ List.replicate 48 1)).trace ≠
      (key.sealKeyT pk (List.replicate 48 1)).trace := by
  rw [seal_steps_v3 key pk _ 1 attempts_one, seal_steps_v3 key pk _ 0 attempts_zero]
  decide

end C87
end Pasta
