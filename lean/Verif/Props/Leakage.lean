import Verif.Lemmas.Leakage
import Verif.Lemmas.Pbkw
import Verif.Props.Pke
import Verif.Toy
import Verif.Props.Samples
import Verif.Props.Auth

/-!
# C55: what the steps of verification depend on

The instrumented programs of `Model/Leakage.lean` compute the same results as the plain ones, and
the steps they take until a secret-dependent verdict depend on public lengths only.
-/

namespace Pasta

variable {P : Prims} {v : Ver} {k : WKind}

namespace C55

/-! ### The instrumented programs are the programs of the model -/

theorem genericDecrypt_same (key : BytesN 32) (suf n m tag f i : Bytes) :
    (genericDecryptT P v key suf n m tag f i).res = genericDecrypt P v key suf n m tag f i := by
  unfold genericDecryptT genericDecrypt localKdfT genericDigestT
  simp only [Traced.bind_res, Traced.prim_def, Traced.step_def, ctNeT_eq, Res.ok_bind,
    Traced.ite_res, Traced.pure_def]
  rfl

theorem decrypt_same {F E M : Type} [Payload E] [MessageDecoding E M]
    (t : SecuredToken v .Local F E) (key : Key P v .Local) (i : Bytes) :
    (t.decryptWithAssertionsT M P key i).res = t.decryptWithAssertions M P key i := by
  unfold SecuredToken.decryptWithAssertionsT SecuredToken.decryptWithAssertions
  simp only [Traced.bind_res, Traced.lift_def, Traced.step_def, genericDecrypt_same, Res.ok_bind,
    Traced.pure_def]
  rfl

theorem pie_unwrap_same (w : PieWrappedKey v k) (wk : Key P v .Local) :
    (w.unwrapKeyT P wk).res = w.unwrapKey P wk := by
  unfold PieWrappedKey.unwrapKeyT PieWrappedKey.unwrapKey
  simp only [Traced.bind_res, Traced.lift_def, Traced.step_def, Traced.prim_def, ctNeT_eq,
    Res.ok_bind, Traced.ite_res]

theorem pw_unwrap_same (w : PwWrappedKey v k) (pw : Bytes) :
    (w.unwrapKeyT P pw).res = w.unwrapKey P pw := by
  unfold PwWrappedKey.unwrapKeyT PwWrappedKey.unwrapKey
  simp only [pwKdfT_res, Traced.bind_res, Traced.lift_def, Traced.step_def, Traced.prim_def, ctNeT_eq,
    Res.ok_bind, Traced.ite_res]

theorem verify_same {F E M : Type} [Payload E] [MessageDecoding E M]
    (t : SecuredToken v .Public F E) (key : Key P v .Public) (i : Bytes) :
    (t.verifyWithAssertionsT M P key i).res = t.verifyWithAssertions M P key i := by
  have e : ∀ k h m f sig, (verifyRawT P v k h m f i sig).res = verifyRaw P v k h m f i sig := by
    intro k h m f sig
    cases v
    · unfold verifyRawT verifyRaw
      simp only [Traced.bind_res, Traced.lift_def, Traced.prim_def, Res.ok_bind]
      rfl
    · rfl
  unfold SecuredToken.verifyWithAssertionsT SecuredToken.verifyWithAssertions
  simp only [e, Traced.bind_res, Traced.lift_def, Traced.step_def, Res.ok_bind, Traced.ite_res,
    Traced.pure_def, Res.pure_def]

theorem unseal_same (w : SealedKey v) (sk : Key P v .Secret) :
    (w.unsealKeyT P sk).res = w.unsealKey P sk := by
  cases v
  · show (unsealV3T P w sk).res = unsealV3 P w sk
    unfold unsealV3T unsealV3
    simp only [Traced.bind_res, Traced.lift_def, Traced.step_def, Traced.prim_def, ctNeT_eq,
      Res.ok_bind, Traced.ite_res, Traced.pure_def, Res.pure_def]
  · show (unsealV4T P w sk).res = unsealV4 P w sk
    unfold unsealV4T unsealV4
    simp only [Traced.bind_res, Traced.lift_def, Traced.step_def, Traced.prim_def, ctNeT_eq,
      Res.ok_bind, Traced.ite_res, Traced.pure_def, Res.pure_def]

/-! ### Local tokens -/

section
variable {F E M : Type} [Payload E] [MessageDecoding E M]

/-- One run: the steps are a function of the lengths and of the verdict. -/
theorem decrypt_steps (t : SecuredToken v .Local F E) (key : Key P v .Local) (i : Bytes) :
    (t.payload.length < 32 + tagSize v ∧ (t.decryptWithAssertionsT M P key i).trace = [] ∧
      (t.decryptWithAssertionsT M P key i).res = .panic) ∨
    (32 + tagSize v ≤ t.payload.length ∧ ∃ ne,
      (t.decryptWithAssertionsT M P key i).trace =
        decryptPrefix v (Payload.suffix E).length 32 (t.payload.length - 32 - tagSize v) (tagSize v)
          t.encodedFooter.length i.length ++
        (.branch ne :: if ne then [] else [.stream (t.payload.length - 32 - tagSize v),
          .decode (t.payload.length - 32 - tagSize v)]) ∧
      ((t.decryptWithAssertionsT M P key i).res = .err .cryptoError ↔ ne = true)) := by
  unfold SecuredToken.decryptWithAssertionsT
  unfold splitAt usizeSub
  by_cases h32 : 32 ≤ t.payload.length
  · simp only [if_pos h32, Traced.lift_def, Traced.ok_bind, List.nil_append, List.length_drop]
    by_cases htag : tagSize v ≤ t.payload.length - 32
    · right
      simp only [if_pos htag, Traced.ok_bind, List.nil_append, if_pos (Nat.sub_le _ _)]
      obtain ⟨ne, o, h1, h2⟩ := genericDecryptT_eq P v key.key (Payload.suffix E)
        (t.payload.take 32) ((t.payload.drop 32).take (t.payload.length - 32 - tagSize v))
        ((t.payload.drop 32).drop (t.payload.length - 32 - tagSize v)) t.encodedFooter i
      rw [h1]
      have e1 : (t.payload.take 32).length = 32 := by simp; omega
      have e2 : ((t.payload.drop 32).take (t.payload.length - 32 - tagSize v)).length =
          t.payload.length - 32 - tagSize v := by simp
      have e3 : ((t.payload.drop 32).drop (t.payload.length - 32 - tagSize v)).length =
          tagSize v := by simp; omega
      rw [e2] at h2
      rw [e1, e2, e3]
      refine ⟨by omega, ne, ?_, ?_⟩
      · cases ne
        · cases hd : (MessageDecoding.decode t.encoding o : Except String M) <;> simp [hd, h2]
        · simp
      · cases ne
        · cases hd : (MessageDecoding.decode t.encoding o : Except String M) <;> simp [hd]
        · simp
    · left
      refine ⟨by omega, ?_⟩
      simp [if_neg htag]
  · left
    refine ⟨by omega, ?_⟩
    simp [if_neg h32]

/-- The steps of a decryption depend on the lengths of the payload, footer and assertion, and on
whether the token is authentic; on nothing else: not on the key, the contents, or the position at
which a wrong tag differs. -/
theorem decrypt_trace (t t' : SecuredToken v .Local F E) (key key' : Key P v .Local)
    (i i' : Bytes) (hp : t.payload.length = t'.payload.length)
    (hf : t.encodedFooter.length = t'.encodedFooter.length) (hi : i.length = i'.length)
    (hr : t.decryptWithAssertions M P key i = .err .cryptoError ↔
      t'.decryptWithAssertions M P key' i' = .err .cryptoError) :
    (t.decryptWithAssertionsT M P key i).trace = (t'.decryptWithAssertionsT M P key' i').trace := by
  rw [← decrypt_same, ← decrypt_same] at hr
  rcases decrypt_steps (M := M) t key i with ⟨h1, h2, _⟩ | ⟨h1, ne, h2, h3⟩ <;>
    rcases decrypt_steps (M := M) t' key' i' with ⟨h1', h2', _⟩ | ⟨h1', ne', h2', h3'⟩
  · rw [h2, h2']
  · omega
  · omega
  · have : ne = ne' := by
      rw [h3, h3'] at hr
      cases ne <;> cases ne' <;> simp_all
    rw [h2, h2', hp, hf, hi, this]

/-- A rejected token is never decrypted and its contents never reach the payload decoder. -/
theorem decrypt_reject (t : SecuredToken v .Local F E) (key : Key P v .Local) (i : Bytes)
    (hr : t.decryptWithAssertions M P key i = .err .cryptoError) (n : Nat) :
    .stream n ∉ (t.decryptWithAssertionsT M P key i).trace ∧
      .decode n ∉ (t.decryptWithAssertionsT M P key i).trace := by
  rw [← decrypt_same] at hr
  rcases decrypt_steps (M := M) t key i with ⟨_, _, h3⟩ | ⟨_, ne, h2, h3⟩
  · rw [hr] at h3; cases h3
  · rw [h3.1 hr] at h2
    rw [h2]
    simp [decryptPrefix, ctTrace]

/-- The primitive calls of a verification: they depend on lengths only. -/
def verifyCalls (suf m f i : Nat) : (v : Ver) → List Event
  | .V3 => [.prim "sha384" 48 0 (107 + suf + m + f + i), .prim "verify" 1 49 48]
  | .V4 => [.prim "verify" 1 32 (50 + suf + m + f + i)]

theorem tail (t : SecuredToken v .Public F E) (m : Bytes) (calls : List Event) (ok : Bool) :
    let r : Traced (ValidatedToken v .Public M F E) := (⟨calls, .ok ok⟩ : Traced Bool) >>= fun ok =>
      Traced.step (.branch ok) >>= fun _ =>
        if ok then
          Traced.step (.decode m.length) >>= fun _ =>
          Traced.lift (Res.ofExcept (MessageDecoding.decode t.encoding m)) >>= fun message =>
          pure { encoding := t.encoding, message, footer := t.footer }
        else Traced.lift (.err .cryptoError)
    r.trace = calls ++ (.branch ok :: if ok then [.decode m.length] else []) ∧
      r.res ≠ .panic ∧ (r.res = .err .cryptoError ↔ ok = false) := by
  cases ok
  · simp
  · cases MessageDecoding.decode (M := M) t.encoding m <;> simp [Res.ofExcept]

/-- The steps of verifying a signed token: none if the payload is too short, one hash if a V3
signature is out of range (both panic); otherwise they depend on lengths and on the verdict. -/
theorem verify_steps (t : SecuredToken v .Public F E) (key : Key P v .Public) (i : Bytes) :
    (t.payload.length < sigSize v ∧ (t.verifyWithAssertionsT M P key i).trace = [] ∧
      (t.verifyWithAssertionsT M P key i).res = .panic) ∨
    (sigSize v ≤ t.payload.length ∧ v = .V3 ∧
      (t.verifyWithAssertionsT M P key i).trace =
        (verifyCalls (Payload.suffix E).length (t.payload.length - sigSize v) t.encodedFooter.length
          i.length v).take 1 ∧
      (t.verifyWithAssertionsT M P key i).res = .panic) ∨
    (sigSize v ≤ t.payload.length ∧ ∃ ok,
      (t.verifyWithAssertionsT M P key i).trace =
        verifyCalls (Payload.suffix E).length (t.payload.length - sigSize v) t.encodedFooter.length
          i.length v ++
        (.branch ok :: if ok then [.decode (t.payload.length - sigSize v)] else []) ∧
      (t.verifyWithAssertionsT M P key i).res ≠ .panic ∧
      ((t.verifyWithAssertionsT M P key i).res = .err .cryptoError ↔ ok = false)) := by
  by_cases h0 : sigSize v ≤ t.payload.length
  · right
    obtain ⟨m, s, hp⟩ : ∃ (m : Bytes) (s : BytesN (sigSize v)), t.payload = m ++ s.1 :=
      ⟨_, ⟨t.payload.drop (t.payload.length - sigSize v), by simp; omega⟩,
        (List.take_append_drop (t.payload.length - sigSize v) t.payload).symm⟩
    have hs := s.2
    have hm : t.payload.length - sigSize v = m.length := by rw [hp]; simp [hs]
    have e1 : usizeSub t.payload.length (sigSize v) = .ok m.length := by
      unfold usizeSub
      rw [if_pos h0, hm]
    have e2 : splitAt m.length t.payload = .ok (m, s.1) := by
      rw [hp]; unfold splitAt
      rw [if_pos (by simp)]
      simp
    have e3 : BytesN.ofBytes? (sigSize v) s.1 = some s := by
      unfold BytesN.ofBytes?
      rw [dif_pos hs]
    have h8 : ∀ n, (leBytes 8 n).length = 8 := Prims.leBytes_length 8
    have hh : Purpose.Public.header.length = 6 := rfl
    have hd : (asc ".").length = 1 := rfl
    unfold SecuredToken.verifyWithAssertionsT
    simp only [e1, e2, e3, hm, Traced.lift_def, Traced.ok_bind, Res.unwrap_some, List.nil_append,
      Traced.step_def]
    cases v
    · have hl : (v3PublicPreAuth (P.p384Compress key.key).1 (Payload.suffix E) m t.encodedFooter
          i).length = 107 + (Payload.suffix E).length + m.length + t.encodedFooter.length +
            i.length := by
        have := (P.p384Compress key.key).2
        have hv : Ver.V3.pasetoHeader.length = 2 := rfl
        unfold v3PublicPreAuth
        rw [pae_eq]
        simp [h8, hh, hd, hv, this]
        omega
      unfold verifyRawT verifyCalls
      dsimp only
      rw [hl]
      cases hsig : p384SigFromBytes s with
      | none => left; simp [h0]
      | some s' =>
        right
        refine ⟨h0, P.p384Verify (key.key : P.P384Point) (P.sha384 (v3PublicPreAuth
          (P.p384Compress key.key).1 (Payload.suffix E) m t.encodedFooter i)) s', ?_⟩
        exact tail t m [_, _] _
    · right
      have hl : (v4PublicPreAuth (Payload.suffix E) m t.encodedFooter i).length =
          50 + (Payload.suffix E).length + m.length + t.encodedFooter.length + i.length := by
        have hv : Ver.V4.pasetoHeader.length = 2 := rfl
        unfold v4PublicPreAuth
        rw [pae_eq]
        simp [h8, hh, hd, hv]
        omega
      unfold verifyRawT verifyCalls
      dsimp only
      rw [hl]
      refine ⟨h0, P.edVerify key.key (v4PublicPreAuth (Payload.suffix E) m t.encodedFooter i) s, ?_⟩
      exact tail t m [_] _
  · left
    refine ⟨by omega, ?_⟩
    unfold SecuredToken.verifyWithAssertionsT usizeSub
    rw [if_neg h0]
    simp

/-- The steps of a verification depend on the lengths and on the outcome (authentic, not authentic,
panic), on nothing else; a rejected token never reaches the payload decoder. -/
theorem verify_trace (t t' : SecuredToken v .Public F E) (key key' : Key P v .Public)
    (i i' : Bytes) (hp : t.payload.length = t'.payload.length)
    (hf : t.encodedFooter.length = t'.encodedFooter.length) (hi : i.length = i'.length)
    (hr : t.verifyWithAssertions M P key i = .err .cryptoError ↔
      t'.verifyWithAssertions M P key' i' = .err .cryptoError)
    (hq : t.verifyWithAssertions M P key i = .panic ↔ t'.verifyWithAssertions M P key' i' = .panic) :
    (t.verifyWithAssertionsT M P key i).trace = (t'.verifyWithAssertionsT M P key' i').trace := by
  rw [← verify_same, ← verify_same] at hr hq
  rcases verify_steps (M := M) t key i with ⟨h0, h1, h2⟩ | ⟨h0, h3, h1, h2⟩ | ⟨h0, ok, h1, h2, h3⟩ <;>
    rcases verify_steps (M := M) t' key' i' with
      ⟨h0', h1', h2'⟩ | ⟨h0', h3', h1', h2'⟩ | ⟨h0', ok', h1', h2', h3'⟩
  · rw [h1, h1']
  · omega
  · omega
  · omega
  · rw [h1, h1', hp, hf, hi]
  · exact absurd (hq.1 h2) h2'
  · omega
  · exact absurd (hq.2 h2') h2
  · have : ok = ok' := by
      rw [h3, h3'] at hr
      cases ok <;> cases ok' <;> simp_all
    rw [h1, h1', hp, hf, hi, this]

theorem verify_reject (t : SecuredToken v .Public F E) (key : Key P v .Public) (i : Bytes)
    (hr : t.verifyWithAssertions M P key i = .err .cryptoError) (n : Nat) :
    .decode n ∉ (t.verifyWithAssertionsT M P key i).trace := by
  rw [← verify_same] at hr
  rcases verify_steps (M := M) t key i with ⟨h0, h1, h2⟩ | ⟨h0, h3, h1, h2⟩ | ⟨h0, ok, h1, h2, h3⟩
  · rw [hr] at h2; exact absurd h2 (by simp)
  · rw [hr] at h2; exact absurd h2 (by simp)
  · rw [h1, h3.1 hr]
    cases v <;> simp [verifyCalls]

end

/-! ### Wrapped and sealed keys -/

/-- The steps of unwrapping a PIE-wrapped key depend on its type and on whether it is authentic. -/
theorem pie_steps (w : PieWrappedKey v k) (wk : Key P v .Local) : ∃ ne,
    (w.unwrapKeyT P wk).trace =
      [.prim "authKeyMac" (pieAuthKeyLen v) 32 33,
        .prim "tagMac" (pieTagLen v) 32
          (v.paserkHeader.length + 1 + k.pieHeader.length + 4 + 32 + keyLen v k.kind)] ++
      ctTrace (pieTagLen v) (pieTagLen v) ++
      (.branch ne :: if ne then [] else
        [.prim "encKeyMac" (pieEncKeyLen v) 32 33, .stream (keyLen v k.kind),
          .decode (keyLen v k.kind)]) ∧
    ((w.unwrapKeyT P wk).res = .err .cryptoError ↔ ne = true) := by
  obtain ⟨x, h1, h2⟩ := pieEncKeyMac_eq P v wk.key w.nonce.1
  obtain ⟨y, h3, h4⟩ := pieAuthKeyMac_eq P v wk.key w.nonce.1
  have h4' : (y.1.take 32).length = 32 := by rw [h4, pieAuthKey_length]
  obtain ⟨t, h5, h6⟩ := pieTagMac_eq P v (y.1.take 32)
    (pieTagInput v k w.nonce.1 w.wrappedKey.1) (by rw [h4']; decide)
  have hl : (pieTagInput v k w.nonce.1 w.wrappedKey.1).length =
      v.paserkHeader.length + 1 + k.pieHeader.length + 4 + 32 + keyLen v k.kind := by
    have e1 : (asc ".").length = 1 := rfl
    have e2 : (asc "pie.").length = 4 := rfl
    simp [pieTagInput, e1, e2, w.nonce.2, w.wrappedKey.2]
    omega
  have hw : wk.key.1.length = 32 := wk.key.2
  refine ⟨ctNe w.tag.1 t.1, ?_⟩
  unfold PieWrappedKey.unwrapKeyT
  dsimp only
  simp only [Traced.prim_def, h3, Traced.ok_bind, h5, ctNeT_eq, Traced.step_def, hl, h4', t.2,
    w.tag.2]
  cases ctNe w.tag.1 t.1
  · simp only [h1, Traced.ok_bind, Traced.lift_def, Bool.false_eq_true, if_false]
    refine ⟨by simp [w.nonce.2, hw, w.wrappedKey.2, applyKeystreamN, applyKeystream_length], ?_⟩
    rcases Key.fromBytes_cases (P := P) (applyKeystreamN (stream P v
        (BytesN.split 32 (ivLen v) (pieEncKeyLen_eq v) x).1
        (BytesN.split 32 (ivLen v) (pieEncKeyLen_eq v) x).2) w.wrappedKey) with ⟨key, h⟩ | h <;>
      rw [h] <;> simp
  · simp [w.nonce.2, hw]

theorem pie_trace (w w' : PieWrappedKey v k) (wk wk' : Key P v .Local)
    (hr : w.unwrapKey P wk = .err .cryptoError ↔ w'.unwrapKey P wk' = .err .cryptoError) :
    (w.unwrapKeyT P wk).trace = (w'.unwrapKeyT P wk').trace := by
  rw [← pie_unwrap_same, ← pie_unwrap_same] at hr
  obtain ⟨ne, h1, h2⟩ := pie_steps w wk
  obtain ⟨ne', h1', h2'⟩ := pie_steps w' wk'
  have : ne = ne' := by
    rw [h2, h2'] at hr
    cases ne <;> cases ne' <;> simp_all
  rw [h1, h1', this]

/-- The steps of unwrapping a password-wrapped key depend on its type, the length of the password,
the KDF settings (through the KDF call) and on whether it is authentic. -/
theorem pw_steps (w : PwWrappedKey v k) (pw : Bytes) :
    (¬ KdfOk w.state pw ∧
      (w.unwrapKeyT P pw).trace = [] ∧
      (w.unwrapKeyT P pw).res = .panic) ∨
    (KdfOk w.state pw ∧ ∃ ne,
      (w.unwrapKeyT P pw).trace =
        [kdfCost w.state, .prim "pwKdf" 32 pw.length (pwSaltLen v), .prim "keyHash" (pwKeyHashLen v) 0 33,
          .prim "tagMac" (pwTagLen v) (pwKeyHashLen v)
            (v.paserkHeader.length + 1 + k.pwHeader.length + pwSaltLen v + pwStateLen v + ivLen v +
              keyLen v k.kind)] ++
        ctTrace (pwTagLen v) (pwTagLen v) ++
        (.branch ne :: if ne then [] else
          [.prim "keyHash" (pwKeyHashLen v) 0 33, .stream (keyLen v k.kind),
            .decode (keyLen v k.kind)]) ∧
      ((w.unwrapKeyT P pw).res = .err .cryptoError ↔ ne = true)) := by
  unfold PwWrappedKey.unwrapKeyT
  rw [pwKdfT_eq, pwKdf_eq]
  by_cases hk : KdfOk w.state pw
  · right
    refine ⟨hk, ?_⟩
    rw [if_pos hk, if_pos hk]
    have hak : ∀ kk : BytesN 32, (pwKeyHash P v ([0xfe] ++ kk.1)).1.length ≤ 64 := by
      intro kk
      have := (pwKeyHash P v ([0xfe] ++ kk.1)).2
      rw [this]
      cases v <;> decide
    obtain ⟨t, h5, _⟩ := pwTagMac_eq P v
      (pwKeyHash P v ([0xfe] ++ (Spec.pwKey P (specParams w.state) pw w.salt.1).1)).1
      (pwTagInput v k w.salt.1 w.state w.nonce.1 w.edk.1) (hak _)
    have hl : (pwTagInput v k w.salt.1 w.state w.nonce.1 w.edk.1).length =
        v.paserkHeader.length + 1 + k.pwHeader.length + pwSaltLen v + pwStateLen v + ivLen v +
          keyLen v k.kind := by
      have e1 : (asc ".").length = 1 := rfl
      simp [pwTagInput, e1, w.nonce.2, w.edk.2, w.salt.2, (encodeState v w.state).2]
      omega
    refine ⟨ctNe t.1 w.tag.1, ?_⟩
    dsimp only
    simp only [Traced.prim_def, Traced.ok_bind]
    rw [h5]
    simp only [Traced.ok_bind, ctNeT_eq, Traced.step_def, hl, t.2, w.tag.2,
      (pwKeyHash P v _).2]
    cases ctNe t.1 w.tag.1
    · simp only [Traced.lift_def, Bool.false_eq_true, if_false]
      refine ⟨by simp [w.edk.2, applyKeystreamN, applyKeystream_length], ?_⟩
      generalize (applyKeystreamN _ w.edk) = b
      rcases Key.fromBytes_cases (P := P) b with ⟨key, h⟩ | h <;> rw [h] <;> simp
    · simp
  · left
    refine ⟨hk, ?_⟩
    rw [if_neg hk]
    simp

theorem pw_trace (w w' : PwWrappedKey v k) (pw pw' : Bytes) (hs : w.state = w'.state)
    (hl : pw.length = pw'.length)
    (hr : w.unwrapKey P pw = .err .cryptoError ↔ w'.unwrapKey P pw' = .err .cryptoError) :
    (w.unwrapKeyT P pw).trace = (w'.unwrapKeyT P pw').trace := by
  rw [← pw_unwrap_same, ← pw_unwrap_same] at hr
  have hk : KdfOk w.state pw ↔ KdfOk w'.state pw' := by
    rw [hs]
    cases v <;> simp [KdfOk, hl]
  rcases pw_steps (P := P) w pw with ⟨h0, h1, h2⟩ | ⟨h0, ne, h1, h2⟩ <;>
    rcases pw_steps (P := P) w' pw' with ⟨h0', h1', h2'⟩ | ⟨h0', ne', h1', h2'⟩
  · rw [h1, h1']
  · exact absurd (hk.2 h0') h0
  · exact absurd (hk.1 h0) h0'
  · have : ne = ne' := by
      rw [h2, h2'] at hr
      cases ne <;> cases ne' <;> simp_all
    rw [h1, h1', this, hl, hs]

/-- The public point of a sealed key can be read. -/
def EpkOk (P : Prims) : {v : Ver} → SealedKey v → Prop
  | .V3, w => (P.p384Parse w.ephemeralPublicKey.1).isSome
  | .V4, _ => True

theorem unseal_steps_v3 (w : SealedKey .V3) (sk : Key P .V3 .Secret) :
    (¬ EpkOk P w ∧ (w.unsealKeyT P sk).trace = [.prim "parsePoint" 0 0 49] ∧
      (w.unsealKeyT P sk).res = .panic) ∨
    (EpkOk P w ∧ ∃ ne,
      (w.unsealKeyT P sk).trace =
        [.prim "parsePoint" 0 0 49, .prim "dh" 48 48 49, .prim "sha384" 48 0 155,
          .prim "hmac" 48 48 89] ++ ctTrace 48 48 ++
        (.branch ne :: if ne then [] else [.prim "sha384" 48 0 155, .stream 32]) ∧
      ((w.unsealKeyT P sk).res = .err .cryptoError ↔ ne = true)) := by
  have e1 : w.ephemeralPublicKey.1.length = 49 := w.ephemeralPublicKey.2
  have e2 : w.encryptedDataKey.1.length = 32 := w.encryptedDataKey.2
  have e3 : w.tag.1.length = 48 := w.tag.2
  have hi : ∀ (d : UInt8) (xk : BytesN 48) (pk : BytesN 49),
      (pkeKdfInput .V3 d xk.1 w.ephemeralPublicKey.1 pk.1).length = 155 := by
    intro d xk pk
    have := xk.2
    have := pk.2
    have e4 : (asc ".seal.").length = 6 := rfl
    have e6 : (Ver.paserkHeader .V3).length = 2 := rfl
    simp [pkeKdfInput, *]
  have ht : (pkeTagInput .V3 w.ephemeralPublicKey.1 w.encryptedDataKey.1).length = 89 := by
    have e4 : (asc ".seal.").length = 6 := rfl
    have e6 : (Ver.paserkHeader .V3).length = 2 := rfl
    simp [pkeTagInput, *]
  unfold SealedKey.unsealKeyT unsealV3T EpkOk
  dsimp only
  cases hp : P.p384Parse w.ephemeralPublicKey.1 with
  | none => left; simp [e1]
  | some epk =>
    right
    refine ⟨rfl, ctNe w.tag.1 (P.hmacSha384 (P.sha384 (pkeKdfInput .V3 2
      (P.p384Dh sk.key epk).1 w.ephemeralPublicKey.1 (P.p384Compress (P.p384Public sk.key)).1)).1
      (pkeTagInput .V3 w.ephemeralPublicKey.1 w.encryptedDataKey.1)).1, ?_⟩
    simp only [Traced.prim_def, Res.unwrap_some, Traced.ok_bind, Prims.hmac, ctNeT_eq,
      Traced.step_def, hi, ht, e1, e2, e3, (P.sha384 _).2, (P.hmacSha384 _ _).2]
    cases ctNe w.tag.1 _ <;> simp

theorem unseal_steps_v4 (w : SealedKey .V4) (sk : Key P .V4 .Secret) :
    ∃ ne,
      (w.unsealKeyT P sk).trace =
        [.prim "dh" 32 32 32, .prim "blake2b" 32 0 105,
          .prim "blake2bMac" 32 32 72] ++ ctTrace 32 32 ++
        (.branch ne :: if ne then [] else
          [.prim "blake2b" 32 0 105, .prim "blake2b" 24 0 64, .stream 32]) ∧
      ((w.unsealKeyT P sk).res = .err .cryptoError ↔ ne = true) := by
  have e1 : w.ephemeralPublicKey.1.length = 32 := w.ephemeralPublicKey.2
  have e2 : w.encryptedDataKey.1.length = 32 := w.encryptedDataKey.2
  have e3 : w.tag.1.length = 32 := w.tag.2
  have hi : ∀ (d : UInt8) (xk : BytesN 32) (pk : BytesN 32),
      (pkeKdfInput .V4 d xk.1 w.ephemeralPublicKey.1 pk.1).length = 105 := by
    intro d xk pk
    have := xk.2
    have := pk.2
    have e4 : (asc ".seal.").length = 6 := rfl
    have e6 : (Ver.paserkHeader .V4).length = 2 := rfl
    simp [pkeKdfInput, *]
  have ht : (pkeTagInput .V4 w.ephemeralPublicKey.1 w.encryptedDataKey.1).length = 72 := by
    have e4 : (asc ".seal.").length = 6 := rfl
    have e6 : (Ver.paserkHeader .V4).length = 2 := rfl
    simp [pkeTagInput, *]
  have hm : ∀ b : BytesN 32, b.1.length ≤ 64 := fun b => by rw [b.2]; decide
  unfold SealedKey.unsealKeyT unsealV4T
  dsimp only
  refine ⟨ctNe w.tag.1 (P.blake2bMac 32 (P.blake2b 32 (pkeKdfInput .V4 2
    (P.montMul (P.edScalar sk.key) w.ephemeralPublicKey).1 w.ephemeralPublicKey.1
    (P.edToMontgomery (P.edPublic sk.key)).1)).1
    (pkeTagInput .V4 w.ephemeralPublicKey.1 w.encryptedDataKey.1)).1, ?_⟩
  simp only [Traced.prim_def, Traced.ok_bind, Prims.blakeMac, hm, if_true, ctNeT_eq,
    Traced.step_def, hi, ht, e1, e2, e3, (P.blake2b _ _).2, (P.blake2bMac _ _ _).2,
    List.length_append, (P.edToMontgomery _).2]
  cases ctNe w.tag.1 _ <;> simp

theorem unseal_trace (w w' : SealedKey v) (sk sk' : Key P v .Secret)
    (he : EpkOk P w ↔ EpkOk P w')
    (hr : w.unsealKey P sk = .err .cryptoError ↔ w'.unsealKey P sk' = .err .cryptoError) :
    (w.unsealKeyT P sk).trace = (w'.unsealKeyT P sk').trace := by
  rw [← unseal_same, ← unseal_same] at hr
  cases v
  · rcases unseal_steps_v3 w sk with ⟨h0, h1, h2⟩ | ⟨h0, ne, h1, h2⟩ <;>
      rcases unseal_steps_v3 w' sk' with ⟨h0', h1', h2'⟩ | ⟨h0', ne', h1', h2'⟩
    · rw [h1, h1']
    · exact absurd (he.2 h0') h0
    · exact absurd (he.1 h0) h0'
    · have : ne = ne' := by
        rw [h2, h2'] at hr
        cases ne <;> cases ne' <;> simp_all
      rw [h1, h1', this]
  · obtain ⟨ne, h1, h2⟩ := unseal_steps_v4 w sk
    obtain ⟨ne', h1', h2'⟩ := unseal_steps_v4 w' sk'
    have : ne = ne' := by
      rw [h2, h2'] at hr
      cases ne <;> cases ne' <;> simp_all
    rw [h1, h1', this]

/-! ### Examples -/

/-- The verdict "not authentic", as a decidable test. -/
def rejected {α : Type} : Res α → Bool
  | .err .cryptoError => true
  | _ => false

theorem rejected_iff {α : Type} (r : Res α) : rejected r = true ↔ r = .err .cryptoError := by
  unfold rejected
  split
  · simp
  · simp_all

/-- Two tokens of the same lengths. -/
def tokA : SecuredToken .V3 .Local Bytes Sample.Raw := ⟨⟨⟩, List.replicate 100 0, [1], [1]⟩
def tokB : SecuredToken .V3 .Local Bytes Sample.Raw := ⟨⟨⟩, List.replicate 100 7, [2], [2]⟩

example : tokA.decryptWithAssertions Bytes Sample.ones ⟨Toy.key32⟩ [] = .err .cryptoError ∧
    tokB.decryptWithAssertions Bytes Sample.ones ⟨Toy.key32⟩ [] = .err .cryptoError ∧
    tokA.payload ≠ tokB.payload ∧ tokA.payload.length = tokB.payload.length := by
  refine ⟨(rejected_iff _).1 ?_, (rejected_iff _).1 ?_, by decide, by decide⟩ <;> decide +kernel

-- an authentic token has other steps: the verdict is (and may be) visible
example : ∃ t : SecuredToken .V4 .Local Bytes Sample.Raw,
    t.decryptWithAssertions Bytes Toy.prims (Toy.localKey .V4) (asc "ia") ≠ .err .cryptoError ∧
    t.decryptWithAssertions Bytes Toy.prims (Toy.localKey .V4) (asc "ia") ≠ .panic := by
  obtain ⟨t, _, -, -, h2, -⟩ := sample_local .V4
  exact ⟨t, by rw [h2]; simp, by rw [h2]; simp⟩

-- contrast: the steps of a comparison that stops early do depend on the contents
example : (earlyNeT 0 [1, 2] [1, 3]).trace ≠ (earlyNeT 0 [1, 2] [0, 3]).trace ∧
    (earlyNeT 0 [1, 2] [1, 3]).res = (earlyNeT 0 [1, 2] [0, 3]).res ∧
    (ctNeT [1, 2] [1, 3]).trace = (ctNeT [1, 2] [0, 3]).trace := by
  refine ⟨by decide, rfl, ?_⟩
  rw [ctNeT_eq, ctNeT_eq]
  rfl

/-- Two signed tokens that are refused. -/
example : ∃ t t' : SecuredToken .V4 .Public Bytes Sample.Raw, t.payload ≠ t'.payload ∧
    t.payload.length = t'.payload.length ∧
    t.verifyWithAssertions Bytes Toy.prims (Toy.v4Secret.publicKey) [] = .err .cryptoError ∧
    t'.verifyWithAssertions Bytes Toy.prims (Toy.v4Secret.publicKey) [] = .err .cryptoError := by
  refine ⟨⟨⟨⟩, List.replicate 70 0, [1], [1]⟩, ⟨⟨⟩, List.replicate 70 7, [2], [2]⟩, by decide, rfl,
    (rejected_iff _).1 ?_, (rejected_iff _).1 ?_⟩ <;> decide +kernel

/-- Two wrapped keys that differ everywhere, both refused. -/
def pieA : PieWrappedKey .V3 .Local := ⟨BytesN.fill _ 0, BytesN.fill _ 0, BytesN.fill _ 0⟩
def pieB : PieWrappedKey .V3 .Local := ⟨BytesN.fill _ 9, BytesN.fill _ 9, BytesN.fill _ 9⟩

example : pieA.unwrapKey Sample.ones ⟨Toy.key32⟩ = .err .cryptoError ∧
    pieB.unwrapKey Sample.ones ⟨Toy.key32⟩ = .err .cryptoError := by
  constructor <;> exact (rejected_iff _).1 (by decide +kernel)

def pwA : PwWrappedKey .V3 .Local :=
  ⟨BytesN.fill _ 0, ⟨3⟩, BytesN.fill _ 0, BytesN.fill _ 0, BytesN.fill _ 0⟩
def pwB : PwWrappedKey .V3 .Local :=
  ⟨BytesN.fill _ 9, ⟨3⟩, BytesN.fill _ 9, BytesN.fill _ 9, BytesN.fill _ 9⟩

example : pwA.unwrapKey Sample.ones (asc "ab") = .err .cryptoError ∧
    pwB.unwrapKey Sample.ones (asc "cd") = .err .cryptoError ∧ pwA.state = pwB.state := by
  refine ⟨(rejected_iff _).1 (by decide +kernel), (rejected_iff _).1 (by decide +kernel), rfl⟩

def sealA : SealedKey .V3 := ⟨BytesN.fill 48 0, Toy.p384Compress Toy.v3Scalar, BytesN.fill 32 2⟩
def sealB : SealedKey .V3 := ⟨BytesN.fill 48 6, Toy.p384Compress Toy.v3Scalar, BytesN.fill 32 7⟩

example : sealA.unsealKey Sample.ones ⟨Toy.v3Scalar⟩ = .err .cryptoError ∧
    sealB.unsealKey Sample.ones ⟨Toy.v3Scalar⟩ = .err .cryptoError ∧
    (EpkOk Sample.ones sealA ↔ EpkOk Sample.ones sealB) := by
  refine ⟨(rejected_iff _).1 (by decide +kernel), (rejected_iff _).1 (by decide +kernel), Iff.rfl⟩

end C55
end Pasta
