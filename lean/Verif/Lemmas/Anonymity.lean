import Verif.Spec.Anonymity
import Verif.Lemmas.Distinguish

/-! # Lemmas about the game of telling keys apart -/

namespace Pasta

open Spec (header paserkText tokenText pieType)

variable {P : Prims} {v : Ver}

theorem inUse_mem {K : Finset (BytesN 32)} {k : BytesN 32} (h : k ∈ K) : inUse K k.1 = some k := by
  unfold inUse
  rw [dif_pos k.2, if_pos h]

theorem authInput_head {m : Bytes} {b : UInt8} (h : m.head? = some b) (h1 : b ≠ 0x70)
    (h2 : b ≠ 0x81) : authInput m = none := by
  obtain ⟨t, rfl⟩ : ∃ t, m = b :: t := by
    cases m with
    | nil => cases h
    | cons x t => cases h; exact ⟨t, rfl⟩
  have e : (asc "paseto-auth-key-for-aead").isPrefixOf (b :: t) = false := by
    show (_ == b && _) = false
    have : ((0x70 : UInt8) == b) = false := by
      rw [beq_eq_false_iff_ne]; exact fun h => h1 h.symm
    rw [Bool.and_eq_false_iff]
    exact .inl this
  unfold authInput
  rw [dif_neg (by rw [e]; simp), dif_neg (by simp [h2])]

theorem authInput_authInfo (n : BytesN 32) : authInput (Spec.authInfo n.1) = some (false, n) := by
  have h : (asc "paseto-auth-key-for-aead").isPrefixOf (Spec.authInfo n.1) = true ∧
      (Spec.authInfo n.1).length = 56 := by
    constructor
    · rw [List.isPrefixOf_iff_prefix]
      exact List.prefix_append _ _
    · show (asc "paseto-auth-key-for-aead" ++ n.1).length = 56
      rw [List.length_append, n.2]; rfl
  unfold authInput
  rw [dif_pos h]
  congr 2

theorem authInput_pieAuth (n : BytesN 32) : authInput (Spec.pieAuthInput n.1) = some (true, n) := by
  have h1 : (asc "paseto-auth-key-for-aead").isPrefixOf (Spec.pieAuthInput n.1) = false := rfl
  unfold authInput
  rw [dif_neg (by rw [h1]; simp), dif_pos ⟨rfl, by simp [Spec.pieAuthInput, n.2]⟩]
  rfl

variable {K : Finset (BytesN 32)} (D : Derivation v)

theorem take_drop_append {x y : Bytes} (h : x.length = 32) :
    (x ++ y).take 32 = x ∧ (x ++ y).drop 32 = y :=
  ⟨by rw [← h, List.take_left], by rw [← h, List.drop_left]⟩

theorem encPair_derived {k : BytesN 32} (hk : k ∈ K) (n : BytesN 32) :
    encPair (P.withDerived K v D) v k n.1 = ((D k (false, n)).cipherKey, (D k (false, n)).iv) := by
  obtain ⟨h2, h3⟩ := take_drop_append (y := (D k (false, n)).iv.1) (D k (false, n)).cipherKey.2
  cases v
  · simp only [encPair, Spec.v3EncKey, Prims.withDerived, encInput_encInfo, inUse_mem hk, dite_true]
    exact Prod.ext (Subtype.ext h2) (Subtype.ext h3)
  · simp only [encPair, Spec.v4EncKey, Prims.withDerived, encInput_encInfo, inUse_mem hk, dite_true]
    exact Prod.ext (Subtype.ext h2) (Subtype.ext h3)

theorem piePair_derived {k : BytesN 32} (hk : k ∈ K) (n : BytesN 32) :
    piePair (P.withDerived K v D) v k n.1 = ((D k (true, n)).cipherKey, (D k (true, n)).iv) := by
  obtain ⟨h2, h3⟩ := take_drop_append (y := (D k (true, n)).iv.1) (D k (true, n)).cipherKey.2
  cases v
  · simp only [piePair, Spec.v3PieEnc, Prims.withDerived, encInput_pieEnc, inUse_mem hk]
    exact Prod.ext (Subtype.ext h2) (Subtype.ext h3)
  · simp only [piePair, Spec.v4PieEnc, Prims.withDerived, encInput_pieEnc, inUse_mem hk, dite_true]
    exact Prod.ext (Subtype.ext h2) (Subtype.ext h3)

theorem localAuthKey_derived {k : BytesN 32} (hk : k ∈ K) (n : BytesN 32) :
    Spec.localAuthKey (P.withDerived K v D) v k n.1 = (D k (false, n)).authKey.1 := by
  cases v
  · simp only [Spec.localAuthKey, Spec.v3AuthKey, Prims.withDerived, encInput_authInfo,
      authInput_authInfo, inUse_mem hk, dite_true]
  · simp only [Spec.localAuthKey, Spec.v4AuthKey, Prims.withDerived, encInput_authInfo,
      authInput_authInfo, inUse_mem hk, dite_true]

theorem pieAuthKey_derived {k : BytesN 32} (hk : k ∈ K) (n : BytesN 32) :
    Spec.pieAuthKey (P.withDerived K v D) v k n.1 = (D k (true, n)).authKey.1.take 32 := by
  cases v
  · simp only [Spec.pieAuthKey, Prims.withDerived, encInput_pieAuth, authInput_pieAuth, inUse_mem hk]
  · simp only [Spec.pieAuthKey, Prims.withDerived, encInput_pieAuth, authInput_pieAuth, inUse_mem hk,
      dite_true]
    exact (List.take_of_length_le (le_of_eq (D k (true, n)).authKey.2)).symm

theorem localMac_derived (ak : Bytes) {m : Bytes} (h : encInput m = none) (h' : authInput m = none) :
    Spec.localMac (P.withDerived K v D) v ak m = Spec.localMac P v ak m := by
  cases v
  · simp only [Spec.localMac, Prims.withDerived, h, h']
    cases inUse K ak <;> rfl
  · simp only [Spec.localMac, Prims.withDerived, h, h']
    cases inUse K ak <;> rfl

theorem mac_derived (ak : Bytes) {m : Bytes} (h : encInput m = none) (h' : authInput m = none) :
    Spec.mac (P.withDerived K v D) v ak m = Spec.mac P v ak m := by
  cases v
  · simp only [Spec.mac, Prims.withDerived, h, h']
    cases inUse K ak <;> rfl
  · simp only [Spec.mac, Prims.withDerived, h, h']
    cases inUse K ak <;> rfl

theorem stream_derived (ek : BytesN 32) (i : BytesN (ivLen v)) :
    stream (P.withDerived K v D) v ek i = stream P v ek i := by
  cases v <;> rfl

theorem codeStream_plain (v : Ver) (k : BytesN 32) (n : Bytes) :
    codeStream P v k n = stream P v (encPair P v k n).1 (encPair P v k n).2 := by cases v <;> rfl

theorem pieCodeStream_plain (v : Ver) (k : BytesN 32) (n : Bytes) :
    pieCodeStream P v k n = stream P v (piePair P v k n).1 (piePair P v k n).2 := by cases v <;> rfl

theorem edFromKeypair_derived (D : Derivation .V4) (b : BytesN 64) :
    Key.edFromKeypair (P.withDerived K .V4 D) b = Key.edFromKeypair P b := by
  unfold Key.edFromKeypair
  generalize BytesN.split 32 32 _ b = sp
  obtain ⟨s, p⟩ := sp
  dsimp only
  cases h : P.edParse p with
  | none =>
    have h' : (P.withDerived K .V4 D).edParse p = none := h
    rw [h']
  | some pk =>
    have h' : (P.withDerived K .V4 D).edParse p = some pk := h
    rw [h']
    rfl

theorem fromBytes_derived (k : WKind) (b : BytesN (keyLen v k.kind)) :
    (Key.fromBytes (P.withDerived K v D) v k.kind b >>= fun key =>
        (.ok key.toBytes : Res (BytesN _))) =
      (Key.fromBytes P v k.kind b >>= fun key => (.ok key.toBytes : Res (BytesN _))) := by
  have okOr : ∀ {α κ κ' β : Type} (o : Option α) (f : α → κ) (f' : α → κ') (g : κ → β)
      (g' : κ' → β) (_ : ∀ x, g (f x) = g' (f' x)),
      ((Res.okOr .invalidKey o >>= fun x => pure (f x)) >>= fun k => (Res.ok (g k) : Res β)) =
      ((Res.okOr .invalidKey o >>= fun x => pure (f' x)) >>= fun k => (Res.ok (g' k) : Res β)) := by
    intro α κ κ' β o f f' g g' h
    cases o with
    | none => rfl
    | some x => exact congrArg Res.ok (h x)
  cases v <;> cases k
  · rfl
  · exact okOr (Key.p384ScalarFromSlice P b.1) _ _ _ _ fun _ => rfl
  · rfl
  · have e0 := edFromKeypair_derived (P := P) (K := K) D b
    show ((Res.okOr .invalidKey (Key.edFromKeypair (P.withDerived K .V4 D) b) >>=
      fun s => pure (Key.mk s : Key (P.withDerived K .V4 D) .V4 .Secret)) >>= _) = _
    rw [e0]
    exact okOr (Key.edFromKeypair P b)
      (fun s : BytesN 32 => (Key.mk s : Key (P.withDerived K .V4 D) .V4 .Secret))
      (fun s : BytesN 32 => (Key.mk s : Key P .V4 .Secret))
      (fun k => k.toBytes) (fun k => k.toBytes) fun _ => rfl

theorem Hidden.token_run (P : Prims) {M F E : Type} (iP : Payload E) (iM : MessageEncoding E M)
    (iF : Footer F) (encoding : E) (message : M) (footer : F) (i : Bytes) {m f : Bytes}
    (hm : MessageEncoding.encode encoding message = .ok m) (hf : Footer.encode footer = some f)
    (D : Derivation v) {key : BytesN 32} (hk : key ∈ K) (n : BytesN 32) (rest : Rng) :
    (Hidden.token M F E iP iM iF encoding message footer i : Hidden v).run (P.withDerived K v D) ⟨key⟩
        (n.1 ++ rest) =
      .ok (tokenText (header v .Local (Payload.suffix E))
        (n.1 ++ applyKeystream (stream P v (D key (false, n)).cipherKey (D key (false, n)).iv) m ++
          Spec.localMac P v (D key (false, n)).authKey.1 (localPreAuth v (Payload.suffix E) n.1
            (applyKeystream (stream P v (D key (false, n)).cipherKey (D key (false, n)).iv) m) f i)) f,
        rest) := by
  have he := (encrypt_ok_iff (P := P.withDerived K v D)
    (⟨{ encoding := encoding, message := message, footer := footer }⟩ :
      TokenBuilder v .Local M F E) ⟨key⟩ i (n.1 ++ rest) rest _).2
    ⟨n.1, m, f, n.2, rfl, hm, hf, rfl⟩
  show (TokenBuilder.encryptWithAssertionsAndRng _ _ _ i (n.1 ++ rest) >>= _) = _
  rw [he, Res.ok_bind]
  simp only [Res.pure_def]
  have h5 : ∀ ct, encInput (localPreAuth v (Payload.suffix E) n.1 ct f i) = none := fun ct =>
    encInput_head (b := 5) rfl (by decide) (by decide)
  have h6 : ∀ ct, authInput (localPreAuth v (Payload.suffix E) n.1 ct f i) = none := fun ct =>
    authInput_head (b := 5) rfl (by decide) (by decide)
  rw [SecuredToken.display_eq, codeStream_plain, stream_derived, encPair_derived D hk,
    localMac_derived _ _ (h5 _) (h6 _), localAuthKey_derived D hk]

theorem Hidden.wrap_run (P : Prims) {k : WKind} {hidden : BytesN (keyLen v k.kind)}
    {k0 : Key P v k.kind} (h0 : Key.fromBytes P v k.kind hidden = .ok k0) (D : Derivation v)
    {key : BytesN 32} (hk : key ∈ K) (n : BytesN 32) (rest : Rng) :
    (Hidden.wrap k hidden).run (P.withDerived K v D) ⟨key⟩ (n.1 ++ rest) =
      .ok (paserkText v (pieType k.kind)
        (Spec.mac P v ((D key (true, n)).authKey.1.take 32) (Spec.pieTagged v k.kind n.1
            (applyKeystream (stream P v (D key (true, n)).cipherKey (D key (true, n)).iv)
              k0.toBytes.1)) ++ n.1 ++
          applyKeystream (stream P v (D key (true, n)).cipherKey (D key (true, n)).iv) k0.toBytes.1),
        rest) := by
  have hb : ∃ k1, Key.fromBytes (P.withDerived K v D) v k.kind hidden = .ok k1 ∧
      k1.toBytes = k0.toBytes := by
    have e1 := fromBytes_derived (P := P) (K := K) D k hidden
    rw [h0, Res.ok_bind] at e1
    obtain ⟨k1, h1, h2⟩ := Res.bind_eq_ok.1 e1
    exact ⟨k1, h1, Res.ok.inj h2⟩
  obtain ⟨k1, h1, h2⟩ := hb
  set d := D key (true, n) with hd
  have hlen : (Spec.mac P v (d.authKey.1.take 32) (Spec.pieTagged v k.kind n.1
      (applyKeystreamN (stream P v d.cipherKey d.iv) k0.toBytes).1)).length = pieTagLen v := by
    unfold Spec.mac
    cases v
    · exact (P.hmacSha384 _ _).2
    · exact (P.blake2bMac 32 _ _).2
  have h5 : ∀ ct, encInput (Spec.pieTagged v k.kind n.1 ct) = none := fun ct =>
    encInput_head (b := 0x6b) (by cases v <;> rfl) (by decide) (by decide)
  have h6 : ∀ ct, authInput (Spec.pieTagged v k.kind n.1 ct) = none := fun ct =>
    authInput_head (b := 0x6b) (by cases v <;> rfl) (by decide) (by decide)
  have hw := (Key.wrapPie_ok_iff k1 ⟨key⟩ (n.1 ++ rest) rest
    ⟨⟨_, hlen⟩, n, applyKeystreamN (stream P v d.cipherKey d.iv) k0.toBytes⟩).2
    ⟨rfl, by
      dsimp only
      rw [pieCodeStream_plain, stream_derived, piePair_derived D hk, h2], by
      dsimp only
      unfold Spec.pieTag
      rw [mac_derived _ _ (h5 _) (h6 _), pieAuthKey_derived D hk]⟩
  show (Key.fromBytes _ v k.kind hidden >>= fun x => x.wrapPie _ (n.1 ++ rest) >>= fun wr =>
    wr.1.display >>= fun text => _) = _
  rw [h1, Res.ok_bind, hw, Res.ok_bind, PieWrappedKey.display_eq, Res.ok_bind]
  rfl

/-- What a request comes down to: which kind of derivation, and the text made from the nonce and what
is derived. -/
structure HiddenCore (v : Ver) where
  tag : Bool
  text : BytesN 32 → Derived v → Bytes

theorem Hidden.core (P : Prims) (a : Hidden v) (ha : a.Possible P) :
    ∃ c : HiddenCore v, ∀ (K : Finset (BytesN 32)) (D : Derivation v) (key : BytesN 32), key ∈ K →
      ∀ (n : BytesN 32) (rest : Rng),
        a.run (P.withDerived K v D) ⟨key⟩ (n.1 ++ rest) =
          .ok (c.text n (D key (c.tag, n)), rest) := by
  cases a with
  | token M F E iP iM iF encoding message footer i =>
    obtain ⟨⟨m, hm⟩, f, hf⟩ := ha
    exact ⟨⟨false, fun n d => tokenText (header v .Local (Payload.suffix E))
      (n.1 ++ applyKeystream (stream P v d.cipherKey d.iv) m ++ Spec.localMac P v d.authKey.1
        (localPreAuth v (Payload.suffix E) n.1 (applyKeystream (stream P v d.cipherKey d.iv) m) f i)) f⟩,
      fun K D key hk n rest => Hidden.token_run P iP iM iF encoding message footer i hm hf D hk n rest⟩
  | wrap k hidden =>
    obtain ⟨k0, h0⟩ := ha
    exact ⟨⟨true, fun n d => paserkText v (pieType k.kind)
      (Spec.mac P v (d.authKey.1.take 32) (Spec.pieTagged v k.kind n.1
          (applyKeystream (stream P v d.cipherKey d.iv) k0.toBytes.1)) ++ n.1 ++
        applyKeystream (stream P v d.cipherKey d.iv) k0.toBytes.1)⟩,
      fun K D key hk n rest => Hidden.wrap_run P h0 D hk n rest⟩

end Pasta
