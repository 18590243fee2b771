import Verif.Spec.Distinguish
import Verif.Lemmas.Secrecy
import Verif.Lemmas.Trees
import Verif.Lemmas.Wrap

/-! # Lemmas about the distinguishing game -/

namespace Pasta

open Spec (header paserkText tokenText pieType)

variable {P : Prims} {v : Ver}

theorem encInput_head {m : Bytes} {b : UInt8} (h : m.head? = some b) (h1 : b ≠ 0x70)
    (h2 : b ≠ 0x80) : encInput m = none := by
  obtain ⟨t, rfl⟩ : ∃ t, m = b :: t := by
    cases m with
    | nil => cases h
    | cons x t => cases h; exact ⟨t, rfl⟩
  have e : (asc "paseto-encryption-key").isPrefixOf (b :: t) = false := by
    show (_ == b && _) = false
    have : ((0x70 : UInt8) == b) = false := by
      rw [beq_eq_false_iff_ne]; exact fun h => h1 h.symm
    rw [Bool.and_eq_false_iff]
    exact .inl this
  unfold encInput
  rw [dif_neg (by rw [e]; simp), dif_neg (by simp [h2])]

theorem encInput_encInfo (n : BytesN 32) : encInput (Spec.encInfo n.1) = some (false, n) := by
  have h : (asc "paseto-encryption-key").isPrefixOf (Spec.encInfo n.1) = true ∧
      (Spec.encInfo n.1).length = 53 := by
    constructor
    · rw [List.isPrefixOf_iff_prefix]
      exact List.prefix_append _ _
    · show (asc "paseto-encryption-key" ++ n.1).length = 53
      rw [List.length_append, n.2]; rfl
  unfold encInput
  rw [dif_pos h]
  congr 2

theorem encInput_authInfo (n : Bytes) : encInput (Spec.authInfo n) = none := by
  have h1 : (asc "paseto-encryption-key").isPrefixOf (Spec.authInfo n) = false := rfl
  have h2 : (Spec.authInfo n).head? = some 0x70 := rfl
  unfold encInput
  rw [dif_neg (by rw [h1]; simp), dif_neg (by rw [h2]; simp)]

theorem encInput_pieEnc (n : BytesN 32) : encInput (Spec.pieEncInput n.1) = some (true, n) := by
  have h1 : (asc "paseto-encryption-key").isPrefixOf (Spec.pieEncInput n.1) = false := rfl
  unfold encInput
  rw [dif_neg (by rw [h1]; simp), dif_pos ⟨rfl, by simp [Spec.pieEncInput, n.2]⟩]
  rfl

theorem encInput_pieAuth (n : Bytes) : encInput (Spec.pieAuthInput n) = none :=
  encInput_head (b := 0x81) rfl (by decide) (by decide)

variable (key : BytesN 32) (e : EncKeys) (iv : Ivs v)

theorem localAuthKey_encKeys (n : Bytes) :
    Spec.localAuthKey (P.withEncKeys key v e iv) v key n = Spec.localAuthKey P v key n := by
  cases v
  · simp only [Spec.localAuthKey, Spec.v3AuthKey, Prims.withEncKeys, encInput_authInfo]
  · simp only [Spec.localAuthKey, Spec.v4AuthKey, Prims.withEncKeys, encInput_authInfo]

theorem localMac_encKeys (ak : Bytes) {m : Bytes} (h : encInput m = none) :
    Spec.localMac (P.withEncKeys key v e iv) v ak m = Spec.localMac P v ak m := by
  cases v
  · simp only [Spec.localMac, Prims.withEncKeys, h]
  · simp only [Spec.localMac, Prims.withEncKeys, h]

theorem pieTag_encKeys (k : Kind) (n c : Bytes) :
    Spec.pieTag (P.withEncKeys key v e iv) v k key n c = Spec.pieTag P v k key n c := by
  have h : encInput (Spec.pieTagged v k n c) = none := by
    refine encInput_head (b := 0x6b) ?_ (by decide) (by decide)
    cases v <;> rfl
  cases v
  · simp only [Spec.pieTag, Spec.pieAuthKey, Spec.mac, Prims.withEncKeys, encInput_pieAuth, h]
  · simp only [Spec.pieTag, Spec.pieAuthKey, Spec.mac, Prims.withEncKeys, encInput_pieAuth, h]

theorem encPair_encKeys (n : BytesN 32) :
    encPair (P.withEncKeys key v e iv) v key n.1 = (e (false, n), iv (false, n)) := by
  have h1 : ∀ (x : Bytes) (y : Bytes), x.length = 32 → (x ++ y).take 32 = x ∧ (x ++ y).drop 32 = y := by
    intro x y h
    exact ⟨by rw [← h, List.take_left], by rw [← h, List.drop_left]⟩
  obtain ⟨h2, h3⟩ := h1 (e (false, n)).1 (iv (false, n)).1 (e (false, n)).2
  cases v
  · simp only [encPair, Spec.v3EncKey, Prims.withEncKeys, encInput_encInfo, true_and, dite_true]
    exact Prod.ext (Subtype.ext h2) (Subtype.ext h3)
  · simp only [encPair, Spec.v4EncKey, Prims.withEncKeys, encInput_encInfo, true_and, dite_true]
    exact Prod.ext (Subtype.ext h2) (Subtype.ext h3)

theorem piePair_encKeys (n : BytesN 32) :
    piePair (P.withEncKeys key v e iv) v key n.1 = (e (true, n), iv (true, n)) := by
  have h1 : ∀ (x : Bytes) (y : Bytes), x.length = 32 → (x ++ y).take 32 = x ∧ (x ++ y).drop 32 = y := by
    intro x y h
    exact ⟨by rw [← h, List.take_left], by rw [← h, List.drop_left]⟩
  obtain ⟨h2, h3⟩ := h1 (e (true, n)).1 (iv (true, n)).1 (e (true, n)).2
  cases v
  · simp only [piePair, Spec.v3PieEnc, Prims.withEncKeys, encInput_pieEnc, if_true]
    exact Prod.ext (Subtype.ext h2) (Subtype.ext h3)
  · simp only [piePair, Spec.v4PieEnc, Prims.withEncKeys, encInput_pieEnc, true_and, dite_true]
    exact Prod.ext (Subtype.ext h2) (Subtype.ext h3)

theorem stream_encKeys (c : Ciphers) (ek : BytesN 32) (i : BytesN (ivLen v)) :
    stream ((P.withEncKeys key v e iv).withCiphers c) v ek i = stream (P.withCiphers c) v ek i := by
  cases v <;> rfl

theorem edFromKeypair_encKeys (iv : Ivs .V4) (c : Ciphers) (b : BytesN 64) :
    Key.edFromKeypair ((P.withEncKeys key .V4 e iv).withCiphers c) b = Key.edFromKeypair P b := by
  unfold Key.edFromKeypair
  generalize BytesN.split 32 32 _ b = sp
  obtain ⟨s, p⟩ := sp
  dsimp only
  cases h : P.edParse p with
  | none =>
    have h' : ((P.withEncKeys key .V4 e iv).withCiphers c).edParse p = none := h
    rw [h']
  | some pk =>
    have h' : ((P.withEncKeys key .V4 e iv).withCiphers c).edParse p = some pk := h
    rw [h']
    rfl

theorem fromBytes_encKeys (c : Ciphers) (k : WKind) (b : BytesN (keyLen v k.kind)) :
    (Key.fromBytes ((P.withEncKeys key v e iv).withCiphers c) v k.kind b >>= fun key =>
        (.ok key.toBytes : Res (BytesN _))) =
      (Key.fromBytes P v k.kind b >>= fun key => (.ok key.toBytes : Res (BytesN _))) := by
  have okOr : ∀ {α κ κ' β : Type} (o : Option α) (f : α → κ) (f' : α → κ') (g : κ → β)
      (g' : κ' → β) (_ : ∀ x, g (f x) = g' (f' x)),
      ((Res.okOr .invalidKey o >>= fun x => pure (f x)) >>= fun k => (Res.ok (g k) : Res β)) =
      ((Res.okOr .invalidKey o >>= fun x => pure (f' x)) >>= fun k => (Res.ok (g' k) : Res β)) := by
    intro α κ κ' β o f f' g g' h
    cases o with
    | none => rfl
    | some x => exact congrArg Res.ok (h x)
  cases v <;> cases k
  · rfl
  · exact okOr (Key.p384ScalarFromSlice P b.1) _ _ _ _ fun _ => rfl
  · rfl
  · have e0 := edFromKeypair_encKeys (P := P) key e iv c b
    show ((Res.okOr .invalidKey (Key.edFromKeypair ((P.withEncKeys key .V4 e iv).withCiphers c) b) >>=
      fun s => pure (Key.mk s : Key ((P.withEncKeys key .V4 e iv).withCiphers c) .V4 .Secret)) >>= _) = _
    rw [e0]
    exact okOr (Key.edFromKeypair P b)
      (fun s : BytesN 32 =>
        (Key.mk s : Key ((P.withEncKeys key .V4 e iv).withCiphers c) .V4 .Secret))
      (fun s : BytesN 32 => (Key.mk s : Key P .V4 .Secret))
      (fun k => k.toBytes) (fun k => k.toBytes) fun _ => rfl

/-- What a request comes down to: which kind of derivation, what is hidden, and the text made from
nonce and ciphertext. -/
structure HidingCore where
  tag : Bool
  hidden : Side → Bytes
  shape : BytesN 32 → Bytes → Bytes

/-- The hidden byte strings are of equal lengths, at most `L`, and exist in memory. -/
def HidingCore.Ok (L : Nat) (k : HidingCore) : Prop :=
  (k.hidden .left).length = (k.hidden .right).length ∧ (k.hidden .left).length ≤ L ∧
    Spec.Fits (k.hidden .left)

/-- The text of a request. -/
def HidingCore.out (P : Prims) (iv : Ivs v) (k : HidingCore) (e : EncKeys) (c : Ciphers) (s : Side)
    (n : BytesN 32) : Bytes :=
  k.shape n (applyKeystream (stream (P.withCiphers c) v (e (k.tag, n)) (iv (k.tag, n))) (k.hidden s))

/-- The text of a token: nonce, ciphertext and tag. -/
def tokenShape (P : Prims) (key : BytesN 32) (v : Ver) (suffix f i : Bytes) (n : BytesN 32) (ct : Bytes) :
    Bytes :=
  tokenText (header v .Local suffix) (n.1 ++ ct ++ Spec.localMac P v (Spec.localAuthKey P v key n.1)
    (localPreAuth v suffix n.1 ct f i)) f

theorem Hiding.token_run (P : Prims) (key : BytesN 32) (iv : Ivs v) {M F E : Type} (iP : Payload E)
    (iM : MessageEncoding E M) (iF : Footer F) (encoding : Side → E) (message : Side → M) (footer : F)
    (i : Bytes) (m : Side → Bytes)
    (hm : ∀ s, MessageEncoding.encode (encoding s) (message s) = .ok (m s)) {f : Bytes}
    (hf : Footer.encode footer = some f) (e : EncKeys) (c : Ciphers) (s : Side) (n : BytesN 32)
    (rest : Rng) :
    (Hiding.token M F E iP iM iF encoding message footer i : Hiding v).run
        ((P.withEncKeys key v e iv).withCiphers c) ⟨key⟩ s (n.1 ++ rest) =
      .ok (HidingCore.out P iv ⟨false, m, tokenShape P key v (Payload.suffix E) f i⟩ e c s n, rest) := by
  have he := (encrypt_ok_iff (P := (P.withEncKeys key v e iv).withCiphers c)
    (⟨{ encoding := encoding s, message := message s, footer := footer }⟩ :
      TokenBuilder v .Local M F E) ⟨key⟩ i (n.1 ++ rest) rest _).2
    ⟨n.1, m s, f, n.2, rfl, hm s, hf, rfl⟩
  show (TokenBuilder.encryptWithAssertionsAndRng _ _ _ i (n.1 ++ rest) >>= _) = _
  rw [he, Res.ok_bind]
  simp only [Res.pure_def]
  have h5 : ∀ ct, encInput (localPreAuth v (Payload.suffix E) n.1 ct f i) = none := fun ct =>
    encInput_head (b := 5) rfl (by decide) (by decide)
  rw [SecuredToken.display_eq, codeStream_pair, localMac_withCiphers, localAuthKey_withCiphers,
    stream_encKeys, encPair_encKeys, localMac_encKeys _ _ _ _ (h5 _), localAuthKey_encKeys]
  rfl

theorem Hiding.core (P : Prims) (key : BytesN 32) (iv : Ivs v) {L : Nat} (a : Hiding v)
    (ha : a.Comparable P L) :
    ∃ k : HidingCore, k.Ok L ∧ ∀ (e : EncKeys) (c : Ciphers) (s : Side) (n : BytesN 32) (rest : Rng),
      a.run ((P.withEncKeys key v e iv).withCiphers c) ⟨key⟩ s (n.1 ++ rest) =
        .ok (k.out P iv e c s n, rest) := by
  cases a with
  | token M F E iP iM iF encoding message footer i =>
    obtain ⟨⟨m, hm, hl, hL, hfit⟩, f, hf⟩ := ha
    exact ⟨_, ⟨hl, hL, hfit⟩,
      Hiding.token_run P key iv iP iM iF encoding message footer i m hm hf⟩
  | wrap k hidden =>
    obtain ⟨h0, hL⟩ := ha
    choose k0 h0 using h0
    refine ⟨⟨true, fun s => (k0 s).toBytes.1, fun n ct =>
      paserkText v (pieType k.kind) (Spec.pieTag P v k.kind key n.1 ct ++ n.1 ++ ct)⟩,
      ⟨?_, ?_, ?_⟩, fun e c s n rest => ?_⟩
    · rw [(k0 _).toBytes.2, (k0 _).toBytes.2]
    · rw [(k0 _).toBytes.2]; exact hL
    · show (k0 _).toBytes.1.length < _
      rw [(k0 _).toBytes.2]
      cases v <;> cases k <;> decide
    have hb : ∃ k1, Key.fromBytes ((P.withEncKeys key v e iv).withCiphers c) v k.kind (hidden s) =
        .ok k1 ∧ k1.toBytes = (k0 s).toBytes := by
      have e1 := fromBytes_encKeys (P := P) key e iv c k (hidden s)
      rw [h0, Res.ok_bind] at e1
      obtain ⟨k1, h1, h2⟩ := Res.bind_eq_ok.1 e1
      exact ⟨k1, h1, Res.ok.inj h2⟩
    obtain ⟨k1, h1, h2⟩ := hb
    have hlen : (Spec.pieTag P v k.kind key n.1 (applyKeystreamN (stream (P.withCiphers c) v
        (e (true, n)) (iv (true, n))) (k0 s).toBytes).1).length = pieTagLen v := by
      unfold Spec.pieTag Spec.mac
      cases v
      · exact (P.hmacSha384 _ _).2
      · exact (P.blake2bMac 32 _ _).2
    have hw := (Key.wrapPie_ok_iff k1 ⟨key⟩ (n.1 ++ rest) rest
      ⟨⟨_, hlen⟩, n, applyKeystreamN (stream (P.withCiphers c) v (e (true, n)) (iv (true, n)))
        (k0 s).toBytes⟩).2
      ⟨rfl, by
        dsimp only
        rw [pieCodeStream_pair, stream_encKeys, piePair_encKeys, h2], by
        dsimp only
        rw [pieTag_withCiphers, pieTag_encKeys]⟩
    show (Key.fromBytes _ v k.kind (hidden s) >>= fun x => x.wrapPie _ (n.1 ++ rest) >>= fun wr =>
      wr.1.display >>= fun text => _) = _
    rw [h1, Res.ok_bind, hw, Res.ok_bind, PieWrappedKey.display_eq, Res.ok_bind]
    rfl

end Pasta
