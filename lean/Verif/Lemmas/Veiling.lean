import Verif.Spec.Veiling
import Verif.Lemmas.Anonymity

/-! # Lemmas about the distinguishing game with many keys -/

namespace Pasta

open Spec (header paserkText tokenText pieType)

variable {P : Prims} {v : Ver} {K : Finset (BytesN 32)}

theorem withDerived_withCiphers (D : Derivation v) (c : Ciphers) :
    (P.withDerived K v D).withCiphers c = (P.withCiphers c).withDerived K v D := by cases v <;> rfl

theorem mac_withCiphers (c : Ciphers) (v : Ver) : Spec.mac (P.withCiphers c) v = Spec.mac P v := by
  cases v <;> rfl

theorem edFromKeypair_ciphers (c : Ciphers) (b : BytesN 64) :
    Key.edFromKeypair (P.withCiphers c) b = Key.edFromKeypair P b := by
  unfold Key.edFromKeypair
  generalize BytesN.split 32 32 _ b = sp
  obtain ⟨s, p⟩ := sp
  dsimp only
  cases h : P.edParse p with
  | none =>
    have h' : (P.withCiphers c).edParse p = none := h
    rw [h']
  | some pk =>
    have h' : (P.withCiphers c).edParse p = some pk := h
    rw [h']
    rfl

theorem fromBytes_ciphers (c : Ciphers) (k : WKind) (b : BytesN (keyLen v k.kind)) :
    (Key.fromBytes (P.withCiphers c) v k.kind b >>= fun key =>
        (.ok key.toBytes : Res (BytesN _))) =
      (Key.fromBytes P v k.kind b >>= fun key => (.ok key.toBytes : Res (BytesN _))) := by
  have okOr : ∀ {α κ κ' β : Type} (o : Option α) (f : α → κ) (f' : α → κ') (g : κ → β)
      (g' : κ' → β) (_ : ∀ x, g (f x) = g' (f' x)),
      ((Res.okOr .invalidKey o >>= fun x => pure (f x)) >>= fun k => (Res.ok (g k) : Res β)) =
      ((Res.okOr .invalidKey o >>= fun x => pure (f' x)) >>= fun k => (Res.ok (g' k) : Res β)) := by
    intro α κ κ' β o f f' g g' h
    cases o with
    | none => rfl
    | some x => exact congrArg Res.ok (h x)
  cases v <;> cases k
  · rfl
  · exact okOr (Key.p384ScalarFromSlice P b.1) _ _ _ _ fun _ => rfl
  · rfl
  · have e0 := edFromKeypair_ciphers (P := P) c b
    show ((Res.okOr .invalidKey (Key.edFromKeypair (P.withCiphers c) b) >>=
      fun s => pure (Key.mk s : Key (P.withCiphers c) .V4 .Secret)) >>= _) = _
    rw [e0]
    exact okOr (Key.edFromKeypair P b)
      (fun s : BytesN 32 => (Key.mk s : Key (P.withCiphers c) .V4 .Secret))
      (fun s : BytesN 32 => (Key.mk s : Key P .V4 .Secret))
      (fun k => k.toBytes) (fun k => k.toBytes) fun _ => rfl

/-- One of the two candidates. -/
def Hiding.at : Hiding v → Side → Hidden v
  | .token M F E iP iM iF encoding message footer implicit, s =>
    .token M F E iP iM iF (encoding s) (message s) footer implicit
  | .wrap k hidden, s => .wrap k (hidden s)

theorem Hiding.run_at (P : Prims) (key : Key P v .Local) (s : Side) (a : Hiding v) (rng : Rng) :
    a.run P key s rng = (a.at s).run P key rng := by cases a <;> rfl

/-- What a request comes down to: which kind of derivation, what is hidden, and the text made from
nonce, authentication key and ciphertext. -/
structure VeilCore (v : Ver) where
  tag : Bool
  hidden : Side → Bytes
  shape : BytesN 32 → BytesN (authKeyLen v) → Bytes → Bytes

/-- The hidden byte strings are of equal lengths, at most `L`, and exist in memory. -/
def VeilCore.Ok (L : Nat) (k : VeilCore v) : Prop :=
  (k.hidden .left).length = (k.hidden .right).length ∧ (k.hidden .left).length ≤ L ∧
    Spec.Fits (k.hidden .left)

/-- The text of a request. -/
def VeilCore.out (P : Prims) (k : VeilCore v) (c : Ciphers) (s : Side) (n : BytesN 32) (d : Derived v) :
    Bytes :=
  k.shape n d.authKey (applyKeystream (stream (P.withCiphers c) v d.cipherKey d.iv) (k.hidden s))

theorem Hiding.veilCore (P : Prims) {L : Nat} (a : Hiding v) (ha : a.Comparable P L) :
    ∃ k : VeilCore v, k.Ok L ∧ ∀ (K : Finset (BytesN 32)) (D : Derivation v) (c : Ciphers) (s : Side)
      (key : BytesN 32), key ∈ K → ∀ (n : BytesN 32) (rest : Rng),
      a.run ((P.withDerived K v D).withCiphers c) ⟨key⟩ s (n.1 ++ rest) =
        .ok (k.out P c s n (D key (k.tag, n)), rest) := by
  cases a with
  | token M F E iP iM iF encoding message footer i =>
    obtain ⟨⟨m, hm, hl, hL, hfit⟩, f, hf⟩ := ha
    refine ⟨⟨false, m, fun n ak ct => tokenText (header v .Local (Payload.suffix E))
      (n.1 ++ ct ++ Spec.localMac P v ak.1 (localPreAuth v (Payload.suffix E) n.1 ct f i)) f⟩,
      ⟨hl, hL, hfit⟩, fun K D c s key hk n rest => ?_⟩
    rw [Hiding.run_at]
    have := Hidden.token_run (K := K) (P.withCiphers c) iP iM iF (encoding s) (message s) footer i (hm s)
      hf D hk n rest
    rw [localMac_withCiphers] at this
    rw [← withDerived_withCiphers] at this
    exact this
  | wrap k hidden =>
    obtain ⟨h0, hL⟩ := ha
    choose k0 h0 using h0
    refine ⟨⟨true, fun s => (k0 s).toBytes.1, fun n ak ct => paserkText v (pieType k.kind)
      (Spec.mac P v (ak.1.take 32) (Spec.pieTagged v k.kind n.1 ct) ++ n.1 ++ ct)⟩,
      ⟨?_, ?_, ?_⟩, fun K D c s key hk n rest => ?_⟩
    · rw [(k0 _).toBytes.2, (k0 _).toBytes.2]
    · rw [(k0 _).toBytes.2]; exact hL
    · show (k0 _).toBytes.1.length < _
      rw [(k0 _).toBytes.2]
      cases v <;> cases k <;> decide
    have hb : ∃ k1, Key.fromBytes (P.withCiphers c) v k.kind (hidden s) = .ok k1 ∧
        k1.toBytes = (k0 s).toBytes := by
      have e1 := fromBytes_ciphers (P := P) c k (hidden s)
      rw [h0, Res.ok_bind] at e1
      obtain ⟨k1, h1, h2⟩ := Res.bind_eq_ok.1 e1
      exact ⟨k1, h1, Res.ok.inj h2⟩
    obtain ⟨k1, h1, h2⟩ := hb
    rw [Hiding.run_at]
    have := Hidden.wrap_run (K := K) (P.withCiphers c) h1 D hk n rest
    rw [mac_withCiphers, h2, ← withDerived_withCiphers] at this
    exact this

end Pasta
