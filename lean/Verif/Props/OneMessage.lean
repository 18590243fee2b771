import Verif.Curve.Card25519
import Verif.Curve.Two384
import Verif.Props.Auth
import Verif.Props.Seals

/-!
# C72: one signature, one message

C10 and C14 leave open that a signature is valid for two different signed texts. Here the signatures
are the actual Ed25519 and ECDSA. Under a V4 public key that is not one of the keys of small order, two
accepted tokens with the same signature are about the same message, footer, assertion and encoding, or
give a collision of the (reduced) SHA-512 challenge. For V3 they give a collision of the SHA-384 digest
(modulo the order), or else the secret key can be computed from the two tokens. The public keys that
come from V4 secret keys are never of small order; the parser accepts all that are.
-/

namespace Pasta

open Real (prims)
open Curve
open Spec (header paserkText keyTypeText)

namespace C72

variable {M F E M' F' E' : Type}

/-- The y coordinates of the points of order 1, 4, 2 and 8 of Curve25519 -/
def smallY : List ℕ :=
  [1, 0, 2 ^ 255 - 20,
    55188659117513257062467267217118295137698188065244968500265048394206261417927,
    2707385501144840649318225287225658788936804267575313519463743609750303402022]

/-- 32 bytes that stand for a point of small order: the y coordinate is the number in the lower 255
bits, modulo `2^255 - 19`. -/
def SmallOrder (b : Bytes) : Prop := leNat b % 2 ^ 255 % (2 ^ 255 - 19) ∈ smallY

instance (b : Bytes) : Decidable (SmallOrder b) := by unfold SmallOrder; infer_instance

theorem smallY_iff (y : ℕ) : y ∈ smallY ↔ y ∈ E25519.smallY := by
  have h1 : ∀ z ∈ smallY, z ∈ E25519.smallY := by decide +kernel
  have h2 : ∀ z ∈ E25519.smallY, z ∈ smallY := by decide +kernel
  exact ⟨h1 y, h2 y⟩

theorem p_eq : Real.Ed.p = 2 ^ 255 - 19 := by decide

/-- What the bytes of a public key stand for. -/
theorem point_of (k : Real.EdKey) : ∃ (A : Real.Ed.Pt) (g : E25519.G), Real.Ed.decode k.1.1 = some A ∧
    E25519.Rep A g ∧ (8 • g = 0 ↔ SmallOrder k.1.1) := by
  obtain ⟨A, hA⟩ := Option.isSome_iff_exists.1 k.2
  obtain ⟨g, rA⟩ := E25519.decode_sound hA
  refine ⟨A, g, hA, rA, ?_⟩
  rw [E25519.small_y_iff, ← smallY_iff, E25519.decode_y hA rA]
  unfold SmallOrder
  rw [p_eq]

theorem append_right_inj' {a a' s s' : Bytes} (e : a ++ s = a' ++ s') (h : s.length = s'.length) :
    a = a' ∧ s = s' := by
  have hl : a.length = a'.length := by
    have := congrArg List.length e
    simp only [List.length_append] at this
    omega
  exact List.append_inj e hl

/-- An accepted token whose payload ends with a given signature. -/
theorem accepted {v : Ver} [Payload E] [MessageDecoding E M] (t : SecuredToken v .Public F E)
    (key : Key prims v .Public) (i m sig : Bytes) (hl : sig.length = sigSize v)
    (hp : t.payload = m ++ sig)
    (hfit : PartsFit (header v .Public (Payload.suffix E)) t.payload t.encodedFooter i)
    (h : t.verifyWithAssertions M prims key i ≠ .err .cryptoError)
    (h' : t.verifyWithAssertions M prims key i ≠ .panic) :
    Spec.Fits m ∧
    Spec.sigValid prims v key.key (header v .Public (Payload.suffix E)) m t.encodedFooter i sig := by
  obtain ⟨m1, sig1, hp1, hv⟩ := (C04.verify_accepts_iff prims t key i hfit).1 ⟨h, h'⟩
  have hlen := C04.sigValid_length prims _ _ _ _ _ _ hv
  obtain ⟨rfl, rfl⟩ := append_right_inj' (hp.symm.trans hp1) (hl.trans hlen.symm)
  refine ⟨?_, hv⟩
  have := hfit.message
  unfold Spec.Fits at *
  rw [hp] at this
  simp at this
  omega

/-- V4: two accepted tokens with the same signature agree in everything that is signed, unless two
different challenge inputs have the same hash modulo the group order. -/
theorem v4_one_message [Payload E] [MessageDecoding E M] [Payload E'] [MessageDecoding E' M']
    (t : SecuredToken .V4 .Public F E) (t' : SecuredToken .V4 .Public F' E')
    (key : Key prims .V4 .Public) (hkey : ¬ SmallOrder key.toBytes.1) (i i' m m' sig : Bytes)
    (hl : sig.length = 64) (hp : t.payload = m ++ sig) (hp' : t'.payload = m' ++ sig)
    (hfit : PartsFit (header .V4 .Public (Payload.suffix E)) t.payload t.encodedFooter i)
    (hfit' : PartsFit (header .V4 .Public (Payload.suffix E')) t'.payload t'.encodedFooter i')
    (h : t.verifyWithAssertions M prims key i ≠ .err .cryptoError)
    (h' : t'.verifyWithAssertions M' prims key i' ≠ .err .cryptoError) :
    (Payload.suffix E = Payload.suffix E' ∧ m = m' ∧ t.encodedFooter = t'.encodedFooter ∧ i = i') ∨
    ∃ a b, a ≠ b ∧
      a = sig.take 32 ++ key.toBytes.1 ++
        Spec.v4Signed (header .V4 .Public (Payload.suffix E)) m t.encodedFooter i ∧
      b = sig.take 32 ++ key.toBytes.1 ++
        Spec.v4Signed (header .V4 .Public (Payload.suffix E')) m' t'.encodedFooter i' ∧
      leNat (Real.sha512 a).1 % ed25519Order = leNat (Real.sha512 b).1 % ed25519Order := by
  have np : ∀ {M F E : Type} [Payload E] [MessageDecoding E M] (u : SecuredToken .V4 .Public F E)
      (n j : Bytes) (_ : u.payload = n ++ sig), u.verifyWithAssertions M prims key j ≠ .panic := by
    intro M F E _ _ u n j hu
    rw [verify_split u key j n ⟨sig, hl⟩ hu]
    cases hr : verifyRaw prims .V4 key.key (Payload.suffix E) n u.encodedFooter j ⟨sig, hl⟩ with
    | panic => rw [verifyRaw_panic] at hr; exact absurd trivial hr
    | err e => exact absurd hr (verifyRaw_ne_err _ _ _ _ _ _ _)
    | ok b =>
      cases b
      · simp
      · cases (MessageDecoding.decode u.encoding n : Except String M) <;> (intro e; cases e)
  obtain ⟨fm, s, hs, hv⟩ := accepted t key i m sig hl hp hfit h (np t m i hp)
  obtain ⟨fm', s', hs', hv'⟩ := accepted t' key i' m' sig hl hp' hfit' h' (np t' m' i' hp')
  obtain rfl : s = s' := Subtype.ext (hs.symm.trans hs')
  subst hs
  obtain ⟨A, g, hA, rA, hg⟩ := point_of key.key
  have hc := E25519.two_messages hA rA (fun e => hkey (hg.1 e)) hv hv'
  by_cases e : Spec.v4Signed (header .V4 .Public (Payload.suffix E)) m t.encodedFooter i =
      Spec.v4Signed (header .V4 .Public (Payload.suffix E')) m' t'.encodedFooter i'
  · left
    obtain ⟨e1, e2, e3, e4⟩ := PAE_inj4 ⟨hfit.header, fm, hfit.footer, hfit.implicit⟩
      ⟨hfit'.header, fm', hfit'.footer, hfit'.implicit⟩ e
    exact ⟨(header_inj e1).2.2, e2, e3, e4⟩
  · right
    exact ⟨_, _, fun h => e (List.append_cancel_left h), rfl, rfl, hc⟩

/-- V3: two accepted tokens with the same signature agree in everything that is signed, or two
different signed byte strings have digests that are equal modulo the group order, or the secret key `d`
satisfies a linear equation that can be read off the tokens: `2·r·d ≡ -(z + z')`. (Excepted are
signatures whose first number is below `2^190`.) -/
theorem v3_one_message [Payload E] [MessageDecoding E M] [Payload E'] [MessageDecoding E' M']
    (t : SecuredToken .V3 .Public F E) (t' : SecuredToken .V3 .Public F' E')
    (key : Key prims .V3 .Secret) (i i' m m' sig : Bytes)
    (hl : sig.length = 96) (hbig : 2 ^ 190 ≤ beNat (sig.take 48))
    (hp : t.payload = m ++ sig) (hp' : t'.payload = m' ++ sig)
    (hfit : PartsFit (header .V3 .Public (Payload.suffix E)) t.payload t.encodedFooter i)
    (hfit' : PartsFit (header .V3 .Public (Payload.suffix E')) t'.payload t'.encodedFooter i')
    (h : t.verifyWithAssertions M prims key.publicKey i ≠ .err .cryptoError)
    (hn : t.verifyWithAssertions M prims key.publicKey i ≠ .panic)
    (h' : t'.verifyWithAssertions M' prims key.publicKey i' ≠ .err .cryptoError)
    (hn' : t'.verifyWithAssertions M' prims key.publicKey i' ≠ .panic) :
    (Payload.suffix E = Payload.suffix E' ∧ m = m' ∧ t.encodedFooter = t'.encodedFooter ∧ i = i') ∨
    ∃ a b, a ≠ b ∧
      a = Spec.v3Signed prims key.publicKey.key
        (header .V3 .Public (Payload.suffix E)) m t.encodedFooter i ∧
      b = Spec.v3Signed prims key.publicKey.key
        (header .V3 .Public (Payload.suffix E')) m' t'.encodedFooter i' ∧
      (beNat (Real.sha384 a).1 % p384Order = beNat (Real.sha384 b).1 % p384Order ∨
       (beNat (Real.sha384 a).1 + beNat (Real.sha384 b).1 +
         2 * beNat (sig.take 48) * beNat key.toBytes.1) % p384Order = 0) := by
  obtain ⟨fm, s, hs, -, hv⟩ := accepted t key.publicKey i m sig hl hp hfit h hn
  obtain ⟨fm', s', hs', -, hv'⟩ := accepted t' key.publicKey i' m' sig hl hp' hfit' h' hn'
  obtain rfl : s = s' := Subtype.ext (hs.symm.trans hs')
  subst hs
  by_cases e : Spec.v3Signed prims key.publicKey.key
        (header .V3 .Public (Payload.suffix E)) m t.encodedFooter i =
      Spec.v3Signed prims key.publicKey.key
        (header .V3 .Public (Payload.suffix E')) m' t'.encodedFooter i'
  · left
    obtain ⟨e1, e2, e3, e4⟩ := signedBytes_inj prims (v := .V3) key.publicKey.key
      ⟨hfit.header, fm, hfit.footer, hfit.implicit⟩
      ⟨hfit'.header, fm', hfit'.footer, hfit'.implicit⟩ e
    exact ⟨(header_inj e1).2.2, e2, e3, e4⟩
  · right
    have hpn : Real.P384.p - Real.P384.n ≤ beNat (s.1.take 48) :=
      Nat.le_trans (by decide +kernel) hbig
    refine ⟨_, _, e, rfl, rfl, ?_⟩
    rcases E384.two_messages (E384.xy_public key.key) _ _ s.1 hv hv' hpn with hz | hz
    · exact .inl ((ZMod.natCast_eq_natCast_iff' _ _ _).1 hz)
    · right
      apply Nat.mod_eq_zero_of_dvd
      rw [← CharP.cast_eq_zero_iff (ZMod p384Order)]
      push_cast
      exact hz

theorem clamped_order (k : BytesN 32) : 8 • (Spec.decodeScalar25519 k • E25519.B) ≠ 0 := by
  intro h8
  rw [← mul_nsmul', ← addOrderOf_dvd_iff_nsmul_eq_zero, E25519.addOrder] at h8
  obtain ⟨n, e, h1, h2⟩ := E25519.clamped k
  rw [e, ← mul_assoc] at h8
  have hc : Nat.Coprime ed25519Order (8 * 8) := by decide +kernel
  have := Nat.le_of_dvd (by omega) (hc.dvd_of_dvd_mul_left h8)
  have hl : 2 ^ 252 ≤ ed25519Order := by decide +kernel
  omega

theorem not_small (k : Real.EdKey) (g : E25519.G) (hk : k.1 = E25519.enc g) (hg : 8 • g ≠ 0) :
    ¬ SmallOrder k.1.1 := by
  intro h
  obtain ⟨A, g', hA, rA, h8⟩ := point_of k
  rw [hk] at hA
  obtain ⟨A', hA', rA'⟩ := E25519.decode_enc g
  rw [hA] at hA'
  cases hA'
  rw [E25519.eq_of_rep rA rA'] at h8
  exact hg (h8.2 h)

theorem honest_seed (seed : BytesN 32) : ¬ SmallOrder (prims.edPublic seed : Real.EdKey).1.1 :=
  not_small _ _ (E25519.edPublic_val seed) (by rw [E25519.expand_eq]; exact clamped_order _)

/-- The public key of a V4 secret key is never of small order … -/
theorem honest_key (key : Key prims .V4 .Secret) : ¬ SmallOrder key.publicKey.toBytes.1 := by
  have h := honest_seed key.key
  have e : ∀ (P : Prims) (k : Key P .V4 .Secret),
    k.publicKey.toBytes.1 = (P.edBytes (P.edPublic k.key)).1 := fun _ _ => rfl
  have e' : ∀ k : Real.EdKey, (prims.edBytes k).1 = k.1.1 := fun _ => rfl
  rw [e]
  exact (e' _).symm ▸ h

/-- … but a public key of small order is accepted, whatever its text. -/
theorem small_order_parses (b : BytesN 32) (h : SmallOrder b.1) :
    ∃ k : Key prims .V4 .Public, k.toBytes = b ∧
      PlaintextKey.parse prims .V4 .Public (paserkText .V4 (keyTypeText .Public) b.1) = .ok ⟨k⟩ := by
  have hb : Real.edOk b = true := by
    have key : ∀ y ∈ smallY, ∀ sg < 2, (Real.Ed.decompress y sg).isSome = true := by decide +kernel
    unfold SmallOrder at h
    rw [← p_eq] at h
    exact key _ h _ (Nat.mod_lt _ (by decide))
  exact ⟨⟨⟨b, hb⟩⟩, rfl, C64.parse_public b hb⟩

/-- The signature `(1, 0)`, in bytes -/
def zeroSig : BytesN 64 := ⟨1 :: List.replicate 63 0, by rfl⟩

/-- The hypothesis cannot be dropped: under a key of small order one fixed signature, which needs no
secret, is valid for every message (with any footer, assertion and encoding) whose challenge is
divisible by 8. -/
theorem small_order_forgery [Payload E] [MessageDecoding E M] (t : SecuredToken .V4 .Public F E)
    (key : Key prims .V4 .Public) (hkey : SmallOrder key.toBytes.1) (m i : Bytes)
    (hp : t.payload = m ++ zeroSig.1)
    (hfit : PartsFit (header .V4 .Public (Payload.suffix E)) t.payload t.encodedFooter i)
    (hc : leNat (Real.sha512 (zeroSig.1.take 32 ++ key.toBytes.1 ++
      Spec.v4Signed (header .V4 .Public (Payload.suffix E)) m t.encodedFooter i)).1 %
        ed25519Order % 8 = 0) :
    t.verifyWithAssertions M prims key i = match MessageDecoding.decode t.encoding m with
      | .ok x => .ok ⟨t.encoding, x, t.footer⟩
      | .error e => .err (.payloadError e) := by
  have fm : Spec.Fits m := by
    have := hfit.message
    unfold Spec.Fits at *
    rw [hp] at this
    simp at this
    omega
  obtain ⟨A, g, hA, rA, hg⟩ := point_of key.key
  have h8 := hg.2 hkey
  have hv : Real.Ed.verify key.key.1.1
      (Spec.v4Signed (header .V4 .Public (Payload.suffix E)) m t.encodedFooter i) zeroSig.1 = true := by
    rw [E25519.verify_iff hA rA]
    have h2 : leNat (zeroSig.1.drop 32) = 0 := by decide
    rw [h2]
    refine ⟨E25519.order_pos, ?_⟩
    obtain ⟨c, hc⟩ := Nat.dvd_of_mod_eq_zero hc
    have e : E25519.challenge (zeroSig.1.take 32) key.key.1.1
      (Spec.v4Signed (header .V4 .Public (Payload.suffix E)) m t.encodedFooter i) = 8 * c := hc
    rw [e, mul_comm, mul_nsmul', smul_neg, h8, neg_zero, nsmul_zero, zero_nsmul, add_zero,
      E25519.enc_zero]
    decide
  rw [verify_split (M := M) t key i m zeroSig hp]
  have : verifyRaw prims .V4 key.key (Payload.suffix E) m t.encodedFooter i zeroSig = .ok true :=
    (verifyRaw_true key.key zeroSig hfit.header fm hfit.footer hfit.implicit).2 ⟨zeroSig, rfl, hv⟩
  rw [this]
  cases (MessageDecoding.decode t.encoding m : Except String M) <;> rfl

/-- Honest keys meet the hypotheses: a signed V4 token, with its signature. -/
example (key : Key prims .V4 .Secret) :
    ∃ (t : SecuredToken .V4 .Public Bytes Sample.Raw) (m sig : Bytes), sig.length = 64 ∧ m ≠ [] ∧
      t.payload = m ++ sig ∧ ¬ SmallOrder key.publicKey.toBytes.1 ∧
      PartsFit (header .V4 .Public (Payload.suffix Sample.Raw)) t.payload t.encodedFooter [7] ∧
      t.verifyWithAssertions Bytes prims key.publicKey [7] ≠ .err .cryptoError := by
  let b : TokenBuilder .V4 .Public Bytes Bytes Sample.Raw := ⟨⟨Payload.default, asc "hi", []⟩⟩
  obtain ⟨t, ht⟩ := C02.v4_sign_ok prims b key [7] (asc "hi") [] rfl rfl
  obtain ⟨m, f, sg, hm, hf, _, rfl⟩ := (sign_ok_iff _ _ _ _).1 ht
  have hl : sg.1.length = 64 := sg.2
  have hm' : m = asc "hi" := (Except.ok.inj hm).symm
  have hf' : f = [] := (Option.some.inj hf).symm
  have hv := C02.public_roundtrip_direct prims Real.laws b key [7] _ ht
    (fun _ h => Except.ok.inj h ▸ rfl)
  refine ⟨⟨b.tok.encoding, m ++ sg.1, f, b.tok.footer⟩, m, sg.1, hl, ?_, rfl, honest_key key, ?_, ?_⟩
  · rw [hm']; decide
  · refine sample_partsFit _ _ _ _ _ ?_ ?_ ?_
    · rw [List.length_append, hl, hm']; decide
    · exact hf'.symm ▸ (by decide : (0 : ℕ) < 1000)
    · decide
  · rw [hv]; simp

end C72

/-! ## C65, continued -/
namespace C65

/-- Every V3 public key is the public key of exactly one V3 secret key. -/
theorem v3_publicKey_bijective (pk : Key prims .V3 .Public) :
    ∃! sk : Key prims .V3 .Secret, sk.publicKey = pk := by
  obtain ⟨sk, h⟩ := E384.public_surj pk.key
  refine ⟨⟨sk⟩, congrArg Key.mk h, fun sk' h' => v3_publicKey_inj _ _ ?_⟩
  rw [h']
  exact (congrArg Key.mk h).symm

end C65
end Pasta
