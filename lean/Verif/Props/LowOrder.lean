import Verif.Curve.Low25519
import Verif.Props.OneMessage

/-!
# C44 and C70, continued: V4 recipients that are not multiples of the base point

C44: exactly for which public keys the V4 code agrees with X25519. C70: what is sealed to any key of
small order can be read by anyone.
-/

namespace Pasta

open Real (prims)
open Curve
open Spec (paserkText)

/-! ## C44 -/
namespace C44

/-- The point of a public key is a multiple of the base point (compared by their canonical
encodings). -/
def Multiple (pk : Bytes) : Prop :=
  ∃ n : ℕ, (Real.Ed.decode pk).map (fun A => A.encode) = some (Real.Ed.base.smul n).encode

theorem multiple_iff {k : Real.EdKey} {A : Real.Ed.Pt} {g : E25519.G}
    (hA : Real.Ed.decode k.1.1 = some A) (rA : E25519.Rep A g) :
    Multiple k.1.1 ↔ ∃ n : ℕ, g = n • E25519.B := by
  unfold Multiple
  simp only [hA, Option.map_some, Option.some.injEq, E25519.encode_rep rA,
    E25519.encode_rep (E25519.rep_smul E25519.rep_base _)]
  exact exists_congr fun n => ⟨E25519.enc_inj, fun h => by rw [h]⟩

theorem y_neg_one_iff {k : Real.EdKey} {A : Real.Ed.Pt} {g : E25519.G}
    (hA : Real.Ed.decode k.1.1 = some A) (rA : E25519.Rep A g) :
    leNat k.1.1 % 2 ^ 255 % (2 ^ 255 - 19) = 2 ^ 255 - 20 ↔ g.y = -1 := by
  have h := E25519.decode_y hA rA
  rw [← C72.p_eq, ← h]
  constructor
  · intro e
    rw [← ZMod.natCast_zmod_val g.y, e]
    have h0 : ((2 ^ 255 - 20 + 1 : ℕ) : E25519.F) = 0 :=
      (congrArg Nat.cast (by decide : (2 ^ 255 - 20 + 1 : ℕ) = Real.Ed.p)).trans (ZMod.natCast_self _)
    rw [Nat.cast_add, Nat.cast_one] at h0
    exact eq_neg_of_add_eq_zero_left h0
  · intro e
    rw [e]
    decide +kernel

/-- V4: for which public keys the code's shared secret is that of X25519 for every ephemeral secret:
the multiples of the base point, and the point of order two. -/
theorem v4_shared_iff (pk : Key prims .V4 .Public) :
    (∀ esk : BytesN 32,
      prims.montMul (Spec.decodeScalar25519 esk % ed25519Order) (prims.edToMontgomery pk.key) =
        Spec.x25519 prims esk (prims.edToMontgomery pk.key)) ↔
    Multiple pk.toBytes.1 ∨ leNat pk.toBytes.1 % 2 ^ 255 % (2 ^ 255 - 19) = 2 ^ 255 - 20 := by
  obtain ⟨A, g, hA, rA, -⟩ := C72.point_of pk.key
  have e : ∀ esk : BytesN 32,
      (prims.montMul (Spec.decodeScalar25519 esk % ed25519Order) (prims.edToMontgomery pk.key) =
        prims.montMul (Spec.decodeScalar25519 esk) (prims.edToMontgomery pk.key)) ↔
      E25519.mont ((Spec.decodeScalar25519 esk % ed25519Order) • g) =
        E25519.mont (Spec.decodeScalar25519 esk • g) := by
    intro esk
    rw [E25519.edToMontgomery_rep hA rA, E25519.montMul_rep _ (E25519.mod_lt255 _),
      E25519.montMul_rep _ (decodeScalar25519_lt esk)]
    exact ⟨E25519.montEnc_inj, fun h => by rw [h]⟩
  unfold Spec.x25519
  rw [forall_congr' e, E25519.reduced_iff, ← multiple_iff hA rA, ← y_neg_one_iff hA rA]
  exact Iff.rfl

/-- V4: sealing to such a public key gives the specification's text. -/
theorem v4_seal_standard (key : Key prims .V4 .Local) (pk : Key prims .V4 .Public)
    (hpk : Multiple pk.toBytes.1 ∨ leNat pk.toBytes.1 % 2 ^ 255 % (2 ^ 255 - 19) = 2 ^ 255 - 20)
    (esk : BytesN 32) (r rng' : Rng) (w : SealedKey .V4)
    (h : key.sealKey pk (esk.1 ++ r) = .ok (w, rng')) :
    w.display = .ok (paserkText .V4 (asc "seal") (Spec.v4Seal prims esk pk.key key.key.1)) := by
  obtain ⟨b, h1, h2⟩ := v4_seal_reduced Real.laws key pk _ rng' w h
  obtain ⟨e1, _⟩ := List.append_inj h1 (by rw [esk.2, b.2])
  have e1 : esk = b := Subtype.ext e1
  subst e1
  rw [h2, (v4_shared_iff pk).2 hpk esk]
  rfl

/-- Public keys of secret keys are multiples of the base point. -/
theorem multiple_public (key : Key prims .V4 .Secret) : Multiple key.publicKey.toBytes.1 := by
  have h : ∀ seed, Multiple (prims.edPublic seed : Real.EdKey).1.1 := by
    intro seed
    obtain ⟨A, g, hA, rA, -⟩ := C72.point_of (prims.edPublic seed)
    rw [multiple_iff hA rA]
    refine ⟨(Real.Ed.expand seed).1, ?_⟩
    rw [E25519.edPublic_val] at hA
    obtain ⟨A', hA', rA'⟩ := E25519.decode_enc ((Real.Ed.expand seed).1 • E25519.B)
    rw [hA] at hA'
    cases hA'
    exact E25519.eq_of_rep rA rA'
  have e : ∀ (P : Prims) (k : Key P .V4 .Secret),
    k.publicKey.toBytes.1 = (P.edBytes (P.edPublic k.key)).1 := fun _ _ => rfl
  have e' : ∀ k : Real.EdKey, (prims.edBytes k).1 = k.1.1 := fun _ => rfl
  rw [e]
  exact (e' _).symm ▸ h _

/-- The point of order eight of `v4_seal_refuted` meets neither condition. -/
example : ¬ Multiple low.1 ∧ leNat low.1 % 2 ^ 255 % (2 ^ 255 - 19) ≠ 2 ^ 255 - 20 := by
  refine ⟨?_, by decide +kernel⟩
  obtain ⟨A, g, hA, rA, hs⟩ := C72.point_of ⟨low, low_ok⟩
  intro h
  obtain ⟨n, rfl⟩ := (multiple_iff (k := ⟨low, low_ok⟩) hA rA).1 h
  have h8 := hs.2 (by decide +kernel)
  have hl := (E25519.honest_base.smul n).order
  have h1 : (1 : ℕ) • n • E25519.B = 0 := by
    rw [← addOrderOf_dvd_iff_nsmul_eq_zero] at h8 hl ⊢
    have := Nat.dvd_gcd h8 hl
    rwa [show Nat.gcd 8 ed25519Order = 1 by decide +kernel] at this
  rw [one_nsmul] at h1
  have hy := E25519.decode_y hA rA
  rw [h1] at hy
  revert hy
  decide +kernel

end C44

/-! ## C70 -/
namespace C70

/-- The X25519 coordinates of the points of small order: the only shared secrets that occur. -/
def lowSecrets : List ℕ :=
  [0, 1, 325606250916557431795983626356110631294008115727848805560023387167927233504,
    39382357235489614581723060781553021112529911719440698176882885853963445705823]

/-- Every local key sealed to a public key of small order is opened, with the specification's
unsealing, by one of four known shared secrets. -/
theorem small_order_recipient (pk : Key prims .V4 .Public) (hpk : C72.SmallOrder pk.toBytes.1)
    (key : Key prims .V4 .Local) (rng rng' : Rng) (w : SealedKey .V4)
    (h : key.sealKey pk rng = .ok (w, rng')) :
    ∃ u ∈ lowSecrets, Spec.Unseals prims .V4 (leBytes 32 u) (Spec.sealPub prims pk) w.tag.1
      w.ephemeralPublicKey.1 w.encryptedDataKey.1 key.key.1 := by
  obtain ⟨A, g, hA, rA, hs⟩ := C72.point_of pk.key
  have h8 := hs.2 hpk
  obtain ⟨xk, ⟨b, _, h1, _⟩, h2, h3⟩ := (Key.sealKey_ok_iff key pk rng rng' w).1 h
  have hxk : xk = leBytes 32 (E25519.mont (scalarModOrder (clampInteger b) • g)).val := by
    rw [h1, E25519.edToMontgomery_rep hA rA, E25519.montMul_rep _ (scalarModOrder_lt _)]
    exact E25519.montEnc_val _
  refine ⟨(E25519.mont (scalarModOrder (clampInteger b) • g)).val, ?_, ?_⟩
  · have := E25519.mont_low (g := scalarModOrder (clampInteger b) • g) (by rw [smul_comm, h8, nsmul_zero])
    exact this
  · rw [← hxk]
    refine ⟨h3, ?_⟩
    rw [h2, ← applyKeystream_eq_xorStream]
    exact (applyKeystream_twice _ _).symm

/-- The four are distinct 32-byte values, and there is such a key: the point of order eight of C44. -/
example : (lowSecrets.map (leBytes 32)).Nodup ∧ C72.SmallOrder C44.low.1 ∧
    ∃ (key : Key prims .V4 .Local) (pk : Key prims .V4 .Public) (w : SealedKey .V4) (rng' : Rng),
      pk.toBytes = C44.low ∧ key.sealKey pk C43.sampleRng = .ok (w, rng') := by
  let key : Key prims .V4 .Local := ⟨BytesN.fill 32 3⟩
  let pk : Key prims .V4 .Public := ⟨⟨C44.low, C44.low_ok⟩⟩
  refine ⟨by decide +kernel, by decide +kernel, key, pk, ?_⟩
  rcases C43.seal_outcome key pk C43.sampleRng with
    ⟨_, w, rng', h⟩ | ⟨hn, _⟩
  · exact ⟨w, rng', rfl, h⟩
  · exact absurd (C43.sampleRng_enough .V4) hn

end C70
end Pasta
