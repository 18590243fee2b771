import Verif.Curve.Count25519
import Verif.Curve.Count384
import Verif.Curve.Low25519
import Verif.Props.Seals
import Verif.Spec.Birthday

/-!
# C91: which bytes are public keys, and how many

With the actual algorithms. A V4 public key is given as 32 bytes. Which of them are accepted, which of
them are the same point, which of them have a secret key.
-/

namespace Pasta

open Real (prims)
open Curve
open Spec (paserkText keyTypeText)
open Spec.Ed (OnCurve StandsFor encoding)

namespace C91

theorem ok_iff (b : Bytes) (key : Key prims .V4 .Public) : Key.v4PublicFromBytes prims b = .ok key ↔
    ∃ h : b.length = 32, Real.edKey ⟨b, h⟩ = some key.key := C28.v4_public_iff b key

theorem edKey_iff (b : BytesN 32) (k : Real.EdKey) : Real.edKey b = some k ↔ k.1 = b := by
  unfold Real.edKey
  constructor
  · intro h
    split at h
    · cases h; rfl
    · cases h
  · rintro rfl
    rw [dif_pos k.2]

theorem edOk_iff (b : BytesN 32) : Real.edOk b = true ↔ ∃ x y, StandsFor b.1 x y := by
  unfold Real.edOk
  rw [Option.isSome_iff_exists]
  constructor
  · rintro ⟨P, h⟩
    exact ⟨_, _, (E25519.decode_stands b.2 h).1⟩
  · rintro ⟨x, y, h⟩
    exact E25519.decode_complete h

/-- The bytes that are accepted as a V4 public key are those that stand for a point of the curve. Every
point is accepted, the neutral element and the points of small order too; coordinates above the field
size are accepted, and a sign on a zero. -/
theorem accepted_iff (b : Bytes) : (∃ key, Key.v4PublicFromBytes prims b = .ok key) ↔
    ∃ x y, StandsFor b x y := by
  constructor
  · rintro ⟨key, h⟩
    obtain ⟨hl, h⟩ := (ok_iff b key).1 h
    have e := (edKey_iff _ _).1 h
    exact (edOk_iff ⟨b, hl⟩).1 (e ▸ key.key.2)
  · rintro ⟨x, y, h⟩
    have ok := (edOk_iff ⟨b, h.1⟩).2 ⟨x, y, h⟩
    exact ⟨⟨(⟨⟨b, h.1⟩, ok⟩ : Real.EdKey)⟩, (ok_iff b _).2 ⟨h.1, (edKey_iff _ _).2 rfl⟩⟩

/-- Everything else is refused as `InvalidKey`. -/
theorem refused_iff (b : Bytes) : Key.v4PublicFromBytes prims b = .err .invalidKey ↔
    ¬ ∃ x y, StandsFor b x y := by
  rw [← accepted_iff]
  constructor
  · rintro h ⟨key, h'⟩
    rw [h] at h'
    cases h'
  · intro h
    rcases (C28.constructors_total prims).2.2.2.2.2.1 b with ⟨key, h'⟩ | h'
    · exact absurd ⟨key, h'⟩ h
    · exact h'

/-- The key keeps the bytes as they were given. -/
theorem kept (b : Bytes) (key : Key prims .V4 .Public) (h : Key.v4PublicFromBytes prims b = .ok key) :
    key.toBytes.1 = b := by
  obtain ⟨hl, h⟩ := (ok_iff b key).1 h
  exact congrArg Subtype.val ((edKey_iff _ _).1 h)

/-- So the keys are the bytes. -/
theorem keys_inj (a b : Key prims .V4 .Public) (h : a.toBytes.1 = b.toBytes.1) : a = b := by
  cases a with | mk a => cases b with | mk b =>
  have key : ∀ a b : Real.EdKey, a.1.1 = b.1.1 → a = b := fun a b h => Subtype.ext (Subtype.ext h)
  exact congrArg Key.mk (key a b h)

theorem stands (pk : Key prims .V4 .Public) : ∃ x y, StandsFor pk.toBytes.1 x y := by
  have key : ∀ a : Real.EdKey, ∃ x y, StandsFor a.1.1 x y := fun a => (edOk_iff a.1).1 a.2
  exact key pk.key

/-- Bytes stand for one point at most. -/
theorem one_point {b : Bytes} {x y x' y' : ℕ} (h : StandsFor b x y) (h' : StandsFor b x' y') :
    x = x' ∧ y = y' := E25519.stands_unique h h'

theorem leBytes_of {b : Bytes} {n : ℕ} (hl : b.length = 32) (h : leNat b = n) : b = leBytes 32 n := by
  have := leBytes_leNat b
  rw [hl, h] at this
  exact this.symm

/-- The encodings of a point: the one of RFC 8032; the other sign if `x` is zero; `y` plus the field size
if that fits, which it does for `y` below 19. -/
theorem encodings {x y : ℕ} (hc : OnCurve x y) (b : Bytes) : StandsFor b x y ↔
    b = encoding x y ∨ (x = 0 ∧ b = leBytes 32 (y + 2 ^ 255)) ∨
      (y < 19 ∧ (b = leBytes 32 (y + Spec.Ed.p + x % 2 * 2 ^ 255) ∨
        (x = 0 ∧ b = leBytes 32 (y + Spec.Ed.p + 2 ^ 255)))) := by
  have hy : y < Spec.Ed.p := hc.2.1
  have hp : Spec.Ed.p = 2 ^ 255 - 19 := rfl
  have h256 : (256 : ℕ) ^ 32 = 2 * 2 ^ 255 := by decide
  have hbig : 19 < (2 : ℕ) ^ 255 := by decide
  unfold encoding StandsFor
  generalize hN : (2 : ℕ) ^ 255 = N at hp h256 hbig ⊢
  -- a number with the given low bits and sign
  have put : ∀ (t s : ℕ), t < N → s < 2 → t % Spec.Ed.p = y → (x = 0 ∨ x % 2 = s) →
      (leBytes 32 (t + s * N)).length = 32 ∧ OnCurve x y ∧
        leNat (leBytes 32 (t + s * N)) % N % Spec.Ed.p = y ∧
          (x = 0 ∨ x % 2 = leNat (leBytes 32 (t + s * N)) / N) := by
    intro t s ht hs h1 h2
    have e : leNat (leBytes 32 (t + s * N)) = t + s * N := by
      rw [leNat_leBytes, h256, Nat.mod_eq_of_lt]
      rcases Nat.lt_succ_iff_lt_or_eq.1 hs with h | rfl
      · rw [Nat.lt_one_iff.1 h]; omega
      · omega
    rw [e, Nat.add_mul_mod_self_right, Nat.mod_eq_of_lt ht, Nat.add_mul_div_right _ _ (by omega),
      Nat.div_eq_of_lt ht, Nat.zero_add]
    exact ⟨leBytes_length _ _, hc, h1, h2⟩
  have hy0 : y % Spec.Ed.p = y := Nat.mod_eq_of_lt hy
  have hy1 : (y + Spec.Ed.p) % Spec.Ed.p = y := by rw [Nat.add_mod_right, hy0]
  have hx2 : x % 2 < 2 := Nat.mod_lt _ (by decide)
  constructor
  · rintro ⟨hl, -, h1, h2⟩
    have hlt := leNat_lt b
    rw [hl, h256] at hlt
    have hdm := Nat.div_add_mod (leNat b) N
    have hm : leNat b % N < N := Nat.mod_lt _ (by omega)
    have hd : leNat b / N < 2 := Nat.div_lt_of_lt_mul (by rw [Nat.mul_comm]; exact hlt)
    have hdm : leNat b = leNat b % N + leNat b / N * N := by rw [Nat.mul_comm]; omega
    generalize leNat b % N = t at h1 hdm hm
    generalize leNat b / N = s at h2 hdm hd
    have ht : t = y ∨ (y < 19 ∧ t = y + Spec.Ed.p) := by
      by_cases hlt : t < Spec.Ed.p
      · rw [Nat.mod_eq_of_lt hlt] at h1; exact .inl h1
      · rw [Nat.mod_eq_sub_mod (by omega), Nat.mod_eq_of_lt (by omega)] at h1
        exact .inr ⟨by omega, by omega⟩
    have hs : s = x % 2 ∨ (x = 0 ∧ s = 1) := by
      rcases h2 with h2 | h2
      · subst h2
        rcases Nat.lt_succ_iff_lt_or_eq.1 hd with h | h
        · exact .inl (by omega)
        · exact .inr ⟨rfl, h⟩
      · exact .inl h2.symm
    rcases ht with rfl | ⟨h19, rfl⟩
    · rcases hs with rfl | ⟨h0, rfl⟩
      · exact .inl (leBytes_of hl hdm)
      · rw [Nat.one_mul] at hdm
        exact .inr (.inl ⟨h0, leBytes_of hl hdm⟩)
    · rcases hs with rfl | ⟨h0, rfl⟩
      · exact .inr (.inr ⟨h19, .inl (leBytes_of hl hdm)⟩)
      · rw [Nat.one_mul] at hdm
        exact .inr (.inr ⟨h19, .inr ⟨h0, leBytes_of hl hdm⟩⟩)
  · rintro (rfl | ⟨h0, rfl⟩ | ⟨h19, rfl | ⟨h0, rfl⟩⟩)
    · exact put y (x % 2) (by omega) hx2 hy0 (.inr rfl)
    · have := put y 1 (by omega) (by decide) hy0 (.inl h0)
      rwa [Nat.one_mul] at this
    · exact put (y + Spec.Ed.p) (x % 2) (by omega) hx2 hy1 (.inr rfl)
    · have := put (y + Spec.Ed.p) 1 (by omega) (by decide) hy1 (.inl h0)
      rwa [Nat.one_mul] at this

theorem scalar_ne (seed : BytesN 32) : (Real.Ed.expand seed).1 • E25519.B ≠ 0 := by
  rw [E25519.expand_eq]
  obtain ⟨n, h1, h2, h3⟩ := E25519.clamped (prims.edSecretHalf seed)
  rw [h1]
  intro h
  have h := addOrderOf_dvd_iff_nsmul_eq_zero.2 h
  rw [E25519.addOrder] at h
  have hpos : 0 < (2 : ℕ) ^ 251 := by decide
  have h := Nat.le_of_dvd (by omega) (E25519.coprime_order h)
  have : (2 : ℕ) ^ 252 < ed25519Order := by decide
  omega

theorem public_bytes (seed : BytesN 32) (pk : Key prims .V4 .Public) (h : prims.edPublic seed = pk.key) :
    pk.toBytes.1 = (E25519.enc ((Real.Ed.expand seed).1 • E25519.B)).1 := by
  have aux : ∀ (Q : Bytes → Prop), (∀ a : Real.EdKey, a = pk.key → Q a.1.1) → Q pk.toBytes.1 :=
    fun Q key => key _ rfl
  apply aux fun b => b = (E25519.enc ((Real.Ed.expand seed).1 • E25519.B)).1
  intro a ha
  have h2 := E25519.edPublic_val seed
  have h3 : (prims.edPublic seed : Real.EdKey) = a := h.trans ha.symm
  rw [h3] at h2
  rw [h2]

/-- The public key of a secret key is the RFC 8032 encoding of a point with `x` not zero. -/
theorem of_secret (sk : Key prims .V4 .Secret) : ∃ x y, OnCurve x y ∧ x ≠ 0 ∧
    sk.publicKey.toBytes.1 = encoding x y := by
  rw [public_bytes sk.key sk.publicKey rfl]
  have h0 := scalar_ne sk.key
  have hg := E25519.honest_base.smul (Real.Ed.expand sk.key).1
  generalize (Real.Ed.expand sk.key).1 • E25519.B = g at h0 hg
  refine ⟨g.x.val, g.y.val, E25519.onCurve_of g, ?_, E25519.fit_of_length (leBytes_length _ _)⟩
  rw [Ne, ZMod.val_eq_zero, E25519.x_zero]
  rintro (h | h)
  · exact h0 (E25519.y_one h)
  · exact hg.y_ne_neg h

/-- Sealing sees only the second coordinate: keys for the same point, and for opposite points, seal
alike. -/
theorem seals_alike (pk pk' : Key prims .V4 .Public) {x x' y : ℕ} (h : StandsFor pk.toBytes.1 x y)
    (h' : StandsFor pk'.toBytes.1 x' y) (key : Key prims .V4 .Local) (rng : Rng) :
    key.sealKey pk rng = key.sealKey pk' rng := by
  have dec : ∀ (a : Real.EdKey) (x : ℕ), StandsFor a.1.1 x y →
      prims.edToMontgomery a = E25519.montEnc ((1 + (y : E25519.F)) / (1 - (y : E25519.F))) := by
    intro a x h
    obtain ⟨P, hP⟩ := E25519.decode_complete h
    obtain ⟨g, r⟩ := E25519.decode_sound hP
    rw [E25519.edToMontgomery_rep hP r]
    have hs := (E25519.decode_stands a.1.2 hP)
    obtain ⟨-, ey⟩ := E25519.stands_unique h hs.1
    have hz := hs.2.1
    have e : g.y = (y : E25519.F) := by
      have := r.y
      rw [hz, Nat.cast_one, mul_one] at this
      rw [← this, ey]
    unfold E25519.mont
    rw [e]
  have e : prims.edToMontgomery pk.key = prims.edToMontgomery pk'.key :=
    (dec pk.key x h).trans (dec pk'.key x' h').symm
  show sealV4 prims key pk rng = sealV4 prims key pk' rng
  unfold sealV4
  rw [e]

/-- How many strings of 32 bytes are accepted as a V4 public key: a little less than half of all of
them. -/
theorem v4_count : Nat.card {b : BytesN 32 // ∃ key, Key.v4PublicFromBytes prims b.1 = .ok key} =
    8 * ed25519Order + 26 := by
  rw [← E25519.card_accepted]
  exact Nat.card_congr (Equiv.subtypeEquivRight fun b => accepted_iff b.1)

/-- How many strings of 49 bytes are accepted as a V3 public key: three for each pair of opposite
points. -/
theorem v3_count : 2 * Nat.card {b : BytesN 49 // ∃ key, Key.v3PublicFromSec1 prims b.1 = .ok key} =
    3 * (p384Order - 1) := by
  refine Eq.trans ?_ E384.card_accepted
  congr 1
  refine Nat.card_congr (Equiv.subtypeEquivRight fun b => ?_)
  constructor
  · rintro ⟨key, h⟩
    obtain ⟨k, h1, -⟩ := Res.bind_eq_ok.1 h
    exact ⟨k, Res.okOr_eq_ok.1 h1⟩
  · rintro ⟨k, h⟩
    exact ⟨⟨k⟩, Res.bind_eq_ok.2 ⟨k, Res.okOr_eq_ok.2 h, rfl⟩⟩

/-- How many of the V4 public keys have a secret key: `2^251` at most. -/
theorem v4_with_secret : Nat.card {pk : Key prims .V4 .Public // ∃ sk : Key prims .V4 .Secret, sk.publicKey = pk} ≤
    2 ^ 251 := by
  have hlt : ∀ s, C68.hashBits s < 2 ^ 251 := by
    intro s
    unfold C68.hashBits
    apply Nat.div_lt_of_lt_mul
    have := Nat.mod_lt (leNat ((Real.sha512 s).1.take 32)) (show 0 < 2 ^ 254 by decide)
    rwa [show 8 * 2 ^ 251 = 2 ^ 254 by decide]
  let f : {pk : Key prims .V4 .Public // ∃ sk : Key prims .V4 .Secret, sk.publicKey = pk} → Fin (2 ^ 251) :=
    fun pk => ⟨C68.hashBits pk.2.choose.key.1, hlt _⟩
  have hf : Function.Injective f := by
    intro a b h
    have h := Fin.mk.inj h
    have := (C68.v4_publicKey_iff _ _).2 h
    rw [a.2.choose_spec, b.2.choose_spec] at this
    exact Subtype.ext this
  have := Nat.card_le_card_of_injective f hf
  rwa [Nat.card_eq_fintype_card (α := Fin (2 ^ 251)), Fintype.card_fin] at this

/-- So of the byte strings that are accepted, fifteen in sixteen have no secret key. -/
theorem v4_few : 16 * Nat.card {b : BytesN 32 // ∃ key, Key.v4PublicFromBytes prims b.1 = .ok key ∧
      ∃ sk : Key prims .V4 .Secret, sk.publicKey = key} <
    Nat.card {b : BytesN 32 // ∃ key, Key.v4PublicFromBytes prims b.1 = .ok key} := by
  have h1 : Nat.card {b : BytesN 32 // ∃ key, Key.v4PublicFromBytes prims b.1 = .ok key ∧
      ∃ sk : Key prims .V4 .Secret, sk.publicKey = key} ≤
      Nat.card {pk : Key prims .V4 .Public // ∃ sk : Key prims .V4 .Secret, sk.publicKey = pk} := by
    have : Finite (BytesN (keyLen .V4 .Public)) := Finite.of_fintype _
    have : Finite {pk : Key prims .V4 .Public // ∃ sk : Key prims .V4 .Secret, sk.publicKey = pk} :=
      Finite.of_injective (fun pk => pk.1.toBytes) fun a b h =>
        Subtype.ext (keys_inj a.1 b.1 (congrArg Subtype.val h))
    refine Nat.card_le_card_of_injective (fun b => ⟨b.2.choose, b.2.choose_spec.2⟩) ?_
    intro a b h
    have h := congrArg (fun k : {pk : Key prims .V4 .Public // ∃ sk : Key prims .V4 .Secret, sk.publicKey = pk} =>
      k.1.toBytes.1) h
    simp only at h
    rw [kept _ _ a.2.choose_spec.1, kept _ _ b.2.choose_spec.1] at h
    exact Subtype.ext (Subtype.ext h)
  have h2 := h1.trans v4_with_secret
  have h3 : 16 * 2 ^ 251 < 8 * ed25519Order + 26 := by decide
  rw [v4_count]
  omega

/-- In text: `k4.public.` and the base64url text of the bytes is accepted for the same bytes. -/
theorem text_accepted_iff (b : BytesN 32) :
    (∃ key, PlaintextKey.parse prims .V4 .Public (paserkText .V4 (keyTypeText .Public) b.1) = .ok key) ↔
      ∃ x y, StandsFor b.1 x y := by
  rw [← edOk_iff]
  constructor
  · rintro ⟨key, h⟩
    obtain ⟨b', h1, h2⟩ := PlaintextKey.parse_ok_iff.1 h
    have h2 := Res.okOr_eq_ok.1 (Key.fromBytes_eq_ok.1 h2)
    have e : b' = b := by
      have := SecuredToken.base64url_inj (List.append_cancel_left h1)
      exact Subtype.ext this.symm
    subst e
    have h3 : ∀ k : Real.EdKey, Real.edKey b' = some k → Real.edOk b' = true :=
      fun k h => (edKey_iff b' k).1 h ▸ k.2
    exact h3 _ h2
  · intro h
    exact ⟨_, C64.parse_public b h⟩

/-! ### Examples -/

/-- The neutral element has four encodings, the last three of them refused by RFC 8032. -/
theorem neutral (b : Bytes) : StandsFor b 0 1 ↔ b = leBytes 32 1 ∨ b = leBytes 32 (1 + 2 ^ 255) ∨
    b = leBytes 32 (1 + Spec.Ed.p) ∨ b = leBytes 32 (1 + Spec.Ed.p + 2 ^ 255) := by
  rw [encodings (by decide +kernel : OnCurve 0 1)]
  simp [encoding]

/-- Two different keys for it. -/
example : ∃ pk pk' : Key prims .V4 .Public, pk ≠ pk' ∧ StandsFor pk.toBytes.1 0 1 ∧
    StandsFor pk'.toBytes.1 0 1 := by
  obtain ⟨pk, h⟩ := (accepted_iff _).2 ⟨0, 1, (neutral (leBytes 32 1)).2 (.inl rfl)⟩
  obtain ⟨pk', h'⟩ := (accepted_iff _).2 ⟨0, 1, (neutral (leBytes 32 (1 + 2 ^ 255))).2 (.inr (.inl rfl))⟩
  refine ⟨pk, pk', ?_, ?_, ?_⟩
  · rintro rfl
    have := (kept _ _ h).symm.trans (kept _ _ h')
    revert this
    decide +kernel
  · rw [kept _ _ h, neutral]; exact .inl rfl
  · rw [kept _ _ h', neutral]; exact .inr (.inl rfl)

/-- The base point is on the curve, its encoding is accepted; `2` is the second coordinate of no point. -/
example : OnCurve E25519.baseX E25519.baseY ∧ (∃ key, Key.v4PublicFromBytes prims
      (encoding E25519.baseX E25519.baseY) = .ok key) ∧
    Key.v4PublicFromBytes prims (leBytes 32 2) = .err .invalidKey := by
  have hb : OnCurve E25519.baseX E25519.baseY := by decide +kernel
  refine ⟨hb, (accepted_iff _).2 ⟨_, _, (encodings hb _).2 (.inl rfl)⟩, ?_⟩
  rw [refused_iff, ← edOk_iff ⟨leBytes 32 2, by rfl⟩]
  decide +kernel

end C91
end Pasta
