import Verif.Curve.Laws384
import Verif.Curve.NoRoot384
import Mathlib.GroupTheory.Perm.Cycle.Type

/-!
# P-384 has exactly `n` points

The base point has order `n`, there are at most `2p + 1 < 3n` points, and none of order two. So every
public key has order `n`: there are no weak keys, and a shared secret is never the identity.

For ECDSA: if `(r, s)` verifies, so does `(r, n - s)`.
-/

namespace Pasta.Curve.E384

open Pasta.Real (powMod fit prims)
open Pasta.Real.P384 (p b n)
open Pasta.Real
open Pasta.Curve.E25519 (fit_of_length)

/-- A point by its x coordinate and the parity of y -/
def code : G → Option (F × Bool)
  | .zero => none
  | .some x y _ => some (x, y.val % 2 == 1)

theorem code_inj : Function.Injective code := by
  intro g h e
  rcases g with _ | ⟨x, y, hn⟩ <;> rcases h with _ | ⟨x', y', hn'⟩
  · rfl
  · cases e
  · cases e
  · simp only [code, Option.some.injEq, Prod.mk.injEq] at e
    obtain ⟨rfl, e⟩ := e
    have e : y.val % 2 = y'.val % 2 := by
      rcases Nat.mod_two_eq_zero_or_one y.val with h1 | h1 <;>
        rcases Nat.mod_two_eq_zero_or_one y'.val with h2 | h2 <;> simp [h1, h2] at e ⊢
    have h1 := decompress_complete (on hn)
    have h2 := decompress_complete (on hn')
    rw [e, h2] at h1
    simp only [Option.some.injEq, Prod.mk.injEq, true_and] at h1
    have : y' = y := ZMod.val_injective _ h1
    subst this
    rfl

instance : NeZero p := ⟨p_pos.ne'⟩
instance : Finite G := Finite.of_injective code code_inj

theorem card_le : Nat.card G ≤ 2 * p + 1 := by
  have h := Nat.card_le_card_of_injective code code_inj
  rw [Finite.card_option, Nat.card_prod, Nat.card_zmod, Nat.card_eq_fintype_card (α := Bool),
    Fintype.card_bool, mul_comm] at h
  exact h

theorem no_two {g : G} (h : g + g = 0) : g = 0 := by
  rcases g with _ | ⟨x, y, hn⟩
  · rfl
  · exfalso
    have h : (WeierstrassCurve.Affine.Point.some x y hn : G) = -.some x y hn :=
      eq_neg_of_add_eq_zero_left h
    rw [WeierstrassCurve.Affine.Point.neg_some] at h
    simp only [WeierstrassCurve.Affine.Point.some.injEq, true_and, negY] at h
    have hy : y = 0 := by
      have h2 : (2 : F) * y = 0 := by linear_combination h
      exact (mul_eq_zero.1 h2).resolve_left two_ne
    have := on hn
    rw [hy] at this
    exact no_root x (by rw [← this]; ring)

theorem card : Nat.card G = n := by
  have h1 : n ∣ Nat.card G := addOrder ▸ addOrderOf_dvd_natCard base
  obtain ⟨c, hc⟩ := h1
  have hpos : 0 < Nat.card G := Nat.card_pos
  have h3 : 2 * p + 1 < n * 3 := by decide +kernel
  have hle := card_le
  have hc3 : c < 3 := by
    by_contra h
    have := Nat.mul_le_mul_left n (Nat.le_of_not_lt h)
    omega
  have hc0 : c ≠ 0 := by rintro rfl; omega
  have hc2 : c ≠ 2 := by
    rintro rfl
    have : Fintype G := Fintype.ofFinite G
    obtain ⟨g, hg⟩ := exists_prime_addOrderOf_dvd_card (G := G) 2
      (by rw [← Nat.card_eq_fintype_card, hc]; exact Dvd.intro_left n rfl)
    have h2 : g + g = 0 := by
      rw [← two_nsmul]
      exact addOrderOf_dvd_iff_nsmul_eq_zero.1 (by rw [hg])
    have := no_two h2
    rw [this, addOrderOf_zero] at hg
    omega
  rw [hc, show c = 1 by omega, mul_one]

theorem order_all (g : G) : n • g = 0 := card ▸ card_nsmul_eq_zero'

theorem smul_ne_zero' {g : G} (hg : g ≠ 0) {k : ℕ} (h0 : 0 < k) (h : k < n) : k • g ≠ 0 := by
  intro e
  have ho : addOrderOf g = n := addOrderOf_eq_prime (order_all g) hg
  have := addOrderOf_dvd_of_nsmul_eq_zero e
  rw [ho] at this
  exact absurd (Nat.le_of_dvd h0 this) (by omega)

theorem smul_mod' (g : G) (k : ℕ) : (k % n) • g = k • g := by
  conv_rhs => rw [← Nat.div_add_mod k n, add_nsmul, mul_comm, mul_nsmul', order_all, nsmul_zero,
    zero_add]

theorem smul_congr' {k l : ℕ} (h : (k : ZMod n) = l) (g : G) : k • g = l • g := by
  rw [ZMod.natCast_eq_natCast_iff'] at h
  rw [← smul_mod' g k, h, smul_mod']

/-- Every public key is a point of the group. -/
theorem rep_xy (k : P384Key) : ∃ x y, ∃ hn : W.Nonsingular x y,
    Rep ⟨(xy k).1, (xy k).2, 1⟩ (.some x y hn) ∧ k.1 = enc x y := by
  have hk := k.2
  unfold p384Ok at hk
  rw [Bool.and_eq_true] at hk
  obtain ⟨q, hq⟩ := Option.isSome_iff_exists.1 hk.2
  obtain ⟨X, Y, h3, rfl, _, h5⟩ := decode_sound k.1.2 hq
  refine ⟨X, Y, nonsingular h3, ?_, ?_⟩
  · unfold xy
    rw [hq]
    exact rep_affine _
  · rcases h5 with h5 | h5
    · exact Subtype.ext h5
    · rw [h5] at hk
      simp at hk

/-- The equation that verification checks. -/
theorem verify_iff {pk : ℕ × ℕ} {A : G} (hA : Rep ⟨pk.1, pk.2, 1⟩ A) (digest sig : Bytes) :
    P384.verify pk digest sig = true ↔
      (0 < beNat (sig.take 48) ∧ beNat (sig.take 48) < n) ∧
      (0 < beNat (sig.drop 48) ∧ beNat (sig.drop 48) < n) ∧
      ∃ x y, ∃ hn : W.Nonsingular x y,
        ((beNat digest : ZMod n) * (beNat (sig.drop 48) : ZMod n)⁻¹).val • base +
        ((beNat (sig.take 48) : ZMod n) * (beNat (sig.drop 48) : ZMod n)⁻¹).val • A =
          .some x y hn ∧ x.val % n = beNat (sig.take 48) := by
  unfold P384.verify
  simp only
  generalize beNat (sig.take 48) = r
  generalize beNat (sig.drop 48) = s
  generalize beNat digest = z
  by_cases hr : r = 0 ∨ s = 0 ∨ r ≥ n ∨ s ≥ n
  · rw [if_pos hr]
    constructor
    · intro h; cases h
    · rintro ⟨h1, h2, _⟩; omega
  · rw [if_neg hr]
    obtain ⟨es, sne⟩ := cast_inv_n (a := s) (by omega) (by omega)
    have e1 : (z % n * powMod n s (n - 2) % n) • base =
        ((z : ZMod n) * (s : ZMod n)⁻¹).val • base := by
      apply smul_congr'
      rw [ZMod.natCast_zmod_val, ZMod.natCast_mod, Nat.cast_mul, es, ZMod.natCast_mod]
    have e2 : (r * powMod n s (n - 2) % n) • A = ((r : ZMod n) * (s : ZMod n)⁻¹).val • A := by
      apply smul_congr'
      rw [ZMod.natCast_zmod_val, ZMod.natCast_mod, Nat.cast_mul, es]
    have hrep := rep_add (rep_smul rep_base (z % n * powMod n s (n - 2) % n))
      (rep_smul hA (r * powMod n s (n - 2) % n))
    rw [e1, e2] at hrep
    unfold P384.verifyWith
    simp only
    generalize ((z : ZMod n) * (s : ZMod n)⁻¹).val • base +
      ((r : ZMod n) * (s : ZMod n)⁻¹).val • A = g at hrep
    have hrange : (0 < r ∧ r < n) ∧ 0 < s ∧ s < n := by omega
    rcases g with _ | ⟨x, y, hn⟩
    · rw [affine_zero hrep]
      constructor
      · intro h; cases h
      · rintro ⟨_, _, x, y, hn, h, _⟩; cases h
    · rw [affine_some hrep]
      simp only [Option.any_some, beq_iff_eq]
      constructor
      · intro h; exact ⟨hrange.1, hrange.2, x, y, hn, rfl, h⟩
      · rintro ⟨_, _, x', y', hn', h, h'⟩
        cases h
        exact h'

/-- The signature with the second number negated -/
def negSig (sig : Bytes) : Bytes := sig.take 48 ++ beBytes 48 (n - beNat (sig.drop 48))

theorem verify_negSig {pk : ℕ × ℕ} {A : G} (hA : Rep ⟨pk.1, pk.2, 1⟩ A) (digest sig : Bytes)
    (hl : sig.length = 96) (h : P384.verify pk digest sig = true) :
    P384.verify pk digest (negSig sig) = true := by
  rw [verify_iff hA] at h ⊢
  have hl1 : (sig.take 48).length = 48 := by rw [List.length_take]; omega
  unfold negSig
  rw [List.take_left' hl1, List.drop_left' hl1]
  generalize beNat (sig.take 48) = r at h
  generalize beNat (sig.drop 48) = s at h
  obtain ⟨hr, hs, x, y, hn, hg, hx⟩ := h
  have hlt : n - s < n := by omega
  rw [beNat_beBytes, Nat.mod_eq_of_lt (hlt.trans n_lt)]
  refine ⟨hr, ⟨by omega, hlt⟩, x, -y, ?_, ?_, hx⟩
  · apply nonsingular
    rw [← on hn]; ring
  · have hc : ((n - s : ℕ) : ZMod n) = -(s : ZMod n) := by
      rw [Nat.cast_sub hs.2.le, ZMod.natCast_self, zero_sub]
    rw [hc, inv_neg, mul_neg, mul_neg]
    have neg : ∀ (a : ZMod n) (g : G), (-a).val • g = -(a.val • g) := by
      intro a g
      rw [eq_neg_iff_add_eq_zero, ← add_nsmul]
      rw [smul_congr' (l := 0) (by
        rw [Nat.cast_add, ZMod.natCast_zmod_val, ZMod.natCast_zmod_val, Nat.cast_zero]; ring) g,
        zero_nsmul]
    rw [neg, neg, ← neg_add, hg, WeierstrassCurve.Affine.Point.neg_some]
    simp only [negY]

/-- Different secret keys have different public keys. -/
theorem public_inj {a c : P384Scalar} (h : p384Public a = p384Public c) : a = c := by
  have ha := xy_public a
  have hc := xy_public c
  rw [h] at ha
  have key : ∀ g h : G, Rep ⟨(xy (p384Public c)).1, (xy (p384Public c)).2, 1⟩ g →
      Rep ⟨(xy (p384Public c)).1, (xy (p384Public c)).2, 1⟩ h → g = h := by
    intro g h hg hh
    have e := (affine_congr hg hg)
    rcases g with _ | ⟨x, y, hn⟩ <;> rcases h with _ | ⟨x', y', hn'⟩
    · rfl
    · have := affine_zero hg
      rw [affine_some hh] at this; cases this
    · have := affine_zero hh
      rw [affine_some hg] at this; cases this
    · have := affine_some hh
      rw [affine_some hg] at this
      simp only [Option.some.injEq, Prod.mk.injEq] at this
      obtain ⟨h1, h2⟩ := this
      have h1 := ZMod.val_injective _ h1
      have h2 := ZMod.val_injective _ h2
      subst h1 h2
      rfl
  have e := key _ _ ha hc
  have e := (nsmul_eq_nsmul_iff_modEq (x := base)).1 e
  rw [addOrder] at e
  have e := Nat.ModEq.eq_of_lt_of_lt e a.2.2 c.2.2
  refine Subtype.ext (Subtype.ext ?_)
  have h1 := beBytes_beNat a.1.1
  have h2 := beBytes_beNat c.1.1
  rw [a.1.2] at h1
  rw [c.1.2, ← e, h1] at h2
  exact h2

/-- A shared secret is the x coordinate of a point, never the identity. -/
theorem dh_length (a : P384Scalar) (k : P384Key) : (P384.dh a.1.1 (xy k)).length = 48 := by
  obtain ⟨x, y, hn, hr, _⟩ := rep_xy k
  have hne := smul_ne_zero' (WeierstrassCurve.Affine.Point.some_ne_zero hn) a.2.1 a.2.2
  have := rep_smul hr (beNat a.1.1)
  generalize beNat a.1.1 • (WeierstrassCurve.Affine.Point.some x y hn : G) = g at hne this
  unfold P384.dh
  rcases g with _ | ⟨x, y, hn⟩
  · exact absurd rfl hne
  · rw [affine_some this]
    exact beBytes_length _ _

end Pasta.Curve.E384
