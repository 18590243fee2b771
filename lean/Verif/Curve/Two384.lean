import Verif.Curve.Card384
import Mathlib.GroupTheory.SpecificGroups.Cyclic

/-!
# P-384: every point is a multiple of the base point; signatures of two messages

Every public key belongs to a secret key. An ECDSA signature that verifies for two messages with
different digests gives the secret key away.
-/

namespace Pasta.Curve.E384

open Pasta.Real
open Pasta.Real.P384 (p n)

theorem exists_log (g : G) : ∃ k < n, g = k • base := by
  have hz : g ∈ AddSubgroup.zmultiples base := by
    have : AddSubgroup.zmultiples base = ⊤ := by
      apply AddSubgroup.eq_top_of_card_eq
      rw [Nat.card_zmultiples, addOrder, card]
    rw [this]
    exact AddSubgroup.mem_top g
  classical
  rw [mem_zmultiples_iff_mem_range_addOrderOf] at hz
  simp only [Finset.mem_image, Finset.mem_range] at hz
  obtain ⟨k, hk, rfl⟩ := hz
  exact ⟨k, addOrder ▸ hk, rfl⟩

/-- Every public key is the public key of a secret key. -/
theorem public_surj (k : P384Key) : ∃ sk, p384Public sk = k := by
  obtain ⟨x, y, hn, hr, he⟩ := rep_xy k
  obtain ⟨d, hd, hg⟩ := exists_log (.some x y hn)
  have h0 : 0 < d := by
    rcases Nat.eq_zero_or_pos d with rfl | h
    · rw [zero_nsmul] at hg; cases hg
    · exact h
  have hb : beNat (beBytes 48 d) = d := by
    rw [beNat_beBytes, Nat.mod_eq_of_lt (hd.trans n_lt)]
  let sk : P384Scalar := ⟨⟨beBytes 48 d, beBytes_length _ _⟩, by
    show 0 < beNat (beBytes 48 d) ∧ beNat (beBytes 48 d) < n
    rw [hb]
    exact ⟨h0, hd⟩⟩
  refine ⟨sk, ?_⟩
  obtain ⟨x', y', hn', h1, h2⟩ := public_spec sk
  have h1' : beNat (beBytes 48 d) • base = .some x' y' hn' := h1
  rw [hb, ← hg] at h1'
  simp only [WeierstrassCurve.Affine.Point.some.injEq] at h1'
  apply Subtype.ext
  rw [h2, he, h1'.1, h1'.2]

theorem smul_inj' {k l : ℕ} (h : k • base = l • base) : (k : ZMod n) = l := by
  rw [nsmul_eq_nsmul_iff_modEq, addOrder] at h
  exact (ZMod.natCast_eq_natCast_iff _ _ _).2 h

theorem p_lt_two : p < 2 * n := by decide +kernel
theorem n_lt_p : n < p := by decide +kernel

/-- A signature of two messages whose first number is not one of the few below `p - n`. -/
theorem two_messages {pk : ℕ × ℕ} {d : ℕ} (hA : Rep ⟨pk.1, pk.2, 1⟩ (d • base))
    (digest digest' sig : Bytes) (h : P384.verify pk digest sig = true)
    (h' : P384.verify pk digest' sig = true) (hbig : p - n ≤ beNat (sig.take 48)) :
    (beNat digest : ZMod n) = beNat digest' ∨
    (beNat digest : ZMod n) + beNat digest' + 2 * beNat (sig.take 48) * d = 0 := by
  rw [verify_iff hA] at h h'
  generalize beNat (sig.take 48) = r at h h' hbig
  generalize beNat (sig.drop 48) = s at h h'
  generalize beNat digest = z at h
  generalize beNat digest' = z' at h'
  obtain ⟨hr, hs, x, y, hn, hg, hx⟩ := h
  obtain ⟨_, _, x', y', hn', hg', hx'⟩ := h'
  have sne : (s : ZMod n) ≠ 0 := (cast_inv_n (a := s) (by omega) (by omega)).2
  have val : ∀ u : F, u.val % n = r → u.val = r := by
    intro u hu
    have hup : u.val < p := ZMod.val_lt u
    have := p_lt_two
    rcases Nat.lt_or_ge u.val n with hlt | hge
    · rw [← hu, Nat.mod_eq_of_lt hlt]
    · rw [Nat.mod_eq_sub_mod hge, Nat.mod_eq_of_lt (by omega)] at hu
      omega
  have ex : x = x' := ZMod.val_injective _ ((val x hx).trans (val x' hx').symm)
  subst ex
  have nums : ∀ w : ℕ, ((w : ZMod n) * (s : ZMod n)⁻¹).val • base +
      ((r : ZMod n) * (s : ZMod n)⁻¹).val • d • base =
      (((w : ZMod n) + r * d) * (s : ZMod n)⁻¹).val • base := by
    intro w
    rw [← mul_nsmul', ← add_nsmul]
    apply smul_congr'
    push_cast
    simp only [ZMod.natCast_val, ZMod.cast_id', id]
    ring
  rw [nums] at hg hg'
  have hy : (y - y') * (y + y') = 0 := by
    have h1 := on hn
    have h2 := on hn'
    linear_combination h1 - h2
  rcases mul_eq_zero.1 hy with hy | hy
  · left
    have : y = y' := sub_eq_zero.1 hy
    subst this
    have e := smul_inj' (hg.trans hg'.symm)
    simp only [ZMod.natCast_val, ZMod.cast_id', id] at e
    have e := mul_right_cancel₀ (inv_ne_zero sne) e
    exact add_right_cancel e
  · right
    have e : (((z : ZMod n) + r * d) * (s : ZMod n)⁻¹).val • base +
        (((z' : ZMod n) + r * d) * (s : ZMod n)⁻¹).val • base = 0 := by
      rw [hg, hg']
      have : y = -y' := eq_neg_of_add_eq_zero_left hy
      subst this
      rw [← eq_neg_iff_add_eq_zero, WeierstrassCurve.Affine.Point.neg_some]
      simp only [negY]
    rw [← add_nsmul, ← zero_nsmul base] at e
    have e := smul_inj' e
    push_cast at e
    simp only [ZMod.natCast_val, ZMod.cast_id', id] at e
    rw [← add_mul] at e
    have e := (mul_eq_zero.1 e).resolve_right (inv_ne_zero sne)
    rw [← e]
    ring

end Pasta.Curve.E384
