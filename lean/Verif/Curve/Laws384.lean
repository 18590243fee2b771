import Verif.Curve.Encode384
import Mathlib.GroupTheory.OrderOfElement

/-!
# The laws of `Prims.Laws` about P-384, for the real algorithms
-/

namespace Pasta.Curve.E384

open Pasta.Real (powMod fit prims)
open Pasta.Real.P384 (p b n)
open Pasta.Real
open Pasta.Curve.E25519 (fit_of_length)

instance : Fact (Nat.Prime n) := ⟨prime_n384⟩

theorem n_pos : 0 < n := prime_n384.pos
theorem one_lt_n : 1 < n := prime_n384.one_lt
theorem n_lt : n < 256 ^ 48 := by decide +kernel

theorem base_on : (P384.gy : F) ^ 2 = (P384.gx : F) ^ 3 - 3 * P384.gx + b := by
  have h : P384.mul P384.gy P384.gy = P384.rhs P384.gx := by decide +kernel
  have h := congrArg (Nat.cast (R := F)) h
  rw [cast_mul, cast_rhs] at h
  rw [pow_two, h]

/-- The base point. -/
def base : G := .some _ _ (nonsingular base_on)

theorem rep_base : Rep P384.base base where
  ltx := by decide +kernel
  lty := by decide +kernel
  ltz := by decide +kernel
  coords := by
    refine ⟨?_, ?_, ?_⟩
    · show ((1 : ℕ) : F) ≠ 0
      rw [Nat.cast_one]; exact one_ne_zero
    · show ((P384.gx : ℕ) : F) = P384.gx * ((1 : ℕ) : F) ^ 2
      rw [Nat.cast_one, one_pow, mul_one]
    · show ((P384.gy : ℕ) : F) = P384.gy * ((1 : ℕ) : F) ^ 3
      rw [Nat.cast_one, one_pow, mul_one]

theorem order_base : n • base = 0 := by
  have h := rep_smul rep_base n
  have hz : (P384.base.smul n).z = 0 := by decide +kernel
  generalize P384.base.smul n = P at h hz
  generalize n • base = g at h
  rcases g with _ | ⟨x, y, hn⟩
  · rfl
  · exact absurd (by rw [hz, Nat.cast_zero] : (P.z : F) = 0) h.coords.1

theorem base_ne : base ≠ 0 := WeierstrassCurve.Affine.Point.some_ne_zero _

theorem addOrder : addOrderOf base = n := addOrderOf_eq_prime order_base base_ne

theorem smul_ne {k : ℕ} (h0 : 0 < k) (h : k < n) : k • base ≠ 0 := by
  intro e
  have := addOrderOf_dvd_of_nsmul_eq_zero e
  rw [addOrder] at this
  exact absurd (Nat.le_of_dvd h0 this) (by omega)

theorem smul_mod (k : ℕ) : (k % n) • base = k • base := by
  conv_rhs => rw [← Nat.div_add_mod k n, add_nsmul, mul_comm, mul_nsmul', order_base, nsmul_zero,
    zero_add]

theorem smul_congr {k l : ℕ} (h : (k : ZMod n) = l) : k • base = l • base := by
  rw [ZMod.natCast_eq_natCast_iff'] at h
  rw [← smul_mod k, h, smul_mod]

/-- The public key of a scalar. -/
theorem public_spec (sk : P384Scalar) : ∃ x y, ∃ hn : W.Nonsingular x y,
    (beNat sk.1.1) • base = .some x y hn ∧ (p384Public sk).1 = enc x y := by
  have hr := rep_smul rep_base (beNat sk.1.1)
  have h0 := smul_ne sk.2.1 sk.2.2
  generalize hg : beNat sk.1.1 • base = g at hr h0
  rcases g with _ | ⟨x, y, hn⟩
  · exact absurd rfl h0
  · refine ⟨x, y, hn, rfl, ?_⟩
    have hc : fit 49 (P384.compress (P384.base.smul (beNat sk.1.1))) = enc x y := by
      unfold P384.compress
      rw [affine_some hr]
      rfl
    unfold p384Public
    rw [hc, p384Key_of (enc_ok (on hn))]
    rfl

theorem xy_public (sk : P384Scalar) : Rep ⟨(xy (p384Public sk)).1, (xy (p384Public sk)).2, 1⟩
    ((beNat sk.1.1) • base) := by
  obtain ⟨x, y, hn, h1, h2⟩ := public_spec sk
  have : xy (p384Public sk) = (x.val, y.val) := by
    unfold xy
    rw [h2, decode_enc (on hn)]
    rfl
  rw [this, h1]
  exact rep_affine hn

theorem dh_comm (a c : P384Scalar) : P384.dh a.1.1 (xy (p384Public c)) =
    P384.dh c.1.1 (xy (p384Public a)) := by
  unfold P384.dh
  have h1 := rep_smul (xy_public c) (beNat a.1.1)
  have h2 := rep_smul (xy_public a) (beNat c.1.1)
  rw [smul_comm] at h2
  rw [affine_congr h1 h2]

theorem cast_pow (a e : ℕ) : ((powMod n a e : ℕ) : ZMod n) = (a : ZMod n) ^ e := by
  rw [powMod_eq one_lt_n, ZMod.natCast_mod, Nat.cast_pow]

theorem cast_inv_n {a : ℕ} (h0 : 0 < a) (h : a < n) :
    ((powMod n a (n - 2) : ℕ) : ZMod n) = (a : ZMod n)⁻¹ ∧ (a : ZMod n) ≠ 0 := by
  have ha : (a : ZMod n) ≠ 0 := by
    intro e
    rw [ZMod.natCast_eq_zero_iff] at e
    exact absurd (Nat.le_of_dvd h0 e) (by omega)
  refine ⟨?_, ha⟩
  rw [cast_pow]
  apply eq_inv_of_mul_eq_one_left
  have h2 : 2 < n := by decide +kernel
  rw [← pow_succ, show n - 2 + 1 = n - 1 by omega]
  exact ZMod.pow_card_sub_one_eq_one ha

theorem nonceLoop_range (fuel : ℕ) : ∀ (K V : Bytes) (k : ℕ), P384.nonceLoop fuel K V = some k →
    0 < k ∧ k < n := by
  induction fuel with
  | zero => intro K V k h; cases h
  | succ fuel ih =>
    intro K V k h
    unfold P384.nonceLoop at h
    simp only at h
    split at h
    · rename_i hr
      cases h
      exact hr
    · exact ih _ _ _ h

/-- What a signature is made of. -/
theorem sign_spec {sk digest s : Bytes} (h : P384.sign sk digest = some s) :
    ∃ k x y, (∃ hn : W.Nonsingular x y, k • base = .some x y hn) ∧ 0 < k ∧ k < n ∧
      x.val % n ≠ 0 ∧ ∃ t, t = powMod n k (n - 2) *
        ((beNat digest % n + (x.val % n) * beNat sk) % n) % n ∧ t ≠ 0 ∧
      s = beBytes 48 (x.val % n) ++ beBytes 48 t := by
  unfold P384.sign at h
  obtain ⟨k, hk, h⟩ := Option.bind_eq_some_iff.1 h
  obtain ⟨q, hq, h⟩ := Option.bind_eq_some_iff.1 h
  have hr := rep_smul rep_base k
  generalize hg : k • base = g at hr
  rcases g with _ | ⟨x, y, hn⟩
  · rw [affine_zero hr] at hq
    cases hq
  · rw [affine_some hr] at hq
    cases hq
    obtain ⟨h0, h1⟩ := nonceLoop_range _ _ _ _ hk
    unfold P384.signWith at h
    simp only at h
    split at h
    · cases h
    · rename_i hne
      cases h
      exact ⟨k, x, y, ⟨hn, hg⟩, h0, h1, fun e => hne (.inl e), _, rfl, fun e => hne (.inr e), rfl⟩

theorem verify_sign (sk : P384Scalar) (digest s : Bytes) (h : P384.sign sk.1.1 digest = some s) :
    P384.verify (xy (p384Public sk)) digest s = true := by
  obtain ⟨k, x, y, ⟨hn, hg⟩, k0, kn, r0, t, ht, t0, rfl⟩ := sign_spec h
  have tn : t < n := by rw [ht]; exact Nat.mod_lt _ n_pos
  generalize hr : x.val % n = r at *
  have rn : r < n := by rw [← hr]; exact Nat.mod_lt _ n_pos
  have lr : (beBytes 48 r).length = 48 := beBytes_length _ _
  unfold P384.verify
  simp only [List.take_left' lr, List.drop_left' lr, beNat_beBytes,
    Nat.mod_eq_of_lt (rn.trans n_lt), Nat.mod_eq_of_lt (tn.trans n_lt)]
  rw [if_neg (by omega)]
  generalize beNat digest % n = z at *
  generalize hd : beNat sk.1.1 = d at *
  have hpk := xy_public sk
  rw [hd] at hpk
  unfold P384.verifyWith
  obtain ⟨ek, kne⟩ := cast_inv_n k0 kn
  obtain ⟨et, tne⟩ := cast_inv_n (Nat.pos_of_ne_zero t0) tn
  have ct : (t : ZMod n) = (k : ZMod n)⁻¹ * (z + r * d) := by
    rw [ht, ZMod.natCast_mod, Nat.cast_mul, ek, ZMod.natCast_mod]
    push_cast
    ring
  have hrep := rep_add (rep_smul rep_base (z * powMod n t (n - 2) % n))
    (rep_smul hpk (r * powMod n t (n - 2) % n))
  have hpt : (z * powMod n t (n - 2) % n) • base + (r * powMod n t (n - 2) % n) • d • base =
      k • base := by
    rw [← mul_nsmul', ← add_nsmul]
    apply smul_congr
    push_cast [ZMod.natCast_mod, et]
    have : (k : ZMod n) * t = z + r * d := by rw [ct]; field_simp
    field_simp
    linear_combination -this
  rw [hpt, hg] at hrep
  simp only [affine_some hrep, Option.any_some, hr, beq_self_eq_true]

theorem sigOk_sign (sk : P384Scalar) (digest s : Bytes) (h : P384.sign sk.1.1 digest = some s) :
    p384SigOk (fit 96 s) := by
  obtain ⟨k, x, y, _, k0, kn, r0, t, ht, t0, rfl⟩ := sign_spec h
  have tn : t < n := by rw [ht]; exact Nat.mod_lt _ n_pos
  have rn : x.val % n < n := Nat.mod_lt _ n_pos
  generalize x.val % n = r at *
  have lr : (beBytes 48 r).length = 48 := beBytes_length _ _
  have lt : (beBytes 48 t).length = 48 := beBytes_length _ _
  have hv : (fit 96 (beBytes 48 r ++ beBytes 48 t)).1 = beBytes 48 r ++ beBytes 48 t :=
    fit_of_length (by rw [List.length_append, lr, lt])
  unfold p384SigOk p384ScalarOk BytesN.split
  simp only [hv, List.take_left' lr, List.drop_left' lr, beNat_beBytes,
    Nat.mod_eq_of_lt (rn.trans n_lt), Nat.mod_eq_of_lt (tn.trans n_lt)]
  exact ⟨⟨Nat.pos_of_ne_zero r0, rn⟩, Nat.pos_of_ne_zero t0, tn⟩

theorem sign_length {sk digest s : Bytes} (h : P384.sign sk digest = some s) : s.length = 96 := by
  obtain ⟨k, x, y, _, _, _, _, t, _, _, rfl⟩ := sign_spec h
  rw [List.length_append, beBytes_length, beBytes_length]

end Pasta.Curve.E384
