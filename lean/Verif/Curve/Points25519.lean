import Verif.Curve.Field25519
import Verif.Lemmas.Ctr

/-!
# The point arithmetic of `Real.Ed` computes in the group of the curve
-/

namespace Pasta.Curve.E25519

open Pasta.Real (powMod fit)
open Pasta.Real.Ed (p d)
open Pasta.Real

/-- Extended coordinates of a point. -/
structure Rep (P : Ed.Pt) (g : G) : Prop where
  ltx : P.x < p
  lty : P.y < p
  ltz : P.z < p
  ltt : P.t < p
  x : (P.x : F) = g.x * P.z
  y : (P.y : F) = g.y * P.z
  t : (P.t : F) = g.x * g.y * P.z
  z : (P.z : F) ≠ 0

theorem rep_zero : Rep Ed.zero 0 where
  ltx := p_pos
  lty := one_lt_p
  ltz := one_lt_p
  ltt := p_pos
  x := by simp [Ed.zero]
  y := by simp [Ed.zero]
  t := by simp [Ed.zero]
  z := by simp [Ed.zero]

theorem rep_add {P Q : Ed.Pt} {g h : G} (hP : Rep P g) (hQ : Rep Q h) :
    Rep (P.add Q) (g + h) := by
  have ha := ed_plus complete g.on h.on
  have hb := ed_minus complete g.on h.on
  have hz := hP.z
  have hz' := hQ.z
  have h2 := two_ne
  have e1 : ((P.add Q).x : F) = 4 * ((g.x * h.y + h.x * g.y) * (P.z * Q.z)) *
      (P.z * Q.z * (1 - d * g.x * h.x * g.y * h.y)) := by
    simp only [Ed.Pt.add, cast_mul, cast_add, cast_sub _ (mul_lt _ _).le, cast_sub _ hP.ltx.le,
      cast_sub _ hQ.ltx.le, hP.x, hP.y, hP.t, hQ.x, hQ.y, hQ.t]
    push_cast
    ring
  have e2 : ((P.add Q).y : F) = 4 * ((g.y * h.y + g.x * h.x) * (P.z * Q.z)) *
      (P.z * Q.z * (1 + d * g.x * h.x * g.y * h.y)) := by
    simp only [Ed.Pt.add, cast_mul, cast_add, cast_sub _ hP.ltx.le,
      cast_sub _ hQ.ltx.le, hP.x, hP.y, hP.t, hQ.x, hQ.y, hQ.t]
    push_cast
    ring
  have e3 : ((P.add Q).z : F) = 4 * (P.z * Q.z * (1 - d * g.x * h.x * g.y * h.y)) *
      (P.z * Q.z * (1 + d * g.x * h.x * g.y * h.y)) := by
    simp only [Ed.Pt.add, cast_mul, cast_add, cast_sub _ (mul_lt _ _).le, hP.t, hQ.t]
    push_cast
    ring
  have e4 : ((P.add Q).t : F) = 4 * ((g.x * h.y + h.x * g.y) * (P.z * Q.z)) *
      ((g.y * h.y + g.x * h.x) * (P.z * Q.z)) := by
    simp only [Ed.Pt.add, cast_mul, cast_add, cast_sub _ (mul_lt _ _).le, cast_sub _ hP.ltx.le,
      cast_sub _ hQ.ltx.le, hP.x, hP.y, hQ.x, hQ.y]
    ring
  have e5 := EdPt.add_x g h
  have e6 := EdPt.add_y g h
  generalize 1 + (d : F) * g.x * h.x * g.y * h.y = a at *
  generalize 1 - (d : F) * g.x * h.x * g.y * h.y = b at *
  refine ⟨mul_lt _ _, mul_lt _ _, mul_lt _ _, mul_lt _ _, ?_, ?_, ?_, ?_⟩
  · rw [e1, e3, e5]; field_simp
  · rw [e2, e3, e6]; field_simp
  · rw [e4, e3, e5, e6]; field_simp
  · rw [e3]
    have h4 : (4 : F) ≠ 0 := by
      rw [show (4 : F) = 2 * 2 by norm_num]; exact mul_ne_zero h2 h2
    exact mul_ne_zero (mul_ne_zero h4 (mul_ne_zero (mul_ne_zero hz hz') hb))
      (mul_ne_zero (mul_ne_zero hz hz') ha)

theorem rep_smul {P : Ed.Pt} {g : G} (hP : Rep P g) (n : ℕ) : Rep (P.smul n) (n • g) := by
  rw [Ed.smul_loop]
  have := binLoop_spec (add := Ed.Pt.add) (dbl := fun q => q.add q) (fun Q i => Rep Q (i • g))
    (by intro r q i j hr hq; rw [add_nsmul]; exact rep_add hr hq)
    (by intro q j hq; rw [two_mul, add_nsmul]; exact rep_add hq hq)
    (n.log2 + 1) Ed.zero P n 0 1 (lt_pow_log2 n) (by rw [zero_nsmul]; exact rep_zero)
    (by rwa [one_nsmul])
  simpa using this

theorem rep_neg {P : Ed.Pt} {g : G} (hP : Rep P g) : Rep P.neg (-g) where
  ltx := sub_lt _ _
  lty := hP.lty
  ltz := hP.ltz
  ltt := sub_lt _ _
  x := by
    have := hP.x
    simp only [Ed.Pt.neg, cast_sub _ hP.ltx.le, EdPt.neg_x]
    push_cast
    linear_combination -this
  y := hP.y
  t := by
    have := hP.t
    simp only [Ed.Pt.neg, cast_sub _ hP.ltt.le, EdPt.neg_x, EdPt.neg_y]
    push_cast
    linear_combination -this
  z := hP.z

/-- The affine coordinates that the code computes. -/
theorem affine_x {P : Ed.Pt} {g : G} (hP : Rep P g) : Ed.mul P.x (Ed.inv P.z) = g.x.val := by
  apply eq_of_cast (mul_lt _ _) (ZMod.val_lt _)
  rw [cast_mul, cast_inv, hP.x, ZMod.natCast_zmod_val]
  have := hP.z
  field_simp

theorem affine_y {P : Ed.Pt} {g : G} (hP : Rep P g) : Ed.mul P.y (Ed.inv P.z) = g.y.val := by
  apply eq_of_cast (mul_lt _ _) (ZMod.val_lt _)
  rw [cast_mul, cast_inv, hP.y, ZMod.natCast_zmod_val]
  have := hP.z
  field_simp

/-- The encoding of a point. -/
def enc (g : G) : BytesN 32 := fit 32 (leBytes 32 (g.y.val + (g.x.val % 2) * 2 ^ 255))

theorem encode_rep {P : Ed.Pt} {g : G} (hP : Rep P g) : P.encode = enc g := by
  unfold Ed.Pt.encode enc
  simp only [affine_x hP, affine_y hP]

theorem fit_of_length {n : ℕ} {b : Bytes} (h : b.length = n) : (fit n b).1 = b := by
  unfold fit
  simp only [h, Nat.sub_self, List.replicate_zero, List.append_nil]
  rw [← h, List.take_length]

theorem enc_nat (g : G) : leNat (enc g).1 = g.y.val + (g.x.val % 2) * 2 ^ 255 := by
  unfold enc
  rw [fit_of_length (leBytes_length _ _), leNat_leBytes, Nat.mod_eq_of_lt]
  have h1 : g.y.val < p := ZMod.val_lt _
  have h2 := p_lt
  have h3 : g.x.val % 2 < 2 := Nat.mod_lt _ (by decide)
  have h4 : (256 : ℕ) ^ 32 = 2 * 2 ^ 255 := by decide
  have h5 : g.x.val % 2 = 0 ∨ g.x.val % 2 = 1 := by omega
  rw [h4]
  rcases h5 with h5 | h5 <;> rw [h5] <;> omega

/-- The denominator in the formula for `x²`. -/
theorem den_ne (y : F) : (d : F) * y ^ 2 + 1 ≠ 0 ∨ y ^ 2 ≠ 1 := by
  by_contra h
  push Not at h
  obtain ⟨h1, h2⟩ := h
  rw [h2, mul_one] at h1
  obtain ⟨i, hi⟩ := complete.sqrt_neg_one
  exact complete.nonsquare ⟨i, by rw [hi]; linear_combination h1⟩

theorem curve_uv (g : G) : (g.y ^ 2 - 1 : F) = (d * g.y ^ 2 + 1) * g.x ^ 2 := by
  have := g.on
  unfold OnEd at this
  linear_combination this

theorem v_ne (g : G) : (d : F) * g.y ^ 2 + 1 ≠ 0 := by
  intro h
  rcases den_ne g.y with h1 | h1
  · exact h1 h
  · have := curve_uv g
    rw [h, zero_mul] at this
    exact h1 (by linear_combination this)

theorem sq_eq {a b : F} (h : a ^ 2 = b ^ 2) : a = b ∨ a = -b := sq_eq_sq_iff_eq_or_eq_neg.1 h

/-- Choosing the sign: of `x` and `-x`, the one with the parity of `x`. -/
theorem pick {x : ℕ} (hx : x < p) (g : F) (h : (x : F) ^ 2 = g ^ 2) :
    (if x % 2 == g.val % 2 then x else Ed.sub 0 x) = g.val := by
  have hg : g.val < p := ZMod.val_lt _
  rcases sq_eq h with h | h
  · have : x = g.val := eq_of_cast hx hg (by rw [ZMod.natCast_zmod_val]; exact h)
    rw [this]; simp
  · by_cases h0 : g = 0
    · subst h0
      have : x = 0 := eq_of_cast hx p_pos (by rw [h]; simp)
      rw [this]; simp
    · have hv : g.val ≠ 0 := by rwa [Ne, ZMod.val_eq_zero]
      have h1 : x = p - g.val := by
        apply eq_of_cast hx (by omega)
        rw [Nat.cast_sub hg.le, ZMod.natCast_self, ZMod.natCast_zmod_val, h]; ring
      have h2 : (x % 2 == g.val % 2) = false := by
        have := p_odd
        simp only [beq_eq_false_iff_ne]
        omega
      rw [h2]
      simp only [Bool.false_eq_true, if_false]
      apply eq_of_cast (sub_lt _ _) hg
      rw [cast_sub _ hx.le, h, ZMod.natCast_zmod_val]; simp

theorem cast_candidate (u v : ℕ) : ((Ed.candidate u v : ℕ) : F) =
    u * v ^ 3 * (u * v ^ 7) ^ ((p - 5) / 8) := by
  unfold Ed.candidate
  simp only [cast_mul, cast_powMod]
  generalize (p - 5) / 8 = q
  ring

/-- `v x² = u w^((p-1)/2)` for the candidate `x`, when `u = v r²`, with `w = r v⁴`. -/
theorem candidate_sq {u v : ℕ} {r : F} (h : (u : F) = v * r ^ 2) :
    (v : F) * (Ed.candidate u v : ℕ) ^ 2 = u * (r * v ^ 4) ^ ((p - 1) / 2) := by
  rw [cast_candidate]
  have hp8 := p_mod8
  obtain ⟨q, hq⟩ : ∃ q, q = (p - 5) / 8 := ⟨_, rfl⟩
  have hq1 : (p - 1) / 2 = 4 * q + 2 := by rw [hq]; omega
  have h1 : (u * v ^ 7 : F) = (r * v ^ 4) ^ 2 := by rw [h]; ring
  rw [hq1, ← hq]
  have h2 : (v : F) * (u * v ^ 3 * (u * v ^ 7) ^ q) ^ 2 =
    u * ((u * v ^ 7) * ((u * v ^ 7) ^ q) ^ 2) := by ring
  rw [h2, h1]
  ring

/-- A square root is found when there is one. -/
theorem root_spec {u v : ℕ} {r : F} (ult : u < p) (hv : (v : F) ≠ 0) (h : (u : F) = v * r ^ 2) :
    ∃ x, Ed.root u v (Ed.candidate u v) = some x ∧ x < p ∧ (x : F) ^ 2 = r ^ 2 := by
  have hw := candidate_sq h
  have xlt : Ed.candidate u v < p := mul_lt _ _
  generalize Ed.candidate u v = x at hw xlt
  unfold Ed.root
  have clt : Ed.mul v (Ed.mul x x) < p := mul_lt _ _
  have cc : ((Ed.mul v (Ed.mul x x) : ℕ) : F) = v * x ^ 2 := by
    rw [cast_mul, cast_mul]; ring
  by_cases h1 : Ed.mul v (Ed.mul x x) = u
  · refine ⟨x, by simp [h1], xlt, ?_⟩
    rw [h1, h] at cc
    exact (mul_left_cancel₀ hv cc).symm
  · have hne : r ≠ 0 := by
      intro h0
      apply h1
      apply eq_of_cast clt ult
      rw [cc, hw, h, h0]; ring
    have he : ((r * v ^ 4) ^ ((p - 1) / 2)) ^ 2 = 1 := by
      have hp2 := p_odd
      rw [← pow_mul, show (p - 1) / 2 * 2 = p - 1 by omega]
      exact fermat (mul_ne_zero hne (pow_ne_zero _ hv))
    have he : (r * v ^ 4) ^ ((p - 1) / 2) = -1 := by
      rcases sq_eq (b := 1) (by rw [he]; ring) with h3 | h3
      · exfalso
        apply h1
        apply eq_of_cast clt ult
        rw [cc, hw, h3, mul_one]
      · exact h3
    have h2 : Ed.mul v (Ed.mul x x) = Ed.sub 0 u := by
      apply eq_of_cast clt (sub_lt _ _)
      rw [cc, hw, he, cast_sub _ ult.le]; push_cast; ring
    refine ⟨Ed.mul x Ed.sqrtM1, ?_, mul_lt _ _, ?_⟩
    · simp only
      rw [if_neg (by simpa using h1), if_pos (by simpa using h2)]
    · apply mul_left_cancel₀ hv
      rw [cast_mul, ← h]
      have := sqrtM1_sq
      rw [he] at hw
      linear_combination (v * x ^ 2 : F) * this - hw

/-- Decompression inverts compression. -/
theorem decode_enc (g : G) : ∃ P, Ed.decode (enc g).1 = some P ∧ Rep P g := by
  have hyp : g.y.val < p := ZMod.val_lt _
  have hxp : g.x.val < p := ZMod.val_lt _
  have hp := p_lt
  have h255 : g.y.val < 2 ^ 255 := hyp.trans hp
  have hy : leNat (enc g).1 % 2 ^ 255 % p = g.y.val := by
    rw [enc_nat, Nat.add_mul_mod_self_right, Nat.mod_eq_of_lt h255, Nat.mod_eq_of_lt hyp]
  have hs : leNat (enc g).1 / 2 ^ 255 % 2 = g.x.val % 2 := by
    rw [enc_nat, Nat.add_mul_div_right _ _ (by decide), Nat.div_eq_of_lt h255, Nat.zero_add,
      Nat.mod_mod]
  unfold Ed.decode
  simp only [hy, hs]
  have hv := v_ne g
  have huv := curve_uv g
  unfold Ed.decompress
  simp only
  generalize hu' : Ed.sub (Ed.mul g.y.val g.y.val) 1 = u
  generalize hv' : Ed.add (Ed.mul d (Ed.mul g.y.val g.y.val)) 1 = v
  have ult : u < p := by rw [← hu']; exact sub_lt _ _
  have cu : (u : F) = g.y ^ 2 - 1 := by
    rw [← hu', cast_sub _ one_lt_p.le, cast_mul, ZMod.natCast_zmod_val]; push_cast; ring
  have cv : (v : F) = d * g.y ^ 2 + 1 := by
    rw [← hv', cast_add, cast_mul, cast_mul, ZMod.natCast_zmod_val]; push_cast; ring
  rw [← cv] at hv huv
  rw [← cu] at huv
  obtain ⟨x, hx, xlt, hsq⟩ := root_spec ult hv huv
  rw [hx]
  unfold Ed.withSign
  simp only [pick xlt g.x hsq]
  refine ⟨_, rfl, hxp, hyp, one_lt_p, mul_lt _ _, ?_, ?_, ?_, ?_⟩
  · show ((g.x.val : ℕ) : F) = g.x * ((1 : ℕ) : F)
    rw [ZMod.natCast_zmod_val, Nat.cast_one, mul_one]
  · show ((g.y.val : ℕ) : F) = g.y * ((1 : ℕ) : F)
    rw [ZMod.natCast_zmod_val, Nat.cast_one, mul_one]
  · show ((Ed.mul g.x.val g.y.val : ℕ) : F) = g.x * g.y * ((1 : ℕ) : F)
    rw [cast_mul, ZMod.natCast_zmod_val, ZMod.natCast_zmod_val, Nat.cast_one, mul_one]
  · show ((1 : ℕ) : F) ≠ 0
    rw [Nat.cast_one]
    exact one_ne_zero

end Pasta.Curve.E25519
