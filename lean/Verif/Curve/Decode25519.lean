import Verif.Curve.Card25519
import Verif.Spec.EdKeys

/-!
# What the decompression of Ed25519 public keys accepts
-/

namespace Pasta.Curve.E25519

open Pasta.Real (prims fit)
open Pasta.Real.Ed (p d)
open Pasta.Real
open Spec.Ed (OnCurve StandsFor)

theorem d_spec : (121666 : F) * (d : ℕ) = -121665 := by
  have h : Ed.add (Ed.mul 121666 d) 121665 = 0 := by decide +kernel
  have h := congrArg (Nat.cast (R := F)) h
  rw [cast_add, cast_mul] at h
  push_cast at h
  linear_combination h

theorem c_ne : (121666 : F) ≠ 0 := by
  intro h
  have h : ((121666 : ℕ) : F) = ((0 : ℕ) : F) := by simpa using h
  have := eq_of_cast (by decide +kernel) p_pos h
  omega

theorem p_eq : Spec.Ed.p = p := rfl

/-- The curve equation in natural numbers. -/
theorem onCurve_iff (x y : ℕ) : OnCurve x y ↔ x < p ∧ y < p ∧ OnEd ((d : ℕ) : F) (x : F) (y : F) := by
  unfold OnCurve
  rw [p_eq]
  have h : (121666 * y ^ 2 + 121665 * x ^ 2 * y ^ 2) % p = (121666 + 121666 * x ^ 2) % p ↔
      OnEd ((d : ℕ) : F) (x : F) (y : F) := by
    rw [← ZMod.natCast_eq_natCast_iff']
    push_cast
    unfold OnEd
    have hd := d_spec
    constructor
    · intro h
      apply mul_left_cancel₀ c_ne
      linear_combination h - (x : F) ^ 2 * (y : F) ^ 2 * hd
    · intro h
      linear_combination (121666 : F) * h + (x : F) ^ 2 * (y : F) ^ 2 * hd
  rw [h]

/-- The point of the group. -/
def toG {x y : ℕ} (h : OnCurve x y) : G := ⟨(x : F), (y : F), ((onCurve_iff x y).1 h).2.2⟩

theorem onCurve_of (g : G) : OnCurve g.x.val g.y.val := by
  rw [onCurve_iff, ZMod.natCast_zmod_val, ZMod.natCast_zmod_val]
  exact ⟨ZMod.val_lt _, ZMod.val_lt _, g.on⟩

theorem sub_zero_parity {x : ℕ} (hx : x < p) (h0 : x ≠ 0) : Ed.sub 0 x % 2 = 1 - x % 2 := by
  unfold Ed.sub
  have hp := p_odd
  have h : (p - x) % p = p - x := Nat.mod_eq_of_lt (by omega)
  rw [Nat.zero_add, h]
  omega

theorem sub_zero_zero : Ed.sub 0 0 = 0 := by
  unfold Ed.sub
  rw [Nat.zero_add, Nat.sub_zero, Nat.mod_self]

theorem pick_parity {x sign : ℕ} (hx : x < p) (hs : sign < 2) :
    (if x % 2 == sign then x else Ed.sub 0 x) = 0 ∨
      (if x % 2 == sign then x else Ed.sub 0 x) % 2 = sign := by
  by_cases h : x % 2 = sign
  · simp [h]
  · rw [if_neg (by simpa using h)]
    by_cases h0 : x = 0
    · left; rw [h0, sub_zero_zero]
    · right
      rw [sub_zero_parity hx h0]
      omega

/-- Decompression gives the point that the bytes stand for. -/
theorem decode_stands {s : Bytes} (hl : s.length = 32) {P : Ed.Pt} (h : Ed.decode s = some P) :
    StandsFor s P.x P.y ∧ P.z = 1 ∧ P.t = Ed.mul P.x P.y := by
  obtain ⟨g, r⟩ := decode_sound h
  have hy := decode_y h r
  have hlt : leNat s / 2 ^ 255 < 2 := by
    have := leNat_lt s
    rw [hl] at this
    have h4 : (256 : ℕ) ^ 32 = 2 * 2 ^ 255 := by decide
    rw [h4] at this
    exact Nat.div_lt_of_lt_mul (by rw [mul_comm]; exact this)
  have hpar : P.z = 1 ∧ P.t = Ed.mul P.x P.y ∧ (P.x = 0 ∨ P.x % 2 = leNat s / 2 ^ 255 % 2) := by
    unfold Ed.decode at h
    simp only at h
    have hs : leNat s / 2 ^ 255 % 2 < 2 := Nat.mod_lt _ (by decide)
    generalize leNat s % 2 ^ 255 % p = y at h
    generalize leNat s / 2 ^ 255 % 2 = sign at h hs ⊢
    unfold Ed.decompress at h
    simp only at h
    have hrlt : ∀ r, Ed.root (Ed.sub (Ed.mul y y) 1) (Ed.add (Ed.mul d (Ed.mul y y)) 1)
        (Ed.candidate (Ed.sub (Ed.mul y y) 1) (Ed.add (Ed.mul d (Ed.mul y y)) 1)) = some r → r < p := by
      intro r hr
      unfold Ed.root at hr
      simp only at hr
      split at hr
      · cases hr; exact mul_lt _ _
      · split at hr
        · cases hr; exact mul_lt _ _
        · cases hr
    generalize Ed.root _ _ _ = o at h hrlt
    cases o with
    | none => cases h
    | some r =>
      unfold Ed.withSign at h
      simp only [Option.some.injEq] at h
      rw [← h]
      exact ⟨rfl, rfl, pick_parity (hrlt r rfl) hs⟩
  obtain ⟨hz, ht, hp⟩ := hpar
  have hx : (P.x : F) = g.x := by rw [r.x, hz, Nat.cast_one, mul_one]
  have hy' : (P.y : F) = g.y := by rw [r.y, hz, Nat.cast_one, mul_one]
  refine ⟨⟨hl, ?_, ?_, ?_⟩, hz, ht⟩
  · rw [onCurve_iff, hx, hy']
    exact ⟨r.ltx, r.lty, g.on⟩
  · rw [p_eq, ← hy, ← hy', ZMod.val_natCast_of_lt r.lty]
  · rwa [Nat.mod_eq_of_lt hlt] at hp

/-- Bytes that stand for a point are decompressed. -/
theorem decode_complete {s : Bytes} {x y : ℕ} (h : StandsFor s x y) : ∃ P, Ed.decode s = some P := by
  obtain ⟨-, hc, hy, -⟩ := h
  unfold Ed.decode
  simp only
  rw [p_eq] at hy
  rw [hy]
  have hv := v_ne (toG hc)
  have huv := curve_uv (toG hc)
  have ey : (toG hc).y = (y : F) := rfl
  rw [ey] at hv huv
  unfold Ed.decompress
  simp only
  generalize leNat s / 2 ^ 255 % 2 = sign
  generalize hu' : Ed.sub (Ed.mul y y) 1 = u
  generalize hv' : Ed.add (Ed.mul d (Ed.mul y y)) 1 = v
  have ult : u < p := by rw [← hu']; exact sub_lt _ _
  have cu : (u : F) = (y : F) ^ 2 - 1 := by
    rw [← hu', cast_sub _ one_lt_p.le, cast_mul]; push_cast; ring
  have cv : (v : F) = d * (y : F) ^ 2 + 1 := by
    rw [← hv', cast_add, cast_mul, cast_mul]; push_cast; ring
  rw [← cv] at hv huv
  rw [← cu] at huv
  obtain ⟨x', hx, -, -⟩ := root_spec ult hv huv
  rw [hx]
  exact ⟨_, rfl⟩

/-- Bytes stand for one point at most. -/
theorem stands_unique {s : Bytes} {x y x' y' : ℕ} (h : StandsFor s x y) (h' : StandsFor s x' y') :
    x = x' ∧ y = y' := by
  obtain ⟨hl, hc, hy, hx⟩ := h
  obtain ⟨-, hc', hy', hx'⟩ := h'
  have ey : y = y' := hy.symm.trans hy'
  refine ⟨?_, ey⟩
  subst ey
  have c1 := curve_uv (toG hc)
  have c2 := curve_uv (toG hc')
  have e1 : (toG hc).y = (toG hc').y := rfl
  rw [← e1, c1] at c2
  have hsq : (x : F) ^ 2 = (x' : F) ^ 2 := mul_left_cancel₀ (v_ne (toG hc)) c2
  rcases sq_eq hsq with h | h
  · exact eq_of_cast hc.1 hc'.1 h
  · have hz : x = 0 ↔ x' = 0 := by
      constructor
      · rintro rfl
        apply eq_of_cast hc'.1 p_pos
        have : (x' : F) = 0 := by simpa using h.symm
        rw [this, Nat.cast_zero]
      · rintro rfl
        apply eq_of_cast hc.1 p_pos
        rw [h]; simp
    by_cases h0 : x = 0
    · rw [h0, hz.1 h0]
    · have h0' : x' ≠ 0 := fun e => h0 (hz.2 e)
      have e1 := hx.resolve_left h0
      have e2 := hx'.resolve_left h0'
      exfalso
      have : x = p - x' := by
        apply eq_of_cast hc.1 (by have := p_pos; omega)
        rw [Nat.cast_sub (by have := hc'.1; rw [p_eq] at this; omega), ZMod.natCast_self, h]; ring
      have := p_odd
      have := hc'.1
      rw [p_eq] at this
      omega

end Pasta.Curve.E25519
