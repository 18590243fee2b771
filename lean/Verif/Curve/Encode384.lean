import Verif.Curve.NoRoot384
import Verif.Curve.Points384
import Verif.Curve.Points25519
import Verif.Real.Prims

/-!
# Encoding and decoding P-384 points
-/

namespace Pasta.Curve.E384

open Pasta.Real (powMod fit)
open Pasta.Real.P384 (p b)
open Pasta.Real
open Pasta.Curve.E25519 (fit_of_length)

theorem beBytes_length (k n : ℕ) : (beBytes k n).length = k := by
  unfold beBytes
  rw [List.length_reverse, leBytes_length]

theorem affine_zero {P : P384.Pt} (h : Rep P 0) : P.affine = none := by
  have hz : P.z = 0 := h.coords
  unfold P384.Pt.affine
  rw [if_pos hz]

theorem affine_some {P : P384.Pt} {x y : F} {hn : W.Nonsingular x y} (h : Rep P (.some x y hn)) :
    P.affine = some (x.val, y.val) := by
  obtain ⟨hz, hx, hy⟩ : (P.z : F) ≠ 0 ∧ (P.x : F) = x * P.z ^ 2 ∧ (P.y : F) = y * P.z ^ 3 := h.coords
  have hz0 : P.z ≠ 0 := fun e => hz (by rw [e, Nat.cast_zero])
  unfold P384.Pt.affine
  rw [if_neg hz0]
  simp only [Option.some.injEq, Prod.mk.injEq]
  constructor
  · apply eq_of_cast (mul_lt _ _) (ZMod.val_lt _)
    rw [cast_mul, cast_mul, cast_inv, ZMod.natCast_zmod_val, hx]
    field_simp
  · apply eq_of_cast (mul_lt _ _) (ZMod.val_lt _)
    rw [cast_mul, cast_mul, cast_mul, cast_inv, ZMod.natCast_zmod_val, hy]
    field_simp

theorem affine_congr {P Q : P384.Pt} {g : G} (hP : Rep P g) (hQ : Rep Q g) : P.affine = Q.affine := by
  rcases g with _ | ⟨x, y, hn⟩
  · exact (affine_zero hP).trans (affine_zero hQ).symm
  · exact (affine_some hP).trans (affine_some hQ).symm

/-- An affine point as Jacobian coordinates. -/
theorem rep_affine {x y : F} (hn : W.Nonsingular x y) : Rep ⟨x.val, y.val, 1⟩ (.some x y hn) := by
  refine ⟨ZMod.val_lt x, ZMod.val_lt y, one_lt_p, ?_, ?_, ?_⟩
  · show ((1 : ℕ) : F) ≠ 0
    rw [Nat.cast_one]; exact one_ne_zero
  · show ((x.val : ℕ) : F) = x * ((1 : ℕ) : F) ^ 2
    rw [ZMod.natCast_zmod_val, Nat.cast_one, one_pow, mul_one]
  · show ((y.val : ℕ) : F) = y * ((1 : ℕ) : F) ^ 3
    rw [ZMod.natCast_zmod_val, Nat.cast_one, one_pow, mul_one]

theorem cast_rhs (x : ℕ) : ((P384.rhs x : ℕ) : F) = (x : F) ^ 3 - 3 * x + b := by
  unfold P384.rhs
  rw [cast_add, cast_sub _ (mul_lt _ _).le, cast_mul, cast_mul, cast_mul]
  push_cast; ring

theorem rhs_lt (x : ℕ) : P384.rhs x < p := add_lt _ _

/-- Square roots are found. -/
theorem sqrt_complete {a : ℕ} {r : F} (h : (a : F) = r ^ 2) : ∃ y, P384.sqrt a = some y ∧ y < p ∧
    (y : F) ^ 2 = r ^ 2 := by
  have hy : ((powMod p a ((p + 1) / 4) : ℕ) : F) ^ 2 = r ^ 2 := by
    rw [cast_powMod, h]
    by_cases h0 : r = 0
    · subst h0
      have : 0 < (p + 1) / 4 := by have := p_mod4; omega
      rw [zero_pow two_ne_zero, zero_pow this.ne', zero_pow two_ne_zero]
    · have hp4 := p_mod4
      obtain ⟨q, hq⟩ : ∃ q, q = (p + 1) / 4 := ⟨_, rfl⟩
      have hq1 : 4 * q = (p - 1) + 2 := by rw [hq]; omega
      rw [← hq, ← pow_mul, ← pow_mul, show 2 * (q * 2) = 4 * q by ring, hq1, pow_add, fermat h0,
        one_mul]
  have hlt : powMod p a ((p + 1) / 4) < p := powMod_lt _ _
  unfold P384.sqrt
  generalize powMod p a ((p + 1) / 4) = y at hy hlt
  refine ⟨y, ?_, hlt, hy⟩
  have : P384.mul y y = a % p := by
    apply eq_of_cast (mul_lt _ _) (Nat.mod_lt _ p_pos)
    rw [cast_mul, ZMod.natCast_mod, h, ← hy]; ring
  simp only [this, beq_self_eq_true, if_true]

theorem sqrt_sound {a y : ℕ} (h : P384.sqrt a = some y) : y < p ∧ (y : F) ^ 2 = a := by
  have hlt : powMod p a ((p + 1) / 4) < p := powMod_lt _ _
  unfold P384.sqrt at h
  generalize powMod p a ((p + 1) / 4) = w at h hlt
  simp only [beq_iff_eq] at h
  split at h
  · rename_i hw
    cases h
    refine ⟨hlt, ?_⟩
    have := congrArg (Nat.cast (R := F)) hw
    rw [cast_mul, ZMod.natCast_mod] at this
    rw [pow_two, this]
  · cases h

/-- Choosing the sign. -/
theorem pick {x : ℕ} (hx : x < p) (g : F) (h : (x : F) ^ 2 = g ^ 2) :
    (if x % 2 == g.val % 2 then x else P384.sub 0 x) = g.val := by
  have hg : g.val < p := ZMod.val_lt _
  rcases sq_eq_sq_iff_eq_or_eq_neg.1 h with h | h
  · have : x = g.val := eq_of_cast hx hg (by rw [ZMod.natCast_zmod_val]; exact h)
    rw [this]; simp
  · by_cases h0 : g = 0
    · subst h0
      have : x = 0 := eq_of_cast hx p_pos (by rw [h]; simp)
      rw [this]; simp
    · have hv : g.val ≠ 0 := by rwa [Ne, ZMod.val_eq_zero]
      have h1 : x = p - g.val := by
        apply eq_of_cast hx (by omega)
        rw [Nat.cast_sub hg.le, ZMod.natCast_self, ZMod.natCast_zmod_val, h]; ring
      have h2 : (x % 2 == g.val % 2) = false := by
        have := p_odd
        simp only [beq_eq_false_iff_ne]
        omega
      rw [h2]
      simp only [Bool.false_eq_true, if_false]
      apply eq_of_cast (sub_lt _ _) hg
      rw [cast_sub _ hx.le, h, ZMod.natCast_zmod_val]; simp

theorem decompress_complete {x y : F} (h : y ^ 2 = x ^ 3 - 3 * x + b) :
    P384.decompress x.val (y.val % 2) = some (x.val, y.val) := by
  have hx : x.val < p := ZMod.val_lt _
  obtain ⟨w, hw, wlt, hw2⟩ := sqrt_complete (a := P384.rhs x.val) (r := y)
    (by rw [cast_rhs, ZMod.natCast_zmod_val, h])
  unfold P384.decompress
  rw [if_neg (Nat.not_le.2 hx), hw, Option.map_some, pick wlt y hw2]

theorem decompress_sound {x par : ℕ} {q : ℕ × ℕ} (hpar : par < 2)
    (h : P384.decompress x par = some q) : ∃ X Y : F, Y ^ 2 = X ^ 3 - 3 * X + b ∧ x = X.val ∧
      q = (X.val, Y.val) ∧ Y.val % 2 = par := by
  unfold P384.decompress at h
  split at h
  · cases h
  · rename_i hx
    have hx : x < p := Nat.not_le.1 hx
    obtain ⟨w, hw, rfl⟩ := Option.map_eq_some_iff.1 h
    obtain ⟨wlt, hw2⟩ := sqrt_sound hw
    rw [cast_rhs] at hw2
    have w0 : w ≠ 0 := by
      rintro rfl
      apply no_root (x : F)
      rw [← hw2, Nat.cast_zero, zero_pow two_ne_zero]
    refine ⟨(x : F), ((if w % 2 == par then w else P384.sub 0 w : ℕ) : F), ?_,
      (ZMod.val_cast_of_lt hx).symm, ?_, ?_⟩
    · rw [← hw2]
      split
      · rfl
      · rw [cast_sub _ wlt.le]; push_cast; ring
    · rw [ZMod.val_cast_of_lt hx, ZMod.val_cast_of_lt]
      split
      · exact wlt
      · exact sub_lt _ _
    · rw [ZMod.val_cast_of_lt (by split; exacts [wlt, sub_lt _ _])]
      split
      · rename_i hp; simpa using hp
      · rename_i hp
        have hp : w % 2 ≠ par := by simpa using hp
        have : P384.sub 0 w = p - w := by
          unfold P384.sub
          rw [Nat.zero_add, Nat.mod_eq_of_lt (by omega)]
        rw [this]
        have := p_odd
        omega

/-- The bytes of a compressed point. -/
theorem compressXY_length (x y : ℕ) : (P384.compressXY x y).length = 49 := by
  unfold P384.compressXY
  rw [List.length_cons, beBytes_length]

def enc (x y : F) : BytesN 49 := fit 49 (P384.compressXY x.val y.val)

theorem enc_val (x y : F) : (enc x y).1 = P384.compressXY x.val y.val :=
  fit_of_length (compressXY_length _ _)

theorem decode_enc {x y : F} (h : y ^ 2 = x ^ 3 - 3 * x + b) :
    P384.decode (enc x y).1 = some (x.val, y.val) := by
  rw [enc_val]
  have hx : x.val < 256 ^ 48 := (ZMod.val_lt x).trans p_lt
  have h1 : beNat (beBytes 48 x.val) = x.val := by rw [beNat_beBytes, Nat.mod_eq_of_lt hx]
  have hd := decompress_complete h
  unfold P384.compressXY P384.decode
  rcases Nat.mod_two_eq_zero_or_one y.val with e | e <;> rw [e] at hd ⊢ <;>
    simp [beBytes_length, h1, hd]

theorem head_enc (x y : F) : (enc x y).1.head? = some (if y.val % 2 = 1 then 3 else 2) := by
  rw [enc_val]; simp [P384.compressXY]

theorem tail_enc (x y : F) : (enc x y).1.tail = beBytes 48 x.val := by
  rw [enc_val]; simp [P384.compressXY]

theorem enc_ok {x y : F} (h : y ^ 2 = x ^ 3 - 3 * x + b) : p384Ok (enc x y) = true := by
  unfold p384Ok
  rw [decode_enc h, head_enc]
  rcases Nat.mod_two_eq_zero_or_one y.val with e | e <;> simp [e]

/-- What decodes from 49 bytes. -/
theorem decode_sound {s : Bytes} (hs : s.length = 49) {q : ℕ × ℕ} (h : P384.decode s = some q) :
    ∃ X Y : F, Y ^ 2 = X ^ 3 - 3 * X + b ∧ q = (X.val, Y.val) ∧ s.tail = (enc X Y).1.tail ∧
      (s = (enc X Y).1 ∨ s.head? = some 5) := by
  cases s with
  | nil => simp at hs
  | cons tag rest =>
    have hr : rest.length = 48 := by simpa using hs
    have hb := beBytes_beNat rest
    rw [hr] at hb
    have key : ∀ par < 2, P384.decompress (beNat rest) par = some q →
        ∃ X Y : F, Y ^ 2 = X ^ 3 - 3 * X + b ∧ q = (X.val, Y.val) ∧ rest = (enc X Y).1.tail ∧
          (enc X Y).1 = (if par = 1 then 3 else 2) :: rest := by
      intro par hpar h
      obtain ⟨X, Y, h1, h2, h3, h4⟩ := decompress_sound hpar h
      have ht : rest = (enc X Y).1.tail := by rw [tail_enc, ← h2, hb]
      refine ⟨X, Y, h1, h3, ht, ?_⟩
      rw [enc_val]
      unfold P384.compressXY
      rw [← h2, hb, h4]
      rcases (show par = 0 ∨ par = 1 by omega) with rfl | rfl <;> simp
    unfold P384.decode at h
    simp only [hr, beq_self_eq_true, Bool.and_true] at h
    split at h
    · rename_i ht
      obtain ⟨X, Y, h1, h2, h3, h4⟩ := key 0 (by omega) h
      exact ⟨X, Y, h1, h2, h3, .inl (by rw [h4, eq_of_beq ht]; rfl)⟩
    split at h
    · rename_i ht
      obtain ⟨X, Y, h1, h2, h3, h4⟩ := key 1 (by omega) h
      exact ⟨X, Y, h1, h2, h3, .inl (by rw [h4, eq_of_beq ht]; rfl)⟩
    split at h
    · rename_i ht
      obtain ⟨X, Y, h1, h2, h3, h4⟩ := key 0 (by omega) h
      exact ⟨X, Y, h1, h2, h3, .inr (by rw [eq_of_beq ht]; rfl)⟩
    · simp at h

theorem p384Key_of {s : BytesN 49} (h : p384Ok s = true) : p384Key s = some ⟨s, h⟩ := by
  unfold p384Key
  rw [dif_pos h]

theorem p384Key_val {s : BytesN 49} {k : P384Key} (h : p384Key s = some k) : k.1 = s := by
  unfold p384Key at h
  split at h
  · cases h; rfl
  · cases h

theorem parse_compress (k : P384Key) : p384Parse k.1.1 = some k := by
  have hk := k.2
  unfold p384Ok at hk
  rw [Bool.and_eq_true] at hk
  obtain ⟨h1, h2⟩ := hk
  obtain ⟨q, hq⟩ := Option.isSome_iff_exists.1 h2
  obtain ⟨X, Y, h3, rfl, _, h5⟩ := decode_sound k.1.2 hq
  have h6 : k.1.1 = (enc X Y).1 := by
    rcases h5 with h5 | h5
    · exact h5
    · rw [h5] at h1; simp at h1
  have h7 : k.1 = enc X Y := Subtype.ext h6
  unfold p384Parse
  rw [hq]
  show p384Key (enc X Y) = some k
  rw [← h7]
  exact p384Key_of k.2

theorem parse_form (s : Bytes) (k : P384Key) (hs : s.length = 49) (h : p384Parse s = some k) :
    k.1.1 = s ∨ (s.head? = some 5 ∧ k.1.1.tail = s.tail) := by
  unfold p384Parse at h
  obtain ⟨q, hq, hk⟩ := Option.bind_eq_some_iff.1 h
  obtain ⟨X, Y, h3, rfl, h4, h5⟩ := decode_sound hs hq
  have hk : k.1 = enc X Y := p384Key_val hk
  rw [hk]
  rcases h5 with h5 | h5
  · exact .inl h5.symm
  · exact .inr ⟨h5, h4.symm⟩

theorem compress_tag (k : P384Key) : k.1.1.head? = some 2 ∨ k.1.1.head? = some 3 := by
  have hk := k.2
  unfold p384Ok at hk
  rw [Bool.and_eq_true, Bool.or_eq_true, beq_iff_eq, beq_iff_eq] at hk
  exact hk.1

end Pasta.Curve.E384
