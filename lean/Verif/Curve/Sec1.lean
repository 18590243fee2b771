import Verif.Curve.Encode384
import Verif.Lemmas.Ctr
import Verif.Spec.Pem

/-! # The SEC 1 forms of P-384 points -/

namespace Pasta.Curve.E384

open Pasta.Real.P384 (p b)
open Pasta.Real
open Pasta.Curve.E25519 (fit_of_length)
open Spec.Pem (OnCurve Compressed Uncompressed number)

theorem number_eq (s : Bytes) : number s = beNat s := by
  unfold number
  have key : ∀ (n : ℕ) (s : Bytes), s.foldl (fun n c => n * 256 + c.toNat) n =
      n * 256 ^ s.length + beNat s := by
    intro n s
    induction s generalizing n with
    | nil => simp [beNat, leNat]
    | cons c s ih =>
      rw [List.foldl_cons, ih, show c :: s = [c] ++ s from rfl, beNat_append]
      simp only [List.length_append, List.length_cons, List.length_nil, beNat, List.reverse_cons,
        List.reverse_nil, List.nil_append, leNat]
      ring
  simpa using key 0 s

theorem spec_p : Spec.Pem.p = p := by decide +kernel

theorem spec_b : Spec.Pem.b = b := rfl

theorem onCurve_iff (x y : ℕ) : OnCurve x y ↔
    x < p ∧ y < p ∧ (y : F) ^ 2 = (x : F) ^ 3 - 3 * x + b := by
  unfold OnCurve
  rw [spec_p, spec_b]
  refine and_congr_right fun _ => and_congr_right fun _ => ?_
  have := ZMod.natCast_eq_natCast_iff' (y ^ 2 + 3 * x) (x ^ 3 + b) p
  rw [← this]
  push_cast
  constructor
  · intro h; linear_combination h
  · intro h; linear_combination h

theorem onCurve_val {x y : ℕ} (h : OnCurve x y) : ∃ X Y : F, Y ^ 2 = X ^ 3 - 3 * X + b ∧
    x = X.val ∧ y = Y.val := by
  obtain ⟨h1, h2, h3⟩ := (onCurve_iff x y).1 h
  exact ⟨x, y, h3, (ZMod.val_cast_of_lt h1).symm, (ZMod.val_cast_of_lt h2).symm⟩

theorem val_onCurve {X Y : F} (h : Y ^ 2 = X ^ 3 - 3 * X + b) : OnCurve X.val Y.val := by
  rw [onCurve_iff]
  exact ⟨ZMod.val_lt _, ZMod.val_lt _, by rw [ZMod.natCast_zmod_val, ZMod.natCast_zmod_val]; exact h⟩

theorem bytes_of_number {t : Bytes} {x : ℕ} (h : t.length = 48) (hx : number t = x) :
    t = beBytes 48 x := by
  rw [number_eq] at hx
  have := beBytes_beNat t
  rw [h, hx] at this
  exact this.symm

theorem number_of_val (X : F) : number (beBytes 48 X.val) = X.val := by
  rw [number_eq, beNat_beBytes, Nat.mod_eq_of_lt ((ZMod.val_lt X).trans p_lt)]

theorem compressed_iff (X Y : F) (s : Bytes) : Compressed X.val Y.val s ↔ s = (enc X Y).1 := by
  rw [enc_val]
  unfold Compressed P384.compressXY
  have ht : UInt8.ofNat (2 + Y.val % 2) = (if (Y.val % 2 == 1) = true then 3 else 2) := by
    rcases Nat.mod_two_eq_zero_or_one Y.val with e | e <;> rw [e] <;> decide
  rw [ht]
  constructor
  · rintro ⟨t, rfl, h1, h2⟩
    rw [bytes_of_number h1 h2]
  · rintro rfl
    exact ⟨_, rfl, beBytes_length _ _, number_of_val X⟩

theorem uncompressed_iff (X Y : F) (s : Bytes) : Uncompressed X.val Y.val s ↔
    s = 4 :: (beBytes 48 X.val ++ beBytes 48 Y.val) := by
  unfold Uncompressed
  constructor
  · rintro ⟨t, u, rfl, h1, h2, h3, h4⟩
    rw [bytes_of_number h1 h3, bytes_of_number h2 h4]
  · rintro rfl
    exact ⟨_, _, rfl, beBytes_length _ _, beBytes_length _ _, number_of_val X, number_of_val Y⟩

/-- Every public key is the compressed form of a point. -/
theorem key_point (k : P384Key) : ∃ X Y : F, Y ^ 2 = X ^ 3 - 3 * X + b ∧ k.1 = enc X Y ∧
    xy k = (X.val, Y.val) := by
  have hk := k.2
  unfold p384Ok at hk
  rw [Bool.and_eq_true] at hk
  obtain ⟨h1, h2⟩ := hk
  obtain ⟨q, hq⟩ := Option.isSome_iff_exists.1 h2
  obtain ⟨X, Y, h3, rfl, _, h5⟩ := decode_sound k.1.2 hq
  have h6 : k.1.1 = (enc X Y).1 := by
    rcases h5 with h5 | h5
    · exact h5
    · rw [h5] at h1; simp at h1
  refine ⟨X, Y, h3, Subtype.ext h6, ?_⟩
  unfold xy
  rw [hq]
  rfl

theorem enc_inj {X Y X' Y' : F} (h : Y ^ 2 = X ^ 3 - 3 * X + b) (h' : Y' ^ 2 = X' ^ 3 - 3 * X' + b)
    (e : (enc X Y).1 = (enc X' Y').1) : X = X' ∧ Y = Y' := by
  have h1 := decode_enc h
  rw [e, decode_enc h'] at h1
  simp only [Option.some.injEq, Prod.mk.injEq] at h1
  exact ⟨(ZMod.val_injective p h1.1).symm, (ZMod.val_injective p h1.2).symm⟩

/-- The uncompressed form of a key is that of its point. -/
theorem uncompressed_key (k : P384Key) (s : Bytes) :
    s = (prims.p384Uncompressed k).1 ↔
      ∃ x y, OnCurve x y ∧ Compressed x y k.1.1 ∧ Uncompressed x y s := by
  obtain ⟨X, Y, h, hk, hxy⟩ := key_point k
  have e : (prims.p384Uncompressed k).1 = 4 :: (beBytes 48 X.val ++ beBytes 48 Y.val) := by
    show (fit 97 _).1 = _
    rw [hxy, fit_of_length (by simp [beBytes_length])]
  rw [e]
  constructor
  · intro hs
    exact ⟨X.val, Y.val, val_onCurve h, (compressed_iff X Y _).2 (by rw [hk]), (uncompressed_iff X Y _).2 hs⟩
  · rintro ⟨x, y, h1, h2, h3⟩
    obtain ⟨X', Y', h', rfl, rfl⟩ := onCurve_val h1
    rw [compressed_iff, hk] at h2
    obtain ⟨rfl, rfl⟩ := enc_inj h h' h2
    exact (uncompressed_iff _ _ _).1 h3

theorem parse_of_decode {s : Bytes} {X Y : F} (h : Y ^ 2 = X ^ 3 - 3 * X + b)
    (hd : P384.decode s = some (X.val, Y.val)) : p384Parse s = some ⟨enc X Y, enc_ok h⟩ := by
  unfold p384Parse
  rw [hd]
  exact p384Key_of (enc_ok h)

/-- Which bytes are read as which key: the compressed and the uncompressed form of its point, and, if
`y` is even, the compact form (`5`, then `x`). -/
theorem parse_iff (s : Bytes) (k : P384Key) : p384Parse s = some k ↔
    ∃ x y, OnCurve x y ∧ Compressed x y k.1.1 ∧
      (Compressed x y s ∨ Uncompressed x y s ∨
        (y % 2 = 0 ∧ ∃ t, s = 5 :: t ∧ t.length = 48 ∧ number t = x)) := by
  constructor
  · intro h
    unfold p384Parse at h
    obtain ⟨q, hq, hk⟩ := Option.bind_eq_some_iff.1 h
    have hk : k.1 = fit 49 (P384.compressXY q.1 q.2) := p384Key_val hk
    -- it is enough to find the point
    have fin : ∀ X Y : F, Y ^ 2 = X ^ 3 - 3 * X + b → q = (X.val, Y.val) →
        (Compressed X.val Y.val s ∨ Uncompressed X.val Y.val s ∨
          (Y.val % 2 = 0 ∧ ∃ t, s = 5 :: t ∧ t.length = 48 ∧ number t = X.val)) →
        ∃ x y, OnCurve x y ∧ Compressed x y k.1.1 ∧
          (Compressed x y s ∨ Uncompressed x y s ∨
            (y % 2 = 0 ∧ ∃ t, s = 5 :: t ∧ t.length = 48 ∧ number t = x)) := by
      rintro X Y h1 rfl h2
      exact ⟨X.val, Y.val, val_onCurve h1, (compressed_iff X Y _).2 (by rw [hk]; rfl), h2⟩
    cases s with
    | nil => simp [P384.decode] at hq
    | cons tag rest =>
      unfold P384.decode at hq
      simp only at hq
      split at hq
      · rename_i ht
        simp only [Bool.and_eq_true, beq_iff_eq] at ht
        obtain ⟨X, Y, h1, h2, h3, h4⟩ := decompress_sound (by omega) hq
        refine fin X Y h1 h3 (.inl ⟨rest, ?_, ht.2, ?_⟩)
        · rw [h4, ht.1]; rfl
        · rw [number_eq, h2]
      split at hq
      · rename_i ht
        simp only [Bool.and_eq_true, beq_iff_eq] at ht
        obtain ⟨X, Y, h1, h2, h3, h4⟩ := decompress_sound (by omega) hq
        refine fin X Y h1 h3 (.inl ⟨rest, ?_, ht.2, ?_⟩)
        · rw [h4, ht.1]; rfl
        · rw [number_eq, h2]
      split at hq
      · rename_i ht
        simp only [Bool.and_eq_true, beq_iff_eq] at ht
        obtain ⟨X, Y, h1, h2, h3, h4⟩ := decompress_sound (by omega) hq
        exact fin X Y h1 h3 (.inr (.inr ⟨h4, rest, by rw [ht.1], ht.2, by rw [number_eq, h2]⟩))
      split at hq
      · rename_i ht
        simp only [Bool.and_eq_true, beq_iff_eq] at ht
        split at hq
        · rename_i hc
          simp only [Bool.and_eq_true, beq_iff_eq, decide_eq_true_eq] at hc
          obtain ⟨⟨hx, hy⟩, he⟩ := hc
          have on : ((beNat (rest.drop 48) : ℕ) : F) ^ 2 = ((beNat (rest.take 48) : ℕ) : F) ^ 3 -
              3 * ((beNat (rest.take 48) : ℕ) : F) + b := by
            rw [← cast_rhs, ← he, cast_mul, sq]
          simp only [Option.some.injEq] at hq
          refine fin _ _ on ?_ (.inr (.inl ?_))
          · rw [ZMod.val_cast_of_lt hx, ZMod.val_cast_of_lt hy, hq]
          · rw [ZMod.val_cast_of_lt hx, ZMod.val_cast_of_lt hy]
            refine ⟨rest.take 48, rest.drop 48, ?_, ?_, ?_, number_eq _, number_eq _⟩
            · rw [ht.1, List.take_append_drop]
            · rw [List.length_take, ht.2]; rfl
            · rw [List.length_drop, ht.2]
        · simp at hq
      · simp at hq
  · rintro ⟨x, y, h1, h2, h3⟩
    obtain ⟨X, Y, h, rfl, rfl⟩ := onCurve_val h1
    rw [compressed_iff] at h2
    have hk : k = ⟨enc X Y, enc_ok h⟩ := Subtype.ext (Subtype.ext h2)
    rw [hk]
    apply parse_of_decode h
    have hX : beNat (beBytes 48 X.val) = X.val := by rw [← number_eq, number_of_val]
    have hY : beNat (beBytes 48 Y.val) = Y.val := by rw [← number_eq, number_of_val]
    rcases h3 with h3 | h3 | ⟨h3, t, rfl, h4, h5⟩
    · rw [compressed_iff] at h3
      rw [h3]
      exact decode_enc h
    · rw [uncompressed_iff] at h3
      subst h3
      unfold P384.decode
      have l : (beBytes 48 X.val).length = 48 := beBytes_length _ _
      have e : (P384.mul Y.val Y.val == P384.rhs X.val) = true := by
        rw [beq_iff_eq]
        apply eq_of_cast (mul_lt _ _) (rhs_lt _)
        rw [cast_rhs, cast_mul, ZMod.natCast_zmod_val, ZMod.natCast_zmod_val, ← h, sq]
      have hxl : X.val < p := ZMod.val_lt _
      have hyl : Y.val < p := ZMod.val_lt _
      simp [List.take_left' l, List.drop_left' l, hX, hY, hxl, hyl, e, beBytes_length]
    · have := decompress_complete h
      rw [h3, ← h5, number_eq] at this
      unfold P384.decode
      simp [h4, this]
      rw [← h5, number_eq]

end Pasta.Curve.E384
