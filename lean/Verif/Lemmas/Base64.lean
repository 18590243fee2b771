import Verif.Model.Base64
import Verif.Spec.Base64

/-! # Lemmas about base64 -/

namespace Pasta.B64

open Spec

theorem forall_uint8 {p : UInt8 → Prop} (h : ∀ i : Fin 256, p (UInt8.ofFin i)) (x : UInt8) : p x := by
  have := h x.toFin
  simpa using this

theorem enc6_alphabet : ∀ x : UInt8, x.toNat < 64 → alphabet[x.toNat]?.getD 0 = enc6 x := by
  apply forall_uint8; decide +kernel

theorem dec6_enc6 : ∀ x : UInt8, x.toNat < 64 → dec6 (enc6 x) = some x := by
  apply forall_uint8; decide +kernel

theorem enc6_dec6 : ∀ c : UInt8, ∀ x ∈ dec6 c, x.toNat < 64 ∧ enc6 x = c := by
  apply forall_uint8; decide +kernel

theorem dec6_A : dec6 65 = some 0 := by decide

theorem enc6_ne_dot : ∀ x : UInt8, enc6 x ≠ dot := by
  apply forall_uint8; decide +kernel

/-! ### Bit arithmetic -/

theorem toNat_e0 (a : UInt8) : (a >>> 2).toNat = a.toNat / 4 := by
  simp [UInt8.toNat_shiftRight, Nat.shiftRight_eq_div_pow]

theorem toNat_e1 (a b : UInt8) :
    (((a <<< 4) ||| (b >>> 4)) &&& 63).toNat = a.toNat % 4 * 16 + b.toNat / 16 := by
  have hb : b.toNat < 256 := b.toNat_lt
  have h1 : b.toNat / 16 < 2 ^ 4 := by omega
  have h2 : a.toNat <<< 4 % 256 = 2 ^ 4 * (a.toNat % 16) := by
    rw [Nat.shiftLeft_eq]; omega
  have h3 : (63 : Nat) = 2 ^ 6 - 1 := rfl
  simp only [UInt8.toNat_and, UInt8.toNat_or, UInt8.toNat_shiftLeft, UInt8.toNat_shiftRight,
    UInt8.toNat_ofNat, Nat.shiftRight_eq_div_pow]
  show (a.toNat <<< 4 % 256 ||| b.toNat / 16) &&& 63 = _
  rw [h2, ← Nat.two_pow_add_eq_or_of_lt h1, h3, Nat.and_two_pow_sub_one_eq_mod]
  omega

theorem toNat_e2 (a b : UInt8) :
    (((a <<< 2) ||| (b >>> 6)) &&& 63).toNat = a.toNat % 16 * 4 + b.toNat / 64 := by
  have hb : b.toNat < 256 := b.toNat_lt
  have h1 : b.toNat / 64 < 2 ^ 2 := by omega
  have h2 : a.toNat <<< 2 % 256 = 2 ^ 2 * (a.toNat % 64) := by
    rw [Nat.shiftLeft_eq]; omega
  have h3 : (63 : Nat) = 2 ^ 6 - 1 := rfl
  simp only [UInt8.toNat_and, UInt8.toNat_or, UInt8.toNat_shiftLeft, UInt8.toNat_shiftRight,
    UInt8.toNat_ofNat, Nat.shiftRight_eq_div_pow]
  show (a.toNat <<< 2 % 256 ||| b.toNat / 64) &&& 63 = _
  rw [h2, ← Nat.two_pow_add_eq_or_of_lt h1, h3, Nat.and_two_pow_sub_one_eq_mod]
  omega

theorem toNat_e3 (a : UInt8) : (a &&& 63).toNat = a.toNat % 64 := by
  have h3 : (63 : Nat) = 2 ^ 6 - 1 := rfl
  simp only [UInt8.toNat_and, UInt8.toNat_ofNat]
  show a.toNat &&& 63 = _
  rw [h3, Nat.and_two_pow_sub_one_eq_mod]

theorem toNat_d0 (a b : UInt8) (ha : a.toNat < 64) (hb : b.toNat < 64) :
    ((a <<< 2) ||| (b >>> 4)).toNat = a.toNat * 4 + b.toNat / 16 := by
  have h1 : b.toNat / 16 < 2 ^ 2 := by omega
  have h2 : a.toNat <<< 2 % 256 = 2 ^ 2 * a.toNat := by
    rw [Nat.shiftLeft_eq]; omega
  simp only [UInt8.toNat_or, UInt8.toNat_shiftLeft, UInt8.toNat_shiftRight,
    UInt8.toNat_ofNat, Nat.shiftRight_eq_div_pow]
  show (a.toNat <<< 2 % 256 ||| b.toNat / 16) = _
  rw [h2, ← Nat.two_pow_add_eq_or_of_lt h1]
  omega

theorem toNat_d1 (a b : UInt8) (hb : b.toNat < 64) :
    ((a <<< 4) ||| (b >>> 2)).toNat = a.toNat % 16 * 16 + b.toNat / 4 := by
  have h1 : b.toNat / 4 < 2 ^ 4 := by omega
  have h2 : a.toNat <<< 4 % 256 = 2 ^ 4 * (a.toNat % 16) := by
    rw [Nat.shiftLeft_eq]; omega
  simp only [UInt8.toNat_or, UInt8.toNat_shiftLeft, UInt8.toNat_shiftRight,
    UInt8.toNat_ofNat, Nat.shiftRight_eq_div_pow]
  show (a.toNat <<< 4 % 256 ||| b.toNat / 4) = _
  rw [h2, ← Nat.two_pow_add_eq_or_of_lt h1]
  omega

theorem toNat_d2 (a b : UInt8) (hb : b.toNat < 64) :
    ((a <<< 6) ||| b).toNat = a.toNat % 4 * 64 + b.toNat := by
  have h1 : b.toNat < 2 ^ 6 := by omega
  have h2 : a.toNat <<< 6 % 256 = 2 ^ 6 * (a.toNat % 4) := by
    rw [Nat.shiftLeft_eq]; omega
  simp only [UInt8.toNat_or, UInt8.toNat_shiftLeft, UInt8.toNat_ofNat]
  show (a.toNat <<< 6 % 256 ||| b.toNat) = _
  rw [h2, ← Nat.two_pow_add_eq_or_of_lt h1]
  omega

/-! ### One block -/

theorem decode3_encode3 (a b c : UInt8) :
    decode3 (enc6 (a >>> 2)) (enc6 (((a <<< 4) ||| (b >>> 4)) &&& 63))
      (enc6 (((b <<< 2) ||| (c >>> 6)) &&& 63)) (enc6 (c &&& 63)) = some [a, b, c] := by
  have ha := a.toNat_lt; have hb := b.toNat_lt; have hc := c.toNat_lt
  have e0 := toNat_e0 a; have e1 := toNat_e1 a b; have e2 := toNat_e2 b c; have e3 := toNat_e3 c
  unfold decode3
  rw [dec6_enc6 _ (by omega), dec6_enc6 _ (by omega), dec6_enc6 _ (by omega), dec6_enc6 _ (by omega)]
  simp only [Option.some.injEq, List.cons.injEq, and_true]
  refine ⟨?_, ?_, ?_⟩ <;> apply UInt8.toNat_inj.1
  · rw [toNat_d0 _ _ (by omega) (by omega)]; omega
  · rw [toNat_d1 _ _ (by omega)]; omega
  · rw [toNat_d2 _ _ (by omega)]; omega

theorem encode3_eq (b0 b1 b2 : UInt8) : encode3 b0 b1 b2 =
    [enc6 (b0 >>> 2), enc6 (((b0 <<< 4) ||| (b1 >>> 4)) &&& 63),
     enc6 (((b1 <<< 2) ||| (b2 >>> 6)) &&& 63), enc6 (b2 &&& 63)] := rfl

/-- Decoding a block and encoding it again gives the block back. -/
theorem encode3_decode3 {s0 s1 s2 s3 : UInt8} {d : Bytes} (h : decode3 s0 s1 s2 s3 = some d) :
    ∃ a b c, d = [a, b, c] ∧ encode3 a b c = [s0, s1, s2, s3] := by
  unfold decode3 at h
  split at h
  case h_2 => simp at h
  case h_1 c0 c1 c2 c3 h0 h1 h2 h3 =>
    obtain ⟨l0, g0⟩ := enc6_dec6 s0 c0 h0
    obtain ⟨l1, g1⟩ := enc6_dec6 s1 c1 h1
    obtain ⟨l2, g2⟩ := enc6_dec6 s2 c2 h2
    obtain ⟨l3, g3⟩ := enc6_dec6 s3 c3 h3
    simp only [Option.some.injEq] at h
    subst h
    have d0 := toNat_d0 c0 c1 l0 l1
    have d1 := toNat_d1 c1 c2 l2
    have d2 := toNat_d2 c2 c3 l3
    refine ⟨_, _, _, rfl, ?_⟩
    rw [encode3_eq]
    simp only [List.cons.injEq, and_true]
    refine ⟨?_, ?_, ?_, ?_⟩
    · rw [← g0]; congr 1; apply UInt8.toNat_inj.1; rw [toNat_e0]; omega
    · rw [← g1]; congr 1; apply UInt8.toNat_inj.1; rw [toNat_e1]; omega
    · rw [← g2]; congr 1; apply UInt8.toNat_inj.1; rw [toNat_e2]; omega
    · rw [← g3]; congr 1; apply UInt8.toNat_inj.1; rw [toNat_e3]; omega

/-! ### Lengths -/

theorem encode_length (b : Bytes) : (encode b).length = encodedLen b.length := by
  fun_induction encode b with
  | case1 b0 b1 b2 rest ih =>
    simp only [List.length_append, ih, encode3, List.length_cons, List.length_nil, encodedLen]
    split <;> split <;> omega
  | case2 => simp [encode3, encodedLen]
  | case3 => simp [encode3, encodedLen]
  | case4 => simp [encodedLen]

theorem decodedLen_encodedLen (n : Nat) : decodedLen (encodedLen n) = n := by
  unfold decodedLen encodedLen; split <;> omega

/-- No base64 character is a dot. -/
theorem dot_not_mem_encode (b : Bytes) : dot ∉ encode b := by
  have h := fun x => (enc6_ne_dot x).symm
  fun_induction encode b with
  | case1 b0 b1 b2 rest ih => simp [encode3, ih, h]
  | case2 => simp [encode3, h]
  | case3 => simp [encode3, h]
  | case4 => simp

/-! ### Chunk decoding inverts encoding -/

theorem decodeChunks_encode (b : Bytes) : decodeChunks (encode b) = some b := by
  fun_induction encode b with
  | case1 b0 b1 b2 rest ih =>
    simp only [encode3, List.cons_append, List.nil_append, decodeChunks, decode3_encode3, ih]
  | case2 b0 b1 =>
    have := decode3_encode3 b0 b1 0
    rw [show enc6 ((0 : UInt8) &&& 63) = 65 from by decide] at this
    simp only [encode3, List.take, decodeChunks, this, Option.map]
  | case3 b0 =>
    have := decode3_encode3 b0 0 0
    rw [show enc6 ((0 : UInt8) &&& 63) = 65 from by decide,
      show enc6 ((((0 : UInt8) <<< 2) ||| ((0 : UInt8) >>> 6)) &&& 63) = 65 from by decide] at this
    simp only [encode3, List.take, decodeChunks, this, Option.map]
  | case4 => rfl

theorem foldl_or_xor_eq_zero (a b : Bytes) (acc : UInt8) :
    (List.zipWith (fun x y => x ^^^ y) a b).foldl (fun acc d => acc ||| d) acc = 0 ↔
      acc = 0 ∧ ∀ p ∈ List.zip a b, p.1 = p.2 := by
  induction a generalizing b acc with
  | nil => simp
  | cons x xs ih =>
    cases b with
    | nil => simp
    | cons y ys =>
      simp only [List.zipWith_cons_cons, List.foldl_cons, ih, List.zip_cons_cons,
        List.mem_cons, forall_eq_or_imp, UInt8.or_eq_zero_iff, UInt8.xor_eq_zero_iff, and_assoc]

theorem zip_eq_iff (a b : Bytes) (h : a.length = b.length) :
    (∀ p ∈ List.zip a b, p.1 = p.2) ↔ a = b := by
  induction a generalizing b with
  | nil => cases b <;> simp_all
  | cons x xs ih =>
    cases b with
    | nil => simp at h
    | cons y ys =>
      simp only [List.zip_cons_cons, List.mem_cons, forall_eq_or_imp, List.cons.injEq]
      rw [ih ys (by simpa using h)]

theorem foldl_xor_same (a b : Bytes) (h : a.length = b.length) :
    ((List.zipWith (fun x y => x ^^^ y) a b).foldl (fun acc d => acc ||| d) 0 == 0) = true ↔ a = b := by
  rw [beq_iff_eq, foldl_or_xor_eq_zero, zip_eq_iff a b h]
  simp

/-- What chunk decoding yields: the length is right, and re-encoding the last block is a faithful
check of canonicity. -/
theorem decodeChunks_spec (s d : Bytes) (h : decodeChunks s = some d) :
    (s.length % 4 ≠ 1) ∧ d.length = decodedLen s.length ∧
      (validateLastBlock s d = true ↔ s = encode d) := by
  fun_induction decodeChunks s generalizing d with
  | case1 s0 s1 s2 s3 rest d1 r h2 h1 ih =>
    obtain ⟨i1, i2, i3⟩ := ih r h2
    obtain ⟨a, b, c, rfl, he⟩ := encode3_decode3 h1
    simp only [Option.some.injEq] at h
    subst h
    have henc : encode ([a, b, c] ++ r) = [s0, s1, s2, s3] ++ encode r := by
      simp [encode, he]
    refine ⟨by simp only [List.length_cons]; omega, ?_, ?_⟩
    · simp only [List.length_cons, List.length_append, List.length_nil, i2, decodedLen]; omega
    · rw [henc]
      simp only [List.cons_append, List.nil_append, List.cons.injEq, true_and]
      rw [← i3]
      rcases rest with _ | ⟨x, xs⟩
      · simp only [decodeChunks, Option.some.injEq] at h2
        subst h2
        simp [validateLastBlock, lastBlockStart, encode, he]
      · have hr : 0 < r.length := by
          rw [i2]; unfold decodedLen
          simp only [List.length_cons] at i1 ⊢
          omega
        rcases r with _ | ⟨y, ys⟩
        · simp at hr
        · have q1 : lastBlockStart (xs.length + 1 + 1 + 1 + 1 + 1) 4 =
              lastBlockStart (xs.length + 1) 4 + 4 := by simp only [lastBlockStart]; omega
          have q2 : lastBlockStart (ys.length + 1 + 1 + 1 + 1) 3 =
              lastBlockStart (ys.length + 1) 3 + 3 := by simp only [lastBlockStart]; omega
          simp [validateLastBlock, q1, q2]
  | case2 => simp at h
  | case3 s0 s1 s2 =>
    simp only [Option.map_eq_some_iff] at h
    obtain ⟨d1, h1, rfl⟩ := h
    obtain ⟨a, b, c, rfl, he⟩ := encode3_decode3 h1
    refine ⟨by simp, by simp [decodedLen], ?_⟩
    have : (encode [a, b]).length = 3 := by simp [encode_length, encodedLen]
    have := foldl_xor_same (encode [a, b]) [s0, s1, s2] (by simp [this])
    simp only [validateLastBlock, List.take, List.isEmpty_cons, Bool.and_self, lastBlockStart,
      List.length_cons, List.length_nil]
    simp only [Bool.false_eq_true, if_false]
    exact this.trans eq_comm
  | case4 s0 s1 =>
    simp only [Option.map_eq_some_iff] at h
    obtain ⟨d1, h1, rfl⟩ := h
    obtain ⟨a, b, c, rfl, he⟩ := encode3_decode3 h1
    refine ⟨by simp, by simp [decodedLen], ?_⟩
    have : (encode [a]).length = 2 := by simp [encode_length, encodedLen]
    have := foldl_xor_same (encode [a]) [s0, s1] (by simp [this])
    simp only [validateLastBlock, List.take, List.isEmpty_cons, Bool.and_self, lastBlockStart,
      List.length_cons, List.length_nil]
    simp only [Bool.false_eq_true, if_false]
    exact this.trans eq_comm
  | case5 => simp at h
  | case6 =>
    simp only [Option.some.injEq] at h
    subst h
    simp [decodedLen, validateLastBlock, encode]

/-- Decoding into a buffer accepts exactly the canonical encodings that fit. -/
theorem decodeInto_eq_some (cap : Nat) (s d : Bytes) :
    decodeInto cap s = some d ↔ s = encode d ∧ d.length ≤ cap := by
  unfold decodeInto
  constructor
  · intro h
    split at h
    · simp at h
    · rename_i hc
      split at h
      · simp at h
      · rename_i d' hd
        obtain ⟨_, h2, h3⟩ := decodeChunks_spec s d' hd
        split at h
        · simp only [Option.some.injEq] at h
          subst h
          refine ⟨h3.1 (by assumption), by omega⟩
        · simp at h
  · rintro ⟨rfl, hl⟩
    have hd := decodeChunks_encode d
    obtain ⟨_, h2, h3⟩ := decodeChunks_spec _ d hd
    rw [if_neg (by omega), hd]
    simp [h3.2 rfl]

theorem decodeVec_eq_some (s d : Bytes) : decodeVec s = some d ↔ s = encode d := by
  unfold decodeVec
  rw [decodeInto_eq_some]
  constructor
  · exact fun h => h.1
  · intro h
    refine ⟨h, ?_⟩
    rw [h, encode_length, decodedLen_encodedLen]
    exact Nat.le_refl _

theorem decodeVec_encode (b : Bytes) : decodeVec (encode b) = some b :=
  (decodeVec_eq_some _ _).2 rfl

theorem encode_injective {a b : Bytes} (h : encode a = encode b) : a = b := by
  have := decodeVec_encode a
  rw [h, decodeVec_encode] at this
  exact (Option.some.inj this).symm

theorem decodeVec_eq_none (s : Bytes) : decodeVec s = none ↔ ∀ b, s ≠ encode b := by
  constructor
  · rintro h b rfl
    simp [decodeVec_encode] at h
  · intro h
    cases hd : decodeVec s with
    | none => rfl
    | some d => exact absurd ((decodeVec_eq_some _ _).1 hd) (h d)

/-! ### The RFC 4648 specification -/

theorem alphabet_toNat (n : Nat) (x : UInt8) (h : x.toNat = n) (hn : n < 64) :
    alphabet[n]?.getD 0 = enc6 x := by
  rw [← h, enc6_alphabet x (by omega)]

theorem bitsValue_hi2 : ∀ a : UInt8, bitsValue [a.toNat.testBit 1, a.toNat.testBit 0] = a.toNat % 4 := by
  apply forall_uint8; decide +kernel
theorem bitsValue_hi4 : ∀ a : UInt8, bitsValue [a.toNat.testBit 3, a.toNat.testBit 2,
    a.toNat.testBit 1, a.toNat.testBit 0] = a.toNat % 16 := by
  apply forall_uint8; decide +kernel
theorem bitsValue_hi6 : ∀ a : UInt8, bitsValue [a.toNat.testBit 5, a.toNat.testBit 4,
    a.toNat.testBit 3, a.toNat.testBit 2, a.toNat.testBit 1, a.toNat.testBit 0] = a.toNat % 64 := by
  apply forall_uint8; decide +kernel
theorem bitsValue_lo2 : ∀ a : UInt8, bitsValue [a.toNat.testBit 7, a.toNat.testBit 6] =
    a.toNat / 64 := by
  apply forall_uint8; decide +kernel
theorem bitsValue_lo4 : ∀ a : UInt8, bitsValue [a.toNat.testBit 7, a.toNat.testBit 6,
    a.toNat.testBit 5, a.toNat.testBit 4] = a.toNat / 16 := by
  apply forall_uint8; decide +kernel
theorem bitsValue_lo6 : ∀ a : UInt8, bitsValue [a.toNat.testBit 7, a.toNat.testBit 6,
    a.toNat.testBit 5, a.toNat.testBit 4, a.toNat.testBit 3, a.toNat.testBit 2] =
    a.toNat / 4 := by
  apply forall_uint8; decide +kernel

theorem foldl_bits (l : List Bool) (n : Nat) :
    l.foldl (fun n b => 2 * n + b.toNat) n = n * 2 ^ l.length + bitsValue l := by
  induction l generalizing n with
  | nil => simp [bitsValue]
  | cons b l ih =>
    have e : bitsValue (b :: l) = (2 * 0 + b.toNat) * 2 ^ l.length + bitsValue l := by
      rw [← ih]; rfl
    rw [List.foldl_cons, ih, e, List.length_cons, Nat.pow_succ]
    grind

theorem bitsValue_append (a b : List Bool) :
    bitsValue (a ++ b) = bitsValue a * 2 ^ b.length + bitsValue b := by
  rw [bitsValue, List.foldl_append, foldl_bits]
  rfl

theorem encode_eq_spec (b : Bytes) : encode b = base64url b := by
  have k0 : ∀ a : UInt8, alphabet[bitsValue [a.toNat.testBit 7, a.toNat.testBit 6,
      a.toNat.testBit 5, a.toNat.testBit 4, a.toNat.testBit 3, a.toNat.testBit 2]]?.getD 0 =
      enc6 (a >>> 2) := fun a => by
    have := a.toNat_lt
    rw [bitsValue_lo6]; exact alphabet_toNat _ _ (toNat_e0 a) (by omega)
  have k1 : ∀ a b : UInt8, alphabet[bitsValue [a.toNat.testBit 1, a.toNat.testBit 0,
      b.toNat.testBit 7, b.toNat.testBit 6, b.toNat.testBit 5, b.toNat.testBit 4]]?.getD 0 =
      enc6 (((a <<< 4) ||| (b >>> 4)) &&& 63) := fun a b => by
    have := b.toNat_lt
    rw [show [a.toNat.testBit 1, a.toNat.testBit 0,
      b.toNat.testBit 7, b.toNat.testBit 6, b.toNat.testBit 5, b.toNat.testBit 4] =
      [a.toNat.testBit 1, a.toNat.testBit 0] ++ [
      b.toNat.testBit 7, b.toNat.testBit 6, b.toNat.testBit 5, b.toNat.testBit 4] from rfl,
      bitsValue_append, bitsValue_hi2, bitsValue_lo4]
    exact alphabet_toNat _ _ (toNat_e1 a b) (by simp; omega)
  have k2 : ∀ a b : UInt8, alphabet[bitsValue [a.toNat.testBit 3, a.toNat.testBit 2,
      a.toNat.testBit 1, a.toNat.testBit 0, b.toNat.testBit 7, b.toNat.testBit 6]]?.getD 0 =
      enc6 (((a <<< 2) ||| (b >>> 6)) &&& 63) := fun a b => by
    have := b.toNat_lt
    rw [show [a.toNat.testBit 3, a.toNat.testBit 2,
      a.toNat.testBit 1, a.toNat.testBit 0, b.toNat.testBit 7, b.toNat.testBit 6] =
      [a.toNat.testBit 3, a.toNat.testBit 2, a.toNat.testBit 1, a.toNat.testBit 0] ++
      [b.toNat.testBit 7, b.toNat.testBit 6] from rfl,
      bitsValue_append, bitsValue_hi4, bitsValue_lo2]
    exact alphabet_toNat _ _ (toNat_e2 a b) (by simp; omega)
  have k3 : ∀ a : UInt8, alphabet[bitsValue [a.toNat.testBit 5, a.toNat.testBit 4,
      a.toNat.testBit 3, a.toNat.testBit 2, a.toNat.testBit 1, a.toNat.testBit 0]]?.getD 0 =
      enc6 (a &&& 63) := fun a => by
    rw [bitsValue_hi6]; exact alphabet_toNat _ _ (toNat_e3 a) (by omega)
  fun_induction encode b with
  | case1 b0 b1 b2 rest ih =>
    rw [ih]
    simp [base64url, bitsOfByte, sextets, encode3, k0, k1, k2, k3, -Nat.testBit_zero]
  | case2 b0 b1 =>
    have := k2 b1 0
    simp only [show ((0 : UInt8).toNat.testBit 7) = false from rfl,
      show ((0 : UInt8).toNat.testBit 6) = false from rfl] at this
    simp only [base64url, bitsOfByte, sextets, encode3, List.flatMap_cons, List.flatMap_nil,
      List.cons_append, List.nil_append, List.append_nil, List.map_cons, List.map_nil, k0, k1, this,
      List.take]
  | case3 b0 =>
    have := k1 b0 0
    simp only [show ((0 : UInt8).toNat.testBit 7) = false from rfl,
      show ((0 : UInt8).toNat.testBit 6) = false from rfl,
      show ((0 : UInt8).toNat.testBit 5) = false from rfl,
      show ((0 : UInt8).toNat.testBit 4) = false from rfl] at this
    simp only [base64url, bitsOfByte, sextets, encode3, List.flatMap_cons, List.flatMap_nil,
      List.append_nil, List.map_cons, List.map_nil, k0, this,
      List.take]
  | case4 => rfl

end Pasta.B64
