import Verif.Lemmas.Paserk

/-!
# C22, C23, C24: the base64 layer

`Spec.base64url` is RFC 4648 over bit strings (Spec/Base64.lean).
-/

namespace Pasta

open Spec (base64url)

namespace C22

/-- Encoding is RFC 4648 unpadded base64url. -/
theorem encode_is_base64url (b : Bytes) : B64.encode b = base64url b := B64.encode_eq_spec b

/-- Encoding into a buffer writes that text, and fails exactly when it does not fit. -/
theorem encode_into (cap : Nat) (b : Bytes) :
    B64.encodeInto cap b = if (base64url b).length ≤ cap then some (base64url b) else none := by
  rw [base64url_length, ← B64.encode_eq_spec]; rfl

/-- Decoding accepts a text exactly when it is the encoding of some bytes, and returns those. -/
theorem decode_iff (s d : Bytes) : B64.decodeVec s = some d ↔ s = base64url d := by
  rw [B64.decodeVec_eq_some, B64.encode_eq_spec]

/-- The same for decoding into a buffer, which must be large enough. -/
theorem decode_into_iff (cap : Nat) (s d : Bytes) :
    B64.decodeInto cap s = some d ↔ s = base64url d ∧ d.length ≤ cap := decodeInto_eq_some

/-- No two texts decode to the same bytes. -/
theorem canonical {s s' d : Bytes} (h : B64.decodeVec s = some d) (h' : B64.decodeVec s' = some d) :
    s = s' := by
  rw [decode_iff] at h h'
  rw [h, h']

/-- Different bytes have different texts. -/
theorem injective {a b : Bytes} (h : base64url a = base64url b) : a = b :=
  SecuredToken.base64url_inj h

/-- The text has `⌈4n/3⌉` characters. -/
theorem text_length (b : Bytes) : (base64url b).length = (4 * b.length + 2) / 3 := by
  rw [base64url_length]
  unfold B64.encodedLen
  split <;> omega

/-- The number of a character in the RFC's table. -/
def value (c : UInt8) : Nat := Spec.alphabet.idxOf c

theorem dec6_of_mem : ∀ c : UInt8, c ∈ Spec.alphabet → B64.dec6 c = some (UInt8.ofNat (value c)) := by
  apply B64.forall_uint8; decide +kernel

theorem value_lt : ∀ c : UInt8, c ∈ Spec.alphabet → value c < 64 := by
  apply B64.forall_uint8; decide +kernel

theorem enc6_mem : ∀ x : UInt8, x.toNat < 64 → B64.enc6 x ∈ Spec.alphabet ∧ value (B64.enc6 x) = x.toNat := by
  apply B64.forall_uint8; decide +kernel

/-- What base64 texts look like, in terms of characters: only table characters, never one
character over a multiple of four, and the unused low bits of the last character are zero. -/
def WellFormed (s : Bytes) : Prop :=
  (∀ c ∈ s, c ∈ Spec.alphabet) ∧ s.length % 4 ≠ 1 ∧
    (s.length % 4 = 2 → ∀ c, s.getLast? = some c → value c % 16 = 0) ∧
    (s.length % 4 = 3 → ∀ c, s.getLast? = some c → value c % 4 = 0)

theorem getLast?_append' (a : Bytes) {b : Bytes} (h : b ≠ []) :
    (a ++ b).getLast? = b.getLast? := by
  rw [List.getLast?_append]
  cases hb : b.getLast? with
  | none => simp at hb; exact absurd hb h
  | some x => simp

theorem wf_encode (b : Bytes) : WellFormed (B64.encode b) := by
  fun_induction B64.encode b with
  | case1 b0 b1 b2 rest ih =>
    obtain ⟨h1, h2, h3, h4⟩ := ih
    have e0 := B64.toNat_e0 b0; have e1 := B64.toNat_e1 b0 b1
    have e2 := B64.toNat_e2 b1 b2; have e3 := B64.toNat_e3 b2
    have hb0 := b0.toNat_lt; have hb1 := b1.toNat_lt; have hb2 := b2.toNat_lt
    have m0 := enc6_mem (b0 >>> 2) (by omega)
    have m1 := enc6_mem _ (show (((b0 <<< 4) ||| (b1 >>> 4)) &&& 63).toNat < 64 by omega)
    have m2 := enc6_mem _ (show (((b1 <<< 2) ||| (b2 >>> 6)) &&& 63).toNat < 64 by omega)
    have m3 := enc6_mem _ (show (b2 &&& 63).toNat < 64 by omega)
    refine ⟨?_, ?_, ?_, ?_⟩
    · intro c hc
      simp only [B64.encode3, List.cons_append, List.nil_append, List.mem_cons] at hc
      rcases hc with rfl | rfl | rfl | rfl | hc
      · exact m0.1
      · exact m1.1
      · exact m2.1
      · exact m3.1
      · exact h1 c hc
    · simp [B64.encode3]; omega
    · intro h c hc
      simp only [List.length_append, B64.encode3, List.length_cons, List.length_nil] at h
      have hne : B64.encode rest ≠ [] := by intro h0; rw [h0] at h; simp at h
      rw [getLast?_append' _ hne] at hc
      exact h3 (by omega) c hc
    · intro h c hc
      simp only [List.length_append, B64.encode3, List.length_cons, List.length_nil] at h
      have hne : B64.encode rest ≠ [] := by intro h0; rw [h0] at h; simp at h
      rw [getLast?_append' _ hne] at hc
      exact h4 (by omega) c hc
  | case2 b0 b1 =>
    have e0 := B64.toNat_e0 b0; have e1 := B64.toNat_e1 b0 b1
    have e2 := B64.toNat_e2 b1 0
    have hb0 := b0.toNat_lt; have hb1 := b1.toNat_lt
    have m0 := enc6_mem (b0 >>> 2) (by omega)
    have m1 := enc6_mem _ (show (((b0 <<< 4) ||| (b1 >>> 4)) &&& 63).toNat < 64 by omega)
    have m2 := enc6_mem _ (show (((b1 <<< 2) ||| ((0 : UInt8) >>> 6)) &&& 63).toNat < 64 by
      simp at e2 ⊢; omega)
    refine ⟨?_, by simp [B64.encode3], by simp [B64.encode3], ?_⟩
    · intro c hc
      simp only [B64.encode3, List.take_succ_cons, List.take_zero, List.mem_cons,
        List.not_mem_nil, or_false] at hc
      rcases hc with rfl | rfl | rfl
      · exact m0.1
      · exact m1.1
      · exact m2.1
    · intro _ c hc
      simp only [B64.encode3, List.take_succ_cons, List.take_zero, List.getLast?_cons_cons,
        List.getLast?_singleton, Option.some.injEq] at hc
      rw [← hc, m2.2, e2]
      simp
  | case3 b0 =>
    have e0 := B64.toNat_e0 b0; have e1 := B64.toNat_e1 b0 0
    have hb0 := b0.toNat_lt
    have m0 := enc6_mem (b0 >>> 2) (by omega)
    have m1 := enc6_mem _ (show (((b0 <<< 4) ||| ((0 : UInt8) >>> 4)) &&& 63).toNat < 64 by
      simp at e1 ⊢; omega)
    refine ⟨?_, by simp [B64.encode3], ?_, by simp [B64.encode3]⟩
    · intro c hc
      simp only [B64.encode3, List.take_succ_cons, List.take_zero, List.mem_cons,
        List.not_mem_nil, or_false] at hc
      rcases hc with rfl | rfl
      · exact m0.1
      · exact m1.1
    · intro _ c hc
      simp only [B64.encode3, List.take_succ_cons, List.take_zero, List.getLast?_cons_cons,
        List.getLast?_singleton, Option.some.injEq] at hc
      rw [← hc, m1.2, e1]
      simp
  | case4 => simp [WellFormed]

theorem enc6_value {c : UInt8} (h : c ∈ Spec.alphabet) : B64.enc6 (UInt8.ofNat (value c)) = c :=
  (B64.enc6_dec6 c _ (dec6_of_mem c h)).2

theorem encode_of_wf (s : Bytes) (h : WellFormed s) : ∃ d, s = B64.encode d := by
  match s, h with
  | [], _ => exact ⟨[], rfl⟩
  | [x], h => exact absurd rfl h.2.1
  | [x, y], h =>
    have hx := h.1 x (by simp)
    have hy := h.1 y (by simp)
    have lx := value_lt x hx
    have ly := value_lt y hy
    have t := h.2.2.1 rfl y rfl
    refine ⟨[UInt8.ofNat (value x * 4 + value y / 16)], ?_⟩
    have vx := enc6_value hx
    have vy := enc6_value hy
    simp only [B64.encode, B64.encode3, List.take_succ_cons, List.take_zero]
    congr 1
    · rw [← vx]; congr 1
      apply UInt8.toNat_inj.1
      rw [B64.toNat_e0, vx]
      simp only [UInt8.toNat_ofNat']; omega
    · congr 1
      rw [← vy]; congr 1
      apply UInt8.toNat_inj.1
      rw [B64.toNat_e1, vy]
      simp only [UInt8.toNat_ofNat', UInt8.toNat_zero]; omega
  | [x, y, z], h =>
    have hx := h.1 x (by simp)
    have hy := h.1 y (by simp)
    have hz := h.1 z (by simp)
    have lx := value_lt x hx
    have ly := value_lt y hy
    have lz := value_lt z hz
    have t := h.2.2.2 rfl z rfl
    refine ⟨[UInt8.ofNat (value x * 4 + value y / 16),
      UInt8.ofNat (value y % 16 * 16 + value z / 4)], ?_⟩
    have vx := enc6_value hx
    have vy := enc6_value hy
    have vz := enc6_value hz
    simp only [B64.encode, B64.encode3, List.take_succ_cons, List.take_zero]
    congr 1
    · rw [← vx]; congr 1
      apply UInt8.toNat_inj.1
      rw [B64.toNat_e0, vx]
      simp only [UInt8.toNat_ofNat']; omega
    · congr 1
      · rw [← vy]; congr 1
        apply UInt8.toNat_inj.1
        rw [B64.toNat_e1, vy]
        simp only [UInt8.toNat_ofNat']; omega
      · congr 1
        rw [← vz]; congr 1
        apply UInt8.toNat_inj.1
        rw [B64.toNat_e2, vz]
        simp only [UInt8.toNat_ofNat', UInt8.toNat_zero]; omega
  | x :: y :: z :: w :: rest, h =>
    have hx := h.1 x (by simp)
    have hy := h.1 y (by simp)
    have hz := h.1 z (by simp)
    have hw := h.1 w (by simp)
    have hd : ∃ d, B64.decode3 x y z w = some d := by
      unfold B64.decode3
      rw [dec6_of_mem x hx, dec6_of_mem y hy, dec6_of_mem z hz, dec6_of_mem w hw]
      exact ⟨_, rfl⟩
    obtain ⟨d0, hd⟩ := hd
    obtain ⟨a, b, c, _, he⟩ := B64.encode3_decode3 hd
    have hr : WellFormed rest := by
      refine ⟨fun c hc => h.1 c (by simp [hc]), ?_, ?_, ?_⟩
      · have := h.2.1; simp only [List.length_cons] at this; omega
      · intro hl c hc
        apply h.2.2.1 (by simp only [List.length_cons]; omega) c
        have hne : rest ≠ [] := by intro h0; rw [h0] at hl; simp at hl
        rw [show x :: y :: z :: w :: rest = [x, y, z, w] ++ rest from rfl,
          getLast?_append' _ hne]
        exact hc
      · intro hl c hc
        apply h.2.2.2 (by simp only [List.length_cons]; omega) c
        have hne : rest ≠ [] := by intro h0; rw [h0] at hl; simp at hl
        rw [show x :: y :: z :: w :: rest = [x, y, z, w] ++ rest from rfl,
          getLast?_append' _ hne]
        exact hc
    obtain ⟨d, rfl⟩ := encode_of_wf rest hr
    exact ⟨a :: b :: c :: d, by simp [B64.encode, he]⟩

/-- A text is accepted exactly when it looks like base64 with clear unused bits. -/
theorem accepts_iff (s : Bytes) : (∃ d, B64.decodeVec s = some d) ↔ WellFormed s := by
  constructor
  · rintro ⟨d, h⟩
    rw [B64.decodeVec_eq_some] at h
    rw [h]; exact wf_encode d
  · intro h
    obtain ⟨d, hd⟩ := encode_of_wf s h
    exact ⟨d, (B64.decodeVec_eq_some _ _).2 hd⟩

example : B64.decodeVec (asc "AQID_w") = some [1, 2, 3, 255] := by decide
-- the same bytes with a non-zero unused bit are refused
example : B64.decodeVec (asc "AQID_x") = none := by decide
example : ¬ WellFormed (asc "AQID_x") := by
  rw [← accepts_iff]; rintro ⟨d, h⟩
  rw [show B64.decodeVec (asc "AQID_x") = none by decide] at h; simp at h

example (s : Bytes) (h : B64.decodeVec s = some [1, 2, 3, 255]) : s = asc "AQID_w" :=
  canonical h (by decide)

end C22

namespace C23

/-- Chunked writing gives the base64url text of the whole data; in particular it does not panic. -/
theorem write_b64 (b : Bytes) : writeB64 b = .ok (base64url b) := writeB64_eq b

example : writeB64 (List.replicate 100 7) = .ok (base64url (List.replicate 100 7)) := write_b64 _

end C23

namespace C24

/-- Reading `n` bytes succeeds exactly on the canonical text of `n` bytes. -/
theorem read_b64_iff (n : Nat) (s : Bytes) (b : BytesN n) :
    readB64 n s = .ok b ↔ s = base64url b.1 := readB64_eq_ok

/-- Everything else is a `Base64DecodeError`. -/
theorem read_b64_other (n : Nat) (s : Bytes) (h : ∀ d, d.length = n → s ≠ base64url d) :
    readB64 n s = .err .base64DecodeError := readB64_err (fun b => h b.1 b.2)

/-- The early length check refuses no text of `n` bytes. -/
theorem length_check_harmless (d : Bytes) :
    ¬ ((base64url d).length + 3) / 4 * 3 < d.length := by
  rw [C22.text_length]; omega

/-- Reading back what was written. -/
theorem read_write {n : Nat} (b : BytesN n) : (writeB64 b.1 >>= readB64 n) = .ok b := by
  rw [writeB64_eq]
  exact readB64_eq_ok.2 rfl

example : readB64 4 (asc "AQID_w") = .ok ⟨[1, 2, 3, 255], rfl⟩ := by decide
example : readB64 3 (asc "AQID_w") = .err .base64DecodeError := by decide
example : readB64 5 (asc "AQID_w") = .err .base64DecodeError := by decide

/-- No three bytes have this text: it is the text of four. -/
example : readB64 3 (asc "AQID_w") = .err .base64DecodeError :=
  read_b64_other 3 _ fun d hd h => by
    have := C22.injective (a := [1, 2, 3, 255]) (b := d) (by rw [← h]; decide)
    rw [← this] at hd
    exact absurd hd (by decide)

end C24
end Pasta
