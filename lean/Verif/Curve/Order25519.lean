import Verif.Curve.Laws25519
import Mathlib.GroupTheory.OrderOfElement

/-!
# The order of the base point of Curve25519 is prime

So a scalar below the order is determined by its multiple of the base point. Two consequences for
Ed25519 as ed25519-dalek checks it: the second half of a signature is determined by the first half,
the key and the message; and keys of small order accept signatures that nobody made.
-/

namespace Pasta.Curve

theorem prime_1224481 : Nat.Prime 1224481 := by norm_num

theorem prime_1257559732178653 : Nat.Prime 1257559732178653 :=
  prime_of_dvd (F := 1224481 * 23 * 7) (by decide +kernel) (by decide +kernel) fun r hr hd => by
    have h1 := dvd_of_powMod 1 2 prime_1224481 (by decide +kernel) r hr hd
    have h2 := dvd_of_powMod 1 2 (by norm_num : Nat.Prime 23) (by decide +kernel) r hr hd
    have h3 := dvd_of_powMod 1 2 (by norm_num : Nat.Prime 7) (by decide +kernel) r hr hd
    rw [pow_one] at h1 h2 h3
    exact Nat.Coprime.mul_dvd_of_dvd_of_dvd (by decide +kernel)
      (Nat.Coprime.mul_dvd_of_dvd_of_dvd (by decide +kernel) h1 h2) h3

theorem prime_4434155615661930479 : Nat.Prime 4434155615661930479 :=
  prime_of_one 2 prime_1257559732178653 (by decide +kernel) (by decide +kernel)

theorem prime_172054593956031949258510691 : Nat.Prime 172054593956031949258510691 :=
  prime_of_one 2 prime_4434155615661930479 (by decide +kernel) (by decide +kernel)

theorem prime_19757330305831588566944191468367130476339 :
    Nat.Prime 19757330305831588566944191468367130476339 :=
  prime_of_one 2 prime_172054593956031949258510691 (by decide +kernel) (by decide +kernel)

theorem prime_276602624281642239937218680557139826668747 :
    Nat.Prime 276602624281642239937218680557139826668747 :=
  prime_of_one 2 prime_19757330305831588566944191468367130476339 (by decide +kernel)
    (by decide +kernel)

theorem prime_ed25519Order : Nat.Prime ed25519Order :=
  prime_of_one 2 prime_276602624281642239937218680557139826668747 (by decide +kernel)
    (by decide +kernel)

namespace E25519

open Pasta.Real (fit prims)
open Pasta.Real.Ed (p d)
open Pasta.Real

instance : Fact (Nat.Prime ed25519Order) := ⟨prime_ed25519Order⟩

theorem base_ne : B ≠ 0 := by
  intro h
  have h := congrArg (fun g : G => g.x) h
  have h : ((baseX : ℕ) : F) = ((0 : ℕ) : F) := by rw [Nat.cast_zero]; exact h
  exact absurd (eq_of_cast (by decide +kernel) p_pos h) (by decide +kernel)

theorem addOrder : addOrderOf B = ed25519Order := addOrderOf_eq_prime order_base base_ne

theorem smul_inj {a b : ℕ} (ha : a < ed25519Order) (hb : b < ed25519Order) (h : a • B = b • B) :
    a = b := by
  have := (nsmul_eq_nsmul_iff_modEq (x := B)).1 h
  rw [addOrder] at this
  exact Nat.ModEq.eq_of_lt_of_lt this ha hb

/-- What decompression returns is a point of the curve. -/
theorem decode_sound {s : Bytes} {P : Ed.Pt} (h : Ed.decode s = some P) : ∃ g, Rep P g := by
  unfold Ed.decode at h
  simp only at h
  have hyp : leNat s % 2 ^ 255 % p < p := Nat.mod_lt _ p_pos
  generalize leNat s % 2 ^ 255 % p = y at h hyp
  generalize leNat s / 2 ^ 255 % 2 = sign at h
  unfold Ed.decompress at h
  simp only at h
  have ult : Ed.sub (Ed.mul y y) 1 < p := sub_lt _ _
  have cu : ((Ed.sub (Ed.mul y y) 1 : ℕ) : F) = (y : F) ^ 2 - 1 := by
    rw [cast_sub _ one_lt_p.le, cast_mul]; push_cast; ring
  have cv : ((Ed.add (Ed.mul d (Ed.mul y y)) 1 : ℕ) : F) = (d : F) * (y : F) ^ 2 + 1 := by
    rw [cast_add, cast_mul, cast_mul]; push_cast; ring
  generalize Ed.sub (Ed.mul y y) 1 = u at h ult cu
  generalize Ed.add (Ed.mul d (Ed.mul y y)) 1 = v at h cv
  have clt : Ed.candidate u v < p := mul_lt _ _
  generalize Ed.candidate u v = x at h clt
  -- the root found
  have hroot : ∀ r, Ed.root u v x = some r → r < p ∧ (v : F) * (r : F) ^ 2 = u := by
    intro r hr
    unfold Ed.root at hr
    simp only [beq_iff_eq] at hr
    have cc : ((Ed.mul v (Ed.mul x x) : ℕ) : F) = v * x ^ 2 := by
      rw [cast_mul, cast_mul]; ring
    split at hr
    · rename_i h1
      cases hr
      rw [h1] at cc
      exact ⟨clt, cc.symm⟩
    · split at hr
      · rename_i h2
        cases hr
        rw [h2, cast_sub _ ult.le] at cc
        refine ⟨mul_lt _ _, ?_⟩
        rw [cast_mul]
        have := sqrtM1_sq
        push_cast at cc
        linear_combination (v * x ^ 2 : F) * this + cc
      · cases hr
  generalize Ed.root u v x = o at h hroot
  cases o with
  | none => cases h
  | some r =>
    obtain ⟨rlt, hr⟩ := hroot r rfl
    unfold Ed.withSign at h
    simp only [Option.some.injEq] at h
    have hsq : (((if r % 2 == sign then r else Ed.sub 0 r : ℕ)) : F) ^ 2 = (r : F) ^ 2 := by
      split
      · rfl
      · rw [cast_sub _ rlt.le]; push_cast; ring
    have hlt : (if r % 2 == sign then r else Ed.sub 0 r) < p := by
      split
      · exact rlt
      · exact sub_lt _ _
    generalize (if r % 2 == sign then r else Ed.sub 0 r) = w at h hsq hlt
    subst h
    have hon : OnEd ((d : ℕ) : F) (w : F) (y : F) := by
      unfold OnEd
      rw [← hsq, cu, cv] at hr
      linear_combination -hr
    refine ⟨⟨_, _, hon⟩, hlt, hyp, one_lt_p, mul_lt _ _, ?_, ?_, ?_, ?_⟩
    · show ((w : ℕ) : F) = w * ((1 : ℕ) : F)
      rw [Nat.cast_one, mul_one]
    · show ((y : ℕ) : F) = y * ((1 : ℕ) : F)
      rw [Nat.cast_one, mul_one]
    · show ((Ed.mul w y : ℕ) : F) = w * y * ((1 : ℕ) : F)
      rw [cast_mul, Nat.cast_one, mul_one]
    · show ((1 : ℕ) : F) ≠ 0
      rw [Nat.cast_one]; exact one_ne_zero

theorem enc_inj {g h : G} (e : enc g = enc h) : g = h := by
  obtain ⟨P, h1, h2⟩ := decode_enc g
  obtain ⟨Q, h3, h4⟩ := decode_enc h
  rw [e, h3] at h1
  cases h1
  exact eq_of_rep h2 h4

/-- The scalar that hashes `R`, the key and the message. -/
def challenge (R pk m : Bytes) : ℕ := leNat (sha512 (R ++ pk ++ m)).1 % ed25519Order

/-- What verification checks: the scalar is reduced and `R` encodes `s·B - k·A`. -/
theorem verify_iff {pk m sig : Bytes} {A : Ed.Pt} {g : G} (hA : Ed.decode pk = some A)
    (rA : Rep A g) : Ed.verify pk m sig = true ↔ leNat (sig.drop 32) < ed25519Order ∧
      (enc (leNat (sig.drop 32) • B + challenge (sig.take 32) pk m • -g)).1 = sig.take 32 := by
  rw [verify_some hA]
  unfold Ed.verifyWith challenge
  simp only
  generalize leNat (sha512 (sig.take 32 ++ pk ++ m)).1 % ed25519Order = k
  generalize leNat (sig.drop 32) = s
  have hrep := encode_rep (rep_add (rep_smul rep_base s) (rep_smul (rep_neg rA) k))
  rw [hrep]
  by_cases h : s < ed25519Order
  · rw [if_neg (Nat.not_le.2 h), beq_iff_eq]
    exact ⟨fun e => ⟨h, e⟩, fun e => e.2⟩
  · rw [if_pos (Nat.not_lt.1 h)]
    exact ⟨fun e => Bool.noConfusion e, fun e => absurd e.1 h⟩

/-- The second half of a valid signature is determined by the first, the key and the message. -/
theorem second_half (pk m R s s' : Bytes) (hR : R.length = 32) (hs : s.length = s'.length)
    (h : Ed.verify pk m (R ++ s) = true) (h' : Ed.verify pk m (R ++ s') = true) : s = s' := by
  cases hA : Ed.decode pk with
  | none =>
    unfold Ed.verify at h
    rw [hA] at h
    cases h
  | some A =>
    obtain ⟨g, rA⟩ := decode_sound hA
    rw [verify_iff hA rA, List.take_left' hR, List.drop_left' hR] at h h'
    obtain ⟨l1, e1⟩ := h
    obtain ⟨l2, e2⟩ := h'
    have e := enc_inj (Subtype.ext (e1.trans e2.symm))
    have e := smul_inj l1 l2 (add_right_cancel e)
    rw [← leBytes_leNat s, ← leBytes_leNat s', hs, e]

/-- The identity as a public key -/
def weak : BytesN 32 := ⟨leBytes 32 1, by rfl⟩

/-- A signature for it, of everything -/
def weakSig : BytesN 64 := ⟨leBytes 32 1 ++ leBytes 32 0, by rfl⟩

theorem enc_zero : enc 0 = weak := by
  rw [← encode_rep rep_zero]
  decide +kernel

theorem weak_verifies (m : Bytes) : Ed.verify weak.1 m weakSig.1 = true := by
  obtain ⟨A, hA, rA⟩ := decode_enc 0
  rw [enc_zero] at hA
  rw [verify_iff hA rA]
  have h1 : weakSig.1.take 32 = weak.1 := by decide
  have h2 : leNat (weakSig.1.drop 32) = 0 := by decide
  rw [h1, h2]
  refine ⟨order_pos, ?_⟩
  rw [zero_nsmul, neg_zero, nsmul_zero, add_zero, enc_zero]

end E25519
end Pasta.Curve
