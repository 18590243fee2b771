import Verif.Curve.Card384
import Verif.Curve.Sec1
import Mathlib.Data.Set.Card
import Mathlib.Data.Set.Card.Arithmetic

/-!
# How many byte strings are P-384 public keys
-/

namespace Pasta.Curve.E384

open Pasta.Real.P384 (p b n)
open Pasta.Real
open Pasta.Curve.E25519 (fit_of_length)

/-- The points but the neutral element. -/
abbrev Aff := {q : F × F // q.2 ^ 2 = q.1 ^ 3 - 3 * q.1 + b}

def affEquiv : G ≃ Option Aff where
  toFun
    | .zero => none
    | .some x y h => some ⟨(x, y), on h⟩
  invFun
    | none => .zero
    | some q => .some q.1.1 q.1.2 (nonsingular q.2)
  left_inv g := by rcases g with _ | ⟨x, y, h⟩ <;> rfl
  right_inv q := by rcases q with _ | q <;> rfl

theorem card_aff : Nat.card Aff = n - 1 := by
  have h := Nat.card_congr affEquiv
  rw [card, Finite.card_option] at h
  omega

theorem y_ne (q : Aff) : q.1.2 ≠ 0 := by
  intro h
  have := q.2
  rw [h] at this
  exact no_root q.1.1 (by rw [← this]; ring)

def negAff (q : Aff) : Aff := ⟨(q.1.1, -q.1.2), by simpa using q.2⟩

theorem neg_parity (q : Aff) : (negAff q).1.2.val % 2 = 1 - q.1.2.val % 2 := by
  have h0 := y_ne q
  have hlt : q.1.2.val < p := ZMod.val_lt _
  have h0' : q.1.2.val ≠ 0 := by rwa [Ne, ZMod.val_eq_zero]
  show (-q.1.2).val % 2 = _
  rw [ZMod.neg_val, if_neg h0]
  have := p_odd
  omega

theorem ncard_even : 2 * {q : Aff | q.1.2.val % 2 = 0}.ncard = n - 1 := by
  have h1 : {q : Aff | q.1.2.val % 2 = 1}.ncard = {q : Aff | q.1.2.val % 2 = 0}.ncard := by
    refine Set.ncard_congr (fun q _ => negAff q) ?_ ?_ ?_
    · intro q h
      have h : q.1.2.val % 2 = 1 := h
      show (negAff q).1.2.val % 2 = 0
      rw [neg_parity, h]
    · intro q r _ _ h
      have h := congrArg negAff h
      have e : ∀ q, negAff (negAff q) = q := fun q => Subtype.ext (Prod.ext rfl (neg_neg _))
      rwa [e, e] at h
    · intro q h
      have h : q.1.2.val % 2 = 0 := h
      refine ⟨negAff q, ?_, Subtype.ext (Prod.ext rfl (neg_neg _))⟩
      show (negAff q).1.2.val % 2 = 1
      rw [neg_parity, h]
  have h2 : {q : Aff | q.1.2.val % 2 = 0} ∪ {q : Aff | q.1.2.val % 2 = 1} = Set.univ := by
    ext q
    simp only [Set.mem_union, Set.mem_ofPred_eq, Set.mem_univ, iff_true]
    omega
  have h3 := congrArg Set.ncard h2
  rw [Set.ncard_univ, card_aff, Set.ncard_union_eq, h1] at h3
  · omega
  · rw [Set.disjoint_left]
    intro q h h'
    simp only [Set.mem_ofPred_eq] at h h'
    omega

/-- The compact form. -/
def compact (q : Aff) : BytesN 49 := ⟨5 :: beBytes 48 q.1.1.val, by simp [beBytes_length]⟩

theorem compact_inj {q r : Aff} (hq : q.1.2.val % 2 = 0) (hr : r.1.2.val % 2 = 0)
    (h : compact q = compact r) : q = r := by
  have h := List.cons.inj (congrArg Subtype.val h)
  have hx : q.1.1.val = r.1.1.val := by
    rw [← number_of_val q.1.1, h.2, number_of_val]
  have hx : q.1.1 = r.1.1 := ZMod.val_injective _ hx
  have h1 := decompress_complete q.2
  have h2 := decompress_complete r.2
  rw [hx, hq, ← hr, h2] at h1
  simp only [Option.some.injEq, Prod.mk.injEq, true_and] at h1
  exact Subtype.ext (Prod.ext hx (ZMod.val_injective _ h1.symm))

theorem accepted_iff (s : BytesN 49) : (∃ k, p384Parse s.1 = some k) ↔
    (∃ q : Aff, enc q.1.1 q.1.2 = s) ∨ ∃ q : Aff, q.1.2.val % 2 = 0 ∧ compact q = s := by
  constructor
  · rintro ⟨k, h⟩
    obtain ⟨x, y, h1, h2, h3⟩ := (parse_iff s.1 k).1 h
    obtain ⟨X, Y, h4, rfl, rfl⟩ := onCurve_val h1
    rcases h3 with h3 | h3 | ⟨h3, t, h5, h6, h7⟩
    · exact .inl ⟨⟨(X, Y), h4⟩, Subtype.ext ((compressed_iff X Y _).1 h3).symm⟩
    · exfalso
      have h3 := congrArg List.length ((uncompressed_iff X Y _).1 h3)
      rw [s.2] at h3
      simp [beBytes_length] at h3
    · refine .inr ⟨⟨(X, Y), h4⟩, h3, Subtype.ext ?_⟩
      rw [h5, bytes_of_number h6 h7]
      rfl
  · rintro (⟨q, rfl⟩ | ⟨q, h, rfl⟩)
    · exact ⟨⟨_, enc_ok q.2⟩, (parse_iff _ _).2 ⟨_, _, val_onCurve q.2, (compressed_iff _ _ _).2 rfl,
        .inl ((compressed_iff _ _ _).2 rfl)⟩⟩
    · exact ⟨⟨_, enc_ok q.2⟩, (parse_iff _ _).2 ⟨_, _, val_onCurve q.2, (compressed_iff _ _ _).2 rfl,
        .inr (.inr ⟨h, _, rfl, beBytes_length _ _, number_of_val _⟩)⟩⟩

theorem card_compressed : {s : BytesN 49 | ∃ q : Aff, enc q.1.1 q.1.2 = s}.ncard = n - 1 := by
  have e : {s : BytesN 49 | ∃ q : Aff, enc q.1.1 q.1.2 = s} = Set.range fun q : Aff => enc q.1.1 q.1.2 := rfl
  rw [e, ← Nat.card_coe_set_eq, Nat.card_range_of_injective, card_aff]
  intro q r h
  obtain ⟨h1, h2⟩ := enc_inj q.2 r.2 (congrArg Subtype.val h)
  exact Subtype.ext (Prod.ext h1 h2)

theorem card_compact : 2 * {s : BytesN 49 | ∃ q : Aff, q.1.2.val % 2 = 0 ∧ compact q = s}.ncard = n - 1 := by
  have e : {s : BytesN 49 | ∃ q : Aff, q.1.2.val % 2 = 0 ∧ compact q = s} =
      compact '' {q : Aff | q.1.2.val % 2 = 0} := rfl
  have hi : Set.InjOn compact {q : Aff | q.1.2.val % 2 = 0} := fun q hq r hr h => compact_inj hq hr h
  rw [e, hi.ncard_image, ncard_even]

/-- How many strings of 49 bytes are read as keys. -/
theorem card_accepted : 2 * Nat.card {s : BytesN 49 // ∃ k, p384Parse s.1 = some k} = 3 * (n - 1) := by
  have e : Nat.card {s : BytesN 49 // ∃ k, p384Parse s.1 = some k} =
      ({s : BytesN 49 | ∃ q : Aff, enc q.1.1 q.1.2 = s} ∪
        {s : BytesN 49 | ∃ q : Aff, q.1.2.val % 2 = 0 ∧ compact q = s}).ncard := by
    rw [← Nat.card_coe_set_eq]
    exact Nat.card_congr (Equiv.subtypeEquivRight accepted_iff)
  rw [e, Set.ncard_union_eq ?_ ?_ ?_]
  · have h1 := card_compressed
    have h2 := card_compact
    omega
  · rw [Set.disjoint_left]
    rintro s ⟨q, rfl⟩ ⟨r, _, h⟩
    have h := congrArg (fun s => s.1.head?) h
    simp only [head_enc] at h
    have h : some (5 : UInt8) = some (if q.1.2.val % 2 = 1 then 3 else 2) := h
    split at h <;> cases h
  · exact (Set.finite_range fun q : Aff => enc q.1.1 q.1.2)
  · exact (Set.toFinite {q : Aff | q.1.2.val % 2 = 0}).image compact

end Pasta.Curve.E384
