import Verif.Curve.Card25519

/-!
# X25519 with points that have a component of small order
-/

namespace Pasta.Curve.E25519

open Pasta.Real (prims fit)
open Pasta.Real.Ed (p d)
open Pasta.Real

theorem edToMontgomery_rep {k : EdKey} {A : Ed.Pt} {g : G} (hA : Ed.decode k.1.1 = some A)
    (rA : Rep A g) : prims.edToMontgomery k = montEnc (mont g) := by
  show ((Ed.decode k.1.1).getD Ed.zero).toMontgomery = _
  rw [hA, Option.getD_some]
  exact toMontgomery_rep rA

theorem montMul_rep (g : G) {n : ℕ} (hn : n < 2 ^ 255) :
    prims.montMul n (montEnc (mont g)) = montEnc (mont (n • g)) := ladder_spec g hn

theorem montEnc_val (u : F) : (montEnc u).1 = leBytes 32 u.val :=
  fit_of_length (leBytes_length _ _)

/-- The Montgomery coordinates of the points of small order -/
def lowU : List ℕ :=
  [0, 1, 325606250916557431795983626356110631294008115727848805560023387167927233504,
    39382357235489614581723060781553021112529911719440698176882885853963445705823]

theorem mont_val (g : G) :
    (mont g).val = Ed.mul (Ed.add 1 g.y.val) (Ed.inv (Ed.sub 1 g.y.val)) := by
  apply eq_of_cast (ZMod.val_lt _) (mul_lt _ _)
  rw [ZMod.natCast_zmod_val, cast_mul, cast_add, cast_inv, cast_sub _ (ZMod.val_lt _).le,
    ZMod.natCast_zmod_val, Nat.cast_one]
  rfl

theorem mont_low {g : G} (h : 8 • g = 0) : (mont g).val ∈ lowU := by
  rw [mont_val]
  have hy := (small_y_iff g).1 h
  generalize g.y.val = y at hy
  revert y
  decide +kernel

/-- Equal coordinates: the points are equal, opposite, or both of order at most two. -/
theorem mont_eq {g h : G} (e : mont g = mont h) :
    g = h ∨ g = -h ∨ (2 • g = 0 ∧ 2 • h = 0) := by
  have two : ∀ q : G, mont q = 0 → 2 • q = 0 := by
    intro q hq
    rw [two_nsmul]
    rcases mont_eq_zero.1 hq with h | h
    · rw [y_one h, add_zero]
    · exact y_neg_one h
  by_cases h0 : mont g = 0
  · exact .inr (.inr ⟨two g h0, two h (e ▸ h0)⟩)
  have eq_y : g.y = h.y := by
    have h1 : (1 : F) - g.y ≠ 0 := fun e => h0 (mont_eq_zero.2 (.inl (by linear_combination -e)))
    have h2 : (1 : F) - h.y ≠ 0 :=
      fun e' => h0 (e ▸ mont_eq_zero.2 (.inl (by linear_combination -e')))
    unfold mont at e
    rw [div_eq_div_iff h1 h2] at e
    have e : (2 : F) * (g.y - h.y) = 0 := by linear_combination e
    exact sub_eq_zero.1 ((mul_eq_zero.1 e).resolve_left two_ne)
  have cg := curve_uv g
  have ch := curve_uv h
  rw [eq_y, ch] at cg
  have hx := mul_left_cancel₀ (v_ne h) cg
  rcases sq_eq hx with h1 | h1
  · exact .inl (EdPt.ext h1.symm eq_y)
  · refine .inr (.inl (EdPt.ext ?_ eq_y))
    show g.x = -h.x
    rw [h1, neg_neg]

/-- Reducing a scalar matters: with this multiple of eight (it is a clamped scalar), the coordinate of
the multiple changes for every point that is not a multiple of the base point, except the one of order
two. -/
theorem reduced_ne {g : G} {k r : ℕ} (hk : k = r + 5 * ed25519Order) (hr : r % 2 = 1)
    (hr0 : r < ed25519Order) (e : mont (r • g) = mont (k • g)) :
    ed25519Order • g = 0 ∨ g.y = -1 := by
  have h8 : addOrderOf g ∣ 8 * ed25519Order := card ▸ addOrderOf_dvd_natCard g
  have toL : ∀ m : ℕ, m % 2 = 1 → m • g = 0 → ed25519Order • g = 0 := by
    intro m hm h
    have hd := addOrderOf_dvd_of_nsmul_eq_zero h
    apply addOrderOf_dvd_iff_nsmul_eq_zero.1
    apply Nat.Coprime.dvd_of_dvd_mul_left _ h8
    apply Nat.Coprime.coprime_dvd_left hd
    exact Nat.Coprime.pow_right 3 (Nat.coprime_two_right.2 (Nat.odd_iff.2 hm))
  rw [hk] at e
  rcases mont_eq e with e | e | ⟨e, -⟩
  · -- the difference
    left
    refine toL (5 * ed25519Order) (by decide +kernel) ?_
    rw [add_nsmul] at e
    exact left_eq_add.1 e
  · left
    refine toL (r + (r + 5 * ed25519Order)) ?_ ?_
    · have : ed25519Order % 2 = 1 := order_odd
      omega
    · rw [add_nsmul, e, neg_add_cancel]
  · rw [← mul_nsmul'] at e
    have h2 : addOrderOf g ∣ 2 := by
      have hd := Nat.dvd_gcd (addOrderOf_dvd_of_nsmul_eq_zero e) h8
      have hc : Nat.Coprime r (4 * ed25519Order) := by
        refine Nat.Coprime.mul_right (Nat.Coprime.pow_right 2
          (Nat.coprime_two_right.2 (Nat.odd_iff.2 hr))) ?_
        exact Nat.coprime_comm.1 ((Nat.Prime.coprime_iff_not_dvd prime_ed25519Order).2
          (fun h => absurd (Nat.le_of_dvd (by omega) h) (by omega)))
      rw [show 8 * ed25519Order = 2 * (4 * ed25519Order) by ring, Nat.gcd_mul_left,
        Nat.Coprime.gcd_eq_one hc, mul_one] at hd
      exact hd
    have h2 := addOrderOf_dvd_iff_nsmul_eq_zero.1 h2
    rw [two_nsmul] at h2
    have hx : g.x = -g.x := congrArg EdPt.x (eq_neg_of_add_eq_zero_left h2)
    have hx : g.x = 0 :=
      (mul_eq_zero.1 (show (2 : F) * g.x = 0 by linear_combination hx)).resolve_left two_ne
    have hon := g.on
    unfold OnEd at hon
    rw [hx] at hon
    have hy : (g.y - 1) * (g.y + 1) = 0 := by linear_combination hon
    rcases mul_eq_zero.1 hy with h | h
    · left
      rw [y_one (sub_eq_zero.1 h), nsmul_zero]
    · exact .inr (eq_neg_of_add_eq_zero_left h)

/-- The scalar used there: a multiple of eight, above five times the order -/
def testScalar : ℕ := 8 * (5 * ed25519Order / 8 + 1)

theorem testScalar_spec : 2 ^ 254 ≤ testScalar ∧ testScalar < 2 ^ 255 ∧ testScalar % 8 = 0 ∧
    testScalar % ed25519Order % 2 = 1 ∧
    testScalar = testScalar % ed25519Order + 5 * ed25519Order := by decide +kernel

/-- Whether the coordinates of the multiples by the reduced scalars are the right ones. -/
theorem reduced_iff (g : G) :
    (∀ esk : BytesN 32, mont ((Spec.decodeScalar25519 esk % ed25519Order) • g) =
      mont (Spec.decodeScalar25519 esk • g)) ↔ (∃ n : ℕ, g = n • B) ∨ g.y = -1 := by
  constructor
  · intro h
    have ht := testScalar_spec
    let esk : BytesN 32 := ⟨leBytes 32 testScalar, leBytes_length _ _⟩
    have hd : Spec.decodeScalar25519 esk = testScalar := by decide +kernel
    have h := h esk
    rw [hd] at h
    rcases reduced_ne ht.2.2.2.2 ht.2.2.2.1 (Nat.mod_lt _ order_pos) h with h | h
    · left
      have hz : g ∈ AddSubgroup.zmultiples gen := by
        have : AddSubgroup.zmultiples gen = ⊤ := by
          apply AddSubgroup.eq_top_of_card_eq
          rw [Nat.card_zmultiples, gen_order, card]
        rw [this]
        exact AddSubgroup.mem_top g
      classical
      rw [mem_zmultiples_iff_mem_range_addOrderOf] at hz
      simp only [Finset.mem_image, Finset.mem_range] at hz
      obtain ⟨n, hn, rfl⟩ := hz
      rw [← mul_nsmul', ← addOrderOf_dvd_iff_nsmul_eq_zero, gen_order, mul_comm 8] at h
      obtain ⟨m, rfl⟩ := Nat.dvd_of_mul_dvd_mul_left order_pos h
      refine ⟨8 * m, ?_⟩
      unfold gen
      rw [nsmul_add, mul_comm, mul_nsmul', t8_eight, nsmul_zero, zero_add]
    · exact .inr h
  · rintro (⟨n, rfl⟩ | h) esk
    · have hn : (Spec.decodeScalar25519 esk % ed25519Order) • n • B =
          Spec.decodeScalar25519 esk • n • B := by
        rw [nsmul_eq_nsmul_iff_modEq]
        have : addOrderOf (n • B) ∣ ed25519Order :=
          addOrderOf_dvd_of_nsmul_eq_zero ((honest_base.smul n).order)
        exact (Nat.mod_modEq _ _).of_dvd this
      rw [hn]
    · have h0 := mont_eq_zero.2 (.inr h)
      rw [mont_zero_smul h0, mont_zero_smul h0]

end Pasta.Curve.E25519
