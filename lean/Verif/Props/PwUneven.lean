import Verif.Props.PwSecret

/-!
# C110: passwords that are not drawn evenly

The game is that of C89 and C109, but some passwords are more likely than others: they are made, by any function
`pwOf`, from something that is drawn evenly from a finite type `Ω`. `B` of these draws are the most that lead to one
of `q` passwords, whichever `q` passwords they are. So `B / |Ω|` is the best chance of finding the password with `q`
guesses, without seeing anything.
-/

namespace Pasta.C110

open Plug (k0 flat_length)
open C82 (count count_eq count_prod)
open C89 (Bad one_hash usesPre usesPre_length play_length play_tried final keyBytes keyBytes_with bytes_ok
  tags_final)
open C108 (mean_close mean_const blind)

variable {P : Prims} {v : Ver} {L M : Nat} {W : Finset Bytes} {Ω : Type} [Fintype Ω]

open Classical in
/-- Of the draws, at most `B` lead to one of `q` passwords. -/
def AtMost (pwOf : Ω → W) (q B : Nat) : Prop :=
  ∀ ws : Finset Bytes, ws.card ≤ q → (Finset.univ.filter fun ω => (pwOf ω).1 ∈ ws).card ≤ B

theorem AtMost.list {pwOf : Ω → W} {q B : Nat} (h : AtMost pwOf q B) (l : List Bytes) (hl : l.length ≤ q) :
    count (fun ω => (pwOf ω).1 ∈ l) ≤ B := by
  classical
  refine le_trans (le_of_eq ?_) (h l.toFinset (le_trans (List.toFinset_card_le _) hl))
  rw [count_eq]
  simp only [List.mem_toFinset]

omit [Fintype Ω] in
/-- Draw the hash of the one password anew, and its value at the one point. -/
theorem redraw_bijective (pwOf : Ω → W) (x0 : HashPoint v) :
    Function.Bijective fun z : (Ω × (W → PwHash v) × PwHash v × BytesN 32) × KeyHash v × CipherOf v L =>
      (((z.1.1, Function.update z.1.2.1 (pwOf z.1.1) (Function.update z.1.2.2.1 x0 z.1.2.2.2), z.2) :
          Ω × (W → PwHash v) × KeyHash v × CipherOf v L),
        (z.1.2.1 (pwOf z.1.1), z.1.2.2.1 x0)) := by
  classical
  refine Function.bijective_iff_has_inverse.2 ⟨fun w =>
    ((w.1.1, Function.update w.1.2.1 (pwOf w.1.1) w.2.1, Function.update (w.1.2.1 (pwOf w.1.1)) x0 w.2.2,
      w.1.2.1 (pwOf w.1.1) x0), w.1.2.2), ?_, ?_⟩
  · rintro ⟨⟨ω, f, g, p0⟩, hc⟩
    simp
  · rintro ⟨⟨ω, f, hc⟩, g, b⟩
    simp

theorem chance_eq (pwOf : Ω → W) (x0 : HashPoint v)
    (A : W → (W → PwHash v) → KeyHash v → CipherOf v L → Prop) :
    fractionOf (fun z : Ω × (W → PwHash v) × KeyHash v × CipherOf v L => A (pwOf z.1) z.2.1 z.2.2.1 z.2.2.2) =
      (∑ r : Ω × (W → PwHash v) × PwHash v × BytesN 32,
        (count (fun x : KeyHash v × CipherOf v L =>
          A (pwOf r.1) (Function.update r.2.1 (pwOf r.1) (Function.update r.2.2.1 x0 r.2.2.2)) x.1 x.2) : ℚ) /
        Fintype.card (KeyHash v × CipherOf v L)) /
          Fintype.card (Ω × (W → PwHash v) × PwHash v × BytesN 32) := by
  have e := Plug.count_bij (redraw_bijective (L := L) pwOf x0)
    (A := fun z => A (pwOf z.1.1) (Function.update z.1.2.1 (pwOf z.1.1)
      (Function.update z.1.2.2.1 x0 z.1.2.2.2)) z.2.1 z.2.2)
    (B := fun y => A (pwOf y.1.1) y.1.2.1 y.1.2.2.1 y.1.2.2.2) (fun _ => Iff.rfl)
  rw [Plug.count_fst (fun y : Ω × (W → PwHash v) × KeyHash v × CipherOf v L => A (pwOf y.1) y.2.1 y.2.2.1 y.2.2.2),
    count_prod] at e
  unfold fractionOf
  rw [count_eq, ← Finset.sum_div, ← Nat.cast_sum]
  have e' : (((∑ r : Ω × (W → PwHash v) × PwHash v × BytesN 32, count (fun x : KeyHash v × CipherOf v L =>
        A (pwOf r.1) (Function.update r.2.1 (pwOf r.1) (Function.update r.2.2.1 x0 r.2.2.2)) x.1 x.2)) : Nat) : ℚ) =
      _ := congrArg (Nat.cast (R := ℚ)) e
  rw [e', div_div, Nat.cast_mul, ← Nat.cast_mul, ← Nat.cast_mul]
  have hc : Fintype.card (KeyHash v × CipherOf v L) *
      Fintype.card (Ω × (W → PwHash v) × PwHash v × BytesN 32) =
      Fintype.card (Ω × (W → PwHash v) × KeyHash v × CipherOf v L) * Fintype.card (PwHash v × BytesN 32) := by
    simp only [Fintype.card_prod]
    ring
  have : Nonempty (PwHash v × BytesN 32) := ⟨(fun _ => k0, k0)⟩
  rw [hc, Nat.cast_mul, Nat.cast_mul, mul_div_mul_right]
  exact_mod_cast Fintype.card_ne_zero

section

variable (hW : ∀ pw ∈ W, pw.length < 2 ^ 32) {k : WKind} (st : KdfState v) (salt : BytesN (pwSaltLen v))
  (nonce : BytesN (ivLen v)) (hst : StateOk st)

/-- The average of what goes wrong. -/
theorem count_bad (pwOf : Ω → W) (ask : Bytes → List (PwAnswer v L) → Option (PwAsk v)) (n q B : Nat)
    (hB : AtMost pwOf q B) :
    count (fun z : (Ω × (W → PwHash v) × PwHash v × BytesN 32) ×
        (KeyHash v × CipherOf v L × BytesN (keyLen v k.kind) × BytesN (pwKeyHashLen v)) =>
      Bad st salt nonce P k ask n q (pwOf z.1.1, z.1.2) z.2) ≤
    B * Fintype.card (((W → PwHash v) × PwHash v × BytesN 32) ×
        (KeyHash v × CipherOf v L × BytesN (keyLen v k.kind) × BytesN (pwKeyHashLen v))) +
    n * Fintype.card ((Ω × (W → PwHash v) × PwHash v) ×
        (KeyHash v × CipherOf v L × BytesN (keyLen v k.kind) × BytesN (pwKeyHashLen v))) +
    count (fun x : ((W → PwHash v) × PwHash v) × KeyHash v × CipherOf v L × BytesN (keyLen v k.kind) ×
        BytesN (pwKeyHashLen v) => PwForged P k st salt nonce x.2.2.2.1 x.2.2.2.2
          (idealPwAsked P k st salt nonce ask n q x.1.1 x.1.2 x.2.1 x.2.2.1 x.2.2.2.1 x.2.2.2.2)) *
      Fintype.card (Ω × BytesN 32) := by
  classical
  let Y := KeyHash v × CipherOf v L × BytesN (keyLen v k.kind) × BytesN (pwKeyHashLen v)
  let F := W → PwHash v
  let asked : F → PwHash v → Y → List (PwAsk v) := fun f g y =>
    idealPwAsked P k st salt nonce ask n q f g y.1 y.2.1 y.2.2.1 y.2.2.2
  have one : ∀ {α β : Type} [Fintype α] (i : α → β), Function.Injective i →
      ∀ b, count (fun t : α => i t = b) ≤ 1 := by
    intro α β _ i hi b
    unfold count
    refine Finset.card_le_one.2 fun x hx y hy => hi ?_
    rw [Plug.mem_count.1 hx, Plug.mem_count.1 hy]
  refine le_trans (Plug.count_or _ _) (Nat.add_le_add (le_trans (Plug.count_or _ _) (Nat.add_le_add ?_ ?_)) ?_)
  · let re : (Ω × F × PwHash v × BytesN 32) × Y ≃ ((F × PwHash v × BytesN 32) × Y) × Ω :=
      { toFun := fun z => ((z.1.2, z.2), z.1.1)
        invFun := fun z => ((z.2, z.1.1), z.1.2)
        left_inv := fun _ => rfl
        right_inv := fun _ => rfl }
    have h : count (fun y : ((F × PwHash v × BytesN 32) × Y) × Ω =>
        (pwOf y.2).1 ∈ (asked y.1.1.1 y.1.1.2.1 y.1.2).filterMap PwAsk.tried) ≤
        B * Fintype.card ((F × PwHash v × BytesN 32) × Y) := by
      rw [count_prod]
      refine le_trans (Finset.sum_le_card_nsmul _ _ B fun z _ => ?_) (by
        rw [Finset.card_univ, Nat.nsmul_eq_mul, Nat.mul_comm])
      exact hB.list ((asked z.1.1 z.1.2.1 z.2).filterMap PwAsk.tried) (play_tried _ _ _ _ _)
    rw [← Plug.count_bij re.bijective (fun _ => Iff.rfl)] at h
    exact h
  · let re : (Ω × F × PwHash v × BytesN 32) × Y ≃ ((Ω × F × PwHash v) × Y) × BytesN 32 :=
      { toFun := fun z => (((z.1.1, z.1.2.1, z.1.2.2.1), z.2), z.1.2.2.2)
        invFun := fun z => ((z.1.1.1, z.1.1.2.1, z.1.1.2.2, z.2), z.1.2)
        left_inv := fun _ => rfl
        right_inv := fun _ => rfl }
    have h := Plug.count_touched (fun p : BytesN 32 => p) 1 n (one _ fun _ _ h => h)
      (α := (Ω × F × PwHash v) × Y)
      (fun z => (asked z.1.2.1 z.1.2.2 z.2).flatMap (usesPre z.1.2.2)) fun z =>
        Nat.le_trans (flat_length _ (usesPre_length _) _) (play_length _ _ _ _ _)
    rw [Nat.mul_one, ← Plug.count_bij re.bijective (fun _ => Iff.rfl)] at h
    exact h
  · let re : (Ω × F × PwHash v × BytesN 32) × Y ≃ ((F × PwHash v) × Y) × (Ω × BytesN 32) :=
      { toFun := fun z => (((z.1.2.1, z.1.2.2.1), z.2), (z.1.1, z.1.2.2.2))
        invFun := fun z => ((z.2.1, z.1.1.1, z.1.1.2, z.2.2), z.1.2)
        left_inv := fun _ => rfl
        right_inv := fun _ => rfl }
    rw [← Plug.count_fst (β := Ω × BytesN 32), ← Plug.count_bij re.bijective (fun _ => Iff.rfl)]
    exact Nat.le_refl _

include hW hst in
theorem which_bytes [Nonempty Ω] (pwOf : Ω → W) (hL : keyLen v k.kind ≤ L)
    (keys : Side → BytesN (keyLen v k.kind)) (hkb : ∀ a, keyBytes P k (keys a) = .ok (keys a))
    (ask : Bytes → List (PwAnswer v L) → Option (PwAsk v)) (n q B : Nat) (hq : AtMost pwOf q B)
    (D : Res (Bytes × List (PwAnswer v L)) → Prop) :
    |fractionOf (fun z : Ω × (W → PwHash v) × KeyHash v × CipherOf v L =>
          D (pwGame P (pwOf z.1).1 (keys .left) st salt nonce ask n q z.2.1 z.2.2.1 z.2.2.2)) -
        fractionOf (fun z : Ω × (W → PwHash v) × KeyHash v × CipherOf v L =>
          D (pwGame P (pwOf z.1).1 (keys .right) st salt nonce ask n q z.2.1 z.2.2.1 z.2.2.2))| ≤
      B / Fintype.card Ω +
        idealPwChance (W := W) (fun f g h c edk ak => PwForged P k st salt nonce edk ak
          (idealPwAsked P k st salt nonce ask n q f g h c edk ak)) +
        2 * n / 2 ^ 256 := by
  classical
  have e256 : ((256 ^ 32 : Nat) : ℚ) = 2 ^ 256 := by norm_num
  have hB : (Fintype.card (BytesN 32) : ℚ) = 2 ^ 256 := by rw [C75.card_bytes, e256]
  rw [chance_eq pwOf (hashPoint salt st) (fun pw f h c => D (pwGame P pw.1 (keys .left) st salt nonce ask n q f h c)),
    chance_eq pwOf (hashPoint salt st) (fun pw f h c => D (pwGame P pw.1 (keys .right) st salt nonce ask n q f h c)),
    ← sub_div, ← Finset.sum_sub_distrib, abs_div, abs_of_nonneg (Nat.cast_nonneg (α := ℚ) _)]
  unfold idealPwChance
  rw [count_eq]
  have hsum := Finset.sum_le_sum (s := Finset.univ)
    fun (r : Ω × (W → PwHash v) × PwHash v × BytesN 32) (_ : r ∈ Finset.univ) =>
    one_hash (W := W) hW st salt nonce hst hL keys hkb ask n q D (pwOf r.1, r.2)
  rw [Finset.sum_add_distrib, ← Finset.sum_div, ← Nat.cast_sum, ← count_prod (fun z : (Ω × (W → PwHash v) ×
      PwHash v × BytesN 32) × (KeyHash v × CipherOf v L × BytesN (keyLen v k.kind) × BytesN (pwKeyHashLen v)) =>
      Bad st salt nonce P k ask n q (pwOf z.1.1, z.1.2) z.2), Finset.sum_const, Finset.card_univ,
    nsmul_eq_mul] at hsum
  have hb := Nat.cast_le (α := ℚ).2 (count_bad (P := P) (W := W) (k := k) st salt nonce pwOf ask n q B hq)
  have : Nonempty (PwHash v) := ⟨fun _ => k0⟩
  have nb : ∀ m, Nonempty (BytesN m) := fun m => ⟨⟨List.replicate _ 0, List.length_replicate⟩⟩
  have : Nonempty (KeyHash v) := ⟨fun _ => (nb _).some⟩
  have hFc : (0 : ℚ) < Fintype.card (W → PwHash v) := by exact_mod_cast Fintype.card_pos
  have hGc : (0 : ℚ) < Fintype.card (PwHash v) := by exact_mod_cast Fintype.card_pos
  have hBc : (0 : ℚ) < Fintype.card (BytesN 32) := by exact_mod_cast Fintype.card_pos
  have hWp : (0 : ℚ) < Fintype.card Ω := by exact_mod_cast Fintype.card_pos
  have hYc : (0 : ℚ) < Fintype.card (KeyHash v × CipherOf v L × BytesN (keyLen v k.kind) ×
      BytesN (pwKeyHashLen v)) := by exact_mod_cast Fintype.card_pos
  refine le_trans (div_le_div_of_nonneg_right (le_trans (Finset.abs_sum_le_sum_abs _ _) hsum)
    (Nat.cast_nonneg _)) ?_
  rw [e256, ← hB]
  have c1 := Fintype.card_prod Ω ((W → PwHash v) × PwHash v × BytesN 32)
  have c2 := Fintype.card_prod (W → PwHash v) (PwHash v × BytesN 32)
  have c3 := Fintype.card_prod (PwHash v) (BytesN 32)
  have c4 := Fintype.card_prod Ω ((W → PwHash v) × PwHash v)
  have c5 := Fintype.card_prod (W → PwHash v) (PwHash v)
  have c6 := Fintype.card_prod Ω (BytesN 32)
  rw [Fintype.card_prod ((W → PwHash v) × PwHash v × BytesN 32), Fintype.card_prod (Ω × (W → PwHash v) × PwHash v),
    c2, c3, c4, c5, c6] at hb
  rw [Fintype.card_prod ((W → PwHash v) × PwHash v), c1, c2, c3, c5]
  simp only [Nat.cast_mul, Nat.cast_add] at hb ⊢
  exact final hWp hFc hGc hBc hYc hb

include hW in
/-- The chance of another right tag, on average over the MAC. -/
theorem forging_mean (hM : 133 ≤ M) (ask : Bytes → List (PwAnswer v L) → Option (PwAsk v)) (n q : Nat) :
    (∑ T : PwMac v M, idealPwChance (W := W) (fun f g h c edk ak =>
        PwForged (P.withPwMac v T) k st salt nonce edk ak
          (idealPwAsked (P.withPwMac v T) k st salt nonce ask n q f g h c edk ak))) /
        Fintype.card (PwMac v M) ≤ 2 * n / 2 ^ 256 := by
  have hf := C89.forging (P := P) (W := W) (L := L) (k := k) hW st salt nonce hM ask n q
  let re : PwMac v M × (((W → PwHash v) × PwHash v) × KeyHash v × CipherOf v L ×
        BytesN (keyLen v k.kind) × BytesN (pwKeyHashLen v)) ≃
      (((W → PwHash v) × PwHash v) × KeyHash v × CipherOf v L × BytesN (keyLen v k.kind)) ×
        BytesN (pwKeyHashLen v) × PwMac v M :=
    { toFun := fun x => ((x.2.1, x.2.2.1, x.2.2.2.1, x.2.2.2.2.1), x.2.2.2.2.2, x.1)
      invFun := fun x => (x.2.2, x.1.1, x.1.2.1, x.1.2.2.1, x.1.2.2.2, x.2.1)
      left_inv := fun _ => rfl
      right_inv := fun _ => rfl }
  rw [← Plug.count_bij re.bijective
    (A := fun x => PwForged (P.withPwMac v x.1) k st salt nonce x.2.2.2.2.1 x.2.2.2.2.2
        (idealPwAsked (P.withPwMac v x.1) k st salt nonce ask n q x.2.1.1 x.2.1.2 x.2.2.1 x.2.2.2.1
          x.2.2.2.2.1 x.2.2.2.2.2)) (fun _ => Iff.rfl), ← Fintype.card_congr re, count_prod,
    Fintype.card_prod, Nat.cast_mul, Nat.cast_sum, mul_comm, ← div_div, Finset.sum_div] at hf
  simp only [idealPwChance, count_eq]
  refine le_trans hf ?_
  have hb : ∀ m, 32 ≤ m → (n : ℚ) / Fintype.card (BytesN m) ≤ n / 2 ^ 256 := by
    intro m hm
    have e256 : ((256 ^ 32 : Nat) : ℚ) = 2 ^ 256 := by norm_num
    have hc : ((256 ^ 32 : Nat) : ℚ) ≤ Fintype.card (BytesN m) := by
      rw [C75.card_bytes]
      exact Nat.cast_le.2 (Nat.pow_le_pow_right (by decide) hm)
    rw [← e256]
    exact div_le_div_of_nonneg_left (Nat.cast_nonneg _) (Nat.cast_pos.2 (Nat.pow_pos (by decide))) hc
  rw [two_mul, add_div]
  exact add_le_add (hb _ (by cases v <;> decide)) (hb _ (by cases v <;> decide))

theorem fraction_sum {α β : Type} [Fintype α] [Fintype β] (A : α × β → Prop) :
    fractionOf A = (∑ a, fractionOf fun b => A (a, b)) / Fintype.card α := by
  unfold fractionOf
  rw [count_eq, count_prod, ← Finset.sum_div, ← Nat.cast_sum, Fintype.card_prod, Nat.cast_mul, div_div,
    mul_comm (Fintype.card α : ℚ)]
  simp only [count_eq]

include hW hst in
/-- C110. Whoever sees a key wrapped with an unknown password, runs the password hash at most `q` times, and has other
keys wrapped and other texts unwrapped with the password, learns which of two keys it was at most as well as they
find the password with `q` guesses. -/
theorem which_key [Nonempty Ω] (pwOf : Ω → W) (hM : 133 ≤ M) (hP : P.Laws) (hL : keyLen v k.kind ≤ L)
    (keys : Side → Key P v k.kind) (ask : Bytes → List (PwAnswer v L) → Option (PwAsk v)) (n q B : Nat)
    (hq : AtMost pwOf q B) (D : Res (Bytes × List (PwAnswer v L)) → Prop) :
    |fractionOf (fun z : PwMac v M × Ω × (W → PwHash v) × KeyHash v × CipherOf v L =>
          D (pwGame (P.withPwMac v z.1) (pwOf z.2.1).1 (keys .left).toBytes st salt nonce ask n q z.2.2.1 z.2.2.2.1
            z.2.2.2.2)) -
        fractionOf (fun z : PwMac v M × Ω × (W → PwHash v) × KeyHash v × CipherOf v L =>
          D (pwGame (P.withPwMac v z.1) (pwOf z.2.1).1 (keys .right).toBytes st salt nonce ask n q z.2.2.1 z.2.2.2.1
            z.2.2.2.2))| ≤
      B / Fintype.card Ω + 4 * n / 2 ^ 256 := by
  classical
  have : Nonempty (PwMac v M) := ⟨fun _ _ => ⟨List.replicate _ 0, List.length_replicate⟩⟩
  have hT : (0 : ℚ) < Fintype.card (PwMac v M) := by exact_mod_cast Fintype.card_pos
  rw [fraction_sum, fraction_sum, ← sub_div, ← Finset.sum_sub_distrib, abs_div,
    abs_of_nonneg (Nat.cast_nonneg (α := ℚ) _)]
  have hsum := Finset.sum_le_sum (s := Finset.univ) fun (T : PwMac v M) (_ : T ∈ Finset.univ) =>
    which_bytes (P := P.withPwMac v T) (W := W) hW st salt nonce hst pwOf hL (fun a => (keys a).toBytes)
      (fun a => by rw [keyBytes_with]; exact bytes_ok hP (keys a)) ask n q B hq D
  rw [Finset.sum_add_distrib, Finset.sum_add_distrib, Finset.sum_const, Finset.sum_const, Finset.card_univ,
    nsmul_eq_mul, nsmul_eq_mul] at hsum
  refine le_trans (div_le_div_of_nonneg_right (le_trans (Finset.abs_sum_le_sum_abs _ _) hsum) hT.le) ?_
  exact tags_final hT (forging_mean hW st salt nonce hM ask n q)

end

/-! ### A secret instead of two keys -/

variable {k : WKind} {S : Type} [Fintype S] [Nonempty S]

/-- Whatever is concluded about a secret that the wrapped key is made from, the conclusion is right as often as when it
is drawn from a text with something else, `s₀`, in place of the secret; but for the chance of finding the password
with `q` guesses. -/
theorem semantic [Nonempty Ω] (hW : ∀ pw ∈ W, pw.length < 2 ^ 32) (pwOf : Ω → W) (st : KdfState v)
    (salt : BytesN (pwSaltLen v)) (nonce : BytesN (ivLen v)) (hst : StateOk st) (hM : 133 ≤ M) (hP : P.Laws)
    (hL : keyLen v k.kind ≤ L) (key : S → Key P v k.kind)
    (ask : Bytes → List (PwAnswer v L) → Option (PwAsk v)) (n q B : Nat) (hq : AtMost pwOf q B)
    (D : Res (Bytes × List (PwAnswer v L)) → S → Prop) (s₀ : S) :
    |fractionOf (fun z : S × PwMac v M × Ω × (W → PwHash v) × KeyHash v × CipherOf v L =>
          D (pwGame (P.withPwMac v z.2.1) (pwOf z.2.2.1).1 (key z.1).toBytes st salt nonce ask n q z.2.2.2.1
            z.2.2.2.2.1 z.2.2.2.2.2) z.1) -
        fractionOf (fun z : S × PwMac v M × Ω × (W → PwHash v) × KeyHash v × CipherOf v L =>
          D (pwGame (P.withPwMac v z.2.1) (pwOf z.2.2.1).1 (key s₀).toBytes st salt nonce ask n q z.2.2.2.1
            z.2.2.2.2.1 z.2.2.2.2.2) z.1)| ≤
      B / Fintype.card Ω + 4 * n / 2 ^ 256 := by
  have h : ∀ s, |fractionOf (fun z : PwMac v M × Ω × (W → PwHash v) × KeyHash v × CipherOf v L =>
          D (pwGame (P.withPwMac v z.1) (pwOf z.2.1).1 (key s).toBytes st salt nonce ask n q z.2.2.1 z.2.2.2.1
            z.2.2.2.2) s) -
        fractionOf (fun z : PwMac v M × Ω × (W → PwHash v) × KeyHash v × CipherOf v L =>
          D (pwGame (P.withPwMac v z.1) (pwOf z.2.1).1 (key s₀).toBytes st salt nonce ask n q z.2.2.1 z.2.2.2.1
            z.2.2.2.2) s)| ≤ B / Fintype.card Ω + 4 * n / 2 ^ 256 := fun s =>
    which_key hW st salt nonce hst pwOf hM hP hL
      (fun | .left => key s | .right => key s₀) ask n q B hq fun res => D res s
  have h := mean_close (A := fun z : S × PwMac v M × Ω × (W → PwHash v) × KeyHash v × CipherOf v L =>
      D (pwGame (P.withPwMac v z.2.1) (pwOf z.2.2.1).1 (key z.1).toBytes st salt nonce ask n q z.2.2.2.1 z.2.2.2.2.1
        z.2.2.2.2.2) z.1)
    (B := fun z : S × PwMac v M × Ω × (W → PwHash v) × KeyHash v × CipherOf v L =>
      D (pwGame (P.withPwMac v z.2.1) (pwOf z.2.2.1).1 (key s₀).toBytes st salt nonce ask n q z.2.2.2.1 z.2.2.2.2.1
        z.2.2.2.2.2) z.1) h
  rw [mean_const] at h
  exact h

/-- With `t` guesses the secret is found with a chance of at most `t` in the number of secrets, but for the chance of
finding the password with `q` guesses. -/
theorem guessed [Nonempty Ω] (hW : ∀ pw ∈ W, pw.length < 2 ^ 32) (pwOf : Ω → W) (st : KdfState v)
    (salt : BytesN (pwSaltLen v)) (nonce : BytesN (ivLen v)) (hst : StateOk st) (hM : 133 ≤ M) (hP : P.Laws)
    (hL : keyLen v k.kind ≤ L) (key : S → Key P v k.kind)
    (ask : Bytes → List (PwAnswer v L) → Option (PwAsk v)) (n q B t : Nat) (hq : AtMost pwOf q B)
    (guesses : Res (Bytes × List (PwAnswer v L)) → Finset S) (ht : ∀ res, (guesses res).card ≤ t) :
    fractionOf (fun z : S × PwMac v M × Ω × (W → PwHash v) × KeyHash v × CipherOf v L => z.1 ∈ guesses
        (pwGame (P.withPwMac v z.2.1) (pwOf z.2.2.1).1 (key z.1).toBytes st salt nonce ask n q z.2.2.2.1 z.2.2.2.2.1
          z.2.2.2.2.2)) ≤
      t / Fintype.card S + B / Fintype.card Ω + 4 * n / 2 ^ 256 := by
  have s₀ : S := Classical.arbitrary S
  have h := (abs_le.1 (semantic hW pwOf st salt nonce hst hM hP hL key ask n q B hq
    (fun res s => s ∈ guesses res) s₀)).2
  have h2 := blind t (fun z : PwMac v M × Ω × (W → PwHash v) × KeyHash v × CipherOf v L =>
    pwGame (P.withPwMac v z.1) (pwOf z.2.1).1 (key s₀).toBytes st salt nonce ask n q z.2.2.1 z.2.2.2.1 z.2.2.2.2)
    guesses ht
  linarith

/-- The secret can be drawn in any way as well, as a function `f` of what is drawn evenly, or only something about it
is guessed. If no value is more likely than `p`, a guess is right with a chance of at most `p`, but for the chance of
finding the password with `q` guesses. -/
theorem guessed_uneven [Nonempty Ω] (hW : ∀ pw ∈ W, pw.length < 2 ^ 32) (pwOf : Ω → W) (st : KdfState v)
    (salt : BytesN (pwSaltLen v)) (nonce : BytesN (ivLen v)) (hst : StateOk st) (hM : 133 ≤ M) (hP : P.Laws)
    (hL : keyLen v k.kind ≤ L) (key : S → Key P v k.kind)
    (ask : Bytes → List (PwAnswer v L) → Option (PwAsk v)) (n q B : Nat) (hq : AtMost pwOf q B)
    {T : Type} (f : S → T) (p : ℚ) (hp : ∀ y, fractionOf (fun s => f s = y) ≤ p)
    (guess : Res (Bytes × List (PwAnswer v L)) → T) :
    fractionOf (fun z : S × PwMac v M × Ω × (W → PwHash v) × KeyHash v × CipherOf v L => f z.1 = guess
        (pwGame (P.withPwMac v z.2.1) (pwOf z.2.2.1).1 (key z.1).toBytes st salt nonce ask n q z.2.2.2.1 z.2.2.2.2.1
          z.2.2.2.2.2)) ≤
      p + B / Fintype.card Ω + 4 * n / 2 ^ 256 := by
  have s₀ : S := Classical.arbitrary S
  have h := (abs_le.1 (semantic hW pwOf st salt nonce hst hM hP hL key ask n q B hq
    (fun res s => f s = guess res) s₀)).2
  have h2 := C108.blind_uneven (fun z : PwMac v M × Ω × (W → PwHash v) × KeyHash v × CipherOf v L =>
    pwGame (P.withPwMac v z.1) (pwOf z.2.1).1 (key s₀).toBytes st salt nonce ask n q z.2.2.1 z.2.2.2.1 z.2.2.2.2)
    guess f p hp
  linarith

/-! ### How well passwords are guessed -/

open Classical in
/-- If no password comes from more than `c` draws, `q` passwords come from at most `q * c`. -/
theorem likeliest (pwOf : Ω → W) (c q : Nat)
    (h : ∀ pw, (Finset.univ.filter fun ω => (pwOf ω).1 = pw).card ≤ c) : AtMost pwOf q (q * c) := by
  intro ws hws
  have e : (Finset.univ.filter fun ω => (pwOf ω).1 ∈ ws) ⊆
      ws.biUnion fun w => Finset.univ.filter fun ω => (pwOf ω).1 = w := by
    intro ω hω
    rw [Finset.mem_filter] at hω
    exact Finset.mem_biUnion.2 ⟨_, hω.2, Finset.mem_filter.2 ⟨Finset.mem_univ _, rfl⟩⟩
  exact le_trans (Finset.card_le_card e) (le_trans (Finset.card_biUnion_le_card_mul _ _ _ fun w _ => h w)
    (Nat.mul_le_mul_right _ hws))

/-- Passwords that are drawn evenly: C89 again. -/
theorem even (q : Nat) : AtMost (id : W → W) q q := by
  classical
  have h := likeliest (id : W → W) 1 q fun pw => Finset.card_le_one.2 fun a ha b hb => by
    rw [Finset.mem_filter] at ha hb
    exact Subtype.ext (ha.2.trans hb.2.symm)
  rwa [Nat.mul_one] at h

/-! ### A case: three of four take the password "a", the fourth takes "b" -/

section

open Real (prims)

def habit (i : Fin 4) : ({[97], [98]} : Finset Bytes) :=
  if i.1 < 3 then ⟨[97], by decide⟩ else ⟨[98], by decide⟩

theorem habit_a : ∀ i, (habit i).1 = [97] → i ∈ ({0, 1, 2} : Finset (Fin 4)) := by decide
theorem habit_b : ∀ i, (habit i).1 = [98] → i ∈ ({3} : Finset (Fin 4)) := by decide
theorem habit_ab : ∀ i, (habit i).1 = [97] ∨ (habit i).1 = [98] := by decide

/-- One guess finds the password of at most three of the four. -/
theorem habit_one : AtMost habit 1 3 := by
  classical
  intro ws hws
  by_cases ha : [97] ∈ ws
  · have hb : [98] ∉ ws := fun hb => by
      have := Finset.card_le_one.1 hws _ ha _ hb
      exact absurd this (by decide)
    refine le_trans (Finset.card_le_card (t := {0, 1, 2}) fun i hi => ?_) (by decide)
    rw [Finset.mem_filter] at hi
    rcases habit_ab i with h | h
    · exact habit_a i h
    · rw [h] at hi; exact absurd hi.2 hb
  · refine le_trans (Finset.card_le_card (t := {3}) fun i hi => ?_) (by decide)
    rw [Finset.mem_filter] at hi
    rcases habit_ab i with h | h
    · rw [h] at hi; exact absurd hi.2 ha
    · exact habit_b i h

/-- Not at most two: the bound is met. -/
example : ¬ AtMost habit 1 2 := by
  classical
  intro h
  have h := h {[97]} (by decide)
  exact absurd h (by
    rw [show (Finset.univ.filter fun ω => (habit ω).1 ∈ ({[97]} : Finset Bytes)) = {0, 1, 2} by
      ext i
      rw [Finset.mem_filter, Finset.mem_singleton]
      revert i
      decide]
    decide)

/-- Whoever runs the password hash once, and has texts unwrapped, learns which key it was three times in four at
most. -/
example (v : Ver) (keys : Side → Key prims v .Local) (salt : BytesN (pwSaltLen v)) (nonce : BytesN (ivLen v))
    (ask : Bytes → List (PwAnswer v 32) → Option (PwAsk v)) (n : Nat)
    (D : Res (Bytes × List (PwAnswer v 32)) → Prop) :=
  which_key (k := .Local) (M := 133) C89.two_short (KdfState.default v) salt nonce (C89.default_ok v) habit
    (Nat.le_refl _) Real.laws (by cases v <;> exact Nat.le_refl 32) keys ask n 1 3 habit_one D

/-- … and finds a random key no better. -/
example (v : Ver) (salt : BytesN (pwSaltLen v)) (nonce : BytesN (ivLen v))
    (ask : Bytes → List (PwAnswer v 32) → Option (PwAsk v)) (guess : Res (Bytes × List (PwAnswer v 32)) → BytesN 32) :
    fractionOf (fun z : BytesN 32 × PwMac v 133 × Fin 4 × (({[97], [98]} : Finset Bytes) → PwHash v) × KeyHash v ×
        CipherOf v 32 => z.1 ∈ ({guess
          (pwGame (k := .Local) (prims.withPwMac v z.2.1) (habit z.2.2.1).1
            (Key.toBytes (⟨z.1⟩ : Key prims v .Local)) (KdfState.default v) salt nonce ask 1000 1 z.2.2.2.1
            z.2.2.2.2.1 z.2.2.2.2.2)} : Finset _)) ≤ 3 / 4 + 4001 / 2 ^ 256 := by
  have : Nonempty (BytesN 32) := ⟨⟨List.replicate 32 0, List.length_replicate⟩⟩
  refine (guessed (k := .Local) (M := 133) C89.two_short habit (KdfState.default v) salt nonce (C89.default_ok v)
    (Nat.le_refl _) Real.laws (by cases v <;> exact Nat.le_refl 32) (fun w : BytesN 32 => ⟨w⟩) ask 1000 1 3 1
    habit_one (fun res => {guess res}) (fun _ => (Finset.card_singleton _).le)).trans ?_
  have e : (Fintype.card (BytesN 32) : ℚ) = 2 ^ 256 := by
    rw [C75.card_bytes]
    norm_num
  rw [e, Fintype.card_fin]
  norm_num

/-- … nor the first byte of it. -/
example (v : Ver) (salt : BytesN (pwSaltLen v)) (nonce : BytesN (ivLen v)) (w₀ : BytesN 32)
    (ask : Bytes → List (PwAnswer v 32) → Option (PwAsk v)) (n : Nat) (p : ℚ)
    (hp : ∀ s, fractionOf (fun w : BytesN 32 => w.1.head? = s) ≤ p)
    (guess : Res (Bytes × List (PwAnswer v 32)) → Option UInt8) :=
  have : Nonempty (BytesN 32) := ⟨w₀⟩
  guessed_uneven (k := .Local) (M := 133) C89.two_short habit (KdfState.default v) salt nonce (C89.default_ok v)
    (Nat.le_refl _) Real.laws (by cases v <;> exact Nat.le_refl 32) (fun w : BytesN 32 => ⟨w⟩) ask n 1 3 habit_one
    (fun w => w.1.head?) p hp guess

end

end Pasta.C110
