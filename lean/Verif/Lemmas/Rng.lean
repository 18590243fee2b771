import Verif.Spec.Rng
import Verif.Lemmas.Pke

/-! # Lemmas about random sources -/

namespace Pasta

open Spec (Delivers DeliversFor Consumer)

variable {ρ α κ : Type}

theorem Spec.Delivers.cons_inv {G : RngCore ρ} {s s' : ρ} {b : Bytes} {bs : List Bytes}
    (h : Delivers G s (b :: bs) s') :
    ∃ s₁ hb, G.fill b.length s = .ok (⟨b, hb⟩, s₁) ∧ Delivers G s₁ bs s' := by
  cases h with
  | @draw _ s₁ _ n b _ h1 h2 =>
    obtain ⟨b, rfl⟩ := b
    exact ⟨s₁, rfl, h1, h2⟩

theorem Spec.Delivers.cons_inv_len {G : RngCore ρ} {s s' : ρ} {b : Bytes} {bs : List Bytes} {m : Nat}
    (h : Delivers G s (b :: bs) s') (hm : b.length = m) :
    ∃ s₁, G.fill m s = .ok (⟨b, hm⟩, s₁) ∧ Delivers G s₁ bs s' := by
  subst hm
  obtain ⟨s₁, hb, h⟩ := h.cons_inv
  exact ⟨s₁, h⟩

theorem Spec.Delivers.nil_inv {G : RngCore ρ} {s s' : ρ} (h : Delivers G s [] s') : s = s' := by
  cases h; rfl

theorem fillBytes_append (n : Nat) (b : BytesN n) (rest : Rng) :
    fillBytes n (b.1 ++ rest) = .ok (b, rest) := fillBytes_eq_ok.2 rfl

/-- One block, then a computation. -/
theorem deliversFor_one (G : RngCore ρ) (s s' : ρ) (m : Nat) (body : BytesN m → Res α) (x : α) :
    (do let (n, s) ← G.fill m s; let x ← body n; return (x, s)) = Res.ok (x, s') ↔
      DeliversFor G s s' [m]
        (fun r => do let (n, r) ← fillBytes m r; let x ← body n; return (x, r)) x := by
  simp only [Res.bind_eq_ok, Res.pure_def, Res.ok.injEq, Prod.mk.injEq, Prod.exists]
  constructor
  · rintro ⟨n, s1, h1, x', h2, rfl, rfl⟩
    refine ⟨[n.1], .draw h1 (.done _), by simp [n.2], ?_⟩
    intro rest
    simp only [List.flatten_cons, List.flatten_nil, List.append_nil, fillBytes_append, Res.ok_bind,
      h2]
  · rintro ⟨blocks, h1, h2, h3⟩
    match blocks, h2 with
    | [b], h2 =>
      simp only [List.map_cons, List.map_nil, List.cons.injEq, and_true] at h2
      subst h2
      obtain ⟨s1, hb, h4, h5⟩ := h1.cons_inv
      have := h5.nil_inv
      subst this
      have h6 := h3 []
      simp only [List.flatten_cons, List.flatten_nil, List.append_nil] at h6
      have h7 := fillBytes_append b.length ⟨b, hb⟩ []
      simp only [List.append_nil] at h7
      rw [h7] at h6
      simp only [Res.ok_bind, Res.bind_eq_ok, Res.ok.injEq, Prod.mk.injEq, and_true] at h6
      obtain ⟨x', h8, rfl⟩ := h6
      exact ⟨_, _, h4, _, h8, rfl, rfl⟩

/-- A block, a computation, another block, another computation. -/
theorem deliversFor_two (G : RngCore ρ) (s s' : ρ) (m m' : Nat) (body : BytesN m → Res κ)
    (body' : BytesN m → κ → BytesN m' → Res α) (x : α) :
    (do let (n, s) ← G.fill m s; let y ← body n; let (n', s) ← G.fill m' s
        let x ← body' n y n'; return (x, s)) = Res.ok (x, s') ↔
      DeliversFor G s s' [m, m']
        (fun r => do let (n, r) ← fillBytes m r; let y ← body n; let (n', r) ← fillBytes m' r
                     let x ← body' n y n'; return (x, r)) x := by
  simp only [Res.bind_eq_ok, Res.pure_def, Res.ok.injEq, Prod.mk.injEq, Prod.exists]
  constructor
  · rintro ⟨n, s1, h1, y, h2, n', s2, h3, x', h4, rfl, rfl⟩
    refine ⟨[n.1, n'.1], .draw h1 (.draw h3 (.done _)), by simp [n.2, n'.2], ?_⟩
    intro rest
    simp only [List.flatten_cons, List.flatten_nil, List.append_nil, List.append_assoc,
      fillBytes_append, Res.ok_bind, h2, h4]
  · rintro ⟨blocks, h1, h2, h3⟩
    match blocks, h2 with
    | [b, b'], h2 =>
      simp only [List.map_cons, List.map_nil, List.cons.injEq, and_true] at h2
      obtain ⟨rfl, rfl⟩ := h2
      obtain ⟨s1, hb, h4, h5⟩ := h1.cons_inv
      obtain ⟨s2, hb', h6, h7⟩ := h5.cons_inv
      have := h7.nil_inv
      subst this
      have h8 := h3 []
      simp only [List.flatten_cons, List.flatten_nil, List.append_nil] at h8
      rw [fillBytes_append b.length ⟨b, hb⟩ b'] at h8
      simp only [Res.ok_bind, Res.bind_eq_ok] at h8
      obtain ⟨y, h9, h10⟩ := h8
      have h11 := fillBytes_append b'.length ⟨b', hb'⟩ []
      simp only [List.append_nil] at h11
      rw [h11] at h10
      obtain ⟨⟨n', r⟩, h12, h13⟩ := h10
      cases h12
      obtain ⟨x', h14, h15⟩ := h13
      cases h15
      exact ⟨_, _, h4, _, h9, _, _, h6, _, h14, rfl, rfl⟩

theorem p384Random_cons (b : BytesN 48) (rest : Rng) :
    p384Random (b.1 ++ rest) =
      if hb : p384ScalarOk b then .ok (⟨b, hb⟩, rest) else p384Random rest := by
  rw [p384Random]
  have hl := b.2
  have e1 : (b.1 ++ rest).take 48 = b.1 := by
    rw [List.take_append_of_le_length (by omega), List.take_of_length_le (by omega)]
  have e2 : (b.1 ++ rest).drop 48 = rest := by
    rw [List.drop_append_of_le_length (by omega), List.drop_of_length_le (by omega)]; rfl
  have e3 : (⟨(b.1 ++ rest).take 48, by simp; omega⟩ : BytesN 48) = b := Subtype.ext e1
  rw [dif_pos (by simp; omega)]
  simp only [e3, e2]

/-- Rejection sampling, then a computation. -/
theorem deliversFor_scalar (G : RngCore ρ) (s s' : ρ) (body : P384Scalar → Res α) (x : α) :
    (∃ t, (p384RandomFrom G t s).map
        (fun r => (do let (n, s) ← r; let x ← body n; return (x, s))) = some (Res.ok (x, s'))) ↔
      ∃ k, DeliversFor G s s' (List.replicate k 48)
        (fun r => do let (n, r) ← p384Random r; let x ← body n; return (x, r)) x := by
  constructor
  · rintro ⟨t, h⟩
    induction t generalizing s with
    | zero => simp [p384RandomFrom] at h
    | succ t ih =>
      simp only [p384RandomFrom] at h
      split at h
      · rename_i b s1 hf
        split at h
        · rename_i hb
          simp only [Option.map_some, Res.ok_bind, Option.some.injEq, Res.bind_eq_ok, Res.pure_def,
            Res.ok.injEq, Prod.mk.injEq] at h
          obtain ⟨x', h1, rfl, rfl⟩ := h
          refine ⟨1, [b.1], .draw hf (.done _), by simp [b.2], ?_⟩
          intro rest
          simp only [List.flatten_cons, List.flatten_nil, List.append_nil, p384Random_cons,
            dif_pos hb, Res.ok_bind, h1, Res.pure_def]
        · rename_i hb
          obtain ⟨k, blocks, h1, h2, h3⟩ := ih s1 h
          refine ⟨k + 1, b.1 :: blocks, .draw hf h1, by simp [b.2, h2, List.replicate_succ], ?_⟩
          intro rest
          simp only [List.flatten_cons, List.append_assoc, p384Random_cons, dif_neg hb]
          exact h3 rest
      · simp at h
      · simp at h
  · rintro ⟨k, blocks, h1, h2, h3⟩
    induction blocks generalizing s k with
    | nil =>
      have := h3 []
      simp only [List.flatten_nil, List.append_nil] at this
      rw [p384Random] at this
      simp at this
    | cons b bs ih =>
      cases k with
      | zero => simp at h2
      | succ k =>
      simp only [List.map_cons, List.replicate_succ, List.cons.injEq] at h2
      obtain ⟨hlen, h2⟩ := h2
      obtain ⟨s1, h6, h5⟩ := h1.cons_inv_len hlen
      by_cases hok : p384ScalarOk ⟨b, hlen⟩
      · have h7 := h3 []
        simp only [List.flatten_cons, List.append_nil] at h7
        rw [p384Random_cons ⟨b, hlen⟩, dif_pos hok] at h7
        simp only [Res.ok_bind, Res.bind_eq_ok, Res.pure_def, Res.ok.injEq, Prod.mk.injEq] at h7
        obtain ⟨x', h8, rfl, h9⟩ := h7
        have hbs : bs = [] := by
          cases k with
          | zero => simpa using h2
          | succ k =>
            exfalso
            cases bs with
            | nil => simp at h2
            | cons c cs =>
              simp only [List.flatten_cons, List.append_eq_nil_iff] at h9
              simp only [List.map_cons, List.replicate_succ, List.cons.injEq] at h2
              rw [h9.1] at h2
              simp at h2
        subst hbs
        have := h5.nil_inv
        subst this
        refine ⟨1, ?_⟩
        simp only [p384RandomFrom, h6, dif_pos hok, Option.map_some, Res.ok_bind, h8, Res.pure_def]
      · obtain ⟨t, ht⟩ := ih s1 k h5 h2 (by
          intro rest
          have := h3 rest
          simp only [List.flatten_cons, List.append_assoc] at this
          rw [p384Random_cons ⟨b, hlen⟩, dif_neg hok] at this
          exact this)
        refine ⟨t + 1, ?_⟩
        simp only [p384RandomFrom, h6, dif_neg hok]
        exact ht

end Pasta
