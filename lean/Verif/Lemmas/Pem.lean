import Verif.Model.Pem
import Verif.Spec.Pem
import Verif.Lemmas.Basic

/-! # Reading key files: the readers of Model/Pem against the layouts of Spec/Pem -/

namespace Pasta.Pem

open Spec.Pem (char base64 IsPem)

theorem std64_char : ∀ n < 64, std64 (char n) = some n := by decide +kernel

theorem char_ne : ∀ n < 64, char n ≠ 61 ∧ char n ≠ 10 ∧ char n ≠ 13 := by decide +kernel

theorem ofNat_toNat_eq {a : UInt8} {n : Nat} (h : n = a.toNat) : UInt8.ofNat n = a := by
  subst h; simp

theorem groups_induction {q : Bytes → Prop} (h0 : q []) (h1 : ∀ a, q [a]) (h2 : ∀ a b, q [a, b])
    (h3 : ∀ a b c r, q r → q (a :: b :: c :: r)) : ∀ s, q s
  | [] => h0
  | [a] => h1 a
  | [a, b] => h2 a b
  | a :: b :: c :: r => h3 a b c r (groups_induction h0 h1 h2 h3 r)

theorem decode_base64 (b : Bytes) : decode64 (base64 b) = some b := by
  induction b using groups_induction with
  | h0 => rfl
  | h1 a =>
    have ha := a.toNat_lt
    unfold base64
    simp only
    rw [decode64, std64_char _ (by omega), std64_char _ (by omega)]
    simp only [bind, Option.bind_some, pure]
    rw [if_neg (by omega)]
    simp only [Option.bind_some, Option.some.injEq, List.cons.injEq, and_true]
    exact ofNat_toNat_eq (by omega)
  | h2 a b =>
    have ha := a.toNat_lt
    have hb := b.toNat_lt
    unfold base64
    simp only
    rw [decode64, std64_char _ (by omega), std64_char _ (by omega), std64_char _ (by omega)]
    · simp only [bind, Option.bind_some, pure]
      rw [if_neg (by omega)]
      simp only [Option.bind_some, Option.some.injEq, List.cons.injEq, and_true]
      exact ⟨ofNat_toNat_eq (by omega), ofNat_toNat_eq (by omega)⟩
    · intro h; exact (char_ne _ (by omega)).1 h
  | h3 a b c r ih =>
    have ha := a.toNat_lt
    have hb := b.toNat_lt
    have hc := c.toNat_lt
    unfold base64
    simp only
    rw [decode64, std64_char _ (by omega), std64_char _ (by omega), std64_char _ (by omega),
      std64_char _ (by omega), ih]
    · simp only [bind, Option.bind_some, pure, Option.some.injEq, List.cons.injEq, and_true]
      exact ⟨ofNat_toNat_eq (by omega), ofNat_toNat_eq (by omega), ofNat_toNat_eq (by omega)⟩
    · intro _ h; exact absurd h (char_ne _ (by omega)).1
    · intro h; exact absurd h (char_ne _ (by omega)).1

theorem base64_chars (b : Bytes) : ∀ c ∈ base64 b, c ≠ 10 ∧ c ≠ 13 := by
  induction b using groups_induction with
  | h0 => simp [base64]
  | h1 a =>
    have ha := a.toNat_lt
    unfold base64
    simp only [List.mem_cons, List.not_mem_nil, or_false, forall_eq_or_imp, forall_eq]
    exact ⟨(char_ne _ (by omega)).2, (char_ne _ (by omega)).2, by decide, by decide⟩
  | h2 a b =>
    have ha := a.toNat_lt
    have hb := b.toNat_lt
    unfold base64
    simp only [List.mem_cons, List.not_mem_nil, or_false, forall_eq_or_imp, forall_eq]
    exact ⟨(char_ne _ (by omega)).2, (char_ne _ (by omega)).2, (char_ne _ (by omega)).2, by decide⟩
  | h3 a b c r ih =>
    have ha := a.toNat_lt
    have hb := b.toNat_lt
    have hc := c.toNat_lt
    unfold base64
    simp only [List.mem_cons, forall_eq_or_imp]
    exact ⟨(char_ne _ (by omega)).2, (char_ne _ (by omega)).2, (char_ne _ (by omega)).2,
      (char_ne _ (by omega)).2, ih⟩

theorem filter_lines {nl : Bytes} (hnl : nl = [10] ∨ nl = [13, 10]) (lines : List Bytes)
    (h : ∀ c ∈ lines.flatten, c ≠ 10 ∧ c ≠ 13) :
    (lines.flatMap (· ++ nl)).filter (fun c => c != 10 && c != 13) = lines.flatten := by
  have hn : nl.filter (fun c => c != 10 && c != 13) = [] := by rcases hnl with rfl | rfl <;> decide
  induction lines with
  | nil => rfl
  | cons l ls ih =>
    rw [List.flatten_cons] at h ⊢
    rw [List.flatMap_cons, List.filter_append, List.filter_append, hn, List.append_nil,
      ih (fun c hc => h c (List.mem_append_right _ hc))]
    congr 1
    rw [List.filter_eq_self]
    intro c hc
    have := h c (List.mem_append_left _ hc)
    simp [this]

theorem stripEol_nl {nl : Bytes} (hnl : nl = [10] ∨ nl = [13, 10]) (s : Bytes) :
    stripEol (nl ++ s) = some s := by
  rcases hnl with rfl | rfl <;> rfl

theorem dropEol_tail {nl tail : Bytes} (hnl : nl = [10] ∨ nl = [13, 10]) (ht : tail = [] ∨ tail = nl)
    (s : Bytes) : dropEol (s ++ [45] ++ tail) = s ++ [45] := by
  rcases ht with rfl | rfl
  · unfold dropEol
    rw [List.append_nil, List.reverse_append]
    rfl
  · rcases hnl with rfl | rfl
    · unfold dropEol
      have e : (s ++ [45] ++ [10]).reverse = 10 :: 45 :: s.reverse := by simp
      rw [e]
      show (45 :: s.reverse).reverse = _
      simp
    · unfold dropEol
      have e : (s ++ [45] ++ [13, 10]).reverse = 10 :: 13 :: 45 :: s.reverse := by simp
      rw [e]
      show (45 :: s.reverse).reverse = _
      simp

theorem stripSuffix_append (e s : Bytes) : stripSuffix e (s ++ e) = some s := by
  unfold stripSuffix
  rw [List.reverse_append, stripPrefix_append]
  simp

/-- A file in the standard layout is read. -/
theorem body_pem {label d text : Bytes} (h : IsPem label d text) : body label text = some d := by
  obtain ⟨nl, lines, tail, hnl, ht, hl, -, -, rfl⟩ := h
  unfold body
  have e1 : asc "-----BEGIN " ++ label ++ asc "-----" ++ nl ++ lines.flatMap (· ++ nl) ++
      (asc "-----END " ++ label ++ asc "-----" ++ tail) =
      (asc "-----BEGIN " ++ label ++ asc "-----") ++ (nl ++ (lines.flatMap (· ++ nl) ++
      (asc "-----END " ++ label ++ asc "-----" ++ tail))) := by simp only [List.append_assoc]
  have e2 : asc "-----" = asc "----" ++ [45] := by decide
  have e3 : lines.flatMap (· ++ nl) ++ (asc "-----END " ++ label ++ asc "-----" ++ tail) =
      (lines.flatMap (· ++ nl) ++ asc "-----END " ++ label ++ asc "----") ++ [45] ++ tail := by
    rw [e2]; simp only [List.append_assoc]
  have e4 : (lines.flatMap (· ++ nl) ++ asc "-----END " ++ label ++ asc "----") ++ [45] =
      lines.flatMap (· ++ nl) ++ (asc "-----END " ++ label ++ asc "-----") := by
    rw [e2]; simp only [List.append_assoc]
  rw [e1, stripPrefix_append]
  simp only [bind, Option.bind_some]
  rw [stripEol_nl hnl]
  simp only [Option.bind_some]
  rw [e3, dropEol_tail hnl ht, e4, stripSuffix_append]
  simp only [Option.bind_some]
  rw [filter_lines hnl lines (by rw [hl]; exact base64_chars _), hl, decode_base64]

theorem label_inj {a b x y : Bytes} (ha : 45 ∉ a) (hb : 45 ∉ b) (h : a ++ 45 :: x = b ++ 45 :: y) :
    a = b := by
  induction a generalizing b with
  | nil =>
    cases b with
    | nil => rfl
    | cons c b =>
      simp only [List.nil_append, List.cons_append, List.cons.injEq] at h
      exact absurd (h.1 ▸ List.mem_cons_self) hb
  | cons c a ih =>
    cases b with
    | nil =>
      simp only [List.nil_append, List.cons_append, List.cons.injEq] at h
      exact absurd (h.1 ▸ List.mem_cons_self) ha
    | cons d b =>
      simp only [List.cons_append, List.cons.injEq] at h
      rw [h.1, ih (fun h => ha (.tail _ h)) (fun h => hb (.tail _ h)) h.2]

/-- A file with another label is not. -/
theorem body_other {label label' d text : Bytes} (h : IsPem label d text) (h1 : 45 ∉ label)
    (h2 : 45 ∉ label') (hne : label ≠ label') : body label' text = none := by
  obtain ⟨nl, lines, tail, -, -, -, -, -, rfl⟩ := h
  unfold body
  have e2 : asc "-----" = 45 :: asc "----" := by decide
  rw [stripPrefix_eq_none.2]
  · rfl
  · intro r hr
    simp only [List.append_assoc, e2, List.cons_append] at hr
    exact hne (label_inj h1 h2 (List.append_cancel_left hr))

/-! ## DER -/

theorem der_append (tag : UInt8) (c rest : Bytes) (h : c.length < 256) :
    der tag (Spec.Pem.der tag c ++ rest) = some (c, rest) := by
  unfold Spec.Pem.der Spec.Pem.length
  have ht : (UInt8.ofNat c.length).toNat = c.length := by
    rw [UInt8.toNat_ofNat']; exact Nat.mod_eq_of_lt h
  split
  · rename_i h1
    simp only [List.cons_append, List.nil_append]
    unfold der
    simp only [ne_eq, not_true_eq_false, if_false]
    have hl : UInt8.ofNat c.length < 128 := by rw [UInt8.lt_iff_toNat_lt, ht]; exact h1
    rw [if_pos hl, ht, if_pos (by simp)]
    simp
  · rename_i h1
    simp only [List.cons_append, List.nil_append]
    unfold der
    simp only [ne_eq, not_true_eq_false, if_false]
    have hl : 128 ≤ UInt8.ofNat c.length := by rw [UInt8.le_iff_toNat_le, ht]; exact Nat.not_lt.1 h1
    rw [if_neg (by decide), if_pos trivial, if_pos ⟨hl, by rw [ht]; simp⟩, ht]
    simp

theorem derLast_der (tag : UInt8) (c : Bytes) (h : c.length < 256) :
    derLast tag (Spec.Pem.der tag c) = some c := by
  have := der_append tag c [] h
  rw [List.append_nil] at this
  unfold derLast
  rw [this]
  rfl

theorem der_length_le (tag : UInt8) (c : Bytes) (h : c.length < 256) :
    (Spec.Pem.der tag c).length ≤ c.length + 3 := by
  unfold Spec.Pem.der Spec.Pem.length
  split
  · simp
  · simp

theorem bitString_der (b : Bytes) (h : b.length < 255) :
    bitString (Spec.Pem.der 0x03 (0 :: b)) = some b := by
  unfold bitString
  rw [derLast_der _ _ (by simp; omega)]
  rfl

theorem optPublic_der (pk : Option Bytes) (h : ∀ k ∈ pk, k.length ≤ 133) :
    optPublic (pk.elim [] (fun k => Spec.Pem.der 0xa1 (Spec.Pem.der 0x03 (0 :: k)))) = some pk := by
  cases pk with
  | none => rfl
  | some k =>
    have hk := h k rfl
    have h1 := der_length_le 0x03 (0 :: k) (by simp; omega)
    simp only [List.length_cons] at h1
    have h2 := derLast_der 0xa1 (Spec.Pem.der 0x03 (0 :: k)) (by omega)
    simp only [Option.elim_some]
    have e : ∀ s : Bytes, s ≠ [] → optPublic s = (derLast 0xa1 s).bind fun pk =>
        (bitString pk).bind fun b => some (some b) := by
      intro s hs
      cases s with
      | nil => exact absurd rfl hs
      | cons => rfl
    rw [e _ (by simp [Spec.Pem.der]), h2, Option.bind_some, bitString_der _ (by omega)]
    rfl

theorem skipCurve_der (curve : Option Bytes) (rest : Bytes) (h : ∀ c ∈ curve, c.length ≤ 20)
    (hr : rest.head? ≠ some 0xa0) :
    skipCurve (curve.elim [] (fun c => Spec.Pem.der 0xa0 (Spec.Pem.der 0x06 c)) ++ rest) = some rest := by
  cases curve with
  | none =>
    simp only [Option.elim_none, List.nil_append]
    unfold skipCurve
    split
    · simp at hr
    · rfl
  | some c =>
    have hc := h c rfl
    have h1 := der_length_le 0x06 c (by omega)
    have h2 := der_append 0xa0 (Spec.Pem.der 0x06 c) rest (by omega)
    simp only [Option.elim_some]
    have e : ∀ s : Bytes, s.head? = some 0xa0 → skipCurve s = (der 0xa0 s).bind fun x =>
        (derLast 0x06 x.1).bind fun _ => some x.2 := by
      intro s hs
      cases s with
      | nil => simp at hs
      | cons a s =>
        simp only [List.head?_cons, Option.some.injEq] at hs
        subst hs
        rfl
    rw [e _ (by simp [Spec.Pem.der]), h2, Option.bind_some, derLast_der _ _ (by omega)]
    rfl

/-- RFC 5915 -/
theorem sec1_der (sk : Bytes) (curve pk : Option Bytes) (h1 : sk.length ≤ 66)
    (h2 : ∀ c ∈ curve, c.length ≤ 20) (h3 : ∀ k ∈ pk, k.length ≤ 133) :
    sec1 (Spec.Pem.ecPrivateKey sk curve pk) = some (sk, pk) := by
  unfold sec1 Spec.Pem.ecPrivateKey
  have l1 : (Spec.Pem.der 0x02 [1]).length = 3 := by decide
  have l2 : (Spec.Pem.der 0x04 sk).length = sk.length + 2 := by
    unfold Spec.Pem.der Spec.Pem.length
    rw [if_pos (by omega)]
    simp
  have l3 : (curve.elim [] (fun c => Spec.Pem.der 0xa0 (Spec.Pem.der 0x06 c))).length ≤ 24 := by
    cases curve with
    | none => simp
    | some c =>
      have hc := h2 c rfl
      have a1 : Spec.Pem.der 0x06 c = 0x06 :: UInt8.ofNat c.length :: c := by
        unfold Spec.Pem.der Spec.Pem.length
        rw [if_pos (by omega)]
        rfl
      have a2 : Spec.Pem.der 0xa0 (Spec.Pem.der 0x06 c) =
          0xa0 :: UInt8.ofNat (c.length + 2) :: Spec.Pem.der 0x06 c := by
        rw [a1]
        unfold Spec.Pem.der Spec.Pem.length
        rw [if_pos (by simp; omega)]
        rfl
      simp only [Option.elim_some]
      rw [a2, a1]
      simp; omega
  have l4 : (pk.elim [] (fun k => Spec.Pem.der 0xa1 (Spec.Pem.der 0x03 (0 :: k)))).length ≤ 140 := by
    cases pk with
    | none => simp
    | some k =>
      have hk := h3 k rfl
      have a1 := der_length_le 0x03 (0 :: k) (by simp; omega)
      simp only [List.length_cons] at a1
      have a2 := der_length_le 0xa1 (Spec.Pem.der 0x03 (0 :: k)) (by omega)
      simp only [Option.elim_some]
      omega
  rw [derLast_der _ _ (by simp only [List.length_append]; omega)]
  simp only [bind, Option.bind_some, List.append_assoc]
  rw [der_append _ _ _ (by decide)]
  simp only [Option.bind_some, ne_eq, not_true_eq_false, if_false]
  rw [der_append _ _ _ (by omega)]
  simp only [Option.bind_some]
  rw [skipCurve_der _ _ h2 (by cases pk <;> simp [Spec.Pem.der])]
  simp only [Option.bind_some]
  rw [optPublic_der _ h3]
  rfl

/-- RFC 5480 -/
theorem spki_der (alg curve pk : Bytes) (h1 : alg.length ≤ 20) (h2 : curve.length ≤ 20)
    (h3 : pk.length ≤ 133) : spki (Spec.Pem.publicKeyInfo alg curve pk) =
      if alg = oidEc ∧ curve = oidP384 then some pk else none := by
  unfold spki Spec.Pem.publicKeyInfo
  have l1 := der_length_le 0x06 alg (by omega)
  have l2 := der_length_le 0x06 curve (by omega)
  have l3 := der_length_le 0x30 (Spec.Pem.der 0x06 alg ++ Spec.Pem.der 0x06 curve)
    (by simp only [List.length_append]; omega)
  have l4 := der_length_le 0x03 (0 :: pk) (by simp; omega)
  simp only [List.length_append, List.length_cons] at l3 l4
  rw [derLast_der _ _ (by simp only [List.length_append]; omega)]
  simp only [bind, Option.bind_some]
  rw [der_append _ _ _ (by simp only [List.length_append]; omega)]
  simp only [Option.bind_some]
  rw [der_append _ _ _ (by omega)]
  simp only [Option.bind_some]
  rw [derLast_der _ _ (by omega)]
  simp only [Option.bind_some]
  by_cases h : alg = oidEc ∧ curve = oidP384
  · rw [if_pos h, if_neg (by simp [h.1, h.2]), bitString_der _ (by omega)]
  · rw [if_neg h, if_pos (by
      by_cases ha : alg = oidEc
      · exact .inr fun hc => h ⟨ha, hc⟩
      · exact .inl ha)]
    rfl

/-! ### Only DER is read -/

theorem der_inv {tag : UInt8} {s c rest : Bytes} (h : der tag s = some (c, rest)) :
    s = Spec.Pem.der tag c ++ rest := by
  unfold der at h
  split at h
  · cases h
  · rename_i t s
    split at h
    · cases h
    · rename_i ht
      have ht : t = tag := Classical.byContradiction ht
      subst ht
      split at h
      · cases h
      · rename_i l s
        unfold Spec.Pem.der Spec.Pem.length
        split at h
        · rename_i hl
          split at h
          · rename_i hs
            obtain ⟨rfl, rfl⟩ := Prod.mk.inj (Option.some.inj h)
            have e : (s.take l.toNat).length = l.toNat := by rw [List.length_take]; omega
            rw [e, if_pos (by rwa [UInt8.lt_iff_toNat_lt] at hl), UInt8.ofNat_toNat]
            simp
          · cases h
        · split at h
          · rename_i h81
            split at h
            · cases h
            · rename_i l s
              split at h
              · rename_i hs
                obtain ⟨rfl, rfl⟩ := Prod.mk.inj (Option.some.inj h)
                have hl := hs.1
                rw [UInt8.le_iff_toNat_le] at hl
                have e : (s.take l.toNat).length = l.toNat := by rw [List.length_take]; omega
                rw [e, if_neg (show ¬ l.toNat < 128 from Nat.not_lt.2 hl), if_pos l.toNat_lt, UInt8.ofNat_toNat, h81]
                simp
              · cases h
          · cases h

theorem derLast_inv {tag : UInt8} {s c : Bytes} (h : derLast tag s = some c) : s = Spec.Pem.der tag c := by
  unfold derLast at h
  cases hd : der tag s with
  | none => rw [hd] at h; cases h
  | some x =>
    obtain ⟨c', rest⟩ := x
    rw [hd] at h
    simp only [bind, Option.bind_some] at h
    split at h
    · cases h
    · rename_i hr
      cases Option.some.inj h
      have := der_inv hd
      rwa [Classical.byContradiction hr, List.append_nil] at this

theorem bitString_inv {s b : Bytes} (h : bitString s = some b) : s = Spec.Pem.der 0x03 (0 :: b) := by
  unfold bitString at h
  cases hd : derLast 0x03 s with
  | none => rw [hd] at h; cases h
  | some x =>
    rw [hd] at h
    simp only [bind, Option.bind_some] at h
    split at h
    · cases Option.some.inj h
      exact derLast_inv hd
    · cases h

/-- RFC 5480, and nothing else. -/
theorem spki_inv {s pk : Bytes} (h : spki s = some pk) : s = Spec.Pem.publicKeyInfo oidEc oidP384 pk := by
  unfold spki at h
  cases h1 : derLast 0x30 s with
  | none => rw [h1] at h; cases h
  | some s1 =>
    rw [h1] at h
    simp only [bind, Option.bind_some] at h
    cases h2 : der 0x30 s1 with
    | none => rw [h2] at h; cases h
    | some x =>
      obtain ⟨alg, s2⟩ := x
      rw [h2] at h
      simp only [Option.bind_some] at h
      cases h3 : der 0x06 alg with
      | none => rw [h3] at h; cases h
      | some y =>
        obtain ⟨a, alg2⟩ := y
        rw [h3] at h
        simp only [Option.bind_some] at h
        cases h4 : derLast 0x06 alg2 with
        | none => rw [h4] at h; cases h
        | some c =>
          rw [h4] at h
          simp only [Option.bind_some] at h
          split at h
          · cases h
          · rename_i hc
            have ha : a = oidEc := Classical.byContradiction fun x => hc (.inl x)
            have hc : c = oidP384 := Classical.byContradiction fun x => hc (.inr x)
            unfold Spec.Pem.publicKeyInfo
            rw [derLast_inv h1, der_inv h2, der_inv h3, derLast_inv h4, bitString_inv h, ha, hc]

theorem skipCurve_inv {s t : Bytes} (h : skipCurve s = some t) :
    ∃ curve : Option Bytes, s = curve.elim [] (fun c => Spec.Pem.der 0xa0 (Spec.Pem.der 0x06 c)) ++ t := by
  unfold skipCurve at h
  split at h
  · rename_i r
    cases h1 : der 0xa0 (0xa0 :: r) with
    | none => rw [h1] at h; cases h
    | some x =>
      obtain ⟨params, s2⟩ := x
      rw [h1] at h
      simp only [bind, Option.bind_some] at h
      cases h2 : derLast 0x06 params with
      | none => rw [h2] at h; cases h
      | some c =>
        rw [h2] at h
        cases Option.some.inj h
        exact ⟨some c, by rw [der_inv h1, derLast_inv h2]; rfl⟩
  · cases Option.some.inj h
    exact ⟨none, rfl⟩

theorem optPublic_inv {s : Bytes} {pk : Option Bytes} (h : optPublic s = some pk) :
    s = pk.elim [] (fun k => Spec.Pem.der 0xa1 (Spec.Pem.der 0x03 (0 :: k))) := by
  unfold optPublic at h
  split at h
  · cases Option.some.inj h
    rfl
  · cases h1 : derLast 0xa1 s with
    | none => rw [h1] at h; cases h
    | some x =>
      rw [h1] at h
      simp only [bind, Option.bind_some] at h
      cases h2 : bitString x with
      | none => rw [h2] at h; cases h
      | some k =>
        rw [h2] at h
        cases Option.some.inj h
        rw [derLast_inv h1, bitString_inv h2]
        rfl

/-- RFC 5915, and nothing else. -/
theorem sec1_inv {s sk : Bytes} {pk : Option Bytes} (h : sec1 s = some (sk, pk)) :
    ∃ curve, s = Spec.Pem.ecPrivateKey sk curve pk := by
  unfold sec1 at h
  cases h1 : derLast 0x30 s with
  | none => rw [h1] at h; cases h
  | some s1 =>
    rw [h1] at h
    simp only [bind, Option.bind_some] at h
    cases h2 : der 0x02 s1 with
    | none => rw [h2] at h; cases h
    | some x =>
      obtain ⟨ver, s2⟩ := x
      rw [h2] at h
      simp only [Option.bind_some] at h
      split at h
      · cases h
      · rename_i hv
        have hv : ver = [1] := Classical.byContradiction hv
        cases h3 : der 0x04 s2 with
        | none => rw [h3] at h; cases h
        | some y =>
          obtain ⟨sk', s3⟩ := y
          rw [h3] at h
          simp only [Option.bind_some] at h
          cases h4 : skipCurve s3 with
          | none => rw [h4] at h; cases h
          | some s4 =>
            rw [h4] at h
            simp only [Option.bind_some] at h
            cases h5 : optPublic s4 with
            | none => rw [h5] at h; cases h
            | some pk' =>
              rw [h5] at h
              obtain ⟨rfl, rfl⟩ := Prod.mk.inj (Option.some.inj h)
              obtain ⟨curve, hc⟩ := skipCurve_inv h4
              refine ⟨curve, ?_⟩
              unfold Spec.Pem.ecPrivateKey
              rw [derLast_inv h1, der_inv h2, der_inv h3, hc, optPublic_inv h5, hv]
              simp only [List.append_assoc]

/-- Every label and every bytes have a text. -/
theorem exists_pem (label d : Bytes) : ∃ text, IsPem label d text := by
  have chunks : ∀ n (s : Bytes), s.length ≤ n → ∃ lines : List Bytes, lines.flatten = s ∧
      (∀ l ∈ lines.dropLast, l.length = 64) ∧ ∀ l ∈ lines, 0 < l.length ∧ l.length ≤ 64 := by
    intro n
    induction n with
    | zero => 
      intro s hs
      have : s = [] := List.length_eq_zero_iff.1 (by omega)
      exact ⟨[], by rw [this]; rfl, by simp, by simp⟩
    | succ n ih =>
      intro s hs
      by_cases h0 : s = []
      · exact ⟨[], by rw [h0]; rfl, by simp, by simp⟩
      have hpos := List.length_pos_iff.2 h0
      by_cases h : s.length ≤ 64
      · exact ⟨[s], by simp, by simp, by simp; omega⟩
      · obtain ⟨lines, e, h1, h2⟩ := ih (s.drop 64) (by simp; omega)
        refine ⟨s.take 64 :: lines, by rw [List.flatten_cons, e]; simp, ?_, ?_⟩
        · intro l hl
          cases lines with
          | nil => simp at hl
          | cons l' ls =>
            rw [List.dropLast_cons_of_ne_nil (by simp)] at hl
            rcases List.mem_cons.1 hl with rfl | hl
            · simp; omega
            · exact h1 l hl
        · intro l hl
          rcases List.mem_cons.1 hl with rfl | hl
          · simp; omega
          · exact h2 l hl
  obtain ⟨lines, e, h1, h2⟩ := chunks _ (base64 d) (Nat.le_refl _)
  exact ⟨_, [10], lines, [], .inl rfl, .inl rfl, e, h1, h2, rfl⟩

end Pasta.Pem
