import Verif.Lemmas.JsonText
import Verif.Spec.Json

/-! # The JSON reader accepts exactly the JSON texts -/

namespace Pasta.JsonText

open Spec.Json

/-! ## White space -/

def IsWs (c : UInt8) : Prop := c = 0x20 ∨ c = 0x0a ∨ c = 0x09 ∨ c = 0x0d

instance (c : UInt8) : Decidable (IsWs c) := inferInstanceAs (Decidable (_ ∨ _ ∨ _ ∨ _))

/-- The text does not begin with white space. -/
def NoWs (s : Bytes) : Prop := ∀ c, s.head? = some c → ¬ IsWs c

theorem ws_iff (w : Bytes) : Ws w ↔ ∀ c ∈ w, IsWs c := Iff.rfl

theorem ws_nil : Ws [] := fun _ h => absurd h (by simp)

theorem ws_append {a b : Bytes} (ha : Ws a) (hb : Ws b) : Ws (a ++ b) := fun c h =>
  (List.mem_append.1 h).elim (ha c) (hb c)

theorem skipWs_append {w s : Bytes} (hw : Ws w) : skipWs (w ++ s) = skipWs s := by
  rw [ws_iff] at hw
  induction w with
  | nil => rfl
  | cons c w ih =>
    have h : IsWs c := hw c (by simp)
    rw [List.cons_append, skipWs, if_pos (show _ ∨ _ ∨ _ ∨ _ from h)]
    exact ih fun x hx => hw x (by simp [hx])

theorem skipWs_noWs {s : Bytes} (h : NoWs s) : skipWs s = s := by
  cases s with
  | nil => rfl
  | cons c s => rw [skipWs, if_neg (show ¬ (_ ∨ _ ∨ _ ∨ _) from h c rfl)]

theorem skipWs_sound (s : Bytes) : ∃ w, Ws w ∧ s = w ++ skipWs s ∧ NoWs (skipWs s) := by
  induction s with
  | nil => exact ⟨[], ws_nil, rfl, by simp [NoWs, skipWs]⟩
  | cons c s ih =>
    by_cases h : IsWs c
    · obtain ⟨w, h1, h2, h3⟩ := ih
      have e : skipWs (c :: s) = skipWs s := by rw [skipWs, if_pos (show _ ∨ _ ∨ _ ∨ _ from h)]
      rw [e]
      refine ⟨c :: w, ?_, by rw [List.cons_append, ← h2], h3⟩
      rw [ws_iff] at h1 ⊢
      intro x hx
      rcases List.mem_cons.1 hx with rfl | hx
      · exact h
      · exact h1 x hx
    · have e : skipWs (c :: s) = c :: s := by rw [skipWs, if_neg (show ¬ (_ ∨ _ ∨ _ ∨ _) from h)]
      rw [e]
      exact ⟨[], ws_nil, rfl, fun x hx => by cases hx; exact h⟩

theorem skipWs_cons {s : Bytes} {c : UInt8} {r : Bytes} (h : skipWs s = c :: r) :
    ∃ w, Ws w ∧ s = w ++ c :: r := by
  obtain ⟨w, h1, h2, -⟩ := skipWs_sound s
  exact ⟨w, h1, by rw [← h]; exact h2⟩

theorem skipWs_to {w : Bytes} {c : UInt8} {r : Bytes} (hw : Ws w) (hc : ¬ IsWs c) :
    skipWs (w ++ c :: r) = c :: r := by
  rw [skipWs_append hw, skipWs_noWs (fun x hx => by cases hx; exact hc)]

/-! ## Hexadecimal digits -/

theorem hexVal_iff (c : UInt8) (n : Nat) : hexVal c = some n ↔ HexDigit c n := by
  unfold hexVal HexDigit Digit
  simp only [UInt8.le_iff_toNat_le]
  have e1 : (48 : UInt8).toNat = 48 := rfl
  have e2 : (57 : UInt8).toNat = 57 := rfl
  have e3 : (97 : UInt8).toNat = 97 := rfl
  have e4 : (102 : UInt8).toNat = 102 := rfl
  have e5 : (65 : UInt8).toNat = 65 := rfl
  have e6 : (70 : UInt8).toNat = 70 := rfl
  rw [e1, e2, e3, e4, e5, e6]
  split
  · rw [Option.some.injEq]; omega
  split
  · rw [Option.some.injEq]; omega
  split
  · rw [Option.some.injEq]; omega
  · constructor
    · intro h; simp at h
    · omega

theorem hex4_iff (s r : Bytes) (n : Nat) :
    hex4 s = some (n, r) ↔ ∃ t, s = t ++ r ∧ Hex4 t n := by
  constructor
  · intro h
    match s, h with
    | a :: b :: c :: d :: s, h =>
      simp only [hex4, bind, Option.bind_eq_some_iff, pure, Option.some.injEq, Prod.mk.injEq] at h
      obtain ⟨x, hx, y, hy, z, hz, w, hw, h1, rfl⟩ := h
      exact ⟨[a, b, c, d], rfl, a, b, c, d, x, y, z, w, rfl, (hexVal_iff _ _).1 hx,
        (hexVal_iff _ _).1 hy, (hexVal_iff _ _).1 hz, (hexVal_iff _ _).1 hw, by omega⟩
    | [], h | [_], h | [_, _], h | [_, _, _], h => simp [hex4] at h
  · rintro ⟨t, rfl, a, b, c, d, x, y, z, w, rfl, h1, h2, h3, h4, rfl⟩
    rw [← hexVal_iff] at h1 h2 h3 h4
    simp only [List.cons_append, List.nil_append, hex4, h1, h2, h3, h4, bind, Option.bind_some, pure,
      Option.some.injEq, Prod.mk.injEq, and_true]
    omega

theorem hex4_complete {t : Bytes} {n : Nat} (h : Hex4 t n) (r : Bytes) :
    hex4 (t ++ r) = some (n, r) := (hex4_iff _ _ _).2 ⟨t, rfl, h⟩

/-! ## Strings -/

theorem escape_sound {s x r : Bytes} (h : escape s = some (x, r)) :
    ∃ e, s = e ++ r ∧ ∀ t v, Chars t v → Chars (0x5c :: (e ++ t)) (x ++ v) := by
  cases s with
  | nil => simp [escape] at h
  | cons c s =>
    rw [escape] at h
    have simple : ∀ y : UInt8, (c, y) ∈ escapes → some ([y], s) = some (x, r) →
        ∃ e, c :: s = e ++ r ∧ ∀ t v, Chars t v → Chars (0x5c :: (e ++ t)) (x ++ v) := by
      intro y hy h
      simp only [Option.some.injEq, Prod.mk.injEq] at h
      obtain ⟨rfl, rfl⟩ := h
      exact ⟨[c], rfl, fun t v hv => .escape hy hv⟩
    split at h
    · subst_vars; exact simple _ (by decide) h
    split at h
    · subst_vars; exact simple _ (by decide) h
    split at h
    · subst_vars; exact simple _ (by decide) h
    split at h
    · subst_vars; exact simple _ (by decide) h
    split at h
    · subst_vars; exact simple _ (by decide) h
    split at h
    · subst_vars; exact simple _ (by decide) h
    split at h
    · subst_vars; exact simple _ (by decide) h
    split at h
    · subst_vars; exact simple _ (by decide) h
    split at h
    · subst_vars
      simp only [unicodeEscape, bind, Option.bind_eq_some_iff] at h
      obtain ⟨⟨n, s1⟩, h1, h⟩ := h
      obtain ⟨t1, rfl, hn⟩ := (hex4_iff _ _ _).1 h1
      simp only at h
      split at h
      · simp at h
      split at h
      · rename_i hs hp
        split at h
        · rename_i s2
          simp only [Option.bind_eq_some_iff] at h
          obtain ⟨⟨m, s3⟩, h2, h⟩ := h
          obtain ⟨t2, rfl, hm⟩ := (hex4_iff _ _ _).1 h2
          simp only at h
          split at h
          · rename_i hr
            simp only [pure, Option.some.injEq, Prod.mk.injEq] at h
            obtain ⟨rfl, rfl⟩ := h
            refine ⟨117 :: (t1 ++ 0x5c :: 117 :: t2), by simp, fun t v hv => ?_⟩
            have := Chars.pair hn hp.1 hp.2 hm hr.1 hr.2 hv
            simpa using this
          · simp at h
        · simp at h
      · rename_i hs hp
        simp only [pure, Option.some.injEq, Prod.mk.injEq] at h
        obtain ⟨rfl, rfl⟩ := h
        refine ⟨117 :: t1, by simp, fun t v hv => ?_⟩
        have := Chars.unicode hn (by omega) hv
        simpa using this
    · simp at h

theorem parseStr_sound (n : Nat) (s v r : Bytes) (h : parseStr n s = some (v, r)) :
    ∃ t, s = t ++ 0x22 :: r ∧ Chars t v := by
  induction n generalizing s v with
  | zero => simp [parseStr] at h
  | succ n ih =>
    cases s with
    | nil => simp [parseStr] at h
    | cons b s =>
      unfold parseStr at h
      split at h
      · subst_vars
        simp only [Option.some.injEq, Prod.mk.injEq] at h
        obtain ⟨rfl, rfl⟩ := h
        exact ⟨[], rfl, .nil⟩
      split at h
      · subst_vars
        simp only [bind, Option.bind_eq_some_iff] at h
        obtain ⟨⟨x, s1⟩, h1, ⟨y, s2⟩, h2, h⟩ := h
        simp only [pure, Option.some.injEq, Prod.mk.injEq] at h
        obtain ⟨rfl, rfl⟩ := h
        obtain ⟨e, rfl, he⟩ := escape_sound h1
        obtain ⟨t, rfl, ht⟩ := ih _ _ h2
        exact ⟨0x5c :: (e ++ t), by simp, he _ _ ht⟩
      split at h
      · simp at h
      · rename_i h1 h2 h3
        simp only [bind, Option.bind_eq_some_iff] at h
        obtain ⟨⟨y, s2⟩, h4, h⟩ := h
        simp only [pure, Option.some.injEq, Prod.mk.injEq] at h
        obtain ⟨rfl, rfl⟩ := h
        obtain ⟨t, rfl, ht⟩ := ih _ _ h4
        exact ⟨b :: t, by simp, .plain (UInt8.not_lt.1 h3) h1 h2 ht⟩

theorem escape_simple {c x : UInt8} (h : (c, x) ∈ escapes) (s : Bytes) :
    escape (c :: s) = some ([x], s) := by
  simp only [escapes, List.mem_cons, Prod.mk.injEq, List.not_mem_nil, or_false] at h
  rcases h with ⟨rfl, rfl⟩ | ⟨rfl, rfl⟩ | ⟨rfl, rfl⟩ | ⟨rfl, rfl⟩ | ⟨rfl, rfl⟩ | ⟨rfl, rfl⟩ |
    ⟨rfl, rfl⟩ | ⟨rfl, rfl⟩ <;> rfl

theorem parseStr_escape {n : Nat} {s x r v r' : Bytes} (h : escape s = some (x, r))
    (h' : parseStr n r = some (v, r')) : parseStr (n + 1) (0x5c :: s) = some (x ++ v, r') := by
  rw [parseStr, if_neg (by decide), if_pos rfl, h]
  simp only [bind, Option.bind_some, h', pure]

theorem parseStr_complete {t v : Bytes} (h : Chars t v) (r : Bytes) (n : Nat) (hn : t.length < n) :
    parseStr n (t ++ 0x22 :: r) = some (v, r) := by
  induction h generalizing n with
  | nil =>
    obtain ⟨n, rfl⟩ : ∃ k, n = k + 1 := ⟨n - 1, by simp at hn; omega⟩
    rfl
  | plain h1 h2 h3 _ ih =>
    simp only [List.length_cons] at hn
    obtain ⟨n, rfl⟩ : ∃ k, n = k + 1 := ⟨n - 1, by omega⟩
    rw [List.cons_append, parseStr, if_neg h2, if_neg h3, if_neg (UInt8.not_lt.2 h1), ih n (by omega)]
    rfl
  | escape h1 _ ih =>
    simp only [List.length_cons] at hn
    obtain ⟨n, rfl⟩ : ∃ k, n = k + 1 := ⟨n - 1, by omega⟩
    exact parseStr_escape (escape_simple h1 _) (ih n (by omega))
  | @unicode h n' t v h1 h2 _ ih =>
    simp only [List.length_cons, List.length_append] at hn
    obtain ⟨n, rfl⟩ : ∃ k, n = k + 1 := ⟨n - 1, by omega⟩
    refine parseStr_escape (r := t ++ 0x22 :: r) ?_ (ih n (by omega))
    show unicodeEscape (h ++ t ++ 0x22 :: r) = _
    unfold unicodeEscape
    rw [List.append_assoc, hex4_complete h1]
    simp only [bind, Option.bind_some]
    rw [if_neg (by omega), if_neg (by omega)]
    rfl
  | @pair h l n' m t v h1 h2 h3 h4 h5 h6 _ ih =>
    simp only [List.length_cons, List.length_append] at hn
    obtain ⟨n, rfl⟩ : ∃ k, n = k + 1 := ⟨n - 1, by omega⟩
    refine parseStr_escape (r := t ++ 0x22 :: r) ?_ (ih n (by omega))
    show unicodeEscape (h ++ 0x5c :: 0x75 :: (l ++ t) ++ 0x22 :: r) = _
    unfold unicodeEscape
    rw [List.append_assoc, hex4_complete h1]
    simp only [bind, Option.bind_some, List.cons_append]
    rw [if_neg (by omega), if_pos ⟨h2, h3⟩, List.append_assoc, hex4_complete h4]
    simp only [Option.bind_some]
    rw [if_pos ⟨h5, h6⟩]
    rfl

theorem stringValue_sound {s r : Bytes} {x : String} (h : stringValue s = some (x, r)) :
    ∃ w t, Ws w ∧ StrLit t x ∧ s = w ++ t ++ r := by
  unfold stringValue at h
  split at h
  · rename_i s1 hs
    obtain ⟨w, hw, rfl⟩ := skipWs_cons hs
    simp only [bind, Option.bind_eq_some_iff] at h
    obtain ⟨⟨b, s2⟩, h1, y, h2, h3⟩ := h
    simp only [pure, Option.some.injEq, Prod.mk.injEq] at h3
    obtain ⟨rfl, rfl⟩ := h3
    obtain ⟨t, rfl, ht⟩ := parseStr_sound _ _ _ _ h1
    rw [fromUtf8_eq_some] at h2
    subst h2
    exact ⟨w, 0x22 :: (t ++ [0x22]), hw, ⟨t, rfl, ht⟩, by simp⟩
  · simp at h

theorem stringValue_complete {w t r : Bytes} {x : String} (hw : Ws w) (ht : StrLit t x) :
    stringValue (w ++ t ++ r) = some (x, r) := by
  obtain ⟨b, rfl, hb⟩ := ht
  have e : w ++ 0x22 :: (b ++ [0x22]) ++ r = w ++ 0x22 :: (b ++ 0x22 :: r) := by simp
  rw [e]
  unfold stringValue
  rw [skipWs_to hw (by decide)]
  simp only [bind]
  rw [parseStr_complete hb r _ (by simp; omega)]
  simp only [Option.bind_some]
  rw [show utf8 x = strBytes x from rfl, fromUtf8_strBytes]
  rfl

theorem strLit_head {t : Bytes} {x : String} (ht : StrLit t x) : ∃ b, t = 0x22 :: b := by
  obtain ⟨b, rfl, -⟩ := ht
  exact ⟨_, rfl⟩

/-! ## Skipped strings -/

theorem ignoreStr_sound (n : Nat) (s r : Bytes) (h : ignoreStr n s = some r) :
    ∃ t, s = t ++ 0x22 :: r ∧ AnyChars t := by
  induction n generalizing s with
  | zero => simp [ignoreStr] at h
  | succ n ih =>
    cases s with
    | nil => simp [ignoreStr] at h
    | cons b s =>
      unfold ignoreStr at h
      split at h
      · subst_vars
        simp only [Option.some.injEq] at h
        subst h
        exact ⟨[], rfl, .nil⟩
      split at h
      · subst_vars
        split at h
        · simp at h
        · rename_i c s
          split at h
          · subst_vars
            simp only [bind, Option.bind_eq_some_iff] at h
            obtain ⟨⟨m, s1⟩, h1, h2⟩ := h
            obtain ⟨t1, rfl, hm⟩ := (hex4_iff _ _ _).1 h1
            obtain ⟨t, ht, ht'⟩ := ih _ h2
            simp only at ht
            subst ht
            exact ⟨0x5c :: 117 :: (t1 ++ t), by simp, .unicode hm ht'⟩
          split at h
          · rename_i hc
            obtain ⟨t, rfl, ht⟩ := ih _ h
            have : ∃ x, (c, x) ∈ escapes := by
              rcases hc with rfl | rfl | rfl | rfl | rfl | rfl | rfl | rfl
              · exact ⟨0x22, by decide⟩
              · exact ⟨0x5c, by decide⟩
              · exact ⟨0x2f, by decide⟩
              · exact ⟨8, by decide⟩
              · exact ⟨0x0c, by decide⟩
              · exact ⟨0x0a, by decide⟩
              · exact ⟨0x0d, by decide⟩
              · exact ⟨9, by decide⟩
            obtain ⟨x, hx⟩ := this
            exact ⟨0x5c :: c :: t, by simp, .escape hx ht⟩
          · simp at h
      split at h
      · simp at h
      · rename_i h1 h2 h3
        obtain ⟨t, rfl, ht⟩ := ih _ h
        exact ⟨b :: t, by simp, .plain (UInt8.not_lt.1 h3) h1 h2 ht⟩

theorem ignoreStr_complete {t : Bytes} (h : AnyChars t) (r : Bytes) (n : Nat) (hn : t.length < n) :
    ignoreStr n (t ++ 0x22 :: r) = some r := by
  induction h generalizing n with
  | nil =>
    obtain ⟨n, rfl⟩ : ∃ k, n = k + 1 := ⟨n - 1, by simp at hn; omega⟩
    rfl
  | plain h1 h2 h3 _ ih =>
    simp only [List.length_cons] at hn
    obtain ⟨n, rfl⟩ : ∃ k, n = k + 1 := ⟨n - 1, by omega⟩
    rw [List.cons_append]
    unfold ignoreStr
    simp only
    rw [if_neg h2, if_neg h3, if_neg (UInt8.not_lt.2 h1), ih n (by omega)]
  | @escape c x t h1 _ ih =>
    simp only [List.length_cons] at hn
    obtain ⟨n, rfl⟩ : ∃ k, n = k + 1 := ⟨n - 1, by omega⟩
    rw [List.cons_append, List.cons_append, ignoreStr, if_neg (by decide), if_pos rfl]
    simp only
    have hc : c ≠ 117 ∧ (c = 0x22 ∨ c = 0x5c ∨ c = 47 ∨ c = 98 ∨ c = 102 ∨ c = 110 ∨ c = 114 ∨ c = 116) := by
      simp only [escapes, List.mem_cons, Prod.mk.injEq, List.not_mem_nil, or_false] at h1
      rcases h1 with ⟨rfl, -⟩ | ⟨rfl, -⟩ | ⟨rfl, -⟩ | ⟨rfl, -⟩ | ⟨rfl, -⟩ | ⟨rfl, -⟩ | ⟨rfl, -⟩ |
        ⟨rfl, -⟩ <;> decide
    rw [if_neg hc.1, if_pos hc.2, ih n (by omega)]
  | @unicode h n' t h1 _ ih =>
    simp only [List.length_cons, List.length_append] at hn
    obtain ⟨n, rfl⟩ : ∃ k, n = k + 1 := ⟨n - 1, by omega⟩
    rw [List.cons_append, List.cons_append, ignoreStr, if_neg (by decide), if_pos rfl]
    simp only
    rw [if_pos trivial, List.append_assoc, hex4_complete h1]
    simp only [bind, Option.bind_some]
    exact ih n (by omega)

/-! ## Numbers -/

theorem isDigit_iff (c : UInt8) : isDigit c = true ↔ Digit c := by
  unfold isDigit Digit
  simp only [Bool.and_eq_true, decide_eq_true_eq]

/-- A value may end before this text: it is empty or begins with white space, a comma or a closing
bracket. -/
def Follows (r : Bytes) : Prop := ∀ c, r.head? = some c → IsWs c ∨ c = 44 ∨ c = 93 ∨ c = 125

theorem Follows.not {r : Bytes} (h : Follows r) {c : UInt8} (hc : r.head? = some c) :
    isDigit c = false ∧ c ≠ 46 ∧ c ≠ 101 ∧ c ≠ 69 := by
  rcases h c hc with (rfl | rfl | rfl | rfl) | rfl | rfl | rfl <;> decide

theorem Follows.ws {w r : Bytes} (hw : Ws w) (hr : Follows r) : Follows (w ++ r) := by
  cases w with
  | nil => exact hr
  | cons c w =>
    intro x hx
    simp only [List.cons_append, List.head?_cons, Option.some.injEq] at hx
    subst hx
    exact .inl ((ws_iff _).1 hw c (by simp))

theorem follows_comma (r : Bytes) : Follows (44 :: r) := fun _ h => by cases h; right; left; rfl
theorem follows_bracket (r : Bytes) : Follows (93 :: r) := fun _ h => by cases h; right; right; left; rfl
theorem follows_brace (r : Bytes) : Follows (125 :: r) := fun _ h => by cases h; right; right; right; rfl

theorem digits1_sound {s r : Bytes} (h : digits1 s = some r) :
    ∃ d, Digits d ∧ s = d ++ r ∧ (∀ c, r.head? = some c → isDigit c = false) ∧
      r.length < s.length := by
  cases s with
  | nil => simp [digits1] at h
  | cons c s =>
    rw [digits1] at h
    split at h
    · rename_i hc
      simp only [Option.some.injEq] at h
      subst h
      refine ⟨c :: s.takeWhile isDigit, ⟨by simp, ?_⟩, ?_, ?_, ?_⟩
      · intro x hx
        rcases List.mem_cons.1 hx with rfl | hx
        · exact (isDigit_iff _).1 hc
        · exact (isDigit_iff _).1 (List.all_eq_true.1 (List.all_takeWhile (p := isDigit) (l := s)) x hx)
      · rw [List.cons_append, List.takeWhile_append_dropWhile]
      · intro x hx
        have := List.head?_dropWhile_not isDigit s
        rw [hx] at this
        simpa using this
      · simp only [List.length_cons]
        have := (List.dropWhile_sublist (p := isDigit) (l := s)).length_le
        omega
    · simp at h

theorem digits1_complete {d r : Bytes} (hd : Digits d)
    (hr : ∀ c, r.head? = some c → isDigit c = false) : digits1 (d ++ r) = some r := by
  obtain ⟨h1, h2⟩ := hd
  cases d with
  | nil => exact absurd rfl h1
  | cons c d =>
    rw [List.cons_append, digits1, if_pos ((isDigit_iff _).2 (h2 c (by simp)))]
    rw [List.dropWhile_append_of_pos]
    · cases r with
      | nil => rfl
      | cons x r => rw [List.dropWhile_cons_of_neg (by simp [hr x rfl])]
    · intro x hx; exact (isDigit_iff _).2 (h2 x (by simp [hx]))

theorem exponent_sound {s r : Bytes} (h : exponent s = some r) :
    ∃ e, Exponent e ∧ s = e ++ r := by
  unfold exponent at h
  split at h
  · simp only [Option.some.injEq] at h
    exact ⟨[], .inl rfl, by simp [← h]⟩
  · rename_i b s
    split at h
    · rename_i hb
      split at h
      · simp at h
      · rename_i c s
        split at h
        · rename_i hc
          obtain ⟨d, hd, rfl, -⟩ := digits1_sound h
          refine ⟨b :: c :: d, .inr ⟨b, [c], d, hb, ?_, hd, rfl⟩, rfl⟩
          rcases hc with rfl | rfl
          · exact .inr (.inl rfl)
          · exact .inr (.inr rfl)
        · obtain ⟨d, hd, h2, -⟩ := digits1_sound h
          refine ⟨b :: d, .inr ⟨b, [], d, hb, .inl rfl, hd, rfl⟩, ?_⟩
          rw [h2]; rfl
    · simp only [Option.some.injEq] at h
      exact ⟨[], .inl rfl, by simp [← h]⟩

theorem exponent_complete {e r : Bytes} (he : Exponent e) (hr : Follows r) :
    exponent (e ++ r) = some r := by
  have hr' : ∀ c, r.head? = some c → isDigit c = false := fun c hc => (hr.not hc).1
  rcases he with rfl | ⟨b, sign, d, hb, hs, hd, rfl⟩
  · cases r with
    | nil => rfl
    | cons c r =>
      have := hr.not (c := c) rfl
      show (if c = 101 ∨ c = 69 then _ else _) = _
      rw [if_neg (fun h => h.elim this.2.2.1 this.2.2.2)]
      rfl
  · rw [List.cons_append]
    show (if b = 101 ∨ b = 69 then _ else _) = _
    rw [if_pos hb]
    have hd1 := digits1_complete hd hr'
    rcases hs with rfl | rfl | rfl
    · obtain ⟨h1, h2⟩ := hd
      cases d with
      | nil => exact absurd rfl h1
      | cons c d =>
        show (if c = 43 ∨ c = 45 then _ else _) = _
        have : isDigit c = true := (isDigit_iff _).2 (h2 c (by simp))
        rw [if_neg (by rintro (rfl | rfl) <;> exact absurd this (by decide))]
        exact hd1
    · exact hd1
    · exact hd1

theorem ignoreNumber_eq (s : Bytes) : ignoreNumber s =
    (match s with
      | [] => none
      | b :: s' =>
        if b = 48 then
          match s' with
          | [] => some s'
          | c :: _ => if isDigit c then none else some s'
        else digits1 s : Option Bytes).bind fun s => match s with
      | 46 :: s' => (digits1 s').bind exponent
      | _ => exponent s := by
  unfold ignoreNumber
  cases s with
  | nil => rfl
  | cons b s =>
    simp only [bind]
    split
    · cases s with
      | nil => rfl
      | cons c s => simp only; split <;> rfl
    · rfl

theorem ignoreNumber_sound {s r : Bytes} (h : ignoreNumber s = some r) :
    ∃ i f e, IntPart i ∧ Fraction f ∧ Exponent e ∧ s = i ++ f ++ e ++ r := by
  rw [ignoreNumber_eq, Option.bind_eq_some_iff] at h
  obtain ⟨s1, h1, h2⟩ := h
  have hi : ∃ i, IntPart i ∧ s = i ++ s1 := by
    cases s with
    | nil => simp at h1
    | cons b s =>
      simp only at h1
      split at h1
      · rename_i hb
        subst hb
        have hz : IntPart [48] := ⟨⟨by simp, by simp [Digit]⟩, fun _ => rfl⟩
        split at h1
        · simp only [Option.some.injEq] at h1
          exact ⟨[48], hz, by simp [← h1]⟩
        · split at h1
          · simp at h1
          · simp only [Option.some.injEq] at h1
            exact ⟨[48], hz, by simp [← h1]⟩
      · rename_i hb
        obtain ⟨d, hd, hs, -⟩ := digits1_sound h1
        refine ⟨d, ⟨hd, fun h => ?_⟩, hs⟩
        cases d with
        | nil => exact absurd rfl hd.1
        | cons c d =>
          simp only [List.cons_append, List.cons.injEq] at hs
          simp only [List.head?_cons, Option.some.injEq] at h
          exact absurd (hs.1.trans h) hb
  obtain ⟨i, hi, rfl⟩ := hi
  split at h2
  · rw [Option.bind_eq_some_iff] at h2
    obtain ⟨s2, h3, h4⟩ := h2
    obtain ⟨d, hd, rfl, -⟩ := digits1_sound h3
    obtain ⟨e, he, rfl⟩ := exponent_sound h4
    exact ⟨i, 46 :: d, e, hi, .inr ⟨d, hd, rfl⟩, he, by simp⟩
  · obtain ⟨e, he, rfl⟩ := exponent_sound h2
    exact ⟨i, [], e, hi, .inl rfl, he, by simp⟩

theorem ignoreNumber_complete {i f e r : Bytes} (hi : IntPart i) (hf : Fraction f) (he : Exponent e)
    (hr : Follows r) : ignoreNumber (i ++ f ++ e ++ r) = some r := by
  have hx : ∀ c, (f ++ e ++ r).head? = some c → isDigit c = false := by
    intro c hc
    rcases hf with rfl | ⟨d, -, rfl⟩
    · rcases he with rfl | ⟨b, _, _, hb, -, -, rfl⟩
      · exact (hr.not hc).1
      · simp only [List.nil_append, List.cons_append, List.head?_cons, Option.some.injEq] at hc
        subst hc
        rcases hb with rfl | rfl <;> rfl
    · simp only [List.cons_append, List.head?_cons, Option.some.injEq] at hc
      subst hc; rfl
  have h2 : (match f ++ e ++ r with
      | 46 :: s' => (digits1 s').bind exponent
      | _ => exponent (f ++ e ++ r)) = some r := by
    rcases hf with rfl | ⟨d, hd, rfl⟩
    · rw [List.nil_append]
      have hne : ∀ s', e ++ r ≠ 46 :: s' := by
        intro s' h
        rcases he with rfl | ⟨b, _, _, hb, -, -, rfl⟩
        · exact (hr.not (c := 46) (by rw [List.nil_append] at h; rw [h]; rfl)).2.1 rfl
        · simp only [List.cons_append, List.cons.injEq] at h
          rcases hb with hb | hb <;> exact absurd (hb.symm.trans h.1) (by decide)
      split
      · rename_i s' h; exact absurd h (hne s')
      · exact exponent_complete he hr
    · show (digits1 (d ++ e ++ r)).bind exponent = _
      rw [List.append_assoc, digits1_complete hd]
      · exact exponent_complete he hr
      · intro c hc
        rcases he with rfl | ⟨b, _, _, hb, -, -, rfl⟩
        · exact (hr.not hc).1
        · simp only [List.cons_append, List.head?_cons, Option.some.injEq] at hc
          subst hc
          rcases hb with rfl | rfl <;> rfl
  rw [ignoreNumber_eq]
  rw [List.append_assoc, List.append_assoc, ← List.append_assoc f]
  obtain ⟨hd, hz⟩ := hi
  have h1 := digits1_complete hd hx
  cases i with
  | nil => exact absurd rfl hd.1
  | cons c i =>
    simp only [List.cons_append]
    by_cases hc : c = 48
    · subst hc
      have := hz rfl
      simp only [List.cons.injEq, true_and] at this
      subst this
      simp only [if_true, List.nil_append]
      generalize hy : f ++ e ++ r = y at *
      cases y with
      | nil => exact h2
      | cons x y =>
        simp only
        rw [if_neg (by simp [hx x rfl])]
        exact h2
    · rw [if_neg hc]
      rw [List.cons_append] at h1
      rw [h1]
      exact h2

/-! ## Values -/

theorem ignore_sound (n : Nat) :
    (∀ s r, ignoreValue n s = some r → ∃ w t, Ws w ∧ Text .value t ∧ s = w ++ t ++ r) ∧
    (∀ s r, ignoreItems n s = some r → ∃ t, Text .elements t ∧ s = t ++ 93 :: r) ∧
    (∀ s r, ignoreMembers n s = some r → ∃ t, Text .members t ∧ s = t ++ 125 :: r) := by
  induction n with
  | zero => simp [ignoreValue, ignoreItems, ignoreMembers]
  | succ n ih =>
    obtain ⟨ihv, ihi, ihm⟩ := ih
    refine ⟨fun s r h => ?_, fun s r h => ?_, fun s r h => ?_⟩
    · unfold ignoreValue at h
      split at h
      · simp at h
      · rename_i b s1 hs
        obtain ⟨w, hw, rfl⟩ := skipWs_cons hs
        suffices ∃ t, Text .value t ∧ b :: s1 = t ++ r by
          obtain ⟨t, h1, h2⟩ := this
          exact ⟨w, t, hw, h1, by rw [h2, List.append_assoc]⟩
        split at h
        · subst_vars
          rw [stripPrefix_eq_some] at h
          exact ⟨_, .null, by rw [h]; rfl⟩
        split at h
        · subst_vars
          rw [stripPrefix_eq_some] at h
          exact ⟨_, .true, by rw [h]; rfl⟩
        split at h
        · subst_vars
          rw [stripPrefix_eq_some] at h
          exact ⟨_, .false, by rw [h]; rfl⟩
        split at h
        · subst_vars
          obtain ⟨i, f, e, hi, hf, he, rfl⟩ := ignoreNumber_sound h
          exact ⟨_, .number ⟨[0x2d], i, f, e, .inr rfl, hi, hf, he, rfl⟩, by simp⟩
        split at h
        · obtain ⟨i, f, e, hi, hf, he, hs⟩ := ignoreNumber_sound h
          exact ⟨_, .number ⟨[], i, f, e, .inl rfl, hi, hf, he, rfl⟩, by rw [hs]; simp⟩
        split at h
        · subst_vars
          obtain ⟨t, rfl, ht⟩ := ignoreStr_sound _ _ _ h
          exact ⟨_, .string ht, by simp⟩
        split at h
        · subst_vars
          split at h
          · rename_i s2 hs2
            obtain ⟨w2, hw2, rfl⟩ := skipWs_cons hs2
            simp only [Option.some.injEq] at h
            subst h
            exact ⟨_, .emptyArray hw2, by simp⟩
          · obtain ⟨t, ht, rfl⟩ := ihi _ _ h
            exact ⟨_, .array ht, by simp⟩
        split at h
        · subst_vars
          split at h
          · rename_i s2 hs2
            obtain ⟨w2, hw2, rfl⟩ := skipWs_cons hs2
            simp only [Option.some.injEq] at h
            subst h
            exact ⟨_, .emptyObject hw2, by simp⟩
          · obtain ⟨t, ht, rfl⟩ := ihm _ _ h
            exact ⟨_, .object ht, by simp⟩
        · simp at h
    · unfold ignoreItems at h
      simp only [bind, Option.bind_eq_some_iff] at h
      obtain ⟨s1, h1, h2⟩ := h
      obtain ⟨w, t, hw, ht, rfl⟩ := ihv _ _ h1
      split at h2
      · rename_i s2 hs
        obtain ⟨w2, hw2, rfl⟩ := skipWs_cons hs
        obtain ⟨t2, ht2, rfl⟩ := ihi _ _ h2
        exact ⟨_, .moreElements hw ht hw2 ht2, by simp⟩
      · rename_i s2 hs
        obtain ⟨w2, hw2, rfl⟩ := skipWs_cons hs
        simp only [Option.some.injEq] at h2
        subst h2
        exact ⟨_, .oneElement hw ht hw2, by simp⟩
      · simp at h2
    · unfold ignoreMembers at h
      split at h
      · rename_i s1 hs
        obtain ⟨a, ha, rfl⟩ := skipWs_cons hs
        simp only [bind, Option.bind_eq_some_iff] at h
        obtain ⟨s2, h1, h2⟩ := h
        obtain ⟨k, rfl, hk⟩ := ignoreStr_sound _ _ _ h1
        split at h2
        · rename_i s3 hs3
          obtain ⟨b, hb, rfl⟩ := skipWs_cons hs3
          simp only [Option.bind_eq_some_iff] at h2
          obtain ⟨s4, h3, h4⟩ := h2
          obtain ⟨c, t, hc, ht, rfl⟩ := ihv _ _ h3
          split at h4
          · rename_i s5 hs5
            obtain ⟨d, hd, rfl⟩ := skipWs_cons hs5
            obtain ⟨t2, ht2, rfl⟩ := ihm _ _ h4
            exact ⟨_, .moreMembers ha hk hb hc ht hd ht2, by simp⟩
          · rename_i s5 hs5
            obtain ⟨d, hd, rfl⟩ := skipWs_cons hs5
            simp only [Option.some.injEq] at h4
            subst h4
            exact ⟨_, .oneMember ha hk hb hc ht hd, by simp⟩
          · simp at h4
        · simp at h2
      · simp at h

theorem digit_head {d : Bytes} (hd : Digits d) : ∃ c d', d = c :: d' ∧ isDigit c = true := by
  cases d with
  | nil => exact absurd rfl hd.1
  | cons c d => exact ⟨c, d, rfl, (isDigit_iff _).2 (hd.2 c (by simp))⟩

theorem digit_ne {c : UInt8} (h : isDigit c = true) : ¬ IsWs c ∧ c ≠ 93 ∧ c ≠ 110 ∧ c ≠ 116 ∧ c ≠ 102 ∧
    c ≠ 45 := by
  refine ⟨?_, ?_, ?_, ?_, ?_, ?_⟩
  · rintro (rfl | rfl | rfl | rfl) <;> exact absurd h (by decide)
  all_goals rintro rfl; exact absurd h (by decide)

/-- A value begins neither with white space nor with a closing bracket. -/
theorem value_head {t : Bytes} (h : Text .value t) : ∃ c t', t = c :: t' ∧ ¬ IsWs c ∧ c ≠ 93 := by
  cases h with
  | number h =>
    obtain ⟨sign, i, f, e, hs, hi, -, -, rfl⟩ := h
    obtain ⟨c, d, rfl, hc⟩ := digit_head hi.1
    rcases hs with rfl | rfl
    · exact ⟨c, _, rfl, (digit_ne hc).1, (digit_ne hc).2.1⟩
    · exact ⟨0x2d, _, rfl, by decide, by decide⟩
  | null => exact ⟨110, _, rfl, by decide, by decide⟩
  | true => exact ⟨116, _, rfl, by decide, by decide⟩
  | false => exact ⟨102, _, rfl, by decide, by decide⟩
  | string => exact ⟨0x22, _, rfl, by decide, by decide⟩
  | emptyArray | array => exact ⟨0x5b, _, rfl, by decide, by decide⟩
  | emptyObject | object => exact ⟨0x7b, _, rfl, by decide, by decide⟩

theorem elements_head {t : Bytes} (h : Text .elements t) (r : Bytes) :
    ∃ c s, skipWs (t ++ r) = c :: s ∧ c ≠ 93 := by
  cases h with
  | oneElement ha ht hb =>
    obtain ⟨c, t', rfl, h1, h2⟩ := value_head ht
    rw [List.append_assoc, List.append_assoc, List.cons_append, skipWs_to ha h1]
    exact ⟨c, _, rfl, h2⟩
  | moreElements ha ht hb hr =>
    obtain ⟨c, t', rfl, h1, h2⟩ := value_head ht
    rw [List.append_assoc, List.append_assoc, List.append_assoc, List.cons_append, skipWs_to ha h1]
    exact ⟨c, _, rfl, h2⟩

theorem members_head {t : Bytes} (h : Text .members t) (r : Bytes) :
    ∃ c s, skipWs (t ++ r) = c :: s ∧ c ≠ 125 := by
  cases h with
  | oneMember ha =>
    rw [List.append_assoc, List.append_assoc, List.append_assoc, List.cons_append,
      skipWs_to ha (by decide)]
    exact ⟨_, _, rfl, by decide⟩
  | moreMembers ha =>
    rw [List.append_assoc, List.append_assoc, List.append_assoc, List.cons_append,
      skipWs_to ha (by decide)]
    exact ⟨_, _, rfl, by decide⟩

theorem ignoreValue_step (n : Nat) {w : Bytes} (hw : Ws w) {b : UInt8} (hb : ¬ IsWs b) (s : Bytes) :
    ignoreValue (n + 1) (w ++ b :: s) =
      if b = 110 then stripPrefix (asc "ull") s
      else if b = 116 then stripPrefix (asc "rue") s
      else if b = 102 then stripPrefix (asc "alse") s
      else if b = 45 then ignoreNumber s
      else if isDigit b then ignoreNumber (b :: s)
      else if b = 0x22 then ignoreStr (s.length + 1) s
      else if b = 91 then
        match skipWs s with
        | 93 :: s => some s
        | _ => ignoreItems n s
      else if b = 123 then
        match skipWs s with
        | 125 :: s => some s
        | _ => ignoreMembers n s
      else none := by
  rw [ignoreValue, skipWs_to hw hb]
  rfl

/-- What completeness says for each part of a text. -/
def Complete : Part → Bytes → Prop
  | .value, t => ∀ n w r, Ws w → Follows r → t.length + 1 ≤ n → ignoreValue n (w ++ t ++ r) = some r
  | .elements, t => ∀ n r, t.length + 2 ≤ n → ignoreItems n (t ++ 93 :: r) = some r
  | .members, t => ∀ n r, t.length + 2 ≤ n → ignoreMembers n (t ++ 125 :: r) = some r

theorem ignore_complete {p : Part} {t : Bytes} (h : Text p t) : Complete p t := by
  induction h with
  | null =>
    intro n w r hw hr hn
    obtain ⟨n, rfl⟩ : ∃ k, n = k + 1 := ⟨n - 1, by omega⟩
    rw [List.append_assoc]
    show ignoreValue (n + 1) (w ++ 110 :: (asc "ull" ++ r)) = _
    rw [ignoreValue_step n hw (by decide), if_pos rfl, stripPrefix_append]
  | true =>
    intro n w r hw hr hn
    obtain ⟨n, rfl⟩ : ∃ k, n = k + 1 := ⟨n - 1, by omega⟩
    rw [List.append_assoc]
    show ignoreValue (n + 1) (w ++ 116 :: (asc "rue" ++ r)) = _
    rw [ignoreValue_step n hw (by decide), if_neg (by decide), if_pos rfl, stripPrefix_append]
  | false =>
    intro n w r hw hr hn
    obtain ⟨n, rfl⟩ : ∃ k, n = k + 1 := ⟨n - 1, by omega⟩
    rw [List.append_assoc]
    show ignoreValue (n + 1) (w ++ 102 :: (asc "alse" ++ r)) = _
    rw [ignoreValue_step n hw (by decide), if_neg (by decide), if_neg (by decide), if_pos rfl,
      stripPrefix_append]
  | number h =>
    intro n w r hw hr hn
    obtain ⟨n, rfl⟩ : ∃ k, n = k + 1 := ⟨n - 1, by omega⟩
    obtain ⟨sign, i, f, e, hs, hi, hf, he, rfl⟩ := h
    have hnum := ignoreNumber_complete hi hf he hr
    rcases hs with rfl | rfl
    · obtain ⟨c, d, rfl, hc⟩ := digit_head hi.1
      obtain ⟨h1, -, h3, h4, h5, h6⟩ := digit_ne hc
      rw [List.append_assoc]
      show ignoreValue (n + 1) (w ++ c :: (d ++ f ++ e ++ r)) = _
      rw [ignoreValue_step n hw h1, if_neg h3, if_neg h4, if_neg h5, if_neg h6, if_pos hc]
      exact hnum
    · rw [List.append_assoc]
      show ignoreValue (n + 1) (w ++ 45 :: (i ++ f ++ e ++ r)) = _
      rw [ignoreValue_step n hw (by decide), if_neg (by decide), if_neg (by decide), if_neg (by decide),
        if_pos rfl]
      exact hnum
  | @string t h =>
    intro n w r hw hr hn
    obtain ⟨n, rfl⟩ : ∃ k, n = k + 1 := ⟨n - 1, by omega⟩
    have e : w ++ 0x22 :: (t ++ [0x22]) ++ r = w ++ 0x22 :: (t ++ 0x22 :: r) := by simp
    rw [e, ignoreValue_step n hw (by decide), if_neg (by decide), if_neg (by decide),
      if_neg (by decide), if_neg (by decide), if_neg (by decide), if_pos rfl]
    exact ignoreStr_complete h r _ (by simp; omega)
  | @emptyArray w' h =>
    intro n w r hw hr hn
    obtain ⟨n, rfl⟩ : ∃ k, n = k + 1 := ⟨n - 1, by omega⟩
    have e : w ++ 0x5b :: (w' ++ [0x5d]) ++ r = w ++ 0x5b :: (w' ++ 0x5d :: r) := by simp
    rw [e, ignoreValue_step n hw (by decide), if_neg (by decide), if_neg (by decide),
      if_neg (by decide), if_neg (by decide), if_neg (by decide), if_neg (by decide), if_pos rfl,
      skipWs_to h (by decide)]
    rfl
  | @array t h ih =>
    intro n w r hw hr hn
    obtain ⟨n, rfl⟩ : ∃ k, n = k + 1 := ⟨n - 1, by omega⟩
    have e : w ++ 0x5b :: (t ++ [0x5d]) ++ r = w ++ 0x5b :: (t ++ 0x5d :: r) := by simp
    rw [e, ignoreValue_step n hw (by decide), if_neg (by decide), if_neg (by decide),
      if_neg (by decide), if_neg (by decide), if_neg (by decide), if_neg (by decide), if_pos rfl]
    obtain ⟨c, s, h1, h2⟩ := elements_head h (0x5d :: r)
    split
    · rename_i h3
      rw [h1] at h3
      exact absurd (List.cons.inj h3).1 h2
    · exact ih n r (by simp only [List.length_cons, List.length_append, List.length_nil] at hn; omega)
  | @emptyObject w' h =>
    intro n w r hw hr hn
    obtain ⟨n, rfl⟩ : ∃ k, n = k + 1 := ⟨n - 1, by omega⟩
    have e : w ++ 0x7b :: (w' ++ [0x7d]) ++ r = w ++ 0x7b :: (w' ++ 0x7d :: r) := by simp
    rw [e, ignoreValue_step n hw (by decide), if_neg (by decide), if_neg (by decide),
      if_neg (by decide), if_neg (by decide), if_neg (by decide), if_neg (by decide),
      if_neg (by decide), if_pos rfl, skipWs_to h (by decide)]
    rfl
  | @object t h ih =>
    intro n w r hw hr hn
    obtain ⟨n, rfl⟩ : ∃ k, n = k + 1 := ⟨n - 1, by omega⟩
    have e : w ++ 0x7b :: (t ++ [0x7d]) ++ r = w ++ 0x7b :: (t ++ 0x7d :: r) := by simp
    rw [e, ignoreValue_step n hw (by decide), if_neg (by decide), if_neg (by decide),
      if_neg (by decide), if_neg (by decide), if_neg (by decide), if_neg (by decide),
      if_neg (by decide), if_pos rfl]
    obtain ⟨c, s, h1, h2⟩ := members_head h (0x7d :: r)
    split
    · rename_i h3
      rw [h1] at h3
      exact absurd (List.cons.inj h3).1 h2
    · exact ih n r (by simp only [List.length_cons, List.length_append, List.length_nil] at hn; omega)
  | @oneElement a t b ha ht hb ih =>
    intro n r hn
    obtain ⟨n, rfl⟩ : ∃ k, n = k + 1 := ⟨n - 1, by omega⟩
    simp only [List.length_append] at hn
    rw [ignoreItems, List.append_assoc,
      ih n a (b ++ 93 :: r) ha (.ws hb (follows_bracket r)) (by omega)]
    simp only [bind, Option.bind_some]
    rw [skipWs_to hb (by decide)]
    rfl
  | @moreElements a t b t2 ha ht hb ht2 ih ih2 =>
    intro n r hn
    obtain ⟨n, rfl⟩ : ∃ k, n = k + 1 := ⟨n - 1, by omega⟩
    simp only [List.length_append, List.length_cons] at hn
    have e : a ++ t ++ b ++ 44 :: t2 ++ 93 :: r = a ++ t ++ (b ++ 44 :: (t2 ++ 93 :: r)) := by simp
    rw [ignoreItems, e, ih n a _ ha (.ws hb (follows_comma _)) (by omega)]
    simp only [bind, Option.bind_some]
    rw [skipWs_to hb (by decide)]
    exact ih2 n r (by omega)
  | @oneMember a k b c t d ha hk hb hc ht hd ih =>
    intro n r hn
    obtain ⟨n, rfl⟩ : ∃ k, n = k + 1 := ⟨n - 1, by omega⟩
    simp only [List.length_append, List.length_cons] at hn
    have e : a ++ 0x22 :: (k ++ [0x22]) ++ b ++ 0x3a :: (c ++ t ++ d) ++ 125 :: r =
        a ++ 0x22 :: (k ++ 0x22 :: (b ++ 58 :: (c ++ t ++ (d ++ 125 :: r)))) := by simp
    rw [ignoreMembers, e, skipWs_to ha (by decide)]
    simp only [bind]
    rw [ignoreStr_complete hk _ _ (by simp; omega)]
    simp only [Option.bind_some]
    rw [skipWs_to hb (by decide)]
    simp only
    rw [ih n c _ hc (.ws hd (follows_brace r)) (by omega)]
    simp only [Option.bind_some]
    rw [skipWs_to hd (by decide)]
    rfl
  | @moreMembers a k b c t d t2 ha hk hb hc ht hd ht2 ih ih2 =>
    intro n r hn
    obtain ⟨n, rfl⟩ : ∃ k, n = k + 1 := ⟨n - 1, by omega⟩
    simp only [List.length_append, List.length_cons] at hn
    have e : a ++ 0x22 :: (k ++ [0x22]) ++ b ++ 0x3a :: (c ++ t ++ d ++ 0x2c :: t2) ++ 125 :: r =
        a ++ 0x22 :: (k ++ 0x22 :: (b ++ 58 :: (c ++ t ++ (d ++ 44 :: (t2 ++ 125 :: r))))) := by simp
    rw [ignoreMembers, e, skipWs_to ha (by decide)]
    simp only [bind]
    rw [ignoreStr_complete hk _ _ (by simp; omega)]
    simp only [Option.bind_some]
    rw [skipWs_to hb (by decide)]
    simp only
    rw [ih n c _ hc (.ws hd (follows_comma _)) (by omega)]
    simp only [Option.bind_some]
    rw [skipWs_to hd (by decide)]
    exact ih2 n r (by omega)

/-! ## Structs -/

theorem chars_any {t v : Bytes} (h : Chars t v) : AnyChars t := by
  induction h with
  | nil => exact .nil
  | plain h1 h2 h3 _ ih => exact .plain h1 h2 h3 ih
  | escape h1 _ ih => exact .escape h1 ih
  | unicode h1 _ _ ih => exact .unicode h1 ih
  | pair h1 _ _ h2 _ _ _ ih => exact .unicode h1 (.unicode h2 ih)

theorem strLit_value {t : Bytes} {x : String} (h : StrLit t x) : Text .value t := by
  obtain ⟨b, rfl, hb⟩ := h
  exact .string (chars_any hb)

theorem strBytes_inj {a b : String} : strBytes a = strBytes b ↔ a = b := by
  constructor
  · intro h
    have := fromUtf8_strBytes a
    rw [h, fromUtf8_strBytes] at this
    exact (Option.some.inj this).symm
  · rintro rfl; rfl

/-- A comma before every member but the first. -/
def sep (first : Bool) (w : Bytes) (s : Bytes) : Bytes := if first then s else w ++ 44 :: s

theorem memberHead_end {first : Bool} {s r : Bytes} (h : memberHead first s = some (none, r)) :
    ∃ w, Ws w ∧ s = w ++ 125 :: r := by
  have core : ∀ s1 : Bytes, (match s1 with
      | 0x22 :: _ => (stringValue s1).bind fun x => match skipWs x.2 with
        | 58 :: s => some (some x.1, s)
        | _ => none
      | _ => none) = some ((none : Option String), r) → False := by
    intro s1 h
    split at h
    · simp only [Option.bind_eq_some_iff] at h
      obtain ⟨⟨x, s2⟩, -, h2⟩ := h
      split at h2 <;> simp at h2
    · simp at h
  unfold memberHead at h
  split at h
  · rename_i s1 hs
    simp only [Option.some.injEq, Prod.mk.injEq, true_and] at h
    subst h
    exact skipWs_cons hs
  · cases first with
    | true =>
      simp only [bind, if_true, Option.bind_some] at h
      exact (core _ h).elim
    | false =>
      simp only [bind, Bool.false_eq_true, if_false] at h
      split at h
      · simp only [Option.bind_some] at h
        exact (core _ h).elim
      · simp at h

theorem memberHead_key {first : Bool} {s r : Bytes} {key : String}
    (h : memberHead first s = some (some key, r)) :
    ∃ w a k b, Ws w ∧ Ws a ∧ StrLit k key ∧ Ws b ∧ s = sep first w (a ++ k ++ b ++ 58 :: r) := by
  have core : ∀ s1 : Bytes, (match s1 with
      | 0x22 :: _ => (stringValue s1).bind fun x => match skipWs x.2 with
        | 58 :: s => some (some x.1, s)
        | _ => none
      | _ => none) = some (some key, r) →
      ∃ a k b, Ws a ∧ StrLit k key ∧ Ws b ∧ s1 = a ++ k ++ b ++ 58 :: r := by
    intro s1 h
    split at h
    · simp only [Option.bind_eq_some_iff] at h
      obtain ⟨⟨x, s2⟩, h1, h2⟩ := h
      obtain ⟨a, k, ha, hk, e⟩ := stringValue_sound h1
      split at h2
      · rename_i s3 hs
        simp only [Option.some.injEq, Prod.mk.injEq] at h2
        obtain ⟨rfl, rfl⟩ := h2
        obtain ⟨b, hb, rfl⟩ := skipWs_cons hs
        exact ⟨a, k, b, ha, hk, hb, by rw [e]; simp⟩
      · simp at h2
    · simp at h
  unfold memberHead at h
  split at h
  · simp at h
  · obtain ⟨w, hw, hs, -⟩ := skipWs_sound s
    cases first with
    | true =>
      simp only [bind, if_true, Option.bind_some] at h
      obtain ⟨a, k, b, ha, hk, hb, e⟩ := core _ h
      refine ⟨[], w ++ a, k, b, ws_nil, ws_append hw ha, hk, hb, ?_⟩
      rw [sep, if_pos rfl, hs, e]; simp
    | false =>
      simp only [bind, Bool.false_eq_true, if_false] at h
      split at h
      · rename_i s1 hs1
        simp only [Option.bind_some] at h
        obtain ⟨a, k, b, ha, hk, hb, e⟩ := core _ h
        obtain ⟨w1, hw1, hs2, -⟩ := skipWs_sound s1
        refine ⟨w, w1 ++ a, k, b, hw, ws_append hw1 ha, hk, hb, ?_⟩
        rw [sep, if_neg (by decide), hs, hs1, hs2, e]; simp
      · simp at h

theorem memberHead_end_complete (first : Bool) {w : Bytes} (hw : Ws w) (r : Bytes) :
    memberHead first (w ++ 125 :: r) = some (none, r) := by
  unfold memberHead
  rw [skipWs_to hw (by decide)]
  rfl

theorem memberHead_key_complete (first : Bool) {w a k b : Bytes} {key : String} (hw : Ws w) (ha : Ws a)
    (hk : StrLit k key) (hb : Ws b) (r : Bytes) :
    memberHead first (sep first w (a ++ k ++ b ++ 58 :: r)) = some (some key, r) := by
  obtain ⟨k', rfl⟩ := strLit_head hk
  have e : a ++ 0x22 :: k' ++ b ++ 58 :: r = a ++ 0x22 :: (k' ++ b ++ 58 :: r) := by simp
  have hv : stringValue (0x22 :: (k' ++ b ++ 58 :: r)) = some (key, b ++ 58 :: r) := by
    have := stringValue_complete (r := b ++ 58 :: r) ws_nil hk
    simpa using this
  unfold memberHead sep
  cases first with
  | true =>
    rw [if_pos rfl, e, skipWs_to ha (by decide)]
    show (stringValue (0x22 :: (k' ++ b ++ 58 :: r))).bind _ = _
    rw [hv]
    simp only [Option.bind_some]
    rw [skipWs_to hb (by decide)]
    rfl
  | false =>
    rw [if_neg (by decide), skipWs_to hw (by decide)]
    show (match skipWs (a ++ 0x22 :: k' ++ b ++ 58 :: r) with
      | 0x22 :: _ => _
      | _ => _) = _
    rw [e, skipWs_to ha (by decide)]
    show (stringValue (0x22 :: (k' ++ b ++ 58 :: r))).bind _ = _
    rw [hv]
    simp only [Option.bind_some]
    rw [skipWs_to hb (by decide)]
    rfl

/-- What becomes of the value of the field `name` when members are read one after the other. -/
def Take (name : String) : Option String → List (String × Bytes) → Option String → Prop
  | acc, [], acc' => acc' = acc
  | acc, (k, t) :: fs, acc' =>
    if k = name then acc = none ∧ ∃ x, StrLit t x ∧ Take name (some x) fs acc'
    else Take name acc fs acc'

theorem take_some (name y : String) (fs : List (String × Bytes)) (acc' : Option String) :
    Take name (some y) fs acc' ↔ fs.filter (fun f => f.1 = name) = [] ∧ acc' = some y := by
  induction fs with
  | nil => simp [Take]
  | cons f fs ih =>
    obtain ⟨k, t⟩ := f
    unfold Take
    split
    · rename_i h; simp [h]
    · rename_i h; rw [ih]; simp [h]

theorem take_none (name x : String) (fs : List (String × Bytes)) :
    Take name none fs (some x) ↔ ∃ t, fs.filter (fun f => f.1 = name) = [(name, t)] ∧ StrLit t x := by
  induction fs with
  | nil => simp [Take]
  | cons f fs ih =>
    obtain ⟨k, t⟩ := f
    unfold Take
    split
    · rename_i h
      subst h
      simp only [take_some, true_and, List.filter_cons, decide_true, if_true, List.cons.injEq,
        Prod.mk.injEq, Option.some.injEq]
      constructor
      · rintro ⟨y, hy, h1, rfl⟩; exact ⟨t, ⟨rfl, h1⟩, hy⟩
      · rintro ⟨t', ⟨rfl, h1⟩, h2⟩; exact ⟨x, h2, h1, rfl⟩
    · rename_i h
      rw [ih]
      simp [h]

theorem members_sound (name : String) (n : Nat) (first : Bool) (acc acc' : Option String) (s r : Bytes)
    (h : members (strBytes name) some n first acc s = some (acc', r)) :
    (∃ w, Ws w ∧ s = w ++ 125 :: r ∧ acc' = acc) ∨
    ∃ w fs body, Ws w ∧ Fields fs body ∧ s = sep first w (body ++ 125 :: r) ∧ Take name acc fs acc' := by
  induction n generalizing first acc s with
  | zero => simp [members] at h
  | succ n ih =>
    rw [members_succ, Option.bind_eq_some_iff] at h
    obtain ⟨⟨_ | key, s1⟩, h1, h2⟩ := h
    · simp only [Option.some.injEq, Prod.mk.injEq] at h2
      obtain ⟨rfl, rfl⟩ := h2
      obtain ⟨w, hw, rfl⟩ := memberHead_end h1
      exact .inl ⟨w, hw, rfl, rfl⟩
    · right
      obtain ⟨w, a, k, b, hw, ha, hk, hb, rfl⟩ := memberHead_key h1
      -- a value and what follows it
      have fin : ∀ (c t s2 : Bytes) (acc1 : Option String), Ws c → Text .value t → s1 = c ++ t ++ s2 →
          members (strBytes name) some n false acc1 s2 = some (acc', r) →
          (∀ fs, Take name acc1 fs acc' → Take name acc ((key, t) :: fs) acc') →
          ∃ w' fs body, Ws w' ∧ Fields fs body ∧
            sep first w (a ++ k ++ b ++ 58 :: s1) = sep first w' (body ++ 125 :: r) ∧
            Take name acc fs acc' := by
        intro c t s2 acc1 hc ht hs hm htake
        rcases ih false acc1 s2 hm with ⟨d, hd, rfl, h3⟩ | ⟨d, fs, body, hd, hf, rfl, h3⟩
        · refine ⟨w, _, _, hw, .one ha hk hb hc ht hd, ?_, htake [] (by rw [h3]; rfl)⟩
          rw [hs]; simp
        · refine ⟨w, _, _, hw, .more ha hk hb hc ht hd hf, ?_, htake fs h3⟩
          rw [hs]; simp [sep]
      simp only at h2
      split at h2
      · rename_i hkey
        rw [strBytes_inj] at hkey
        split at h2
        · simp at h2
        · rename_i hacc
          have hacc : acc = none := by
            cases acc with
            | none => rfl
            | some _ => simp at hacc
          simp only [Option.bind_some, Option.bind_eq_some_iff] at h2
          obtain ⟨⟨x, s2⟩, h3, h4⟩ := h2
          obtain ⟨c, t, hc, ht, hs⟩ := stringValue_sound h3
          refine fin c t s2 (some x) hc (strLit_value ht) hs h4 fun fs hfs => ?_
          rw [Take, if_pos hkey]
          exact ⟨hacc, x, ht, hfs⟩
      · rename_i hkey
        rw [strBytes_inj] at hkey
        simp only [Option.bind_eq_some_iff] at h2
        obtain ⟨s2, h3, h4⟩ := h2
        obtain ⟨c, t, hc, ht, hs⟩ := (ignore_sound _).1 _ _ h3
        refine fin c t s2 acc hc ht hs h4 fun fs hfs => ?_
        rw [Take, if_neg hkey]
        exact hfs

theorem members_complete (name : String) {fs : List (String × Bytes)} {body : Bytes}
    (h : Fields fs body) (n : Nat) (first : Bool) (w : Bytes) (hw : Ws w) (acc acc' : Option String)
    (r : Bytes) (hn : fs.length < n) (ht : Take name acc fs acc') :
    members (strBytes name) some n first acc (sep first w (body ++ 125 :: r)) = some (acc', r) := by
  -- one member, given how the rest is read
  have step : ∀ (n : Nat) (first : Bool) (w a k b c t s2 : Bytes) (key : String)
      (acc : Option String) (P : Option String → Prop), Ws w → Ws a → StrLit k key → Ws b → Ws c →
      Text .value t → Follows s2 →
      (if key = name then acc = none ∧ ∃ x, StrLit t x ∧ P (some x) else P acc) →
      (∀ acc1, P acc1 → members (strBytes name) some n false acc1 s2 = some (acc', r)) →
      members (strBytes name) some (n + 1) first acc
        (sep first w (a ++ k ++ b ++ 58 :: (c ++ t ++ s2))) = some (acc', r) := by
    intro n first w a k b c t s2 key acc P hw ha hk hb hc ht hs hP hrest
    rw [members_succ, memberHead_key_complete first hw ha hk hb]
    simp only [Option.bind_some]
    split at hP
    · rename_i hkey
      obtain ⟨rfl, x, hx, hp⟩ := hP
      rw [if_pos (by rw [hkey]), if_neg (by simp), stringValue_complete hc hx]
      simp only [Option.bind_some]
      exact hrest _ hp
    · rename_i hkey
      rw [if_neg (by rw [strBytes_inj]; exact hkey)]
      rw [ignore_complete ht _ c s2 hc hs (by simp only [List.length_append]; omega)]
      simp only [Option.bind_some]
      exact hrest _ hP
  induction h generalizing n first w acc with
  | @one a k key b c t d ha hk hb hc hv hd =>
    obtain ⟨n, rfl⟩ : ∃ m, n = m + 2 := ⟨n - 2, by simp at hn; omega⟩
    have e : a ++ k ++ b ++ 58 :: (c ++ t ++ d) ++ 125 :: r =
        a ++ k ++ b ++ 58 :: (c ++ t ++ (d ++ 125 :: r)) := by simp
    rw [e]
    refine step (n + 1) first w a k b c t _ key acc (fun o => acc' = o) hw ha hk hb hc hv
      (.ws hd (follows_brace r)) ht ?_
    rintro acc1 rfl
    rw [members_succ, memberHead_end_complete false hd]
    rfl
  | @more a k key b c t d fs body ha hk hb hc hv hd hf ih =>
    simp only [List.length_cons] at hn
    obtain ⟨n, rfl⟩ : ∃ m, n = m + 1 := ⟨n - 1, by omega⟩
    have e : a ++ k ++ b ++ 58 :: (c ++ t ++ d ++ 44 :: body) ++ 125 :: r =
        a ++ k ++ b ++ 58 :: (c ++ t ++ (d ++ 44 :: (body ++ 125 :: r))) := by simp
    rw [e]
    refine step n first w a k b c t _ key acc (fun o => Take name o fs acc') hw ha hk hb hc hv
      (.ws hd (follows_comma _)) ht ?_
    intro acc1 h1
    have := ih n false d hd acc1 (by omega) h1
    rw [sep, if_neg (by decide)] at this
    exact this

theorem fields_length {fs : List (String × Bytes)} {body : Bytes} (h : Fields fs body) :
    fs.length ≤ body.length := by
  induction h with
  | one => simp; omega
  | more _ _ _ _ _ _ _ ih => simp only [List.length_cons, List.length_append]; omega

theorem skipWs_nil_iff (s : Bytes) : skipWs s = [] ↔ Ws s := by
  constructor
  · intro h
    obtain ⟨w, hw, e, -⟩ := skipWs_sound s
    rw [h, List.append_nil] at e
    rw [e]; exact hw
  · intro h
    have := skipWs_append (s := []) h
    rw [List.append_nil] at this
    rw [this]; rfl

/-- The reader returns exactly the strings of the texts of the grammar. -/
theorem fromSliceStruct_iff (name s : String) (text : Bytes) :
    fromSliceStruct (strBytes name) some text = .ok s ↔ Struct name s text := by
  have key : fromSliceStruct (strBytes name) some text = .ok s ↔
      ∃ r, structValue (strBytes name) some text = some (s, r) ∧ Ws r := by
    unfold fromSliceStruct
    rcases structValue (strBytes name) some text with _ | ⟨x, r⟩
    · simp
    · simp only
      split
      · rename_i h
        simp only [Except.ok.injEq, Option.some.injEq, Prod.mk.injEq]
        constructor
        · rintro rfl; exact ⟨r, ⟨rfl, rfl⟩, (skipWs_nil_iff _).1 h⟩
        · rintro ⟨_, ⟨h1, -⟩, -⟩; exact h1
      · rename_i h
        constructor
        · intro h'; simp at h'
        · rintro ⟨r', h1, h2⟩
          simp only [Option.some.injEq, Prod.mk.injEq] at h1
          exact absurd ((skipWs_nil_iff _).2 (h1.2 ▸ h2)) h
  rw [key]
  constructor
  · rintro ⟨r, h, hr⟩
    unfold structValue at h
    split at h
    · rename_i s1 hs
      obtain ⟨a, ha, rfl⟩ := skipWs_cons hs
      simp only [bind, Option.bind_eq_some_iff] at h
      obtain ⟨⟨o, s2⟩, h1, x, hx, h2⟩ := h
      simp only [pure, Option.some.injEq, Prod.mk.injEq] at h2
      obtain ⟨rfl, rfl⟩ := h2
      simp only at hx
      subst hx
      rcases members_sound name _ _ _ _ _ _ h1 with ⟨_, _, _, h3⟩ | ⟨w, fs, body, -, hf, rfl, h3⟩
      · simp at h3
      · obtain ⟨t, h4, h5⟩ := (take_none _ _ _).1 h3
        exact .inl ⟨a, _, body, fs, t, ha, hr, by rw [sep, if_pos rfl], hf, h4, h5⟩
    · rename_i s1 hs
      obtain ⟨a, ha, rfl⟩ := skipWs_cons hs
      simp only [bind, Option.bind_some, Option.bind_eq_some_iff] at h
      obtain ⟨⟨x, s2⟩, h1, h2⟩ := h
      obtain ⟨b, t, hb, ht, rfl⟩ := stringValue_sound h1
      simp only at h2
      split at h2
      · rename_i s3 hs3
        obtain ⟨c, hc, rfl⟩ := skipWs_cons hs3
        simp only [pure, Option.some.injEq, Prod.mk.injEq] at h2
        obtain ⟨rfl, rfl⟩ := h2
        exact .inr ⟨a, b, c, _, t, ha, hb, hc, hr, ht, by simp⟩
      · simp at h2
    · simp at h
  · rintro (⟨a, b, body, fs, t, ha, hb, rfl, hf, h1, h2⟩ | ⟨a, b, c, d, t, ha, hb, hc, hd, ht, rfl⟩)
    · refine ⟨b, ?_, hb⟩
      have := members_complete name hf ((body ++ 125 :: b).length + 1) true [] ws_nil none (some s) b
        (by have := fields_length hf; simp only [List.length_append]; omega)
        ((take_none _ _ _).2 ⟨t, h1, h2⟩)
      rw [sep, if_pos rfl] at this
      unfold structValue
      rw [skipWs_to ha (by decide)]
      simp only [bind]
      rw [this]
      rfl
    · refine ⟨d, ?_, hd⟩
      unfold structValue
      rw [skipWs_to ha (by decide)]
      have e : b ++ t ++ c ++ 93 :: d = b ++ t ++ (c ++ 93 :: d) := by simp
      simp only [bind]
      rw [e, stringValue_complete hb ht]
      simp only [Option.bind_some]
      rw [skipWs_to hc (by decide)]
      rfl

end Pasta.JsonText
