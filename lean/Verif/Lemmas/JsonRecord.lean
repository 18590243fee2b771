import Verif.Lemmas.JsonGrammar
import Verif.Model.JsonRecord

/-! # The JSON reader of structs with several string fields accepts exactly the JSON texts -/

namespace Pasta.JsonText

open Spec.Json

theorem strLit_unique {t : Bytes} {x y : String} (hx : StrLit t x) (hy : StrLit t y) : x = y := by
  have h1 := stringValue_complete (r := []) ws_nil hx
  have h2 := stringValue_complete (r := []) ws_nil hy
  rw [h1] at h2
  simpa using h2

theorem recordMembers_succ (names : List String) (n : Nat) (first : Bool)
    (acc : List (String × String)) (s : Bytes) :
    recordMembers names (n + 1) first acc s = (memberHead first s).bind fun r => match r.1 with
      | none => some (acc, r.2)
      | some key =>
        if key ∈ names then
          if (acc.lookup key).isSome then none
          else (stringValue r.2).bind fun x => recordMembers names n false ((key, x.1) :: acc) x.2
        else (ignoreValue (2 * r.2.length + 1) r.2).bind (recordMembers names n false acc) := rfl

/-- What becomes of the fields when members are read one after the other. -/
def TakeAll (names : List String) :
    List (String × String) → List (String × Bytes) → List (String × String) → Prop
  | acc, [], acc' => acc' = acc
  | acc, (k, t) :: fs, acc' =>
    if k ∈ names then acc.lookup k = none ∧ ∃ x, StrLit t x ∧ TakeAll names ((k, x) :: acc) fs acc'
    else TakeAll names acc fs acc'

theorem takeAll_lookup (names : List String) (fs : List (String × Bytes))
    (acc acc' : List (String × String)) (h : TakeAll names acc fs acc') (name : String)
    (hn : name ∈ names) :
    match acc.lookup name with
    | some y => fs.filter (fun f => f.1 = name) = [] ∧ acc'.lookup name = some y
    | none => match acc'.lookup name with
      | some x => ∃ t, fs.filter (fun f => f.1 = name) = [(name, t)] ∧ StrLit t x
      | none => fs.filter (fun f => f.1 = name) = [] := by
  induction fs generalizing acc with
  | nil =>
    simp only [TakeAll] at h
    subst h
    cases acc'.lookup name <;> simp
  | cons f fs ih =>
    obtain ⟨k, t⟩ := f
    unfold TakeAll at h
    split at h
    · obtain ⟨hk, x, hx, h⟩ := h
      have := ih _ h
      by_cases e : k = name
      · subst e
        rw [hk]
        simp only [List.lookup_cons, BEq.rfl] at this
        rw [this.2]
        exact ⟨t, by simp [this.1], hx⟩
      · have e' : (name == k) = false := by simpa using Ne.symm e
        simp only [List.lookup_cons, e'] at this
        simpa [e] using this
    · rename_i hk
      have e : k ≠ name := by rintro rfl; exact hk hn
      simpa [e] using ih _ h

theorem takeAll_exists (names : List String) (fs : List (String × Bytes))
    (acc : List (String × String))
    (h : ∀ name ∈ names, match acc.lookup name with
      | some _ => fs.filter (fun f => f.1 = name) = []
      | none => fs.filter (fun f => f.1 = name) = [] ∨
        ∃ t x, fs.filter (fun f => f.1 = name) = [(name, t)] ∧ StrLit t x) :
    ∃ acc', TakeAll names acc fs acc' := by
  induction fs generalizing acc with
  | nil => exact ⟨acc, rfl⟩
  | cons f fs ih =>
    obtain ⟨k, t⟩ := f
    by_cases hk : k ∈ names
    · have hn := h k hk
      simp only [List.filter_cons, decide_true, if_true] at hn
      cases hl : acc.lookup k with
      | some y => rw [hl] at hn; simp at hn
      | none =>
        rw [hl] at hn
        simp only [List.cons_ne_nil, false_or, List.cons.injEq, Prod.mk.injEq, true_and] at hn
        obtain ⟨_, x, ⟨rfl, hn⟩, hx⟩ := hn
        obtain ⟨acc', h'⟩ := ih ((k, x) :: acc) fun name hname => by
          by_cases e : name = k
          · subst e
            simp only [List.lookup_cons, BEq.rfl]
            exact hn
          · have e' : (name == k) = false := by simpa using e
            simp only [List.lookup_cons, e']
            have := h name hname
            simpa [Ne.symm e] using this
        refine ⟨acc', ?_⟩
        unfold TakeAll
        rw [if_pos hk]
        exact ⟨hl, x, hx, h'⟩
    · obtain ⟨acc', h'⟩ := ih acc fun name hname => by
        have e : k ≠ name := by rintro rfl; exact hk hname
        simpa [e] using h name hname
      refine ⟨acc', ?_⟩
      unfold TakeAll
      rw [if_neg hk]
      exact h'

theorem recordMembers_sound (names : List String) (n : Nat) (first : Bool)
    (acc acc' : List (String × String)) (s r : Bytes)
    (h : recordMembers names n first acc s = some (acc', r)) :
    (∃ w, Ws w ∧ s = w ++ 125 :: r ∧ acc' = acc) ∨
    ∃ w fs body, Ws w ∧ Fields fs body ∧ s = sep first w (body ++ 125 :: r) ∧
      TakeAll names acc fs acc' := by
  induction n generalizing first acc s with
  | zero => simp [recordMembers] at h
  | succ n ih =>
    rw [recordMembers_succ, Option.bind_eq_some_iff] at h
    obtain ⟨⟨_ | key, s1⟩, h1, h2⟩ := h
    · simp only [Option.some.injEq, Prod.mk.injEq] at h2
      obtain ⟨rfl, rfl⟩ := h2
      obtain ⟨w, hw, rfl⟩ := memberHead_end h1
      exact .inl ⟨w, hw, rfl, rfl⟩
    · right
      obtain ⟨w, a, k, b, hw, ha, hk, hb, rfl⟩ := memberHead_key h1
      have fin : ∀ (c t s2 : Bytes) (acc1 : List (String × String)), Ws c → Text .value t →
          s1 = c ++ t ++ s2 →
          recordMembers names n false acc1 s2 = some (acc', r) →
          (∀ fs, TakeAll names acc1 fs acc' → TakeAll names acc ((key, t) :: fs) acc') →
          ∃ w' fs body, Ws w' ∧ Fields fs body ∧
            sep first w (a ++ k ++ b ++ 58 :: s1) = sep first w' (body ++ 125 :: r) ∧
            TakeAll names acc fs acc' := by
        intro c t s2 acc1 hc ht hs hm htake
        rcases ih false acc1 s2 hm with ⟨d, hd, rfl, h3⟩ | ⟨d, fs, body, hd, hf, rfl, h3⟩
        · refine ⟨w, _, _, hw, .one ha hk hb hc ht hd, ?_, htake [] (by rw [h3]; rfl)⟩
          rw [hs]; simp
        · refine ⟨w, _, _, hw, .more ha hk hb hc ht hd hf, ?_, htake fs h3⟩
          rw [hs]; simp [sep]
      simp only at h2
      split at h2
      · rename_i hkey
        split at h2
        · simp at h2
        · rename_i hacc
          simp only [Option.bind_eq_some_iff] at h2
          obtain ⟨⟨x, s2⟩, h3, h4⟩ := h2
          obtain ⟨c, t, hc, ht, hs⟩ := stringValue_sound h3
          refine fin c t s2 _ hc (strLit_value ht) hs h4 fun fs hfs => ?_
          rw [TakeAll, if_pos hkey]
          exact ⟨Option.not_isSome_iff_eq_none.1 hacc, x, ht, hfs⟩
      · rename_i hkey
        simp only [Option.bind_eq_some_iff] at h2
        obtain ⟨s2, h3, h4⟩ := h2
        obtain ⟨c, t, hc, ht, hs⟩ := (ignore_sound _).1 _ _ h3
        refine fin c t s2 acc hc ht hs h4 fun fs hfs => ?_
        rw [TakeAll, if_neg hkey]
        exact hfs

theorem recordMembers_complete (names : List String) {fs : List (String × Bytes)} {body : Bytes}
    (h : Fields fs body) (n : Nat) (first : Bool) (w : Bytes) (hw : Ws w)
    (acc acc' : List (String × String)) (r : Bytes) (hn : fs.length < n)
    (ht : TakeAll names acc fs acc') :
    recordMembers names n first acc (sep first w (body ++ 125 :: r)) = some (acc', r) := by
  have step : ∀ (n : Nat) (first : Bool) (w a k b c t s2 : Bytes) (key : String)
      (acc : List (String × String)) (P : List (String × String) → Prop), Ws w → Ws a →
      StrLit k key → Ws b → Ws c → Text .value t → Follows s2 →
      (if key ∈ names then acc.lookup key = none ∧ ∃ x, StrLit t x ∧ P ((key, x) :: acc)
        else P acc) →
      (∀ acc1, P acc1 → recordMembers names n false acc1 s2 = some (acc', r)) →
      recordMembers names (n + 1) first acc
        (sep first w (a ++ k ++ b ++ 58 :: (c ++ t ++ s2))) = some (acc', r) := by
    intro n first w a k b c t s2 key acc P hw ha hk hb hc ht hs hP hrest
    rw [recordMembers_succ, memberHead_key_complete first hw ha hk hb]
    simp only [Option.bind_some]
    split at hP
    · rename_i hkey
      obtain ⟨hl, x, hx, hp⟩ := hP
      rw [if_pos hkey, if_neg (by rw [hl]; simp), stringValue_complete hc hx]
      simp only [Option.bind_some]
      exact hrest _ hp
    · rename_i hkey
      rw [if_neg hkey]
      rw [ignore_complete ht _ c s2 hc hs (by simp only [List.length_append]; omega)]
      simp only [Option.bind_some]
      exact hrest _ hP
  induction h generalizing n first w acc with
  | @one a k key b c t d ha hk hb hc hv hd =>
    obtain ⟨n, rfl⟩ : ∃ m, n = m + 2 := ⟨n - 2, by simp at hn; omega⟩
    have e : a ++ k ++ b ++ 58 :: (c ++ t ++ d) ++ 125 :: r =
        a ++ k ++ b ++ 58 :: (c ++ t ++ (d ++ 125 :: r)) := by simp
    rw [e]
    refine step (n + 1) first w a k b c t _ key acc (fun o => acc' = o) hw ha hk hb hc hv
      (.ws hd (follows_brace r)) ht ?_
    rintro acc1 rfl
    rw [recordMembers_succ, memberHead_end_complete false hd]
    rfl
  | @more a k key b c t d fs body ha hk hb hc hv hd hf ih =>
    simp only [List.length_cons] at hn
    obtain ⟨n, rfl⟩ : ∃ m, n = m + 1 := ⟨n - 1, by omega⟩
    have e : a ++ k ++ b ++ 58 :: (c ++ t ++ d ++ 44 :: body) ++ 125 :: r =
        a ++ k ++ b ++ 58 :: (c ++ t ++ (d ++ 44 :: (body ++ 125 :: r))) := by simp
    rw [e]
    refine step n first w a k b c t _ key acc (fun o => TakeAll names o fs acc') hw ha hk hb hc hv
      (.ws hd (follows_comma _)) ht ?_
    intro acc1 h1
    have := ih n false d hd acc1 (by omega) h1
    rw [sep, if_neg (by decide)] at this
    exact this

theorem recordItems_cons (m : String) (names : List String) (first : Bool) (s : Bytes) :
    recordItems (m :: names) first s =
      (comma first s).bind fun s => (stringValue s).bind fun x =>
          (recordItems names false x.2).bind fun y => some (x.1 :: y.1, y.2) := rfl

theorem comma_sep (first : Bool) {w : Bytes} (hw : Ws w) (s : Bytes) :
    comma first (sep first w s) = some s := by
  unfold comma sep
  cases first with
  | true => rfl
  | false =>
    rw [if_neg (by decide), if_neg (by decide), skipWs_to hw (by decide)]
    rfl

theorem comma_sound {first : Bool} {s s' : Bytes} (h : comma first s = some s') :
    ∃ w, Ws w ∧ s = sep first w s' := by
  unfold comma at h
  cases first with
  | true =>
    simp only [if_true, Option.some.injEq] at h
    exact ⟨[], ws_nil, by rw [h, sep, if_pos rfl]⟩
  | false =>
    simp only [Bool.false_eq_true, if_false] at h
    split at h
    · rename_i s5 hs5
      obtain ⟨w, hw, rfl⟩ := skipWs_cons hs5
      simp only [Option.some.injEq] at h
      exact ⟨w, hw, by rw [h, sep, if_neg (by decide)]⟩
    · simp at h

theorem recordItems_sound (m : String) (names : List String) (first : Bool) (s r : Bytes)
    (xs : List String) (h : recordItems (m :: names) first s = some (xs, r)) :
    ∃ w body, Ws w ∧ xs.length = names.length + 1 ∧ Strings xs body ∧
      s = sep first w (body ++ 93 :: r) := by
  induction names generalizing m first s xs with
  | nil =>
    rw [recordItems_cons] at h
    simp only [Option.bind_eq_some_iff] at h
    obtain ⟨s1, h1, ⟨x, s2⟩, h2, ⟨ys, s3⟩, h3, h4⟩ := h
    simp only [Option.some.injEq, Prod.mk.injEq] at h4
    obtain ⟨rfl, rfl⟩ := h4
    obtain ⟨a, t, ha, ht, rfl⟩ := stringValue_sound h2
    unfold recordItems at h3
    split at h3
    · rename_i s4 hs
      simp only [Option.some.injEq, Prod.mk.injEq] at h3
      obtain ⟨rfl, rfl⟩ := h3
      obtain ⟨b, hb, rfl⟩ := skipWs_cons hs
      obtain ⟨w, hw, rfl⟩ := comma_sound h1
      exact ⟨w, _, hw, rfl, .one ha ht hb, by simp⟩
    · simp at h3
  | cons m' names ih =>
    rw [recordItems_cons] at h
    simp only [Option.bind_eq_some_iff] at h
    obtain ⟨s1, h1, ⟨x, s2⟩, h2, ⟨ys, s3⟩, h3, h4⟩ := h
    simp only [Option.some.injEq, Prod.mk.injEq] at h4
    obtain ⟨rfl, rfl⟩ := h4
    obtain ⟨a, t, ha, ht, rfl⟩ := stringValue_sound h2
    obtain ⟨b, body, hb, hl, hs, e⟩ := ih m' false s2 ys h3
    rw [sep, if_neg (by decide)] at e
    subst e
    obtain ⟨w, hw, rfl⟩ := comma_sound h1
    exact ⟨w, _, hw, by simp [hl], .more ha ht hb hs, by simp⟩

theorem recordItems_complete {xs : List String} {body : Bytes} (h : Strings xs body)
    (names : List String) (hl : names.length = xs.length) (first : Bool) (w : Bytes) (hw : Ws w)
    (r : Bytes) : recordItems names first (sep first w (body ++ 93 :: r)) = some (xs, r) := by
  induction h generalizing names first w with
  | @one a t s b ha ht hb =>
    obtain ⟨m, rfl⟩ := List.length_eq_one_iff.1 hl
    rw [recordItems_cons, comma_sep first hw]
    have e : a ++ t ++ b ++ 93 :: r = a ++ t ++ (b ++ 93 :: r) := by simp
    simp only [Option.bind_some]
    rw [e, stringValue_complete ha ht]
    simp only [Option.bind_some]
    unfold recordItems
    rw [skipWs_to hb (by decide)]
    rfl
  | @more a t s b ss rest ha ht hb hs ih =>
    obtain ⟨m, names, rfl⟩ : ∃ m l, names = m :: l := by
      cases names with
      | nil => simp at hl
      | cons m l => exact ⟨m, l, rfl⟩
    rw [recordItems_cons, comma_sep first hw]
    have e : a ++ t ++ b ++ 44 :: rest ++ 93 :: r = a ++ t ++ (b ++ 44 :: (rest ++ 93 :: r)) := by simp
    simp only [Option.bind_some]
    rw [e, stringValue_complete ha ht]
    simp only [Option.bind_some]
    have := ih names (by simpa using hl) false b hb
    rw [sep, if_neg (by decide)] at this
    rw [this]
    rfl

theorem strings_ne {xs : List String} {body : Bytes} (h : Strings xs body) : xs ≠ [] := by
  cases h <;> simp

theorem mapM_lookup_iff (names : List String) (acc : List (String × String)) (xs : List String) :
    names.mapM (fun name => acc.lookup name) = some xs ↔
      xs.length = names.length ∧ ∀ f ∈ names.zip xs, acc.lookup f.1 = some f.2 := by
  induction names generalizing xs with
  | nil => cases xs <;> simp
  | cons m names ih =>
    rw [List.mapM_cons]
    simp only [bind, Option.bind_eq_some_iff, pure, Option.some.injEq]
    constructor
    · rintro ⟨x, hx, ys, hys, rfl⟩
      obtain ⟨h1, h2⟩ := (ih ys).1 hys
      refine ⟨by simp [h1], ?_⟩
      rintro f hf
      rw [List.zip_cons_cons, List.mem_cons] at hf
      rcases hf with rfl | hf
      · exact hx
      · exact h2 f hf
    · rintro ⟨h1, h2⟩
      cases xs with
      | nil => simp at h1
      | cons x ys =>
        refine ⟨x, h2 (m, x) (by simp), ys, (ih ys).2 ⟨by simpa using h1, fun f hf => ?_⟩, rfl⟩
        exact h2 f (by simp [hf])

/-- The reader returns exactly the strings of the texts of the grammar. -/
theorem fromSliceRecord_iff (names xs : List String) (hne : names ≠ []) (text : Bytes) :
    fromSliceRecord names text = .ok xs ↔
      xs.length = names.length ∧ Record (names.zip xs) text := by
  have key : fromSliceRecord names text = .ok xs ↔
      ∃ r, recordValue names text = some (xs, r) ∧ Ws r := by
    unfold fromSliceRecord
    rcases recordValue names text with _ | ⟨x, r⟩
    · simp
    · simp only
      split
      · rename_i h
        simp only [Except.ok.injEq, Option.some.injEq, Prod.mk.injEq]
        constructor
        · rintro rfl; exact ⟨r, ⟨rfl, rfl⟩, (skipWs_nil_iff _).1 h⟩
        · rintro ⟨_, ⟨h1, -⟩, -⟩; exact h1
      · rename_i h
        constructor
        · intro h'; simp at h'
        · rintro ⟨r', h1, h2⟩
          simp only [Option.some.injEq, Prod.mk.injEq] at h1
          exact absurd ((skipWs_nil_iff _).2 (h1.2 ▸ h2)) h
  rw [key]
  have mem_zip : ∀ f ∈ names.zip xs, f.1 ∈ names := fun f hf => (List.of_mem_zip hf).1
  have snd_zip : xs.length = names.length → (names.zip xs).map Prod.snd = xs := fun h =>
    List.map_snd_zip (by omega)
  constructor
  · rintro ⟨r, h, hr⟩
    unfold recordValue at h
    split at h
    · rename_i s1 hs
      obtain ⟨a, ha, rfl⟩ := skipWs_cons hs
      simp only [bind, Option.bind_eq_some_iff] at h
      obtain ⟨⟨acc, s2⟩, h1, ys, hy, h2⟩ := h
      simp only [pure, Option.some.injEq, Prod.mk.injEq] at h2
      obtain ⟨rfl, rfl⟩ := h2
      obtain ⟨hl, hy⟩ := (mapM_lookup_iff _ _ _).1 hy
      refine ⟨hl, .inl ?_⟩
      rcases recordMembers_sound names _ _ _ _ _ _ h1 with ⟨_, _, _, h3⟩ | ⟨w, fs, body, -, hf, rfl, h3⟩
      · exfalso
        subst h3
        cases names with
        | nil => exact hne rfl
        | cons m names =>
          cases ys with
          | nil => simp at hl
          | cons y ys => simpa using hy (m, y) (by simp)
      · refine ⟨a, _, body, fs, ha, hr, by rw [sep, if_pos rfl], hf, fun f hf' => ?_⟩
        have := takeAll_lookup names fs [] acc h3 f.1 (mem_zip f hf')
        simp only [List.lookup_nil] at this
        rw [hy f hf'] at this
        exact this
    · rename_i s1 hs
      obtain ⟨a, ha, rfl⟩ := skipWs_cons hs
      cases names with
      | nil => exact absurd rfl hne
      | cons m names =>
        obtain ⟨w, body, -, hl, hb, rfl⟩ := recordItems_sound m names true _ _ _ h
        refine ⟨hl, .inr ⟨a, r, body, ha, hr, by rw [sep, if_pos rfl], ?_⟩⟩
        rw [snd_zip hl]
        exact hb
    · simp at h
  · rintro ⟨hl, ⟨a, b, body, fs, ha, hb, rfl, hf, h1⟩ | ⟨a, b, body, ha, hb, rfl, hs⟩⟩
    · refine ⟨b, ?_, hb⟩
      have hall : ∀ name ∈ names, ∃ t x, (name, x) ∈ names.zip xs ∧
          fs.filter (fun f => f.1 = name) = [(name, t)] ∧ StrLit t x := by
        intro name hname
        obtain ⟨i, hi, rfl⟩ := List.getElem_of_mem hname
        have hi' : i < xs.length := by omega
        have hm : (names[i], xs[i]) ∈ names.zip xs := by
          rw [List.mem_iff_getElem]
          exact ⟨i, by simp; omega, by simp⟩
        obtain ⟨t, h2, h3⟩ := h1 _ hm
        exact ⟨t, _, hm, h2, h3⟩
      obtain ⟨acc', htake⟩ := takeAll_exists names fs [] fun name hname => by
        obtain ⟨t, x, -, h2, h3⟩ := hall name hname
        simp only [List.lookup_nil]
        exact .inr ⟨t, x, h2, h3⟩
      have := recordMembers_complete names hf ((body ++ 125 :: b).length + 1) true [] ws_nil [] acc' b
        (by have := fields_length hf; simp only [List.length_append]; omega) htake
      rw [sep, if_pos rfl] at this
      unfold recordValue
      rw [skipWs_to ha (by decide)]
      simp only [bind]
      rw [this]
      simp only [Option.bind_some]
      have hmap : names.mapM (fun name => acc'.lookup name) = some xs := by
        rw [mapM_lookup_iff]
        refine ⟨hl, fun f hf' => ?_⟩
        obtain ⟨t, h2, h3⟩ := h1 f hf'
        have := takeAll_lookup names fs [] acc' htake f.1 (mem_zip f hf')
        simp only [List.lookup_nil] at this
        cases hl' : acc'.lookup f.1 with
        | some x =>
          rw [hl'] at this
          obtain ⟨t', h4, h5⟩ := this
          rw [h2] at h4
          simp only [List.cons.injEq, Prod.mk.injEq, true_and, and_true] at h4
          subst h4
          rw [strLit_unique h3 h5]
        | none =>
          rw [hl'] at this
          rw [h2] at this
          simp at this
      rw [hmap]
      rfl
    · refine ⟨b, ?_, hb⟩
      rw [snd_zip hl] at hs
      unfold recordValue
      rw [skipWs_to ha (by decide)]
      have := recordItems_complete hs names hl.symm true [] ws_nil b
      rw [sep, if_pos rfl] at this
      exact this

/-! ## Objects in which a field does not occur once are refused -/

/-- A text of a value that is read as a string is a string literal, and all of it is read. -/
theorem stringValue_value {c t s2 r : Bytes} {x : String} (hc : Ws c) (ht : Text .value t)
    (h : stringValue (c ++ t ++ s2) = some (x, r)) : StrLit t x := by
  obtain ⟨w, t', hw, ht', e⟩ := stringValue_sound h
  obtain ⟨b', rfl⟩ := strLit_head ht'
  obtain ⟨c0, u, rfl, hc0, -⟩ := value_head ht
  have e1 : skipWs (c ++ c0 :: u ++ s2) = c0 :: (u ++ s2) := by
    rw [List.append_assoc, List.cons_append]; exact skipWs_to hc hc0
  have e2 : skipWs (w ++ 0x22 :: b' ++ r) = 0x22 :: (b' ++ r) := by
    rw [List.append_assoc, List.cons_append]; exact skipWs_to hw (by decide)
  rw [e, e2] at e1
  obtain ⟨rfl, e3⟩ := List.cons.inj e1
  -- both are strings
  obtain ⟨k', hk', hk2'⟩ := ht'
  obtain ⟨-, rfl⟩ := List.cons.inj hk'
  have hk : ∃ k, u = k ++ [0x22] ∧ AnyChars k := by
    generalize hp : (0x22 :: u : Bytes) = z at ht
    generalize hq : Part.value = q at ht
    cases ht <;> first
      | (cases hq; done)
      | (exfalso; revert hp; simp [asc]; done)
      | skip
    · exfalso
      rename_i hn
      obtain ⟨sign, i, f, e, hs, hi, -, -, rfl⟩ := hn
      obtain ⟨d, i', rfl, hd⟩ := digit_head hi.1
      rcases hs with rfl | rfl
      · simp only [List.nil_append, List.cons_append, List.cons.injEq] at hp
        rw [← hp.1] at hd; exact absurd hd (by decide)
      · simp at hp
    · rename_i k hk
      exact ⟨k, (List.cons.inj hp).2, hk⟩
    all_goals (exfalso; simp at hp)
  obtain ⟨k, rfl, hk⟩ := hk
  have h1 := ignoreStr_complete hk s2 (max k.length k'.length + 1) (by omega)
  have h2 := ignoreStr_complete (chars_any hk2') r (max k.length k'.length + 1) (by omega)
  have e4 : k ++ 0x22 :: s2 = k' ++ 0x22 :: r := by
    have := e3
    simp only [List.append_assoc, List.singleton_append] at this
    exact this.symm
  rw [e4, h2] at h1
  have e5 : r = s2 := Option.some.inj h1
  subst e5
  have : k = k' := List.append_cancel_right e4
  subst this
  exact ⟨k, rfl, hk2'⟩

theorem recordMembers_none (names : List String) {fs : List (String × Bytes)} {body : Bytes}
    (h : Fields fs body) (n : Nat) (first : Bool) (w : Bytes) (hw : Ws w)
    (acc : List (String × String)) (r : Bytes) (ht : ∀ acc', ¬ TakeAll names acc fs acc') :
    recordMembers names n first acc (sep first w (body ++ 125 :: r)) = none := by
  have step : ∀ (n : Nat) (first : Bool) (w a k b c t s2 : Bytes) (key : String)
      (acc : List (String × String)) (fs : List (String × Bytes)), Ws w → Ws a →
      StrLit k key → Ws b → Ws c → Text .value t → Follows s2 →
      (∀ acc', ¬ TakeAll names acc ((key, t) :: fs) acc') →
      (∀ acc1, (∀ acc', ¬ TakeAll names acc1 fs acc') → recordMembers names n false acc1 s2 = none) →
      recordMembers names (n + 1) first acc
        (sep first w (a ++ k ++ b ++ 58 :: (c ++ t ++ s2))) = none := by
    intro n first w a k b c t s2 key acc fs hw ha hk hb hc ht hs hP hrest
    rw [recordMembers_succ, memberHead_key_complete first hw ha hk hb]
    simp only [Option.bind_some]
    split
    · rename_i hkey
      split
      · rfl
      · rename_i hl
        have hl : acc.lookup key = none := Option.not_isSome_iff_eq_none.1 hl
        cases hv : stringValue (c ++ t ++ s2) with
        | none => rfl
        | some y =>
          obtain ⟨x, r'⟩ := y
          have hx := stringValue_value hc ht hv
          have hv' := stringValue_complete (r := s2) hc hx
          rw [hv'] at hv
          obtain ⟨-, rfl⟩ := Prod.mk.inj (Option.some.inj hv)
          simp only [Option.bind_some]
          refine hrest _ fun acc' hacc => hP acc' ?_
          rw [TakeAll, if_pos hkey]
          exact ⟨hl, x, hx, hacc⟩
    · rename_i hkey
      rw [ignore_complete ht _ c s2 hc hs (by simp only [List.length_append]; omega)]
      simp only [Option.bind_some]
      refine hrest _ fun acc' hacc => hP acc' ?_
      rw [TakeAll, if_neg hkey]
      exact hacc
  induction h generalizing n first w acc with
  | @one a k key b c t d ha hk hb hc hv hd =>
    cases n with
    | zero => rfl
    | succ n =>
    have e : a ++ k ++ b ++ 58 :: (c ++ t ++ d) ++ 125 :: r =
        a ++ k ++ b ++ 58 :: (c ++ t ++ (d ++ 125 :: r)) := by simp
    rw [e]
    refine step n first w a k b c t _ key acc [] hw ha hk hb hc hv (.ws hd (follows_brace r)) ht ?_
    intro acc1 h1
    exact absurd rfl (h1 acc1)
  | @more a k key b c t d fs body ha hk hb hc hv hd hf ih =>
    cases n with
    | zero => rfl
    | succ n =>
    have e : a ++ k ++ b ++ 58 :: (c ++ t ++ d ++ 44 :: body) ++ 125 :: r =
        a ++ k ++ b ++ 58 :: (c ++ t ++ (d ++ 44 :: (body ++ 125 :: r))) := by simp
    rw [e]
    refine step n first w a k b c t _ key acc fs hw ha hk hb hc hv (.ws hd (follows_comma _)) ht ?_
    intro acc1 h1
    have := ih n false d hd acc1 h1
    rw [sep, if_neg (by decide)] at this
    exact this

theorem fromSliceRecord_refused (names : List String) (name : String) (hn : name ∈ names)
    {a b body : Bytes} {fs : List (String × Bytes)} (ha : Ws a) (hf : Fields fs body)
    (h : (fs.filter fun f => f.1 = name).length ≠ 1) :
    fromSliceRecord names (a ++ 123 :: (body ++ 125 :: b)) = .error "json" := by
  have key : recordValue names (a ++ 123 :: (body ++ 125 :: b)) = none := by
    unfold recordValue
    rw [skipWs_to ha (by decide)]
    simp only [bind]
    by_cases ht : ∃ acc', TakeAll names [] fs acc'
    · obtain ⟨acc', ht⟩ := ht
      have := recordMembers_complete names hf ((body ++ 125 :: b).length + 1) true [] ws_nil [] acc' b
        (by have := fields_length hf; simp only [List.length_append]; omega) ht
      rw [sep, if_pos rfl] at this
      rw [this]
      simp only [Option.bind_some]
      cases hm : names.mapM (fun name => acc'.lookup name) with
      | none => rfl
      | some xs =>
        exfalso
        obtain ⟨hl, hm⟩ := (mapM_lookup_iff _ _ _).1 hm
        obtain ⟨i, hi, rfl⟩ := List.getElem_of_mem hn
        have hi' : i < xs.length := by omega
        have hmem : (names[i], xs[i]) ∈ names.zip xs := by
          rw [List.mem_iff_getElem]
          exact ⟨i, by simp; omega, by simp⟩
        have h1 := hm _ hmem
        have h2 := takeAll_lookup names fs [] acc' ht names[i] hn
        simp only [List.lookup_nil] at h2
        simp only at h1
        rw [h1] at h2
        obtain ⟨t, h2, -⟩ := h2
        rw [h2] at h
        exact h rfl
    · have := recordMembers_none names hf ((body ++ 125 :: b).length + 1) true [] ws_nil [] b
        (fun acc' h => ht ⟨acc', h⟩)
      rw [sep, if_pos rfl] at this
      rw [this]
      rfl
  unfold fromSliceRecord
  rw [key]

/-! ## What is written is in the grammar -/

theorem writeStr_lit (x : String) : StrLit (writeStr (strBytes x)) x := by
  obtain ⟨w, t, hw, ht, e⟩ := stringValue_sound (stringValue_write x [])
  rw [List.append_nil, List.append_nil] at e
  have : w = [] := by
    cases w with
    | nil => rfl
    | cons c w =>
      have h1 : IsWs c := hw c (by simp)
      have h2 : c = 0x22 := by
        rw [writeStr, List.cons_append] at e
        exact (List.cons.inj e).1.symm
      subst h2
      exact absurd h1 (by decide)
  subst this
  rw [e]
  exact ht

theorem writeMembers_fields (fields : List (String × String)) (h : fields ≠ []) :
    Fields (fields.map fun f => (f.1, writeStr (strBytes f.2))) (writeMembers fields) := by
  induction fields with
  | nil => exact absurd rfl h
  | cons f fs ih =>
    cases fs with
    | nil =>
      have := Fields.one (d := []) ws_nil (writeStr_lit f.1) ws_nil ws_nil
        (strLit_value (writeStr_lit f.2)) ws_nil
      simpa [writeMembers] using this
    | cons g fs =>
      have := Fields.more ws_nil (writeStr_lit f.1) ws_nil ws_nil (strLit_value (writeStr_lit f.2))
        ws_nil (ih (by simp))
      simpa [writeMembers] using this

theorem filter_name (fields : List (String × String)) (hd : (fields.map Prod.fst).Nodup)
    (f : String × String) (hf : f ∈ fields) :
    (fields.map fun f => (f.1, writeStr (strBytes f.2))).filter (fun g => g.1 = f.1) =
      [(f.1, writeStr (strBytes f.2))] := by
  induction fields with
  | nil => simp at hf
  | cons g fs ih =>
    rw [List.map_cons, List.nodup_cons] at hd
    rw [List.map_cons, List.filter_cons]
    rcases List.mem_cons.1 hf with rfl | hf
    · simp only [decide_true, if_true, List.cons.injEq, true_and, List.filter_eq_nil_iff,
        decide_eq_true_eq]
      intro x hx
      obtain ⟨y, hy, rfl⟩ := List.mem_map.1 hx
      intro e
      exact hd.1 (e ▸ List.mem_map_of_mem hy)
    · have : g.1 ≠ f.1 := fun e => hd.1 (e ▸ List.mem_map_of_mem hf)
      rw [if_neg (by simpa using this)]
      exact ih hd.2 hf

theorem writeRecord_record (fields : List (String × String)) (hne : fields ≠ [])
    (hd : (fields.map Prod.fst).Nodup) : Record fields (writeRecord fields) :=
  .inl ⟨[], [], _, _, ws_nil, ws_nil, by simp [writeRecord], writeMembers_fields fields hne,
    fun f hf => ⟨_, filter_name fields hd f hf, writeStr_lit f.2⟩⟩

end Pasta.JsonText
