import Verif.Model.JsonText
import Verif.Lemmas.Base64
import Verif.Lemmas.Paserk

/-! # The JSON text of one-field structs is read back -/

namespace Pasta.JsonText

theorem hex_digits : ∀ b : UInt8, b < 0x20 → hexVal (hexDigit (b >>> 4)) = some (b.toNat / 16) ∧
    hexVal (hexDigit (b &&& 15)) = some (b.toNat % 16) ∧
    String.utf8EncodeChar (Char.ofNat b.toNat) = [b] := by
  apply B64.forall_uint8
  decide +kernel

theorem escape_escByte (b : UInt8) (s : Bytes) :
    (∃ e, escByte b = 0x5c :: e ∧ escape (e ++ s) = some ([b], s)) ∨
    (escByte b = [b] ∧ b ≠ 0x22 ∧ b ≠ 0x5c ∧ ¬ b < 0x20) := by
  unfold escByte
  split
  · left; exact ⟨_, rfl, by simp [escape, *]⟩
  split
  · left; exact ⟨_, rfl, by simp [escape, *]⟩
  split
  · left; exact ⟨_, rfl, by simp [escape, *]⟩
  split
  · left; exact ⟨_, rfl, by simp [escape, *]⟩
  split
  · left; exact ⟨_, rfl, by simp [escape, *]⟩
  split
  · left; exact ⟨_, rfl, by simp [escape, *]⟩
  split
  · left; exact ⟨_, rfl, by simp [escape, *]⟩
  split
  · rename_i h
    left
    refine ⟨_, rfl, ?_⟩
    obtain ⟨h1, h2, h3⟩ := hex_digits b h
    have h48 : hexVal 48 = some 0 := by decide
    have hlt : b.toNat < 32 := by
      have := UInt8.lt_iff_toNat_lt.1 h
      simpa using this
    have hn : ((0 * 16 + 0) * 16 + b.toNat / 16) * 16 + b.toNat % 16 = b.toNat := by omega
    have h4 : hex4 (48 :: 48 :: hexDigit (b >>> 4) :: hexDigit (b &&& 15) :: s) =
        some (b.toNat, s) := by
      simp only [hex4, h48, h1, h2]
      show some (((0 * 16 + 0) * 16 + b.toNat / 16) * 16 + b.toNat % 16, s) = _
      rw [hn]
    show unicodeEscape (48 :: 48 :: hexDigit (b >>> 4) :: hexDigit (b &&& 15) :: s) = _
    unfold unicodeEscape
    rw [h4]
    show (if 0xdc00 ≤ b.toNat ∧ b.toNat ≤ 0xdfff then none else _) = _
    rw [if_neg (by omega)]
    show (if 0xd800 ≤ b.toNat ∧ b.toNat ≤ 0xdbff then _ else _) = _
    rw [if_neg (by omega), h3]
    rfl
  · right; exact ⟨rfl, by assumption, by assumption, by assumption⟩

/-- Reading a written string gives the string. -/
theorem parseStr_write (b s : Bytes) (n : Nat) (hn : b.length < n) :
    parseStr n (b.flatMap escByte ++ 0x22 :: s) = some (b, s) := by
  induction b generalizing n with
  | nil =>
    cases n with
    | zero => simp at hn
    | succ n => simp [parseStr]
  | cons x b ih =>
    cases n with
    | zero => simp at hn
    | succ n =>
      have ih := ih n (by simpa using hn)
      rw [List.flatMap_cons, List.append_assoc]
      rcases escape_escByte x (b.flatMap escByte ++ 0x22 :: s) with ⟨e, he, h⟩ | ⟨he, h1, h2, h3⟩
      · rw [he, List.cons_append]
        unfold parseStr
        rw [if_neg (by decide), if_pos rfl, h]
        show (parseStr n _ >>= fun p => some ([x] ++ p.1, p.2)) = _
        rw [ih]; rfl
      · rw [he]
        show parseStr (n + 1) (x :: (b.flatMap escByte ++ 0x22 :: s)) = _
        unfold parseStr
        rw [if_neg h1, if_neg h2, if_neg h3]
        show (parseStr n _ >>= fun p => some (x :: p.1, p.2)) = _
        rw [ih]; rfl

theorem fromUtf8_strBytes (s : String) : fromUtf8 (strBytes s) = some s := by
  unfold fromUtf8 strBytes
  have h : (⟨(s.toByteArray.data.toList).toArray⟩ : ByteArray) = s.toByteArray := rfl
  rw [h]
  unfold String.fromUTF8?
  rw [dif_pos s.isValidUTF8]
  rfl

theorem fromUtf8_eq_some {b : Bytes} {s : String} : fromUtf8 b = some s ↔ b = strBytes s := by
  constructor
  · intro h
    unfold fromUtf8 String.fromUTF8? at h
    split at h
    · simp only [Option.some.injEq] at h
      rw [← h]; rfl
    · simp at h
  · rintro rfl; exact fromUtf8_strBytes s

theorem flatMap_length (b : Bytes) : b.length ≤ (b.flatMap escByte).length := by
  induction b with
  | nil => simp
  | cons x b ih =>
    have : 1 ≤ (escByte x).length := by
      unfold escByte
      repeat' split
      all_goals simp
    simp only [List.flatMap_cons, List.length_append, List.length_cons]
    omega

theorem stringValue_write (x : String) (s : Bytes) :
    stringValue (writeStr (strBytes x) ++ s) = some (x, s) := by
  unfold stringValue writeStr
  have h : skipWs (0x22 :: (List.flatMap escByte (strBytes x) ++ [0x22]) ++ s) =
      0x22 :: (List.flatMap escByte (strBytes x) ++ 0x22 :: s) := by
    simp [skipWs]
  rw [h]
  show (parseStr _ _ >>= fun p => _) = _
  rw [parseStr_write _ _ _ (by
    have := flatMap_length (strBytes x)
    simp only [List.length_append]; omega)]
  show (fromUtf8 (strBytes x) >>= fun y => some (y, s)) = _
  rw [fromUtf8_strBytes]
  rfl

/-- The text of a one-field struct is read back as the field's value. -/
theorem fromSlice_write {α : Type} (name : String) (field : String → Option α) (x : String) (a : α)
    (h : field x = some a) :
    fromSliceStruct (strBytes name) field (writeStruct (strBytes name) (strBytes x)) = .ok a := by
  have h1 : structValue (strBytes name) field (writeStruct (strBytes name) (strBytes x)) =
      some (a, []) := by
    unfold structValue writeStruct
    have hs : ∀ r, skipWs (123 :: r) = 123 :: r := fun r => by simp [skipWs]
    rw [hs]
    show (members _ _ _ _ _ _ >>= fun p => p.1 >>= fun a => some (a, p.2)) = _
    generalize hn : List.length (writeStr (strBytes name) ++ [58] ++ writeStr (strBytes x) ++ [125])
      = n
    have hm : 2 ≤ n := by
      rw [← hn]; simp [writeStr]; omega
    obtain ⟨n, rfl⟩ : ∃ k, n = k + 1 := ⟨n - 1, by omega⟩
    have e2 : members (strBytes name) field (n + 1) false (some a) [125] = some (some a, []) := by
      unfold members; rfl
    have e1 : members (strBytes name) field (n + 1 + 1) true none
        (writeStr (strBytes name) ++ [58] ++ writeStr (strBytes x) ++ [125]) =
        some (some a, []) := by
      have hq : ∀ r, skipWs (writeStr (strBytes name) ++ r) = writeStr (strBytes name) ++ r := by
        intro r; simp [skipWs, writeStr]
      have hv' := stringValue_write x [125]
      have hh : memberHead true (writeStr (strBytes name) ++ ([58] ++ (writeStr (strBytes x) ++ [125])))
          = some (some name, writeStr (strBytes x) ++ [125]) := by
        have hv := stringValue_write name ([58] ++ (writeStr (strBytes x) ++ [125]))
        unfold memberHead
        rw [hq]
        show (stringValue (writeStr (strBytes name) ++ ([58] ++ (writeStr (strBytes x) ++ [125]))) >>=
          fun p => _) = _
        rw [hv]
        rfl
      unfold members
      rw [List.append_assoc, List.append_assoc, hh]
      show (if strBytes name = strBytes name then _ else _) = _
      rw [if_pos rfl]
      show (stringValue (writeStr (strBytes x) ++ [125]) >>= fun p => _) = _
      rw [hv']
      show (field x >>= fun a => members _ _ _ _ _ _) = _
      rw [h]
      exact e2
    rw [e1]
    rfl
  unfold fromSliceStruct
  rw [h1]
  rfl

section
variable {α : Type} (name : Bytes) (f : String → Option α)

theorem members_succ (n : Nat) (first : Bool) (acc : Option α) (s : Bytes) :
    members name f (n + 1) first acc s = (memberHead first s).bind fun r => match r.1 with
      | none => some (acc, r.2)
      | some key =>
        if strBytes key = name then
          if acc.isSome then none
          else (stringValue r.2).bind fun x => (f x.1).bind fun a => members name f n false (some a) x.2
        else (ignoreValue (2 * r.2.length + 1) r.2).bind (members name f n false acc) := rfl

/-- Once the field has been read its value stays, whatever it is. -/
theorem members_some {β : Type} (g : String → Option β) (n : Nat) (first : Bool) (a : α) (b : β)
    (s : Bytes) :
    members name f n first (some a) s =
      (members name g n first (some b) s).map (fun r => (some a, r.2)) := by
  induction n generalizing first s with
  | zero => rfl
  | succ n ih =>
    rw [members_succ, members_succ]
    rcases memberHead first s with _ | ⟨_ | key, t⟩
    · rfl
    · rfl
    · simp only [Option.bind_some, Option.isSome_some, if_true]
      split
      · rfl
      · cases ignoreValue (2 * t.length + 1) t with
        | none => rfl
        | some u => exact ih _ _

/-- Reading a field with a conversion is reading the string and converting it. -/
theorem members_none (n : Nat) (first : Bool) (s : Bytes) :
    members name f n first none s =
      (members name some n first none s).bind (fun r => r.1.elim (some (none, r.2)) fun x =>
        (f x).map (fun a => (some a, r.2))) := by
  induction n generalizing first s with
  | zero => rfl
  | succ n ih =>
    rw [members_succ, members_succ]
    rcases memberHead first s with _ | ⟨_ | key, t⟩
    · rfl
    · rfl
    · simp only [Option.bind_some, Option.isSome_none, Bool.false_eq_true, if_false]
      split
      · cases stringValue t with
        | none => rfl
        | some x =>
          simp only [Option.bind_some]
          rw [members_some name some (fun _ => some ()) n false x.1 ()]
          cases hf : f x.1 with
          | none => cases members name (fun _ => some ()) n false (some ()) x.2 <;> simp [hf]
          | some a =>
            simp only [Option.bind_some]
            rw [members_some name f (fun _ => some ()) n false a ()]
            cases members name (fun _ => some ()) n false (some ()) x.2 <;> simp [hf]
      · cases ignoreValue (2 * t.length + 1) t with
        | none => rfl
        | some u => exact ih _ _

/-- The same for the whole text. -/
theorem fromSliceStruct_ok_iff (s : Bytes) (a : α) :
    fromSliceStruct name f s = .ok a ↔ ∃ x, fromSliceStruct name some s = .ok x ∧ f x = some a := by
  have key : structValue name f s = (structValue name some s).bind
      (fun r => (f r.1).map (fun a => (a, r.2))) := by
    unfold structValue
    split
    · rename_i t _
      rw [members_none]
      simp only [bind]
      rcases members name some (t.length + 1) true none t with _ | ⟨_ | x, u⟩
      · rfl
      · rfl
      · cases hf : f x <;> simp [hf]
    · simp only [bind]
      rcases stringValue _ with _ | ⟨x, u⟩
      · rfl
      · simp only [Option.bind_some]
        cases hf : f x <;> simp only [Option.bind_some, Option.bind_none] <;> split <;> simp [hf]
    · rfl
  unfold fromSliceStruct
  rw [key]
  rcases structValue name some s with _ | ⟨x, t⟩
  · simp
  · simp only [Option.bind_some]
    cases hf : f x with
    | none => simp only [Option.map_none]; split <;> simp [hf]
    | some b => simp only [Option.map_some]; split <;> simp [hf]

end

end Pasta.JsonText
