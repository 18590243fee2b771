import Verif.Props.Keys

/-!
# C29, C30, C31, C32: key ids
-/

namespace Pasta

open Spec (base64url paserkText paserkHeader keyTypeText idTypeText idBytes idText)

variable {P : Prims}

namespace C29

/-- Printing an id gives `k<n>.<lid|pid|sid>.<base64url of the 33 bytes>`, and parsing that text
gives the id back. -/
theorem id_roundtrip {v : Ver} {k : Kind} (i : KeyId v k) :
    ∃ s, i.display = .ok s ∧ s = paserkText v (idTypeText k) i.id.1 ∧ KeyId.parse v k s = .ok i :=
  ⟨_, KeyId.display_eq i, rfl, KeyId.parse_ok_iff.2 rfl⟩

/-- A text that parses is what the id prints as. -/
theorem id_canonical {v : Ver} {k : Kind} {s : Bytes} {i : KeyId v k}
    (h : KeyId.parse v k s = .ok i) : i.display = .ok s := by
  rw [KeyId.display_eq, KeyId.parse_ok_iff.1 h]

/-- The accepted texts. -/
theorem id_accepts_iff (v : Ver) (k : Kind) (s : Bytes) :
    (∃ i, KeyId.parse v k s = .ok i) ↔
      ∃ d : Bytes, d.length = 33 ∧ s = paserkText v (idTypeText k) d := by
  constructor
  · rintro ⟨i, h⟩
    exact ⟨i.id.1, i.id.2, KeyId.parse_ok_iff.1 h⟩
  · rintro ⟨d, hd, hs⟩
    exact ⟨⟨⟨d, hd⟩⟩, KeyId.parse_ok_iff.2 hs⟩

/-- `Debug` output is `Display` output. -/
theorem debug_is_display {v : Ver} {k : Kind} (i : KeyId v k) : i.debug = i.display := rfl

/-- Every id prints as 51 characters. -/
theorem id_length {v : Ver} {k : Kind} (i : KeyId v k) :
    ∃ s, i.display = .ok s ∧ s.length = 51 := by
  refine ⟨_, KeyId.display_eq i, ?_⟩
  unfold Spec.paserkText Spec.paserkHeader
  simp only [List.length_append, C22.text_length, i.id.2]
  cases v <;> cases k <;> rfl

example : KeyId.parse .V4 .Local (asc "k4.lid.AQIDBAUGBwgJCgsMDQ4PEBESExQVFhcYGRobHB0eHyAh") =
    .ok ⟨⟨(List.range 33).map (fun i => UInt8.ofNat (i + 1)), by simp⟩⟩ := by
  rw [KeyId.parse_ok_iff]; rfl

end C29

namespace C30

/-- The scratch buffer holds the text of every key. -/
theorem fits {v : Ver} {k : Kind} (key : Key P v k) :
    B64.encodeInto (idBuffer v) key.toBytes.1 = some (base64url key.toBytes.1) := by
  rw [C22.encode_into, if_pos]
  rw [C22.text_length, key.toBytes.2]
  cases v <;> cases k <;> decide

theorem idInput_eq (v : Ver) (k : Kind) (b : Bytes) :
    idInput v k (base64url b) =
      paserkHeader v (idTypeText k) ++ paserkText v (keyTypeText k) b := by
  unfold idInput paserkText
  simp only [List.nil_append, ← idHeader_eq, ← plainHeader_eq, List.append_assoc]

/-- The id of a key is the specification's: the hash of the id header and the plaintext PASERK.
Computing it never panics: the scratch buffer suffices for every key. -/
theorem id_spec {v : Ver} {k : Kind} (key : Key P v k) :
    ∃ i, key.toId = .ok i ∧ i.id.1 = idBytes P v k key.toBytes.1 := by
  have h := fits key
  match v, key, h with
  | .V3, key, h =>
    refine ⟨⟨(P.sha384 (idInput .V3 k (base64url key.toBytes.1))).prefixN 33 (by decide)⟩, ?_, ?_⟩
    · show (Res.unwrap (B64.encodeInto (idBuffer .V3) key.toBytes.1) >>= _) = _
      rw [h]; rfl
    · rw [idInput_eq]; rfl
  | .V4, key, h =>
    refine ⟨⟨P.blake2b 33 (idInput .V4 k (base64url key.toBytes.1))⟩, ?_, ?_⟩
    · show (Res.unwrap (B64.encodeInto (idBuffer .V4) key.toBytes.1) >>= _) = _
      rw [h]; rfl
    · rw [idInput_eq]; rfl

/-- The printed id is the specification's text. -/
theorem id_text {v : Ver} {k : Kind} (key : Key P v k) :
    (key.toId >>= KeyId.display) = .ok (idText P v k key.toBytes.1) := by
  obtain ⟨i, h1, h2⟩ := id_spec key
  rw [h1]
  simp only [Res.ok_bind]
  rw [KeyId.display_eq, h2]
  rfl

/-- The id hash covers the printed plaintext PASERK of the key. -/
theorem id_of_plaintext {v : Ver} {k : Kind} (key : Key P v k) :
    ∃ i s, key.toId = .ok i ∧ PlaintextKey.display ⟨key⟩ = .ok s ∧
      i.id.1 = Spec.idHash P v (paserkHeader v (idTypeText k) ++ s) := by
  obtain ⟨i, h1, h2⟩ := id_spec key
  exact ⟨i, _, h1, PlaintextKey.display_eq _, h2⟩

example : ∃ i, Toy.v3Secret.toId = .ok i :=
  let ⟨i, h, _⟩ := id_spec Toy.v3Secret; ⟨i, h⟩

end C30

namespace C31

variable {v : Ver} {k : Kind}

/-- Ids are equal exactly when their texts are. -/
theorem eq_iff_text (a b : KeyId v k) : a.beq b = true ↔ a.display = b.display := by
  unfold KeyId.beq
  rw [decide_eq_true_iff, KeyId.display_eq, KeyId.display_eq]
  constructor
  · intro h; rw [h]
  · intro h
    have := List.append_cancel_left (Res.ok.inj h)
    exact Subtype.ext (SecuredToken.base64url_inj this)

theorem eq_iff (a b : KeyId v k) : a.beq b = true ↔ a = b := by
  unfold KeyId.beq
  rw [decide_eq_true_iff]
  cases a; cases b; simp

/-- Lexicographic order on byte strings, as a relation. -/
def Lex : Bytes → Bytes → Prop
  | [], [] => False
  | [], _ :: _ => True
  | _ :: _, [] => False
  | a :: as, b :: bs => a.toNat < b.toNat ∨ a = b ∧ Lex as bs

theorem cmpBytes_eq (a b : Bytes) : cmpBytes a b = .eq ↔ a = b := by
  induction a generalizing b with
  | nil => cases b <;> simp [cmpBytes]
  | cons x xs ih =>
    cases b with
    | nil => simp [cmpBytes]
    | cons y ys =>
      simp only [cmpBytes]
      split
      · rename_i h
        simp only [reduceCtorEq, List.cons.injEq, false_iff, not_and]
        rintro rfl
        exact absurd h (UInt8.lt_irrefl _)
      · split
        · rename_i h
          simp only [reduceCtorEq, List.cons.injEq, false_iff, not_and]
          rintro rfl
          exact absurd h (UInt8.lt_irrefl _)
        · rename_i h1 h2
          have : x = y := UInt8.le_antisymm (UInt8.not_lt.1 h2) (UInt8.not_lt.1 h1)
          rw [ih]
          simp [this]

theorem cmpBytes_lt (a b : Bytes) : cmpBytes a b = .lt ↔ Lex a b := by
  induction a generalizing b with
  | nil => cases b <;> simp [cmpBytes, Lex]
  | cons x xs ih =>
    cases b with
    | nil => simp [cmpBytes, Lex]
    | cons y ys =>
      simp only [cmpBytes, Lex]
      split
      · rename_i h
        simp only [true_iff]
        exact .inl (UInt8.lt_iff_toNat_lt.1 h)
      · split
        · rename_i h1 h2
          simp only [reduceCtorEq, false_iff, not_or, not_and]
          refine ⟨fun h => h1 (UInt8.lt_iff_toNat_lt.2 h), ?_⟩
          rintro rfl
          exact absurd h2 (UInt8.lt_irrefl _)
        · rename_i h1 h2
          have : x = y := UInt8.le_antisymm (UInt8.not_lt.1 h2) (UInt8.not_lt.1 h1)
          rw [ih]
          subst this
          simp

theorem cmpBytes_swap (a b : Bytes) : cmpBytes b a = (cmpBytes a b).swap := by
  induction a generalizing b with
  | nil => cases b <;> rfl
  | cons x xs ih =>
    cases b with
    | nil => rfl
    | cons y ys =>
      simp only [cmpBytes]
      by_cases h1 : x < y
      · have h2 : ¬ y < x := UInt8.not_lt.2 (UInt8.le_of_lt h1)
        simp [h1, h2]
      · by_cases h2 : y < x
        · simp [h1, h2]
        · simp [h1, h2, ih]

theorem Lex.trans' {a b c : Bytes} (h1 : Lex a b) (h2 : Lex b c) : Lex a c := by
  induction a generalizing b c with
  | nil => cases b <;> cases c <;> simp_all [Lex]
  | cons x xs ih =>
    cases b with
    | nil => simp [Lex] at h1
    | cons y ys =>
      cases c with
      | nil => simp [Lex] at h2
      | cons z zs =>
        simp only [Lex] at h1 h2 ⊢
        rcases h1 with h1 | ⟨rfl, h1⟩
        · rcases h2 with h2 | ⟨rfl, h2⟩
          · exact .inl (by omega)
          · exact .inl h1
        · rcases h2 with h2 | ⟨rfl, h2⟩
          · exact .inl h2
          · exact .inr ⟨rfl, ih h1 h2⟩

/-- The order is the lexicographic one of the id bytes. -/
theorem cmp_lt_iff (a b : KeyId v k) : a.cmp b = .lt ↔ Lex a.id.1 b.id.1 := cmpBytes_lt _ _

/-- Consistent with equality. -/
theorem cmp_eq_iff (a b : KeyId v k) : a.cmp b = .eq ↔ a.beq b = true := by
  unfold KeyId.cmp KeyId.beq
  rw [cmpBytes_eq, decide_eq_true_iff]
  exact ⟨Subtype.ext, fun h => by rw [h]⟩

/-- Antisymmetric: comparing the other way round gives the opposite. -/
theorem cmp_swap (a b : KeyId v k) : b.cmp a = (a.cmp b).swap := cmpBytes_swap _ _

/-- Transitive. -/
theorem cmp_trans (a b c : KeyId v k) (h1 : a.cmp b = .lt) (h2 : b.cmp c = .lt) :
    a.cmp c = .lt := by
  rw [cmp_lt_iff] at *
  exact h1.trans' h2

/-- Total: exactly one of less, equal, greater. -/
theorem cmp_total (a b : KeyId v k) :
    a.cmp b = .lt ∨ a = b ∨ b.cmp a = .lt := by
  rw [cmp_swap a b]
  cases h : a.cmp b with
  | lt => exact .inl rfl
  | eq => exact .inr (.inl ((eq_iff a b).1 ((cmp_eq_iff a b).1 h)))
  | gt => exact .inr (.inr rfl)

theorem partialCmp_eq (a b : KeyId v k) : a.partialCmp b = some (a.cmp b) := rfl

/-- Equal ids feed the same data to a hasher, and different ids different data. -/
theorem hash_iff (a b : KeyId v k) : a.hash = b.hash ↔ a.beq b = true := by
  unfold KeyId.hash KeyId.beq
  rw [decide_eq_true_iff]
  constructor
  · intro h
    simp only [List.cons.injEq, and_true] at h
    exact Subtype.ext h.2
  · intro h; rw [h]

-- all three outcomes of comparison occur
example : (⟨BytesN.fill 33 1⟩ : KeyId .V4 .Local).cmp ⟨BytesN.fill 33 2⟩ = .lt ∧
    (⟨BytesN.fill 33 1⟩ : KeyId .V4 .Local).cmp ⟨BytesN.fill 33 1⟩ = .eq ∧
    (⟨BytesN.fill 33 200⟩ : KeyId .V4 .Local).cmp ⟨BytesN.fill 33 2⟩ = .gt := by decide

example : (⟨BytesN.fill 33 1⟩ : KeyId .V4 .Local).cmp ⟨BytesN.fill 33 9⟩ = .lt :=
  cmp_trans _ ⟨BytesN.fill 33 2⟩ _ (by decide) (by decide)

end C31

namespace C32

/-- Two different strings with the same id hash. -/
def IdCollision (P : Prims) (v : Ver) (m m' : Bytes) : Prop :=
  m ≠ m' ∧ Spec.idHash P v m = Spec.idHash P v m'

/-- The string that is hashed determines the key and its type. -/
theorem hashed_inj (L : P.Laws) {v : Ver} {k k' : Kind} (a : Key P v k) (b : Key P v k')
    (h : paserkHeader v (idTypeText k) ++ paserkText v (keyTypeText k) a.toBytes.1 =
      paserkHeader v (idTypeText k') ++ paserkText v (keyTypeText k') b.toBytes.1) :
    ∃ e : k = k', e ▸ a = b := by
  have hl : (paserkHeader v (idTypeText k)).length = (paserkHeader v (idTypeText k')).length := by
    cases v <;> cases k <;> cases k' <;> rfl
  obtain ⟨h1, h2⟩ := List.append_inj h hl
  have e : k = k' := by
    cases v <;> cases k <;> cases k' <;> first | rfl | (exact absurd h1 (by decide))
  subst e
  refine ⟨rfl, ?_⟩
  have := SecuredToken.base64url_inj (List.append_cancel_left h2)
  exact Key.toBytes_inj L (Subtype.ext this)

/-- If keys of whatever types (within a version) have the same id bytes, they are the same key of
the same type, or the two hashed strings are a collision of the id hash. -/
theorem same_id (L : P.Laws) {v : Ver} {k k' : Kind} (a : Key P v k) (b : Key P v k')
    {i : KeyId v k} {j : KeyId v k'} (hi : a.toId = .ok i) (hj : b.toId = .ok j)
    (h : i.id.1 = j.id.1) :
    (∃ e : k = k', e ▸ a = b) ∨
      IdCollision P v (paserkHeader v (idTypeText k) ++ paserkText v (keyTypeText k) a.toBytes.1)
        (paserkHeader v (idTypeText k') ++ paserkText v (keyTypeText k') b.toBytes.1) := by
  obtain ⟨i', h1, h2⟩ := C30.id_spec a
  obtain ⟨j', h3, h4⟩ := C30.id_spec b
  rw [h1] at hi; rw [h3] at hj
  cases hi; cases hj
  rw [h2, h4] at h
  by_cases hm : paserkHeader v (idTypeText k) ++ paserkText v (keyTypeText k) a.toBytes.1 =
      paserkHeader v (idTypeText k') ++ paserkText v (keyTypeText k') b.toBytes.1
  · exact .inl (hashed_inj L a b hm)
  · exact .inr ⟨hm, h⟩

/-- Printed ids of different versions or types are always different. -/
theorem text_type_unique {v v' : Ver} {k k' : Kind} (i : KeyId v k) (j : KeyId v' k')
    (h : i.display = j.display) : v = v' ∧ k = k' ∧ i.id.1 = j.id.1 := by
  rw [KeyId.display_eq, KeyId.display_eq, Res.ok.injEq] at h
  have hl : (paserkHeader v (idTypeText k)).length = (paserkHeader v' (idTypeText k')).length := by
    cases v <;> cases v' <;> cases k <;> cases k' <;> rfl
  obtain ⟨h1, h2⟩ := List.append_inj h hl
  have : v = v' ∧ k = k' := by
    cases v <;> cases v' <;> cases k <;> cases k' <;>
      first | exact ⟨rfl, rfl⟩ | (exact absurd h1 (by decide))
  exact ⟨this.1, this.2, SecuredToken.base64url_inj h2⟩

/-- The string hashed for a key's id: the id header and the key's plaintext PASERK. -/
def hashed {v : Ver} {k : Kind} (a : Key P v k) : Bytes :=
  paserkHeader v (idTypeText k) ++ paserkText v (keyTypeText k) a.toBytes.1

/-- A key's id text determines the key, over all versions and types, unless the strings hashed for
these two keys collide. -/
theorem same_id_text (L : P.Laws) {v v' : Ver} {k k' : Kind} (a : Key P v k) (b : Key P v' k')
    (h : (a.toId >>= KeyId.display) = (b.toId >>= KeyId.display)) :
    v = v' ∧ k = k' ∧ ((∃ (ev : v = v') (ek : k = k'), ev ▸ ek ▸ a = b) ∨
      IdCollision P v (hashed a) (hashed b)) := by
  obtain ⟨i, h1, h2⟩ := C30.id_spec a
  obtain ⟨j, h3, h4⟩ := C30.id_spec b
  rw [h1, h3] at h
  simp only [Res.ok_bind] at h
  obtain ⟨rfl, rfl, hd⟩ := text_type_unique i j h
  refine ⟨rfl, rfl, ?_⟩
  rcases same_id L a b h1 h3 hd with ⟨_, h⟩ | h
  · exact .inl ⟨rfl, rfl, h⟩
  · exact .inr h

-- distinct keys with distinct ids exist
example : ∃ i j, (Toy.localKey .V4).toId = .ok i ∧ Toy.v4Secret.toId = .ok j ∧ i.id.1 ≠ j.id.1 := by
  obtain ⟨i, h1, h2⟩ := C30.id_spec (Toy.localKey .V4)
  obtain ⟨j, h3, h4⟩ := C30.id_spec Toy.v4Secret
  refine ⟨i, j, h1, h3, ?_⟩
  rw [h2, h4]
  decide +kernel

/-- Two equal ids of keys of different kinds: with a constant hash, so that the conclusion can only
be a collision. -/
example : ∃ (P : Prims) (_ : P.Laws) (a : Key P .V4 .Local) (b : Key P .V4 .Secret) (i : KeyId .V4 .Local)
    (j : KeyId .V4 .Secret), a.toId = .ok i ∧ b.toId = .ok j ∧ i.id.1 = j.id.1 := by
  let P : Prims := { Toy.prims with blake2b := fun n _ => BytesN.fill n 7 }
  have L : P.Laws := { Toy.laws with }
  obtain ⟨i, h1, h2⟩ := C30.id_spec (P := P) (v := .V4) (k := .Local) ⟨Toy.key32⟩
  obtain ⟨j, h3, h4⟩ := C30.id_spec (P := P) (v := .V4) (k := .Secret) ⟨Toy.key32⟩
  exact ⟨P, L, _, _, i, j, h1, h3, by rw [h2, h4]; rfl⟩

end C32
end Pasta
