import Verif.Spec.Fmt
import Verif.Lemmas.Pke
import Verif.Lemmas.Pbkw
import Verif.Lemmas.Wrap
import Verif.Lemmas.JsonText

/-! # Lemmas about printing -/

namespace Pasta

open Spec (feed Prints Faithful base64url)

theorem put_andThen_feed {σ : Type} (w : Sink σ) (p : Bytes) (ps : List Bytes) (s : σ) (f : σ → FmtRes σ)
    (h : ∀ s, f s = feed w ps s) : (w.put p s).andThen f = feed w (p :: ps) s := by
  unfold Sink.put feed
  rcases w.writeStr s p with ⟨s', b⟩
  cases b
  · rfl
  · exact h s'

theorem feed_append {σ : Type} (w : Sink σ) (ps qs : List Bytes) (s : σ) :
    feed w (ps ++ qs) s = (feed w ps s).andThen (feed w qs) := by
  induction ps generalizing s with
  | nil => rfl
  | cons p ps ih =>
    rw [List.cons_append, feed, feed]
    rcases w.writeStr s p with ⟨s', b⟩
    cases b
    · rfl
    · exact ih s'

theorem encodeInto_chunk (b : Bytes) :
    B64.encodeInto 64 (b.take 48) = some (B64.encode (b.take 48)) := by
  unfold B64.encodeInto
  rw [if_pos]
  have : (b.take 48).length ≤ 48 := by simp; omega
  exact Nat.le_trans (B64.encodedLen_mono this) (by decide)

/-- The pieces written by `write_b64`. -/
def b64Pieces (b : Bytes) : List Bytes := (chunks 48 b).map B64.encode

theorem chunks_le (b : Bytes) : ∀ c ∈ chunks 48 b, c.length ≤ 48 := by
  have key : ∀ (n : Nat) (b : Bytes), b.length ≤ n → ∀ c ∈ chunks 48 b, c.length ≤ 48 := by
    intro n
    induction n with
    | zero =>
      intro b hb
      have : b = [] := List.eq_nil_of_length_eq_zero (by omega)
      subst this
      unfold chunks
      simp
    | succ n ih =>
      intro b hb
      unfold chunks
      by_cases h : b = []
      · subst h; simp
      · rw [dif_neg (by simp [h])]
        have hpos : 0 < b.length := List.length_pos_iff.2 h
        intro c hc
        rw [List.mem_cons] at hc
        rcases hc with rfl | hc
        · simp; omega
        · exact ih (b.drop 48) (by simp; omega) c hc
  exact key _ b (Nat.le_refl _)

theorem b64Pieces_flatten (b : Bytes) : (b64Pieces b).flatten = base64url b := by
  have key : ∀ (n : Nat) (b : Bytes), b.length ≤ n → (b64Pieces b).flatten = B64.encode b := by
    intro n
    induction n with
    | zero =>
      intro b hb
      have : b = [] := List.eq_nil_of_length_eq_zero (by omega)
      subst this
      unfold b64Pieces chunks
      simp [B64.encode]
    | succ n ih =>
      intro b hb
      unfold b64Pieces chunks
      by_cases h : b = []
      · subst h
        simp [B64.encode]
      · rw [dif_neg (by simp [h])]
        have hpos : 0 < b.length := List.length_pos_iff.2 h
        have := ih (b.drop 48) (by simp; omega)
        unfold b64Pieces at this
        rw [List.map_cons, List.flatten_cons, this]
        by_cases h48 : 48 ≤ b.length
        · rw [← B64.encode_append _ _ (by simp; omega), List.take_append_drop]
        · rw [List.take_of_length_le (by omega), List.drop_of_length_le (by omega)]
          simp [B64.encode]
  rw [key _ b (Nat.le_refl _), B64.encode_eq_spec]

theorem writeB64Fmt_eq (b : Bytes) {σ : Type} (w : Sink σ) (s : σ) :
    writeB64Fmt b w s = feed w (b64Pieces b) s := by
  have key : ∀ (cs : List Bytes), (∀ c ∈ cs, c.length ≤ 48) → ∀ (r : FmtRes σ),
      cs.foldl (fun r chunk => r.andThen fun s =>
        match B64.encodeInto 64 chunk with
        | none => .panic
        | some t => w.put t s) r = r.andThen (feed w (cs.map B64.encode)) := by
    intro cs
    induction cs with
    | nil => intro _ r; cases r <;> rfl
    | cons c cs ih =>
      intro hc r
      have h1 : B64.encodeInto 64 c = some (B64.encode c) := by
        have := encodeInto_chunk c
        rwa [List.take_of_length_le (hc c (by simp))] at this
      rw [List.foldl_cons, ih (fun c h => hc c (by simp [h]))]
      cases r with
      | ok s =>
        show FmtRes.andThen (match B64.encodeInto 64 c with
          | none => .panic
          | some t => w.put t s) _ = feed w _ s
        rw [h1]
        exact put_andThen_feed w _ _ s _ (fun _ => rfl)
      | err s => rfl
      | panic => rfl
  exact key _ (chunks_le b) (.ok s)

theorem feed_string (ps : List Bytes) (s : Bytes) :
    feed .string ps s = (.ok (s ++ ps.flatten) : FmtRes Bytes) := by
  induction ps generalizing s with
  | nil => rw [List.flatten_nil, List.append_nil]; rfl
  | cons p ps ih =>
    show feed .string ps (s ++ p) = _
    rw [ih, List.flatten_cons, List.append_assoc]

theorem feed_faithful {σ : Type} (w : Sink σ) (out : σ → Bytes) (hw : Faithful w out) (ps : List Bytes)
    (s : σ) :
    (∃ s', feed w ps s = .ok s' ∧ out s' = out s ++ ps.flatten) ∨
    (∃ s' q, feed w ps s = .err s' ∧ q <+: ps.flatten ∧ out s' = out s ++ q) := by
  induction ps generalizing s with
  | nil => left; exact ⟨s, rfl, by simp⟩
  | cons p ps ih =>
    rw [feed]
    rcases hp : w.writeStr s p with ⟨s', b⟩
    cases b
    · right
      obtain ⟨q, hq, ho⟩ := hw.refused s p s' hp
      exact ⟨s', q, rfl, hq.trans (by simp), ho⟩
    · have ha := hw.accepted s p s' hp
      rcases ih s' with ⟨s'', h1, h2⟩ | ⟨s'', q, h1, h2, h3⟩
      · left; exact ⟨s'', h1, by rw [h2, ha]; simp⟩
      · right
        refine ⟨s'', p ++ q, h1, ?_, by rw [h3, ha]; simp⟩
        rw [List.flatten_cons]
        exact (List.prefix_append_right_inj p).2 h2

theorem feed_no_panic {σ : Type} (w : Sink σ) (ps : List Bytes) (s : σ) : feed w ps s ≠ .panic := by
  induction ps generalizing s with
  | nil => simp [feed]
  | cons p ps ih =>
    rw [feed]
    rcases w.writeStr s p with ⟨s', b⟩
    cases b
    · simp
    · exact ih s'

theorem feed_cons {σ : Type} (w : Sink σ) (p : Bytes) (ps : List Bytes) (s : σ) :
    feed w (p :: ps) s =
      if (w.writeStr s p).2 then feed w ps (w.writeStr s p).1 else .err (w.writeStr s p).1 := by
  rw [feed]
  rcases w.writeStr s p with ⟨s', b⟩
  cases b <;> rfl

theorem feed_jsonEscape {σ : Type} (w : Sink σ) (ps : List Bytes) (s : σ) :
    feed w.jsonEscape ps s = feed w (ps.map (·.flatMap JsonText.escByte)) s := by
  induction ps generalizing s with
  | nil => rfl
  | cons p ps ih =>
    rw [List.map_cons, feed_cons, feed_cons, ← ih]
    rfl

theorem flatten_flatMap (ps : List Bytes) (f : UInt8 → Bytes) :
    (ps.map (·.flatMap f)).flatten = ps.flatten.flatMap f := by
  induction ps with
  | nil => rfl
  | cons p ps ih => simp [ih]

end Pasta
