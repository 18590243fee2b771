import Verif.Props.Auth

/-!
# C15: pre-authentication encoding
-/

namespace Pasta

open Spec (header Fits PAE)

/-! ## C15 -/
namespace C15

/-- The code's encoder, writing to an empty buffer, produces the specification's PAE of the pieces
(each piece given to the code as a list of slices). -/
theorem pae_spec (pieces : List (List Bytes)) (hn : pieces.length < 2 ^ 63)
    (h : ∀ p ∈ pieces, Fits p.flatten) : pae pieces [] = PAE (pieces.map List.flatten) :=
  pae_eq_PAE pieces hn h

/-- It appends, so a streaming MAC that is fed the same way absorbs exactly the PAE. -/
theorem pae_appends (pieces : List (List Bytes)) (out : Bytes) :
    pae pieces out = out ++ pae pieces [] := by
  rw [pae_eq, pae_eq]; simp

/-- How a piece is cut into slices does not matter. -/
theorem pae_slicing (a b : List (List Bytes)) (out : Bytes)
    (h : a.map List.flatten = b.map List.flatten) : pae a out = pae b out := by
  rw [pae_eq, pae_eq]
  have hl : a.length = b.length := by simpa using congrArg List.length h
  have hm : ∀ x : List (List Bytes), x.map (fun p => leBytes 8 p.flatten.length ++ p.flatten) =
      (x.map List.flatten).map (fun p => leBytes 8 p.length ++ p) := by
    intro x; simp
  rw [hl, hm a, hm b, h]

/-- The encoding is unambiguous: equal outputs mean the same number of pieces with the same
contents. -/
theorem pae_injective (a b : List (List Bytes)) (hla : a.length < 2 ^ 63) (hlb : b.length < 2 ^ 63)
    (ha : ∀ p ∈ a, Fits p.flatten) (hb : ∀ p ∈ b, Fits p.flatten) (h : pae a [] = pae b []) :
    a.map List.flatten = b.map List.flatten := by
  rw [pae_eq_PAE a hla ha, pae_eq_PAE b hlb hb] at h
  refine PAE_inj (by simpa using hla) (by simpa using hlb) ?_ ?_ h
  · intro p hp
    obtain ⟨q, hq, rfl⟩ := List.mem_map.1 hp
    exact ha q hq
  · intro p hp
    obtain ⟨q, hq, rfl⟩ := List.mem_map.1 hp
    exact hb q hq

/-- The encodings even form a prefix code: no encoding is a proper prefix of another. -/
theorem pae_prefix_free (a b : List (List Bytes)) (x : Bytes) (hla : a.length < 2 ^ 63)
    (hlb : b.length < 2 ^ 63) (ha : ∀ p ∈ a, Fits p.flatten) (hb : ∀ p ∈ b, Fits p.flatten)
    (h : pae a [] ++ x = pae b []) : x = [] := by
  have key : ∀ (a b : List Bytes) (x : Bytes), a.length = b.length → (∀ p ∈ a, Fits p) →
      (∀ p ∈ b, Fits p) → (a.map (fun p => Spec.LE64 p.length ++ p)).flatten ++ x =
        (b.map (fun p => Spec.LE64 p.length ++ p)).flatten → x = [] := by
    intro a
    induction a with
    | nil => intro b x hl _ _ h; cases b <;> simp_all
    | cons p ps ih =>
      intro b x hl ha hb h
      cases b with
      | nil => simp at hl
      | cons q qs =>
        simp only [List.map_cons, List.flatten_cons, List.append_assoc] at h
        obtain ⟨h1, h2⟩ := List.append_inj h (by simp [LE64_length])
        have h3 := LE64_inj (ha p (by simp)) (hb q (by simp)) h1
        obtain ⟨h4, h5⟩ := List.append_inj h2 h3
        exact ih qs x (by simpa using hl) (fun p hp => ha p (by simp [hp]))
          (fun p hp => hb p (by simp [hp])) h5
  rw [pae_eq_PAE a hla ha, pae_eq_PAE b hlb hb] at h
  unfold PAE at h
  rw [List.append_assoc] at h
  obtain ⟨h1, h2⟩ := List.append_inj h (by simp [LE64_length])
  have hl := LE64_inj (by simpa using hla) (by simpa using hlb) h1
  refine key _ _ x hl ?_ ?_ h2
  · intro p hp
    obtain ⟨q, hq, rfl⟩ := List.mem_map.1 hp
    exact ha q hq
  · intro p hp
    obtain ⟨q, hq, rfl⟩ := List.mem_map.1 hp
    exact hb q hq

example : ∃ a b : List (List Bytes), a.length < 2 ^ 63 ∧ b.length < 2 ^ 63 ∧
    (∀ p ∈ a, Fits p.flatten) ∧ (∀ p ∈ b, Fits p.flatten) ∧ pae a [] = pae b [] ∧ a ≠ b ∧
    2 ≤ a.length := by
  have hf : ∀ p ∈ [[asc "v4", asc ".local."], [asc "x"]], Fits (List.flatten p) := by
    intro p hp
    simp only [List.mem_cons, List.not_mem_nil, or_false] at hp
    rcases hp with rfl | rfl <;> (unfold Fits; decide)
  have hf' : ∀ p ∈ [[asc "v4.lo", asc "cal."], [asc "x"]], Fits (List.flatten p) := by
    intro p hp
    simp only [List.mem_cons, List.not_mem_nil, or_false] at hp
    rcases hp with rfl | rfl <;> (unfold Fits; decide)
  exact ⟨_, _, by decide, by decide, hf, hf', pae_slicing _ _ _ (by decide), by decide, by decide⟩

end C15

end Pasta
