import Verif.Model.Pae
import Verif.Spec.Pae
import Verif.Lemmas.Basic

/-! # Pre-authentication encoding: equality with the specification, injectivity -/

namespace Pasta

open Spec

theorem foldl_update (out : Bytes) (piece : List Bytes) :
    piece.foldl update out = out ++ piece.flatten := by
  induction piece generalizing out with
  | nil => simp
  | cons x xs ih => simp [ih, update]

theorem writePiece_eq (out : Bytes) (piece : List Bytes) :
    writePiece out piece = out ++ (leBytes 8 piece.flatten.length ++ piece.flatten) := by
  simp [writePiece, foldl_update, update, List.length_flatten]

theorem pae_eq (pieces : List (List Bytes)) (out : Bytes) :
    pae pieces out = out ++ (leBytes 8 pieces.length ++
      (pieces.map (fun p => leBytes 8 p.flatten.length ++ p.flatten)).flatten) := by
  have : ∀ (ps : List (List Bytes)) (o : Bytes), ps.foldl writePiece o =
      o ++ (ps.map (fun p => leBytes 8 p.flatten.length ++ p.flatten)).flatten := by
    intro ps
    induction ps with
    | nil => simp
    | cons x xs ih => intro o; simp [ih, writePiece_eq]
  simp [pae, this, update]

theorem leBytes_eq_LE64 {n : Nat} (h : n < 2 ^ 63) : leBytes 8 n = LE64 n := by
  simp only [leBytes, LE64, List.range, List.range.loop, List.map, Nat.shiftRight_eq_div_pow,
    Nat.div_div_eq_div_mul]
  simp
  congr 1
  omega

/-- The code's encoding is the specification's. -/
theorem pae_eq_PAE (pieces : List (List Bytes)) (hn : pieces.length < 2 ^ 63)
    (h : ∀ p ∈ pieces, Fits p.flatten) : pae pieces [] = PAE (pieces.map List.flatten) := by
  rw [pae_eq, PAE, leBytes_eq_LE64 hn]
  simp only [List.nil_append, List.length_map, List.map_map]
  congr 2
  apply List.map_congr_left
  intro p hp
  simp only [Function.comp]
  rw [leBytes_eq_LE64 (h p hp)]

theorem LE64_length (n : Nat) : (LE64 n).length = 8 := by simp [LE64]

theorem LE64_inj {a b : Nat} (ha : a < 2 ^ 63) (hb : b < 2 ^ 63) (h : LE64 a = LE64 b) : a = b := by
  rw [← leBytes_eq_LE64 ha, ← leBytes_eq_LE64 hb] at h
  exact leBytes_inj (by omega) (by omega) h

theorem PAE_body_inj (a b : List Bytes) (hl : a.length = b.length)
    (ha : ∀ p ∈ a, Fits p) (hb : ∀ p ∈ b, Fits p)
    (h : (a.map (fun p => LE64 p.length ++ p)).flatten = (b.map (fun p => LE64 p.length ++ p)).flatten) :
    a = b := by
  induction a generalizing b with
  | nil => cases b <;> simp_all
  | cons x xs ih =>
    cases b with
    | nil => simp at hl
    | cons y ys =>
      simp only [List.map_cons, List.flatten_cons, List.append_assoc] at h
      obtain ⟨h1, h2⟩ := List.append_inj h (by simp [LE64_length])
      have h3 := LE64_inj (ha x (by simp)) (hb y (by simp)) h1
      obtain ⟨h4, h5⟩ := List.append_inj h2 h3
      rw [h4, ih ys (by simpa using hl) (fun p hp => ha p (by simp [hp]))
        (fun p hp => hb p (by simp [hp])) h5]

/-- PAE is injective on lists of pieces that exist in memory. -/
theorem PAE_inj {a b : List Bytes} (hla : a.length < 2 ^ 63) (hlb : b.length < 2 ^ 63)
    (ha : ∀ p ∈ a, Fits p) (hb : ∀ p ∈ b, Fits p) (h : PAE a = PAE b) : a = b := by
  unfold PAE at h
  obtain ⟨h1, h2⟩ := List.append_inj h (by simp [LE64_length])
  exact PAE_body_inj a b (LE64_inj hla hlb h1) ha hb h2

theorem forall_fits_cons {a : Bytes} {l : List Bytes} (h : Fits a) (hl : ∀ p ∈ l, Fits p) :
    ∀ p ∈ a :: l, Fits p := by
  intro p hp
  rcases List.mem_cons.1 hp with rfl | hp
  · exact h
  · exact hl p hp

theorem forall_fits_nil : ∀ p ∈ ([] : List Bytes), Fits p := by intro p hp; cases hp

theorem PAE_inj4 {a b c d a' b' c' d' : Bytes} (h : Fits a ∧ Fits b ∧ Fits c ∧ Fits d)
    (h' : Fits a' ∧ Fits b' ∧ Fits c' ∧ Fits d') (e : PAE [a, b, c, d] = PAE [a', b', c', d']) :
    a = a' ∧ b = b' ∧ c = c' ∧ d = d' := by
  have := PAE_inj (a := [a, b, c, d]) (b := [a', b', c', d']) (by simp) (by simp)
    (forall_fits_cons h.1 (forall_fits_cons h.2.1 (forall_fits_cons h.2.2.1
      (forall_fits_cons h.2.2.2 forall_fits_nil))))
    (forall_fits_cons h'.1 (forall_fits_cons h'.2.1 (forall_fits_cons h'.2.2.1
      (forall_fits_cons h'.2.2.2 forall_fits_nil)))) e
  simpa using this

theorem PAE_inj5 {a b c d f a' b' c' d' f' : Bytes}
    (h : Fits a ∧ Fits b ∧ Fits c ∧ Fits d ∧ Fits f)
    (h' : Fits a' ∧ Fits b' ∧ Fits c' ∧ Fits d' ∧ Fits f')
    (e : PAE [a, b, c, d, f] = PAE [a', b', c', d', f']) :
    a = a' ∧ b = b' ∧ c = c' ∧ d = d' ∧ f = f' := by
  have := PAE_inj (a := [a, b, c, d, f]) (b := [a', b', c', d', f']) (by simp) (by simp)
    (forall_fits_cons h.1 (forall_fits_cons h.2.1 (forall_fits_cons h.2.2.1
      (forall_fits_cons h.2.2.2.1 (forall_fits_cons h.2.2.2.2 forall_fits_nil)))))
    (forall_fits_cons h'.1 (forall_fits_cons h'.2.1 (forall_fits_cons h'.2.2.1
      (forall_fits_cons h'.2.2.2.1 (forall_fits_cons h'.2.2.2.2 forall_fits_nil))))) e
  simpa using this

end Pasta
