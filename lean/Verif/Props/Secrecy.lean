import Verif.Lemmas.Secrecy
import Verif.Props.Samples
import Verif.Props.Encoding

/-!
# C57: tokens, wrapped keys and sealed keys hide their contents

The statement is the left-or-right game of `Spec/Secrecy.lean` with an ideal cipher: whatever texts
are seen, any other contents of the same lengths explain them equally well, by a change of the
ciphers under the cipher keys of these very operations and of nothing else. So the texts depend on
the contents only through the key streams. A program that put the message, or anything computed
from it, anywhere else in the text, or under the MAC in plain, or into the choice of the nonce,
would not satisfy it.
-/

namespace Pasta.C57

open Spec (header tokenText base64url Fits)

variable {P : Prims}

/-- Any sequence of encryptions, key wrappings and sealings. If the operations use pairwise distinct
cipher keys, and each has candidates of equal length, then the texts obtained from the left
candidates are obtained from the right ones with ciphers that differ only under those keys; the
random source is left in the same state. -/
theorem left_or_right (acts : List (Act P)) (rng rng' : Rng) (texts : List Bytes)
    (h : Act.runAll P.ciphers .left acts rng = .ok (texts, rng'))
    (hlen : ∀ a ∈ acts, a.Comparable) (hkeys : (Act.cipherKeys acts rng).Nodup) :
    ∃ c : Ciphers, (∀ y, y ∉ Act.cipherKeys acts rng → c.AgreeAt P.ciphers y) ∧
      Act.runAll c .right acts rng = .ok (texts, rng') := by
  obtain ⟨c, h1, h2⟩ := Act.runAll_swap acts rng _ h hlen hkeys
  exact ⟨c, h1, h2 c fun y _ => .refl _ _⟩

/-- The list of cipher keys has one entry for each operation. -/
theorem one_key_each (acts : List (Act P)) (rng rng' : Rng) (texts : List Bytes)
    (h : Act.runAll P.ciphers .left acts rng = .ok (texts, rng')) :
    (Act.cipherKeys acts rng).map Prod.fst = acts.map Act.ver ∧ texts.length = acts.length := by
  induction acts generalizing rng texts with
  | nil =>
    simp only [Act.runAll, Res.ok.injEq, Prod.mk.injEq] at h
    simp [Act.cipherKeys, ← h.1]
  | cons a as ih =>
    simp only [Act.runAll, Res.bind_eq_ok, Res.pure_def, Prod.exists] at h
    obtain ⟨t, r1, h1, ts, r2, h2, h3⟩ := h
    cases h3
    obtain ⟨k, _, hk, _⟩ := a.core rng _ _ _ h1
    obtain ⟨i1, i2⟩ := ih r1 ts h2
    rw [Act.cipherKeys_cons a as rng r1 t k hk h1]
    simp [i1, i2]

/-- A single operation. -/
theorem one (a : Act P) (rng rng' : Rng) (text : Bytes)
    (h : a.run P.ciphers .left rng = .ok (text, rng')) (ha : a.Comparable) :
    ∃ k c, a.cipherKey rng = some k ∧ (∀ y, y ≠ (a.ver, k) → Ciphers.AgreeAt c P.ciphers y) ∧
      a.run c .right rng = .ok (text, rng') :=
  a.run_swap rng _ ha h

/-- An operation uses the ciphers under its own cipher key only: a change elsewhere (such as the
one that explains another operation differently) does not show. -/
theorem own_key_only (a : Act P) (s : Side) (rng rng' : Rng) (text : Bytes) (c d : Ciphers)
    (h : a.run c s rng = .ok (text, rng'))
    (hk : ∀ k, a.cipherKey rng = some k → d.AgreeAt c (a.ver, k)) :
    a.run d s rng = .ok (text, rng') :=
  a.run_local rng c d s _ h hk

/-! ## What does show: lengths, and reuse of a nonce -/

section
variable {v : Ver} {M F E : Type} [Payload E] [MessageEncoding E M] [Footer F]

/-- The length of a token's text is a function of the lengths of message and footer. -/
theorem token_text_length (b : TokenBuilder v .Local M F E) (key : Key P v .Local) (i : Bytes)
    (rng rng' : Rng) (tok : SecuredToken v .Local F E) (m : Bytes)
    (h : b.encryptWithAssertionsAndRng P key i rng = .ok (tok, rng'))
    (hm : MessageEncoding.encode b.tok.encoding b.tok.message = .ok m) :
    tok.display.length = (header v .Local (Payload.suffix E)).length +
      (4 * (32 + m.length + Spec.tagLen v) + 2) / 3 +
      if tok.encodedFooter = [] then 0 else 1 + (4 * tok.encodedFooter.length + 2) / 3 := by
  obtain ⟨n, m', f, hn, rfl, hm', hf, rfl⟩ := (encrypt_ok_iff _ _ _ _ _ _).1 h
  rw [hm] at hm'
  cases hm'
  rw [SecuredToken.display_eq]
  simp only [tokenText]
  split
  · simp [C22.text_length, applyKeystream_length, localMac_length, hn]
    omega
  · simp [C22.text_length, applyKeystream_length, localMac_length, hn, asc]
    omega

/-- So two tokens of one kind and footer have texts of the same length exactly when their encoded
messages have: the requirement of equal lengths cannot be dropped. -/
theorem token_length_leaks (b b' : TokenBuilder v .Local M F E) (key key' : Key P v .Local)
    (i i' : Bytes) (rng rng₁ rng' rng₁' : Rng) (tok tok' : SecuredToken v .Local F E) (m m' : Bytes)
    (h : b.encryptWithAssertionsAndRng P key i rng = .ok (tok, rng₁))
    (h' : b'.encryptWithAssertionsAndRng P key' i' rng' = .ok (tok', rng₁'))
    (hm : MessageEncoding.encode b.tok.encoding b.tok.message = .ok m)
    (hm' : MessageEncoding.encode b'.tok.encoding b'.tok.message = .ok m')
    (hf : tok.encodedFooter = tok'.encodedFooter) :
    tok.display.length = tok'.display.length ↔ m.length = m'.length := by
  rw [token_text_length b key i rng rng₁ tok m h hm,
    token_text_length b' key' i' rng' rng₁' tok' m' h' hm', hf]
  constructor
  · intro e; omega
  · intro e; rw [e]

/-- Two messages encrypted under one key and one nonce: the xor of the ciphertexts is the xor of the
messages. The requirement of distinct cipher keys cannot be dropped either. -/
theorem nonce_reuse_leaks (b b' : TokenBuilder v .Local M F E) (key : Key P v .Local)
    (i i' : Bytes) (rng rng₁ rng₂ : Rng) (tok tok' : SecuredToken v .Local F E) (m m' : Bytes)
    (h : b.encryptWithAssertionsAndRng P key i rng = .ok (tok, rng₁))
    (h' : b'.encryptWithAssertionsAndRng P key i' rng = .ok (tok', rng₂))
    (hm : MessageEncoding.encode b.tok.encoding b.tok.message = .ok m)
    (hm' : MessageEncoding.encode b'.tok.encoding b'.tok.message = .ok m')
    (j : Nat) (hj : j < m.length) (hj' : j < m'.length) :
    ∃ x x', tok.payload[32 + j]? = some x ∧ tok'.payload[32 + j]? = some x' ∧
      x ^^^ x' = m[j] ^^^ m'[j] := by
  obtain ⟨n, m₁, f, hn, rfl, hm₁, hf, rfl⟩ := (encrypt_ok_iff _ _ _ _ _ _).1 h
  obtain ⟨n', m₁', f', hn', hr, hm₁', hf', rfl⟩ := (encrypt_ok_iff _ _ _ _ _ _).1 h'
  obtain ⟨rfl, -⟩ := List.append_inj hr (by rw [hn, hn'])
  rw [hm] at hm₁; cases hm₁
  rw [hm'] at hm₁'; cases hm₁'
  have get : ∀ (m t : Bytes) (hj : j < m.length),
      (n ++ applyKeystream (codeStream P v key.key n) m ++ t)[32 + j]? =
        some (m[j] ^^^ codeStream P v key.key n j) := by
    intro m t hj
    rw [List.append_assoc, List.getElem?_append_right (by omega), hn, Nat.add_sub_cancel_left,
      List.getElem?_append_left (by rw [applyKeystream_length]; exact hj)]
    simp [applyKeystream, hj]
  refine ⟨_, _, get m _ hj, get m' _ hj', ?_⟩
  rw [UInt8.xor_comm m'[j], ← UInt8.xor_assoc, UInt8.xor_assoc m[j], UInt8.xor_self, UInt8.xor_zero]

end

/-! ## A concrete game -/

/-- Primitives whose keyed hash repeats the end of its input, which makes derived keys easy to see. -/
def tail : Prims :=
  { Toy.prims with
    blake2bMac := fun n _ m => ⟨(m.reverse ++ List.replicate n 0).take n, by simp⟩
    xchacha20 := fun k _ i => (k.1[0]?.getD 0) + UInt8.ofNat i }

/-- Encrypt a vote with footer `kid`, then wrap a key. -/
def game : List (Act tail) :=
  [.token .V4 Bytes Bytes Sample.Raw inferInstance inferInstance inferInstance
      (fun _ => ⟨⟩) (fun s => match s with | .left => asc "yes" | .right => asc "no!")
      (asc "kid") ⟨BytesN.fill 32 7⟩ (asc "election"),
   .pie .V4 .Local (fun s => match s with | .left => ⟨BytesN.fill 32 1⟩ | .right => ⟨BytesN.fill 32 2⟩)
      ⟨BytesN.fill 32 9⟩]

/-- Random bytes for it. -/
def gameTape : Rng := List.replicate 32 3 ++ List.replicate 32 4 ++ [5]

example : (∃ texts, Act.runAll tail.ciphers .left game gameTape = .ok (texts, [5])) ∧
    (∀ a ∈ game, a.Comparable) ∧ (Act.cipherKeys game gameTape).Nodup ∧
    (Act.cipherKeys game gameTape).length = 2 := by
  refine ⟨?_, ?_, ?_, ?_⟩
  · have h : (match Act.runAll tail.ciphers .left game gameTape with
        | .ok (_, r) => decide (r = [5]) | _ => false) = true := by decide +kernel
    split at h
    · rename_i ts r e
      exact ⟨ts, by rw [e, of_decide_eq_true h]⟩
    · cases h
  · simp only [game, List.mem_cons, List.not_mem_nil, or_false]
    rintro a (rfl | rfl)
    · exact ⟨asc "yes", asc "no!", rfl, rfl, rfl, by unfold Fits; decide⟩
    · exact ⟨List.replicate 32 1, List.replicate 32 2, rfl, rfl, rfl, by unfold Fits; decide⟩
  · decide +kernel
  · decide +kernel

end Pasta.C57
