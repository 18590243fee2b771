import Verif.Props.Encoding
import Verif.Props.Parsers

/-!
# C67: PASERK texts have fixed sizes, and all texts can stand in a URL as they are
-/

namespace Pasta

open Spec (paserkHeader paserkText keyTypeText idTypeText pieType pwType base64url tokenText header)
open C47 (Paserk)

namespace C67

/-- The number of characters of each type of PASERK. -/
def size : Paserk → Nat
  | .plain _ .Local => 52
  | .plain .V3 .Public => 76
  | .plain .V4 .Public => 53
  | .plain .V3 .Secret => 74
  | .plain .V4 .Secret => 96
  | .id _ _ => 51
  | .pie .V3 .Local => 168
  | .pie .V4 .Local => 146
  | .pie _ .Secret => 190
  | .pw .V3 .Local => 188
  | .pw .V4 .Local => 172
  | .pw .V3 .Secret => 211
  | .pw .V4 .Secret => 216
  | .sealed .V3 => 180
  | .sealed .V4 => 136

/-- RFC 3986, section 2.3: the characters that need no escaping in a URL. -/
def Unreserved (c : UInt8) : Prop :=
  c ∈ asc "ABCDEFGHIJKLMNOPQRSTUVWXYZabcdefghijklmnopqrstuvwxyz0123456789-._~"

instance (c : UInt8) : Decidable (Unreserved c) := by unfold Unreserved; infer_instance

/-- `Display` of some value of the type gives the text. -/
def Prints (P : Prims) : Paserk → Bytes → Prop
  | .plain v k, s => ∃ x : PlaintextKey P v k, x.display = .ok s
  | .id v k, s => ∃ x : KeyId v k, x.display = .ok s
  | .pie v k, s => ∃ x : PieWrappedKey v k, x.display = .ok s
  | .pw v k, s => ∃ x : PwWrappedKey v k, x.display = .ok s
  | .sealed v, s => ∃ x : SealedKey v, x.display = .ok s

theorem base64url_unreserved (b : Bytes) : ∀ c ∈ base64url b, Unreserved c := by
  have h2 : ∀ c ∈ Spec.alphabet, Unreserved c := by decide +kernel
  intro c hc
  have hw := C22.wf_encode b
  rw [B64.encode_eq_spec] at hw
  exact h2 c (hw.1 c hc)

/-- Number of bytes of the data part. -/
def dataSize : Paserk → Nat
  | .plain v k => keyLen v k
  | .id _ _ => 33
  | .pie v k => pieOutputLen v k
  | .pw v k => pwTotalLen v k
  | .sealed v => pkeTotalLen v

theorem header_unreserved (p : Paserk) : ∀ c ∈ paserkHeader p.version p.type, Unreserved c := by
  cases p with
  | plain v k => cases v <;> cases k <;> decide +kernel
  | id v k => cases v <;> cases k <;> decide +kernel
  | pie v k => cases v <;> cases k <;> decide +kernel
  | pw v k => cases v <;> cases k <;> decide +kernel
  | sealed v => cases v <;> decide +kernel

theorem size_eq (p : Paserk) :
    (paserkHeader p.version p.type).length + (4 * dataSize p + 2) / 3 = size p := by
  cases p with
  | plain v k => cases v <;> cases k <;> rfl
  | id v k => cases v <;> cases k <;> rfl
  | pie v k => cases v <;> cases k <;> rfl
  | pw v k => cases v <;> cases k <;> rfl
  | sealed v => cases v <;> rfl

theorem of_data (p : Paserk) (s data : Bytes) (hs : s = paserkText p.version p.type data)
    (hd : data.length = dataSize p) : s.length = size p ∧ ∀ c ∈ s, Unreserved c := by
  subst hs
  unfold paserkText
  constructor
  · rw [List.length_append, C22.text_length, hd, size_eq]
  · intro c hc
    rcases List.mem_append.1 hc with hc | hc
    · exact header_unreserved p c hc
    · exact base64url_unreserved _ c hc

/-- What a PASERK parser accepts has the size of its type and only unreserved characters. -/
theorem accepted (P : Prims) (p : Paserk) (s : Bytes) (h : p.Accepts P s) :
    s.length = size p ∧ ∀ c ∈ s, Unreserved c := by
  cases p with
  | plain v k =>
    obtain ⟨x, h⟩ := h
    obtain ⟨b, h, -⟩ := PlaintextKey.parse_ok_iff.1 h
    exact of_data (.plain v k) s _ h b.2
  | id v k =>
    obtain ⟨x, h⟩ := h
    exact of_data (.id v k) s _ (KeyId.parse_ok_iff.1 h) x.id.2
  | pie v k =>
    obtain ⟨x, h⟩ := h
    refine of_data (.pie v k) s _ (PieWrappedKey.parse_ok_iff.1 h) ?_
    unfold PieWrappedKey.data
    rw [List.length_append, List.length_append, x.tag.2, x.nonce.2, x.wrappedKey.2]
    cases v <;> cases k <;> rfl
  | pw v k =>
    obtain ⟨x, h⟩ := h
    obtain ⟨b, h, -⟩ := PwWrappedKey.parse_ok_iff.1 h
    refine of_data (.pw v k) s _ h ?_
    unfold PwWrappedKey.dataWith
    simp only [List.length_append]
    rw [x.salt.2, b.2, x.nonce.2, x.edk.2, x.tag.2]
    cases v <;> cases k <;> rfl
  | sealed v =>
    obtain ⟨x, h⟩ := h
    refine of_data (.sealed v) s _ (SealedKey.parse_ok_iff.1 h) ?_
    unfold SealedKey.data
    rw [List.length_append, List.length_append, x.tag.2, x.ephemeralPublicKey.2, x.encryptedDataKey.2]
    cases v <;> rfl

/-- And so has what is printed: of keys, ids, and wrapped and sealed keys however they were made. -/
theorem printed (P : Prims) (p : Paserk) (s : Bytes) (h : Prints P p s) :
    s.length = size p ∧ ∀ c ∈ s, Unreserved c := by
  cases p with
  | plain v k =>
    obtain ⟨x, h⟩ := h
    rw [PlaintextKey.display_eq] at h
    cases h
    exact of_data (.plain v k) _ _ rfl x.key.toBytes.2
  | id v k =>
    obtain ⟨x, h⟩ := h
    rw [KeyId.display_eq] at h
    cases h
    exact of_data (.id v k) _ _ rfl x.id.2
  | pie v k =>
    obtain ⟨x, h⟩ := h
    rw [PieWrappedKey.display_eq] at h
    exact accepted P (.pie v k) s ⟨x, PieWrappedKey.parse_ok_iff.2 (by cases h; rfl)⟩
  | pw v k =>
    obtain ⟨x, h⟩ := h
    have := PwWrappedKey.parse_display x
    rw [h] at this
    exact accepted P (.pw v k) s ⟨x, this⟩
  | sealed v =>
    obtain ⟨x, h⟩ := h
    rw [SealedKey.display_eq] at h
    exact accepted P (.sealed v) s ⟨x, SealedKey.parse_ok_iff.2 (by cases h; rfl)⟩

/-- Token texts too, if the payload encoding's own suffix has only such characters, as the empty one
of JSON: printed, and accepted ones. -/
theorem token {v : Ver} {p : Purpose} {F E : Type} [Footer F] [Payload E]
    (hsuf : ∀ c ∈ Payload.suffix E, Unreserved c) :
    (∀ t : SecuredToken v p F E, ∀ c ∈ t.display, Unreserved c) ∧
    (∀ s, ∀ t : SecuredToken v p F E, SecuredToken.parse v p F E s = .ok t → ∀ c ∈ s, Unreserved c) := by
  have hh : ∀ c ∈ header v p (Payload.suffix E), Unreserved c := by
    have h1 : ∀ c ∈ Spec.versionText v, Unreserved c := by cases v <;> decide +kernel
    have h2 : ∀ c ∈ asc ".local.", Unreserved c := by decide +kernel
    have h3 : ∀ c ∈ asc ".public.", Unreserved c := by decide +kernel
    intro c hc
    cases p <;> simp only [header, List.mem_append] at hc <;>
      rcases hc with (hc | hc) | hc <;> first | exact h1 c hc | exact hsuf c hc | exact h2 c hc | exact h3 c hc
  have hdot : ∀ c ∈ asc ".", Unreserved c := by decide +kernel
  have hd : ∀ t : SecuredToken v p F E, ∀ c ∈ t.display, Unreserved c := by
    intro t c hc
    rw [SecuredToken.display_eq] at hc
    unfold tokenText at hc
    split at hc <;> simp only [List.mem_append] at hc
    · exact hc.elim (hh c) (base64url_unreserved _ c)
    · exact hc.elim (·.elim (·.elim (hh c) (base64url_unreserved _ c)) (hdot c)) (base64url_unreserved _ c)
  refine ⟨hd, fun s t h c hc => ?_⟩
  rcases C06.display_parse s t h with h | ⟨-, h⟩
  · exact hd t c (h ▸ hc)
  · rw [h] at hc
    exact (List.mem_append.1 hc).elim (hd t c) (hdot c)

/-- Every size is met: the examples of C47 show a text accepted for every type, and here is one for a
printed one. -/
example (v : Ver) (k : Kind) (P : Prims) : ∃ s, Prints P (.id v k) s ∧ s.length = 51 :=
  have h : Prints P (.id v k) _ := ⟨⟨⟨List.replicate 33 7, rfl⟩⟩, KeyId.display_eq _⟩
  ⟨_, h, (printed P (.id v k) _ h).1⟩

example : ∀ c ∈ Payload.suffix (Json Unit), Unreserved c := by decide

/-- The characters that would have to be escaped are not among the unreserved ones. -/
example : ¬ Unreserved (asc "+")[0] ∧ ¬ Unreserved (asc "/")[0] ∧ ¬ Unreserved (asc "=")[0] := by
  decide +kernel

end C67

end Pasta
