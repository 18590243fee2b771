import Verif.Toy
import Verif.Lemmas.Public
import Verif.Model.Serde

/-! # Sample codecs and values used by the non-vacuity examples -/

namespace Pasta.Sample

/-- A payload encoding with suffix `r`: the message is its own encoding. -/
structure Raw where

instance : Payload Raw where
  suffix := asc "r"
  default := ⟨⟩

instance : MessageEncoding Raw Bytes where
  encode _ m := .ok m

instance : MessageDecoding Raw Bytes where
  decode _ m := .ok m

/-- A payload encoding without suffix whose decoder refuses messages starting with `!`. -/
structure Picky where

instance : Payload Picky where
  suffix := []
  default := ⟨⟩

instance : MessageEncoding Picky Bytes where
  encode _ m := .ok m

instance : MessageDecoding Picky Bytes where
  decode _ m := if m.head? = some 33 then .error "bang" else .ok m

/-- A builder holding the message `hello` and the footer `kid`. -/
def builder (v : Ver) (p : Purpose) (E : Type) [Payload E] : TokenBuilder v p Bytes Bytes E :=
  ((TokenBuilder.new v p (asc "hello")).withFooter (asc "kid")).withEncoding Payload.default

/-- The toy signatures exist. -/
theorem signRaw_ok (v : Ver) (key : Key Toy.prims v .Secret) (suf m f i : Bytes) :
    ∃ s, signRaw Toy.prims v key.key suf m f i = .ok s := by
  cases v <;> exact ⟨_, rfl⟩

theorem sign_ok (v : Ver) (key : Key Toy.prims v .Secret) {M F E : Type} [Payload E]
    [MessageEncoding E M] [Footer F] (b : TokenBuilder v .Public M F E) (i : Bytes) {m f : Bytes}
    (hm : MessageEncoding.encode b.tok.encoding b.tok.message = .ok m)
    (hf : Footer.encode b.tok.footer = some f) :
    ∃ tok, b.signWithAssertions Toy.prims key i = .ok tok := by
  obtain ⟨s, hs⟩ := signRaw_ok v key (Payload.suffix E) m f i
  exact ⟨_, (sign_ok_iff b key i _).2 ⟨m, f, s, hm, hf, hs, rfl⟩⟩

theorem zipWith_xor_inj (a b k : Bytes) (ha : a.length = k.length) (hb : b.length = k.length)
    (h : List.zipWith (fun x y => x ^^^ y) a k = List.zipWith (fun x y => x ^^^ y) b k) : a = b := by
  induction k generalizing a b with
  | nil => simp_all
  | cons x xs ih =>
    rcases a with _ | ⟨y, ys⟩
    · simp at ha
    · rcases b with _ | ⟨z, zs⟩
      · simp at hb
      · simp only [List.zipWith_cons_cons, List.cons.injEq] at h
        have h1 : y = z := by
          have := congrArg (· ^^^ x) h.1
          simpa [UInt8.xor_assoc] using this
        rw [h1, ih ys zs (by simpa using ha) (by simpa using hb) h.2]

/-- Primitives whose hashes and MACs are all ones: with them every derived V3 counter nonce is all
ones and overflows at once. AES stays injective. -/
def ones : Prims :=
  { Toy.prims with
    sha384 := fun _ => BytesN.fill 48 0xff
    hmacSha384 := fun _ _ => BytesN.fill 48 0xff }

theorem ones_aes_inj (ek : BytesN 32) (x y : BytesN 16) (h : ones.aes256 ek x = ones.aes256 ek y) :
    x = y := by
  apply Subtype.ext
  apply zipWith_xor_inj x.1 y.1 (ek.1.take 16)
  · simp [x.2, ek.2]
  · simp [y.2, ek.2]
  · exact congrArg Subtype.val h

end Pasta.Sample
