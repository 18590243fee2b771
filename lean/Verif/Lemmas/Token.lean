import Verif.Model.Token
import Verif.Spec.Paseto
import Verif.Lemmas.Basic

/-! # Lemmas about token text -/

namespace Pasta

open Spec

theorem stripPrefix_append_left (a b s : Bytes) :
    stripPrefix (a ++ b) s = (stripPrefix a s).bind (stripPrefix b) := by
  cases h : stripPrefix a s with
  | none =>
    rw [stripPrefix_eq_none] at h
    simp only [Option.bind_none]
    rw [stripPrefix_eq_none]
    intro r hr
    exact h (b ++ r) (by simp [hr])
  | some r =>
    rw [stripPrefix_eq_some] at h
    subst h
    simp only [Option.bind_some]
    cases h2 : stripPrefix b r with
    | none =>
      rw [stripPrefix_eq_none] at h2 ⊢
      intro r' hr'
      rw [List.append_assoc] at hr'
      exact h2 r' (List.append_cancel_left hr')
    | some r' =>
      rw [stripPrefix_eq_some] at h2 ⊢
      simp [h2]

/-- Two prefix checks in a row are one. -/
theorem strip_bind_strip {α : Type} (e : PasetoError) (a b s : Bytes) (k : Bytes → Res α) :
    (Res.okOr e (stripPrefix a s) >>= fun s => Res.okOr e (stripPrefix b s) >>= k) =
      (Res.okOr e (stripPrefix (a ++ b) s) >>= k) := by
  rw [stripPrefix_append_left]
  cases stripPrefix a s <;> simp

theorem asc_dot : asc "." = [dot] := rfl

theorem header_eq (v : Ver) (p : Purpose) (suf : Bytes) :
    v.pasetoHeader ++ (suf ++ (asc "." ++ (p.header ++ asc "."))) = header v p suf := by
  cases v <;> cases p <;> simp [header, Ver.pasetoHeader, Purpose.header, versionText] <;> rfl

theorem header_eq' (v : Ver) (p : Purpose) (suf : Bytes) :
    v.pasetoHeader ++ suf ++ asc "." ++ p.header ++ asc "." = header v p suf := by
  rw [← header_eq]; simp

namespace SecuredToken

variable {v : Ver} {p : Purpose} {F E : Type}

/-- The part of `FromStr` after the header. -/
def parseBody (v : Ver) (p : Purpose) (F E : Type) [Footer F] [Payload E] (s : Bytes) :
    Res (SecuredToken v p F E) := do
  let (payload, footer) := match splitOnce dot s with
    | some (payload, footer) => (payload, some footer)
    | none => (s, none)
  let payload ← Res.okOr .base64DecodeError (B64.decodeVec payload)
  let encodedFooter ← match footer with
    | some f => Res.okOr .base64DecodeError (B64.decodeVec f)
    | none => Res.ok []
  let footer ← Res.ofExcept (Footer.decode encodedFooter)
  return { encoding := Payload.default, payload, encodedFooter, footer }

theorem parse_eq [Footer F] [Payload E] (s : Bytes) :
    parse v p F E s =
      (Res.okOr .invalidToken (stripPrefix (header v p (Payload.suffix E)) s) >>=
        parseBody v p F E) := by
  unfold parse
  rw [strip_bind_strip, strip_bind_strip, strip_bind_strip, strip_bind_strip]
  rw [header_eq']
  rfl

theorem display_eq [Payload E] (t : SecuredToken v p F E) :
    t.display = tokenText (header v p (Payload.suffix E)) t.payload t.encodedFooter := by
  unfold display tokenText
  rw [header_eq', B64.encode_eq_spec, B64.encode_eq_spec]
  simp [List.isEmpty_iff]

theorem dot_not_mem_base64url (b : Bytes) : dot ∉ base64url b := by
  rw [← B64.encode_eq_spec]; exact B64.dot_not_mem_encode b

theorem base64url_inj {a b : Bytes} (h : base64url a = base64url b) : a = b := by
  rw [← B64.encode_eq_spec, ← B64.encode_eq_spec] at h
  exact B64.encode_injective h

theorem decodeVec_base64url (b : Bytes) : B64.decodeVec (base64url b) = some b := by
  rw [← B64.encode_eq_spec]; exact B64.decodeVec_encode b

theorem decodeVec_eq_some {s b : Bytes} : B64.decodeVec s = some b ↔ s = base64url b := by
  rw [B64.decodeVec_eq_some, B64.encode_eq_spec]

theorem decodeVec_eq_none {s : Bytes} : B64.decodeVec s = none ↔ ∀ b, s ≠ base64url b := by
  rw [B64.decodeVec_eq_none]; simp only [B64.encode_eq_spec]

theorem parseBody_ok_iff [Footer F] [Payload E] (s : Bytes) (t : SecuredToken v p F E) :
    parseBody v p F E s = .ok t ↔
      ((t.encodedFooter = [] ∧ s = base64url t.payload) ∨
        s = base64url t.payload ++ asc "." ++ base64url t.encodedFooter) ∧
      Footer.decode t.encodedFooter = .ok t.footer ∧ t.encoding = Payload.default := by
  unfold parseBody
  cases hs : splitOnce dot s with
  | none =>
    have hs' := splitOnce_eq_none.1 hs
    simp only [Res.bind_eq_ok, Res.okOr_eq_ok, Res.ofExcept_eq_ok, Res.pure_def, Res.ok_bind,
      Res.ok.injEq, decodeVec_eq_some]
    constructor
    · rintro ⟨b, rfl, f, hf, rfl⟩
      exact ⟨.inl ⟨rfl, rfl⟩, hf, rfl⟩
    · rintro ⟨h, hf, he⟩
      rcases h with ⟨h1, h2⟩ | h
      · refine ⟨t.payload, h2, t.footer, by rw [← h1]; exact hf, ?_⟩
        cases t; simp_all
      · exfalso; apply hs'; rw [h, asc_dot]; simp
  | some x =>
    obtain ⟨a, b⟩ := x
    obtain ⟨hs', hd⟩ := splitOnce_eq_some.1 hs
    simp only [Res.bind_eq_ok, Res.okOr_eq_ok, Res.ofExcept_eq_ok, Res.pure_def,
      Res.ok.injEq, decodeVec_eq_some]
    constructor
    · rintro ⟨c, rfl, d, rfl, f, hf, rfl⟩
      exact ⟨.inr (by simp [hs', asc_dot]), hf, rfl⟩
    · rintro ⟨h, hf, he⟩
      rcases h with ⟨h1, h2⟩ | h
      · exfalso
        apply dot_not_mem_base64url t.payload
        rw [← h2, hs']; simp
      · have : splitOnce dot s = some (base64url t.payload, base64url t.encodedFooter) := by
          rw [splitOnce_eq_some]
          exact ⟨by simp [h, asc_dot], dot_not_mem_base64url _⟩
        rw [hs] at this
        simp only [Option.some.injEq, Prod.mk.injEq] at this
        refine ⟨t.payload, this.1, t.encodedFooter, this.2, t.footer, hf, ?_⟩
        cases t; simp_all

/-- The parser accepts exactly the grammar. -/
theorem parse_ok_iff [Footer F] [Payload E] (s : Bytes) (t : SecuredToken v p F E) :
    parse v p F E s = .ok t ↔
      IsToken (header v p (Payload.suffix E)) s t.payload t.encodedFooter ∧
      Footer.decode t.encodedFooter = .ok t.footer ∧ t.encoding = Payload.default := by
  rw [parse_eq, Res.bind_eq_ok]
  simp only [Res.okOr_eq_ok, stripPrefix_eq_some, parseBody_ok_iff, IsToken]
  constructor
  · rintro ⟨r, rfl, h, hf⟩
    refine ⟨?_, hf⟩
    rcases h with ⟨h1, h2⟩ | h
    · exact .inl ⟨h1, by rw [h2]⟩
    · exact .inr (by rw [h]; simp)
  · rintro ⟨h, hf⟩
    rcases h with ⟨h1, h2⟩ | h
    · exact ⟨_, h2, .inl ⟨h1, rfl⟩, hf⟩
    · exact ⟨base64url t.payload ++ asc "." ++ base64url t.encodedFooter,
        by rw [h]; simp only [List.append_assoc], .inr rfl, hf⟩

/-- The text of a token is in the grammar. -/
theorem isToken_tokenText (h payload footer : Bytes) :
    IsToken h (tokenText h payload footer) payload footer := by
  unfold tokenText IsToken
  split
  · exact .inl ⟨by assumption, rfl⟩
  · exact .inr rfl

/-- Printing and parsing keeps everything except the encoding object, which is the default one. -/
theorem parse_display [Footer F] [Payload E] (t : SecuredToken v p F E)
    (h : Footer.decode t.encodedFooter = .ok t.footer) :
    parse v p F E t.display = .ok { t with encoding := Payload.default } := by
  rw [parse_ok_iff, display_eq]
  exact ⟨isToken_tokenText _ _ _, h, rfl⟩

end SecuredToken
end Pasta
