import Verif.Lemmas.Token
import Verif.Props.Samples

/-!
# C05, C06, C07, C18, C48 (tokens): the token parser and the token grammar
-/

namespace Pasta

open Spec (header tokenText IsToken base64url versionText)

/-! ## C05 -/
namespace C05

variable {v : Ver} {p : Purpose} {F E : Type}

/-- The parser returns `t` exactly when the string is `<version><suffix>.<purpose>.<payload>` with
an optional `.<footer>`, payload and footer being the unpadded base64url of `t`'s bytes, and the
footer type decodes the footer bytes to `t`'s footer. -/
theorem parse_iff [Footer F] [Payload E] (s : Bytes) (t : SecuredToken v p F E) :
    SecuredToken.parse v p F E s = .ok t ↔
      IsToken (header v p (Payload.suffix E)) s t.payload t.encodedFooter ∧
      Footer.decode t.encodedFooter = .ok t.footer ∧ t.encoding = Payload.default :=
  SecuredToken.parse_ok_iff s t

/-- A string is accepted exactly when it is in the grammar and its footer is acceptable. -/
theorem accepts_iff [Footer F] [Payload E] (s : Bytes) :
    (∃ t, SecuredToken.parse v p F E s = .ok t) ↔
      ∃ payload footerBytes, ∃ footer : F,
        IsToken (header v p (Payload.suffix E)) s payload footerBytes ∧
        Footer.decode footerBytes = .ok footer := by
  constructor
  · rintro ⟨t, ht⟩
    obtain ⟨h1, h2, _⟩ := (parse_iff s t).1 ht
    exact ⟨_, _, _, h1, h2⟩
  · rintro ⟨pl, fb, f, h1, h2⟩
    exact ⟨⟨Payload.default, pl, fb, f⟩, (parse_iff s _).2 ⟨h1, h2, rfl⟩⟩

/-- The grammar is unambiguous: a string determines payload and footer bytes. -/
theorem grammar_unambiguous {h s a b a' b' : Bytes} (h1 : IsToken h s a b) (h2 : IsToken h s a' b') :
    a = a' ∧ b = b' := by
  have key : ∀ x y z : Bytes, base64url x ≠ base64url y ++ asc "." ++ base64url z := by
    intro x y z he
    apply SecuredToken.dot_not_mem_base64url x
    rw [he, asc_dot]; simp
  rcases h1 with ⟨rfl, rfl⟩ | rfl <;> rcases h2 with ⟨rfl, h2⟩ | h2
  · exact ⟨SecuredToken.base64url_inj (List.append_cancel_left h2), rfl⟩
  · rw [List.append_assoc, List.append_assoc] at h2
    have := List.append_cancel_left h2
    rw [← List.append_assoc] at this
    exact absurd this (key _ _ _)
  · rw [List.append_assoc, List.append_assoc] at h2
    have := List.append_cancel_left h2
    rw [← List.append_assoc] at this
    exact absurd this.symm (key _ _ _)
  · simp only [List.append_assoc] at h2
    have h3 := List.append_cancel_left h2
    have e1 : splitOnce dot (base64url a ++ (asc "." ++ base64url b)) =
        some (base64url a, base64url b) :=
      splitOnce_eq_some.2 ⟨rfl, SecuredToken.dot_not_mem_base64url _⟩
    rw [h3] at e1
    have e2 : splitOnce dot (base64url a' ++ (asc "." ++ base64url b')) =
        some (base64url a', base64url b') :=
      splitOnce_eq_some.2 ⟨rfl, SecuredToken.dot_not_mem_base64url _⟩
    rw [e2] at e1
    simp only [Option.some.injEq, Prod.mk.injEq] at e1
    exact ⟨(SecuredToken.base64url_inj e1.1).symm, (SecuredToken.base64url_inj e1.2).symm⟩

/-- A concrete token text with a footer is in the grammar and accepted. -/
example : SecuredToken.parse .V4 .Public Bytes (Json Unit) (asc "v4.public.aGk.Zg") =
    .ok ⟨⟨()⟩, asc "hi", asc "f", asc "f"⟩ := by rfl

/-- Padding, non-alphabet characters, non-zero trailing bits and a third section are refused. -/
example : SecuredToken.parse .V4 .Public Bytes (Json Unit) (asc "v4.public.aGk=") =
      .err .base64DecodeError ∧
    SecuredToken.parse .V4 .Public Bytes (Json Unit) (asc "v4.public.aG+") =
      .err .base64DecodeError ∧
    SecuredToken.parse .V4 .Public Bytes (Json Unit) (asc "v4.public.aGl") =
      .err .base64DecodeError ∧
    SecuredToken.parse .V4 .Public Bytes (Json Unit) (asc "v4.public.aGk.Zg.Zg") =
      .err .base64DecodeError := ⟨rfl, rfl, rfl, rfl⟩

example : IsToken (asc "v4.public.") (asc "v4.public.aGk.Zg") (asc "hi") (asc "f") ∧
    ∀ a b, IsToken (asc "v4.public.") (asc "v4.public.aGk.Zg") a b → asc "hi" = a ∧ asc "f" = b := by
  have h : IsToken (asc "v4.public.") (asc "v4.public.aGk.Zg") (asc "hi") (asc "f") := .inr (by decide)
  exact ⟨h, fun a b => grammar_unambiguous h⟩

end C05

/-! ## C06 -/
namespace C06

variable {v : Ver} {p : Purpose} {F F' E : Type}

/-- Printing a parsed token gives the text back, or the text was the printed form plus a trailing
dot (and the footer is empty). -/
theorem display_parse [Footer F] [Payload E] (s : Bytes) (t : SecuredToken v p F E)
    (h : SecuredToken.parse v p F E s = .ok t) :
    t.display = s ∨ (t.encodedFooter = [] ∧ s = t.display ++ asc ".") := by
  obtain ⟨h1, -, -⟩ := (SecuredToken.parse_ok_iff s t).1 h
  rw [SecuredToken.display_eq]
  unfold tokenText
  rcases h1 with ⟨h1, h2⟩ | h1
  · left; rw [if_pos h1]; exact h2.symm
  · by_cases hf : t.encodedFooter = []
    · right
      refine ⟨hf, ?_⟩
      rw [if_pos hf, h1, hf]
      simp [base64url, Spec.sextets]
    · left; rw [if_neg hf]; exact h1.symm

/-- Both alternatives of `display_parse` do occur: the printed form of any parsed token parses to
the same token, and if the footer is empty so does the printed form with a dot appended. -/
theorem parse_display_dot [Footer F] [Payload E] (s : Bytes) (t : SecuredToken v p F E)
    (h : SecuredToken.parse v p F E s = .ok t) :
    SecuredToken.parse v p F E t.display = .ok t ∧
    (t.encodedFooter = [] → SecuredToken.parse v p F E (t.display ++ asc ".") = .ok t) := by
  obtain ⟨h1, h2, h3⟩ := (SecuredToken.parse_ok_iff s t).1 h
  rw [SecuredToken.display_eq]
  refine ⟨(SecuredToken.parse_ok_iff _ t).2 ⟨SecuredToken.isToken_tokenText _ _ _, h2, h3⟩, ?_⟩
  intro hf
  refine (SecuredToken.parse_ok_iff _ t).2 ⟨.inr ?_, h2, h3⟩
  unfold tokenText
  rw [if_pos hf, hf]
  simp [base64url, Spec.sextets]

/-- Two strings parsed (even with different footer types) to the same payload and footer bytes are
equal up to one trailing dot. -/
theorem canonical [Footer F] [Footer F'] [Payload E] (s s' : Bytes) (t : SecuredToken v p F E)
    (t' : SecuredToken v p F' E)
    (h : SecuredToken.parse v p F E s = .ok t) (h' : SecuredToken.parse v p F' E s' = .ok t')
    (hp : t.payload = t'.payload) (hf : t.encodedFooter = t'.encodedFooter) :
    s = s' ∨ (t.encodedFooter = [] ∧ (s = s' ++ asc "." ∨ s' = s ++ asc ".")) := by
  have e : t.display = t'.display := by
    rw [SecuredToken.display_eq, SecuredToken.display_eq, hp, hf]
  rcases display_parse s t h with h1 | ⟨h1, h2⟩ <;>
    rcases display_parse s' t' h' with h3 | ⟨h3, h4⟩
  · left; rw [← h1, ← h3, e]
  · right; exact ⟨hf.trans h3, .inr (by rw [h4, ← h1, e])⟩
  · right; exact ⟨h1, .inl (by rw [h2, ← h3, e])⟩
  · left; rw [h2, h4, e]

/-- The exception is real. -/
example : SecuredToken.parse .V4 .Public Bytes (Json Unit) (asc "v4.public.aGk") =
    .ok ⟨⟨()⟩, asc "hi", [], []⟩ ∧
  SecuredToken.parse .V4 .Public Bytes (Json Unit) (asc "v4.public.aGk.") =
    .ok ⟨⟨()⟩, asc "hi", [], []⟩ := ⟨rfl, rfl⟩

/-- The two texts of one token differ by the trailing dot, which is what `canonical` allows. -/
example : asc "v4.public.aGk" = asc "v4.public.aGk." ∨
    ([] : Bytes) = [] ∧ (asc "v4.public.aGk" = asc "v4.public.aGk." ++ asc "." ∨
      asc "v4.public.aGk." = asc "v4.public.aGk" ++ asc ".") :=
  canonical (v := .V4) (p := .Public) (F := Bytes) (F' := Unit) (E := Json Unit) _ _
    ⟨⟨()⟩, asc "hi", [], []⟩ ⟨⟨()⟩, asc "hi", [], ()⟩ rfl rfl rfl rfl

end C06

/-! ## C07 -/
namespace C07

variable {v v' : Ver} {p p' : Purpose} {F F' E E' : Type}

theorem versionText_length (v : Ver) : (versionText v).length = 2 := by cases v <;> rfl

theorem versionText_inj {v v' : Ver} (h : versionText v = versionText v') : v = v' := by
  cases v <;> cases v' <;> first | rfl | (exfalso; revert h; decide)

theorem isToken_prefix {h s a b : Bytes} (ht : IsToken h s a b) : ∃ r, s = h ++ r := by
  rcases ht with ⟨-, h2⟩ | h2
  · exact ⟨_, h2⟩
  · exact ⟨_, by rw [h2, List.append_assoc, List.append_assoc]⟩

/-- The part of a header after version and suffix. -/
def purposeText : Purpose → Bytes
  | .Local => asc "local"
  | .Public => asc "public"

theorem header_split (v : Ver) (p : Purpose) (suf : Bytes) :
    header v p suf = (versionText v ++ suf) ++ dot :: (purposeText p ++ [dot]) := by
  cases p <;> simp [header, purposeText] <;> rfl

/-- A purpose name is not canonical base64url of anything: `local` has an impossible length,
`public` has non-zero trailing bits. -/
theorem purposeText_not_base64 (p : Purpose) (b : Bytes) : purposeText p ≠ base64url b := by
  have : B64.decodeVec (purposeText p) = none := by cases p <;> decide
  exact SecuredToken.decodeVec_eq_none.1 this b

theorem dot_not_mem_purposeText (p : Purpose) : dot ∉ purposeText p := by cases p <;> decide

/-- The part after the last dot is unique. -/
theorem after_last_dot {a b a' b' : Bytes} (h : a ++ dot :: b = a' ++ dot :: b') (hb : dot ∉ b)
    (hb' : dot ∉ b') : b = b' := by
  have h1 := congrArg List.reverse h
  simp only [List.reverse_append, List.reverse_cons, List.append_assoc] at h1
  have e : ∀ x y : Bytes, dot ∉ x → splitOnce dot (x.reverse ++ dot :: y) = some (x.reverse, y) :=
    fun x y hx => splitOnce_eq_some.2 ⟨rfl, by simpa using hx⟩
  have h2 := e b a.reverse hb
  simp only [List.nil_append, List.cons_append] at h1
  rw [h1, e b' _ hb'] at h2
  simp only [Option.some.injEq, Prod.mk.injEq, List.reverse_inj] at h2
  exact h2.1.symm

/-- If one header continues another, no token of the shorter header starts with the longer one. -/
theorem header_not_extended (v v' : Ver) (p p' : Purpose) (suf suf' z r a b : Bytes)
    (hz : header v' p' suf' = header v p suf ++ z) (hne : z ≠ [])
    (ht : (b = [] ∧ z ++ r = base64url a) ∨ z ++ r = base64url a ++ asc "." ++ base64url b) :
    False := by
  have h1 : ∃ y, z = y ++ [dot] := by
    rcases List.eq_nil_or_concat z with h | ⟨y, x, rfl⟩
    · exact absurd h hne
    · rw [header_split, List.concat_eq_append] at hz
      have h2 : (versionText v' ++ suf' ++ dot :: purposeText p') ++ [dot] =
          (header v p suf ++ y) ++ [x] := by simpa using hz
      have h3 := List.append_inj_right' h2 rfl
      simp only [List.cons.injEq, and_true] at h3
      exact ⟨y, by rw [h3, List.concat_eq_append]⟩
  obtain ⟨y, rfl⟩ := h1
  rcases ht with ⟨-, ht⟩ | ht
  · apply SecuredToken.dot_not_mem_base64url a
    rw [← ht]; simp
  · rw [asc_dot] at ht
    simp only [List.append_assoc, List.cons_append, List.nil_append] at ht
    have e1 : splitOnce dot (base64url a ++ dot :: base64url b) = some (base64url a, base64url b) :=
      splitOnce_eq_some.2 ⟨rfl, SecuredToken.dot_not_mem_base64url _⟩
    have hy : dot ∉ y := by
      intro hy
      obtain ⟨y1, y2, rfl, hy1⟩ := List.eq_append_cons_of_mem hy
      have e2 : splitOnce dot (y1 ++ dot :: (y2 ++ dot :: r)) = some (y1, y2 ++ dot :: r) :=
        splitOnce_eq_some.2 ⟨rfl, hy1⟩
      rw [← ht] at e1
      simp only [List.append_assoc, List.cons_append] at e1
      rw [e2] at e1
      simp only [Option.some.injEq, Prod.mk.injEq] at e1
      apply SecuredToken.dot_not_mem_base64url b
      rw [← e1.2]; simp
    have e2 : splitOnce dot (y ++ dot :: r) = some (y, r) := splitOnce_eq_some.2 ⟨rfl, hy⟩
    rw [ht, e1] at e2
    simp only [Option.some.injEq, Prod.mk.injEq] at e2
    have h3 : (versionText v' ++ suf') ++ dot :: purposeText p' =
        (versionText v ++ suf ++ dot :: purposeText p) ++ dot :: y := by
      rw [header_split, header_split] at hz
      have : ((versionText v' ++ suf') ++ dot :: purposeText p') ++ [dot] =
          ((versionText v ++ suf ++ dot :: purposeText p) ++ dot :: y) ++ [dot] := by
        simpa using hz
      exact List.append_cancel_right this
    have h4 := after_last_dot h3 (dot_not_mem_purposeText p') hy
    exact purposeText_not_base64 p' a (h4.trans e2.1.symm)

theorem isToken_body {h s a b : Bytes} (ht : IsToken h s a b) :
    ∃ r, s = h ++ r ∧ ((b = [] ∧ r = base64url a) ∨ r = base64url a ++ asc "." ++ base64url b) := by
  rcases ht with ⟨h1, h2⟩ | h2
  · exact ⟨_, h2, .inl ⟨h1, rfl⟩⟩
  · exact ⟨_, by rw [h2, List.append_assoc, List.append_assoc, ← List.append_assoc (base64url a)],
      .inr rfl⟩

/-- No string is accepted by the token parsers of two different version/purpose/suffix
combinations, whatever the payload encodings and footer types. -/
theorem type_unique [Footer F] [Payload E] [Footer F'] [Payload E'] (s : Bytes)
    (t : SecuredToken v p F E) (t' : SecuredToken v' p' F' E')
    (h : SecuredToken.parse v p F E s = .ok t) (h' : SecuredToken.parse v' p' F' E' s = .ok t') :
    v = v' ∧ p = p' ∧ Payload.suffix E = Payload.suffix E' := by
  obtain ⟨r, h1, hb⟩ := isToken_body ((SecuredToken.parse_ok_iff s t).1 h).1
  obtain ⟨r', h2, hb'⟩ := isToken_body ((SecuredToken.parse_ok_iff s t').1 h').1
  have hh : header v p (Payload.suffix E) = header v' p' (Payload.suffix E') := by
    rw [h1] at h2
    rcases List.append_eq_append_iff.1 h2 with ⟨z, hz, hz'⟩ | ⟨z, hz, hz'⟩
    · by_cases hne : z = []
      · rw [hz, hne]; simp
      · exact (header_not_extended _ _ _ _ _ _ z r' _ _ hz hne (by rw [← hz']; exact hb)).elim
    · by_cases hne : z = []
      · rw [hz, hne]; simp
      · exact (header_not_extended _ _ _ _ _ _ z r _ _ hz hne (by rw [← hz']; exact hb')).elim
  rw [header_split, header_split] at hh
  have h3 : (versionText v ++ Payload.suffix E) ++ dot :: purposeText p =
      (versionText v' ++ Payload.suffix E') ++ dot :: purposeText p' := by
    apply List.append_cancel_right (bs := [dot])
    simpa using hh
  have h4 := after_last_dot h3 (dot_not_mem_purposeText p) (dot_not_mem_purposeText p')
  have hp : p = p' := by
    cases p <;> cases p' <;> first | rfl | (exfalso; revert h4; decide)
  subst hp
  have h5 := List.append_cancel_right h3
  have h6 := List.append_inj h5 (by simp [versionText_length])
  exact ⟨versionText_inj h6.1, rfl, h6.2⟩

/-- A string accepted by one parser, and an encoding with a dot in its suffix, which might have
been confused with it. -/
structure Dotted where
instance : Payload Dotted where
  suffix := asc ".public"
  default := ⟨⟩

example : SecuredToken.parse .V4 .Public Bytes (Json Unit) (asc "v4.public.aGk.aGk") =
      .ok ⟨⟨()⟩, asc "hi", asc "hi", asc "hi"⟩ ∧
    SecuredToken.parse .V4 .Local Bytes Dotted (asc "v4.public.local.aGk") =
      .ok ⟨⟨⟩, asc "hi", [], []⟩ ∧
    SecuredToken.parse .V4 .Public Bytes (Json Unit) (asc "v4.public.local.aGk") =
      .err .base64DecodeError := ⟨rfl, rfl, rfl⟩

end C07

/-! ## C18 -/
namespace C18

variable {v : Ver} {p : Purpose} {E : Type}

/-- The unit footer accepts exactly texts without footer section, or with an empty one. -/
theorem unit_footer [Payload E] (s : Bytes) :
    (∃ t, SecuredToken.parse v p Unit E s = .ok t) ↔
      ∃ payload, s = header v p (Payload.suffix E) ++ base64url payload ∨
        s = header v p (Payload.suffix E) ++ base64url payload ++ asc "." := by
  rw [C05.accepts_iff]
  constructor
  · rintro ⟨pl, fb, f, h1, h2⟩
    have : fb = [] := by
      simp only [Footer.decode] at h2
      split at h2
      · rename_i hb; simpa using hb
      · simp at h2
    subst this
    refine ⟨pl, ?_⟩
    rcases h1 with ⟨-, h1⟩ | h1
    · exact .inl h1
    · right; rw [h1]; simp [base64url, Spec.sextets]
  · rintro ⟨pl, h⟩
    refine ⟨pl, [], (), ?_, rfl⟩
    rcases h with h | h
    · exact .inl ⟨rfl, h⟩
    · right; rw [h]; simp [base64url, Spec.sextets]

/-- The byte footer accepts every text of the grammar and returns the footer bytes unchanged. -/
theorem bytes_footer [Payload E] (s : Bytes) (t : SecuredToken v p Bytes E) :
    SecuredToken.parse v p Bytes E s = .ok t ↔
      IsToken (header v p (Payload.suffix E)) s t.payload t.encodedFooter ∧
      t.footer = t.encodedFooter ∧ t.encoding = Payload.default := by
  rw [SecuredToken.parse_ok_iff]
  simp only [Footer.decode, Except.ok.injEq]
  constructor
  · rintro ⟨h1, h2, h3⟩; exact ⟨h1, h2.symm, h3⟩
  · rintro ⟨h1, h2, h3⟩; exact ⟨h1, h2.symm, h3⟩

/-- The JSON footer accepts exactly the texts with a non-empty footer that the JSON decoder
accepts, and returns what the decoder returns. -/
theorem json_footer {T : Type} [Serialize T] [Deserialize T] [Payload E] (s : Bytes)
    (t : SecuredToken v p (Json T) E) :
    SecuredToken.parse v p (Json T) E s = .ok t ↔
      IsToken (header v p (Payload.suffix E)) s t.payload t.encodedFooter ∧
      t.encodedFooter ≠ [] ∧ Deserialize.fromSlice t.encodedFooter = .ok t.footer.val ∧
      t.encoding = Payload.default := by
  rw [SecuredToken.parse_ok_iff]
  have : (Footer.decode t.encodedFooter = .ok t.footer) ↔
      (t.encodedFooter ≠ [] ∧ Deserialize.fromSlice t.encodedFooter = .ok t.footer.val) := by
    simp only [Footer.decode, List.isEmpty_iff]
    split
    · simp_all
    · rename_i hne
      cases hd : (Deserialize.fromSlice t.encodedFooter : Except String T) with
      | error e => simp
      | ok x =>
        simp only [Except.ok.injEq, hne, ne_eq, not_false_eq_true, true_and]
        constructor
        · intro h; rw [← h]
        · intro h; rw [h]
  rw [this]
  constructor
  · rintro ⟨h1, ⟨h2, h3⟩, h4⟩; exact ⟨h1, h2, h3, h4⟩
  · rintro ⟨h1, h2, h3, h4⟩; exact ⟨h1, ⟨h2, h3⟩, h4⟩

/-- What a builder's footer becomes: the unit footer is empty, a byte footer is itself. -/
theorem footer_bytes (b : Bytes) : Footer.encode () = some [] ∧ Footer.encode b = some b :=
  ⟨rfl, rfl⟩

end C18

/-! ## C48, token parsers -/
namespace C48

variable {v : Ver} {p : Purpose} {F E : Type}

/-- The text after the header is one or two canonical base64url sections. -/
def GoodBody (r : Bytes) : Prop :=
  ∃ payload, r = base64url payload ∨ ∃ footer, r = base64url payload ++ asc "." ++ base64url footer

/-- Every outcome of the token parser, by precedence: wrong header, then bad base64, then a footer
the footer type refuses, else success. No other error and no panic. -/
theorem token_parse [Footer F] [Payload E] (s : Bytes) :
    (SecuredToken.parse v p F E s = .err .invalidToken ↔
      ∀ r, s ≠ header v p (Payload.suffix E) ++ r) ∧
    (SecuredToken.parse v p F E s = .err .base64DecodeError ↔
      ∃ r, s = header v p (Payload.suffix E) ++ r ∧ ¬ GoodBody r) ∧
    (∀ m, SecuredToken.parse v p F E s = .err (.payloadError m) ↔
      ∃ payload footer, IsToken (header v p (Payload.suffix E)) s payload footer ∧
        (Footer.decode footer : Except String F) = .error m) ∧
    SecuredToken.parse v p F E s ≠ .err .invalidKey ∧
    SecuredToken.parse v p F E s ≠ .err .cryptoError ∧
    SecuredToken.parse v p F E s ≠ .panic := by
  cases hs : stripPrefix (header v p (Payload.suffix E)) s with
  | none =>
    have e : SecuredToken.parse v p F E s = .err .invalidToken := by
      rw [SecuredToken.parse_eq, hs]; rfl
    rw [stripPrefix_eq_none] at hs
    rw [e]
    refine ⟨by simp [hs], ?_, ?_, by simp, by simp, by simp⟩
    · simp only [Res.err.injEq, reduceCtorEq, false_iff]
      rintro ⟨r, hr, -⟩; exact hs r hr
    · intro m
      simp only [Res.err.injEq, reduceCtorEq, false_iff]
      rintro ⟨a, b, ht, -⟩
      obtain ⟨r, hr⟩ := C07.isToken_prefix ht
      exact hs r hr
  | some r =>
    have hr := stripPrefix_eq_some.1 hs
    by_cases hg : GoodBody r
    · obtain ⟨pl, fb, ht⟩ : ∃ pl fb, IsToken (header v p (Payload.suffix E)) s pl fb := by
        obtain ⟨pl, h | ⟨fb, h⟩⟩ := hg
        · exact ⟨pl, [], .inl ⟨rfl, by rw [hr, h]⟩⟩
        · exact ⟨pl, fb, .inr (by rw [hr, h]; simp only [List.append_assoc])⟩
      have e : SecuredToken.parse v p F E s = (Res.ofExcept (Footer.decode fb) >>= fun f =>
          .ok ⟨Payload.default, pl, fb, f⟩) := by
        rw [SecuredToken.parse_eq, hs]
        simp only [Res.okOr_some, Res.ok_bind]
        unfold SecuredToken.parseBody
        rcases ht with ⟨rfl, h⟩ | h
        · have : r = base64url pl := by
            rw [hr] at h; exact List.append_cancel_left h
          subst this
          have e0 := splitOnce_eq_none.2 (SecuredToken.dot_not_mem_base64url pl)
          simp only [e0, SecuredToken.decodeVec_base64url]
          rfl
        · have : r = base64url pl ++ asc "." ++ base64url fb := by
            rw [hr] at h
            simp only [List.append_assoc] at h ⊢
            exact List.append_cancel_left h
          subst this
          have e0 : splitOnce dot (base64url pl ++ asc "." ++ base64url fb) =
              some (base64url pl, base64url fb) :=
            splitOnce_eq_some.2 ⟨by simp [asc_dot], SecuredToken.dot_not_mem_base64url pl⟩
          simp only [e0, SecuredToken.decodeVec_base64url]
          rfl
      rw [e]
      refine ⟨?_, ?_, ?_, ?_, ?_, ?_⟩
      · simp only [Res.bind_eq_err, Res.ofExcept_eq_err, reduceCtorEq, and_false, exists_false,
          or_self, false_iff]
        intro h; exact h r hr
      · simp only [Res.bind_eq_err, Res.ofExcept_eq_err, reduceCtorEq, and_false, exists_false,
          or_self, false_iff]
        rintro ⟨r', hr', hb⟩
        rw [hr] at hr'
        rw [List.append_cancel_left hr'] at hg
        exact hb hg
      · intro m
        simp only [Res.bind_eq_err, Res.ofExcept_eq_err, PasetoError.payloadError.injEq,
          reduceCtorEq, and_false, exists_false, or_false]
        constructor
        · rintro ⟨m', h1, rfl⟩; exact ⟨pl, fb, ht, h1⟩
        · rintro ⟨pl', fb', ht', h1⟩
          obtain ⟨rfl, rfl⟩ := C05.grammar_unambiguous ht ht'
          exact ⟨m, h1, rfl⟩
      · simp [Res.bind_eq_err, Res.ofExcept_eq_err]
      · simp [Res.bind_eq_err, Res.ofExcept_eq_err]
      · simp [Res.bind_eq_panic, Res.ofExcept_ne_panic]
    · have hnt : ∀ a b, ¬ IsToken (header v p (Payload.suffix E)) s a b := by
        rintro a b (⟨-, h⟩ | h)
        · apply hg; rw [hr] at h; exact ⟨a, .inl (List.append_cancel_left h)⟩
        · apply hg; rw [hr] at h
          simp only [List.append_assoc] at h
          exact ⟨a, .inr ⟨b, by rw [List.append_cancel_left h, List.append_assoc]⟩⟩
      have e : SecuredToken.parse v p F E s = .err .base64DecodeError := by
        rw [SecuredToken.parse_eq, hs]
        simp only [Res.okOr_some, Res.ok_bind]
        unfold SecuredToken.parseBody
        cases h0 : splitOnce dot r with
        | none =>
          have : B64.decodeVec r = none := by
            rw [SecuredToken.decodeVec_eq_none]
            intro b hb; exact hg ⟨b, .inl hb⟩
          simp only [this]; rfl
        | some x =>
          obtain ⟨a, b⟩ := x
          obtain ⟨h1, h2⟩ := splitOnce_eq_some.1 h0
          simp only
          cases ha : B64.decodeVec a with
          | none => rfl
          | some pl =>
            have : B64.decodeVec b = none := by
              rw [SecuredToken.decodeVec_eq_none]
              intro fb hb
              apply hg
              refine ⟨pl, .inr ⟨fb, ?_⟩⟩
              rw [h1, ← SecuredToken.decodeVec_eq_some.1 ha, hb, asc_dot]; simp
            simp only [this]; rfl
      rw [e]
      refine ⟨?_, ?_, ?_, by simp, by simp, by simp⟩
      · simp only [Res.err.injEq, reduceCtorEq, false_iff]
        intro h; exact h r hr
      · simp only [true_iff]; exact ⟨r, hr, hg⟩
      · intro m
        simp only [Res.err.injEq, reduceCtorEq, false_iff]
        rintro ⟨a, b, ht, -⟩; exact hnt a b ht

/-- All four outcomes occur. -/
example : SecuredToken.parse .V4 .Local Unit (Json Unit) (asc "v4.local.aGk.Zg") =
      .err (.payloadError "unexpected footer [102]") ∧
    SecuredToken.parse .V4 .Local Unit (Json Unit) (asc "v3.local.!") = .err .invalidToken ∧
    SecuredToken.parse .V4 .Local Unit (Json Unit) (asc "v4.local.!") = .err .base64DecodeError ∧
    SecuredToken.parse .V4 .Local Unit (Json Unit) (asc "v4.local.aGk.") =
      .ok ⟨⟨()⟩, asc "hi", [], ()⟩ := by
  refine ⟨?_, rfl, rfl, rfl⟩
  have : (Footer.decode (asc "f") : Except String Unit) =
      .error ("unexpected footer " ++ debugBytes (asc "f")) := rfl
  exact ((token_parse _).2.2.1 _).2 ⟨asc "hi", asc "f", .inr (by decide), this⟩

end C48

namespace C18

/-- A non-empty footer is refused by the unit footer type with a payload error, not ignored; an
empty one is refused by the JSON footer type; a JSON footer that the decoder refuses is refused with
the decoder's error. -/
theorem footer_errors {v : Ver} {p : Purpose} {E : Type} [Payload E] (payload footer : Bytes)
    {T : Type} [Serialize T] [Deserialize T] :
    (footer ≠ [] → ∃ m, SecuredToken.parse v p Unit E
      (tokenText (header v p (Payload.suffix E)) payload footer) = .err (.payloadError m)) ∧
    SecuredToken.parse v p (Json T) E
      (tokenText (header v p (Payload.suffix E)) payload []) =
        .err (.payloadError "missing footer") ∧
    (footer ≠ [] → ∀ m, (Deserialize.fromSlice footer : Except String T) = .error m →
      SecuredToken.parse v p (Json T) E
        (tokenText (header v p (Payload.suffix E)) payload footer) = .err (.payloadError m)) := by
  refine ⟨?_, ?_, ?_⟩
  · intro hf
    refine ⟨"unexpected footer " ++ debugBytes footer, ((C48.token_parse _).2.2.1 _).2
      ⟨payload, footer, SecuredToken.isToken_tokenText _ _ _, ?_⟩⟩
    simp only [Footer.decode, List.isEmpty_iff, if_neg hf]
  · exact ((C48.token_parse _).2.2.1 _).2 ⟨payload, [],
      SecuredToken.isToken_tokenText _ _ _, rfl⟩
  · intro hf m hm
    refine ((C48.token_parse _).2.2.1 _).2 ⟨payload, footer, SecuredToken.isToken_tokenText _ _ _, ?_⟩
    simp only [Footer.decode, List.isEmpty_iff, if_neg hf, hm]

end C18
end Pasta
