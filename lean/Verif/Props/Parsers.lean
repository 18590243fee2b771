import Verif.Props.Grammar
import Verif.Props.Keys
import Verif.Lemmas.Pbkw
import Verif.Lemmas.Pke
import Verif.Model.Serde

/-!
# C47, C48, C49, C53: the parsers of all text forms, their errors, and serde
-/

namespace Pasta

open Spec (header paserkHeader paserkText keyTypeText idTypeText pieType pwType base64url)

/-! ## C47 -/
namespace C47

/-- The PASERK parsers: eleven types for each version. -/
inductive Paserk where
  | plain (v : Ver) (k : Kind)
  | id (v : Ver) (k : Kind)
  | pie (v : Ver) (k : WKind)
  | pw (v : Ver) (k : WKind)
  | sealed (v : Ver)
  deriving DecidableEq

/-- The parser accepts the string. -/
def Paserk.Accepts (P : Prims) : Paserk → Bytes → Prop
  | .plain v k, s => ∃ x, PlaintextKey.parse P v k s = .ok x
  | .id v k, s => ∃ x, KeyId.parse v k s = .ok x
  | .pie v k, s => ∃ x, PieWrappedKey.parse v k s = .ok x
  | .pw v k, s => ∃ x, PwWrappedKey.parse v k s = .ok x
  | .sealed v, s => ∃ x, SealedKey.parse v s = .ok x

/-- `k3.` or `k4.` followed by the type name of the PASERK specification. -/
def Paserk.version : Paserk → Ver
  | .plain v _ | .id v _ | .pie v _ | .pw v _ | .sealed v => v
def Paserk.type : Paserk → Bytes
  | .plain _ k => keyTypeText k
  | .id _ k => idTypeText k
  | .pie _ k => pieType k.kind
  | .pw _ k => pwType k.kind
  | .sealed _ => asc "seal"

/-- What every PASERK parser accepts has the form `version.type.base64url`. -/
theorem accepts_form (P : Prims) (p : Paserk) (s : Bytes) (h : p.Accepts P s) :
    ∃ data, s = paserkText p.version p.type data := by
  cases p with
  | plain v k =>
    obtain ⟨x, h⟩ := h
    obtain ⟨b, h, -⟩ := PlaintextKey.parse_ok_iff.1 h
    exact ⟨_, h⟩
  | id v k => obtain ⟨x, h⟩ := h; exact ⟨_, KeyId.parse_ok_iff.1 h⟩
  | pie v k => obtain ⟨x, h⟩ := h; exact ⟨_, PieWrappedKey.parse_ok_iff.1 h⟩
  | pw v k =>
    obtain ⟨x, h⟩ := h
    obtain ⟨b, h, -⟩ := PwWrappedKey.parse_ok_iff.1 h
    exact ⟨_, h⟩
  | sealed v => obtain ⟨x, h⟩ := h; exact ⟨_, SealedKey.parse_ok_iff.1 h⟩

/-- Texts of that form determine header and data. -/
theorem paserkText_inj {v v' : Ver} {t t' d d' : Bytes}
    (h : paserkText v t d = paserkText v' t' d') :
    paserkHeader v t = paserkHeader v' t' ∧ d = d' := by
  have e : ∀ (v : Ver) (t d : Bytes), paserkText v t d =
      (Spec.paserkVersion v ++ asc "." ++ t) ++ dot :: base64url d := by
    intro v t d; simp [paserkText, paserkHeader, asc_dot]
  have hd : base64url d = base64url d' := by
    apply C07.after_last_dot (a := Spec.paserkVersion v ++ asc "." ++ t)
      (a' := Spec.paserkVersion v' ++ asc "." ++ t')
    · rw [← e, ← e, h]
    · exact SecuredToken.dot_not_mem_base64url _
    · exact SecuredToken.dot_not_mem_base64url _
  refine ⟨?_, SecuredToken.base64url_inj hd⟩
  unfold paserkText at h
  rw [hd] at h
  exact List.append_cancel_right h

/-- No string is accepted by two different PASERK parsers. -/
theorem paserk_unique (P : Prims) (p q : Paserk) (s : Bytes) (hp : p.Accepts P s)
    (hq : q.Accepts P s) : p = q := by
  obtain ⟨d, h1⟩ := accepts_form P p s hp
  obtain ⟨d', h2⟩ := accepts_form P q s hq
  rw [h1] at h2
  have h := (paserkText_inj h2).1
  clear h1 h2 hp hq
  rcases p with ⟨v, k⟩ | ⟨v, k⟩ | ⟨v, k⟩ | ⟨v, k⟩ | v <;>
  rcases q with ⟨v', k'⟩ | ⟨v', k'⟩ | ⟨v', k'⟩ | ⟨v', k'⟩ | v' <;>
  cases v <;> cases v' <;> (try cases k) <;> (try cases k') <;>
  first | rfl | (exfalso; revert h; decide)

/-- No string is accepted by a token parser and by a PASERK parser, whatever the token's version,
purpose, footer type and payload encoding. -/
theorem token_not_paserk (P : Prims) {v : Ver} {u : Purpose} {F E : Type} [Footer F] [Payload E]
    (p : Paserk) (s : Bytes) (t : SecuredToken v u F E) (h : SecuredToken.parse v u F E s = .ok t) :
    ¬ p.Accepts P s := by
  intro hp
  obtain ⟨d, h1⟩ := accepts_form P p s hp
  obtain ⟨r, h2⟩ := C07.isToken_prefix ((SecuredToken.parse_ok_iff s t).1 h).1
  rw [h1] at h2
  have h3 := congrArg List.head? h2
  have e1 : ∀ (v : Ver) (t d : Bytes), (paserkText v t d).head? = some 107 := by
    intro v t d; cases v <;> rfl
  have e2 : ∀ (v : Ver) (u : Purpose) (x r : Bytes), (header v u x ++ r).head? = some 118 := by
    intro v u x r; cases v <;> cases u <;> rfl
  rw [e1, e2] at h3
  exact absurd h3 (by decide)

-- each of the 22 parsers accepts something (shown for the ones that need no key check; the
-- plaintext ones are C25)
example (v : Ver) (k : Kind) (P : Prims) : ∃ s, (Paserk.id v k).Accepts P s :=
  ⟨_, ⟨⟨BytesN.fill 33 7⟩, KeyId.parse_ok_iff.2 rfl⟩⟩
example (v : Ver) (k : WKind) (P : Prims) : ∃ s, (Paserk.pie v k).Accepts P s :=
  ⟨_, ⟨⟨BytesN.fill _ 7, BytesN.fill _ 8, BytesN.fill _ 9⟩, PieWrappedKey.parse_ok_iff.2 rfl⟩⟩
example (v : Ver) (k : WKind) (P : Prims) : ∃ s, (Paserk.pw v k).Accepts P s :=
  ⟨_, ⟨⟨BytesN.fill _ 7, decodeState v (BytesN.fill _ 1), BytesN.fill _ 8, BytesN.fill _ 9,
    BytesN.fill _ 10⟩, PwWrappedKey.parse_ok_iff.2 ⟨_, rfl, rfl⟩⟩⟩
example (v : Ver) (P : Prims) : ∃ s, (Paserk.sealed v).Accepts P s :=
  ⟨_, ⟨⟨BytesN.fill _ 7, BytesN.fill _ 8, BytesN.fill _ 9⟩, SealedKey.parse_ok_iff.2 rfl⟩⟩
example (v : Ver) (k : Kind) (key : Key Toy.prims v k) :
    ∃ s, (Paserk.plain v k).Accepts Toy.prims s :=
  ⟨_, ⟨⟨key⟩, PlaintextKey.parse_ok_iff.2 ⟨key.toBytes, rfl, Key.fromBytes_toBytes Toy.laws key⟩⟩⟩

/-- A token's text is accepted by no PASERK parser. -/
example (p : Paserk) : ¬ p.Accepts Toy.prims (asc "v4.public.aGk.Zg") :=
  token_not_paserk (v := .V4) (u := .Public) (F := Bytes) (E := Json Unit) Toy.prims p _
    ⟨⟨()⟩, asc "hi", asc "f", asc "f"⟩ rfl

end C47

/-! ## C48, PASERK parsers -/
namespace C48

/-- The complete behaviour of a parser of `header` followed by the base64url text of `n` bytes,
some of which (`Bad`) are not valid key material: which error comes when, in order of precedence,
and that there is nothing else. -/
structure Outcomes {α : Type} (parse : Bytes → Res α) (head : Bytes) (n : Nat)
    (Bad : BytesN n → Prop) : Prop where
  /-- A wrong header is `InvalidToken`, whatever follows; and nothing else is. -/
  invalidToken : ∀ s, parse s = .err .invalidToken ↔ ∀ r, s ≠ head ++ r
  /-- With the right header, text that is not the base64url of exactly `n` bytes is
  `Base64DecodeError`. -/
  base64 : ∀ s, parse s = .err .base64DecodeError ↔
    ∃ r, s = head ++ r ∧ ∀ b : BytesN n, r ≠ base64url b.1
  /-- Otherwise bad key material is `InvalidKey`. -/
  invalidKey : ∀ s, parse s = .err .invalidKey ↔ ∃ b : BytesN n, s = head ++ base64url b.1 ∧ Bad b
  /-- Everything else is accepted. -/
  accepts : ∀ s, (∃ a, parse s = .ok a) ↔ ∃ b : BytesN n, s = head ++ base64url b.1 ∧ ¬ Bad b
  no_crypto : ∀ s, parse s ≠ .err .cryptoError
  no_payload : ∀ s m, parse s ≠ .err (.payloadError m)
  no_panic : ∀ s, parse s ≠ .panic

theorem outcomes_of {α : Type} {head : Bytes} {n : Nat} {Bad : BytesN n → Prop}
    (parse : Bytes → Res α) (f : BytesN n → Res α)
    (he : ∀ s, parse s =
      (Res.okOr .invalidToken (stripPrefix head s) >>= fun s => readB64 n s >>= f))
    (hbad : ∀ b, Bad b → f b = .err .invalidKey) (hok : ∀ b, ¬ Bad b → ∃ a, f b = .ok a) :
    Outcomes parse head n Bad := by
  have key : ∀ s, (parse s = .err .invalidToken ∧ ∀ r, s ≠ head ++ r) ∨
      (parse s = .err .base64DecodeError ∧ ∃ r, s = head ++ r ∧ ∀ b : BytesN n, r ≠ base64url b.1) ∨
      (∃ b : BytesN n, s = head ++ base64url b.1 ∧ Bad b ∧ parse s = .err .invalidKey) ∨
      (∃ b : BytesN n, s = head ++ base64url b.1 ∧ ¬ Bad b ∧ ∃ a, parse s = .ok a) := by
    intro s
    rw [he s]
    cases hs : stripPrefix head s with
    | none => exact .inl ⟨rfl, stripPrefix_eq_none.1 hs⟩
    | some r =>
      have hr := stripPrefix_eq_some.1 hs
      simp only [Res.okOr_some, Res.ok_bind]
      right
      by_cases hb : ∃ b : BytesN n, r = base64url b.1
      · right
        obtain ⟨b, rfl⟩ := hb
        rw [readB64_eq_ok.2 rfl]
        simp only [Res.ok_bind]
        by_cases hbb : Bad b
        · exact .inl ⟨b, hr, hbb, hbad b hbb⟩
        · exact .inr ⟨b, hr, hbb, hok b hbb⟩
      · left
        have hb' : ∀ b : BytesN n, r ≠ base64url b.1 := fun b h => hb ⟨b, h⟩
        rw [readB64_err hb']
        exact ⟨rfl, r, hr, hb'⟩
  have inj : ∀ b b' : BytesN n, head ++ base64url b.1 = head ++ base64url b'.1 → b = b' :=
    fun b b' h => Subtype.ext (SecuredToken.base64url_inj (List.append_cancel_left h))
  constructor
  · intro s
    rcases key s with ⟨h1, h2⟩ | ⟨h1, r, h2, h3⟩ | ⟨b, h2, h3, h1⟩ | ⟨b, h2, h3, a, h1⟩ <;>
      simp only [h1, Res.err.injEq, reduceCtorEq, true_iff, false_iff]
    · exact h2
    · exact fun h => h r h2
    · exact fun h => h _ h2
    · exact fun h => h _ h2
  · intro s
    rcases key s with ⟨h1, h2⟩ | ⟨h1, r, h2, h3⟩ | ⟨b, h2, h3, h1⟩ | ⟨b, h2, h3, a, h1⟩ <;>
      simp only [h1, Res.err.injEq, reduceCtorEq, true_iff, false_iff]
    · rintro ⟨r, h, -⟩; exact h2 r h
    · exact ⟨r, h2, h3⟩
    · rintro ⟨r, h, h'⟩; rw [h2] at h; exact h' b (List.append_cancel_left h).symm
    · rintro ⟨r, h, h'⟩; rw [h2] at h; exact h' b (List.append_cancel_left h).symm
  · intro s
    rcases key s with ⟨h1, h2⟩ | ⟨h1, r, h2, h3⟩ | ⟨b, h2, h3, h1⟩ | ⟨b, h2, h3, a, h1⟩ <;>
      simp only [h1, Res.err.injEq, reduceCtorEq, true_iff, false_iff]
    · rintro ⟨b, h, -⟩; exact h2 _ h
    · rintro ⟨b, h, -⟩; rw [h2] at h; exact h3 b (List.append_cancel_left h)
    · exact ⟨b, h2, h3⟩
    · rintro ⟨b', h, h'⟩; rw [h2] at h; rw [inj _ _ h] at h3; exact h3 h'
  · intro s
    rcases key s with ⟨h1, h2⟩ | ⟨h1, r, h2, h3⟩ | ⟨b, h2, h3, h1⟩ | ⟨b, h2, h3, a, h1⟩ <;>
      simp only [h1, Res.ok.injEq, reduceCtorEq, exists_false, exists_eq', true_iff, false_iff]
    · rintro ⟨b, h, -⟩; exact h2 _ h
    · rintro ⟨b, h, -⟩; rw [h2] at h; exact h3 b (List.append_cancel_left h)
    · rintro ⟨b', h, h'⟩; rw [h2] at h; rw [inj _ _ h] at h3; exact h' h3
    · exact ⟨b, h2, h3⟩
  · intro s
    rcases key s with ⟨h1, -⟩ | ⟨h1, -⟩ | ⟨b, -, -, h1⟩ | ⟨b, -, -, a, h1⟩ <;> simp [h1]
  · intro s m
    rcases key s with ⟨h1, -⟩ | ⟨h1, -⟩ | ⟨b, -, -, h1⟩ | ⟨b, -, -, a, h1⟩ <;> simp [h1]
  · intro s
    rcases key s with ⟨h1, -⟩ | ⟨h1, -⟩ | ⟨b, -, -, h1⟩ | ⟨b, -, -, a, h1⟩ <;> simp [h1]

/-- Data lengths in bytes of the wrapped forms: tag, nonce and key; salt, parameters, nonce, key and
tag; tag, ephemeral key and key. -/
def pieData (v : Ver) (k : WKind) : Nat := Spec.tagLen v + 32 + Spec.keyBytes v k.kind
def pwData : Ver → WKind → Nat
  | .V3, k => 32 + 4 + 16 + Spec.keyBytes .V3 k.kind + 48
  | .V4, k => 16 + 16 + 24 + Spec.keyBytes .V4 k.kind + 32
def sealData : Ver → Nat
  | .V3 => 48 + 49 + 32
  | .V4 => 32 + 32 + 32

/-- Plaintext keys. Which key material is bad is C28 and C26. -/
theorem plaintext_parse (P : Prims) (v : Ver) (k : Kind) :
    Outcomes (PlaintextKey.parse P v k) (paserkHeader v (keyTypeText k)) (keyLen v k)
      (fun b => Key.fromBytes P v k b = .err .invalidKey) := by
  refine outcomes_of _ _ (fun s => PlaintextKey.parse_eq P v k s) ?_ ?_
  · intro b hb; rw [hb]; rfl
  · intro b hb
    rcases Key.fromBytes_cases b with ⟨a, h⟩ | h
    · exact ⟨⟨a⟩, by rw [h]; rfl⟩
    · exact absurd h hb

/-- Key ids. -/
theorem id_parse (v : Ver) (k : Kind) :
    Outcomes (KeyId.parse v k) (paserkHeader v (idTypeText k)) 33 (fun _ => False) :=
  outcomes_of _ _ (fun s => KeyId.parse_eq v k s) (fun _ h => h.elim) (fun _ _ => ⟨_, rfl⟩)

/-- PIE-wrapped keys. -/
theorem pie_parse (v : Ver) (k : WKind) :
    Outcomes (PieWrappedKey.parse v k) (paserkHeader v (pieType k.kind)) (pieData v k)
      (fun _ => False) := by
  have h := outcomes_of (Bad := fun _ => False) _ _ (fun s => PieWrappedKey.parse_eq v k s)
    (fun _ h => h.elim) (fun _ _ => ⟨_, rfl⟩)
  cases v <;> cases k <;> exact h

/-- Password-wrapped keys: whatever the settings claim, the text is accepted. -/
theorem pw_parse (v : Ver) (k : WKind) :
    Outcomes (PwWrappedKey.parse v k) (paserkHeader v (pwType k.kind)) (pwData v k)
      (fun _ => False) := by
  have h := outcomes_of (Bad := fun _ => False) _ _ (fun s => PwWrappedKey.parse_eq v k s)
    (fun _ h => h.elim) (fun _ _ => ⟨_, rfl⟩)
  cases v <;> cases k <;> exact h

/-- Sealed keys: the ephemeral public key is not checked here. -/
theorem seal_parse (v : Ver) :
    Outcomes (SealedKey.parse v) (paserkHeader v (asc "seal")) (sealData v) (fun _ => False) := by
  have h := outcomes_of (Bad := fun _ => False) _ _ (fun s => SealedKey.parse_eq v s)
    (fun _ h => h.elim) (fun _ _ => ⟨_, rfl⟩)
  cases v <;> exact h

-- every outcome of the plaintext parser occurs
example : PlaintextKey.parse Toy.prims .V4 .Secret (asc "k4.local.AA==") = .err .invalidToken ∧
    PlaintextKey.parse Toy.prims .V4 .Secret (asc "k4.secret.AA") = .err .base64DecodeError ∧
    (∃ s x, PlaintextKey.parse Toy.prims .V4 .Secret s = .ok x) := by
  refine ⟨rfl, rfl, _, ⟨Toy.v4Secret⟩, PlaintextKey.parse_ok_iff.2
    ⟨_, rfl, Key.fromBytes_toBytes Toy.laws _⟩⟩

end C48

/-! ## C49 -/
namespace C49

/-- What serde support means for a type with `Display` and `FromStr`: serializing gives the printed
text as a string; a string is deserialized exactly as it is parsed, errors included; anything that
is not a string is refused; and a serialized value is deserialized to itself. -/
structure TextSerde {α : Type} (serialize : α → Res SerdeValue)
    (deserialize : SerdeValue → SerdeRes α) (text : α → Bytes) (parse : Bytes → Res α) : Prop where
  serialize_text : ∀ x, serialize x = .ok (.str (text x))
  accepts : ∀ s x, deserialize (.str s) = .ok x ↔ parse s = .ok x
  rejects : ∀ s m, deserialize (.str s) = .custom m ↔ ∃ e, parse s = .err e ∧ m = e.display
  type_error : ∀ s, deserialize (.str s) ≠ .invalidType
  non_string : deserialize .other = .invalidType
  no_panic : ∀ d, deserialize d ≠ .panic

theorem textSerde_of {α : Type} (display : α → Res Bytes) (text : α → Bytes)
    (parse : Bytes → Res α) (h : ∀ x, display x = .ok (text x)) (hp : ∀ s, parse s ≠ .panic) :
    TextSerde (fun x => collectStr (display x)) (deserializeStr parse) text parse where
  serialize_text x := by rw [h]; rfl
  accepts s x := by
    unfold deserializeStr
    dsimp only
    generalize parse s = r
    cases r <;> simp
  rejects s m := by
    unfold deserializeStr
    dsimp only
    generalize parse s = r
    cases r with
    | ok a => simp
    | err e =>
      simp only [SerdeRes.custom.injEq, Res.err.injEq, exists_eq_left']
      exact ⟨fun h => h.symm, fun h => h.symm⟩
    | panic => simp
  type_error s := by
    unfold deserializeStr
    dsimp only
    generalize parse s = r
    cases r <;> simp
  non_string := rfl
  no_panic d := by
    cases d with
    | other => simp [deserializeStr]
    | str s =>
      have := hp s
      unfold deserializeStr
      dsimp only
      generalize parse s = r at this
      cases r <;> simp_all

theorem token (v : Ver) (p : Purpose) (F E : Type) [Footer F] [Payload E] :
    TextSerde SecuredToken.serialize (SecuredToken.deserialize v p F E)
      (fun t => Spec.tokenText (header v p (Payload.suffix E)) t.payload t.encodedFooter)
      (SecuredToken.parse v p F E) :=
  textSerde_of (fun t : SecuredToken v p F E => .ok t.display) _ _ (fun t => by rw [SecuredToken.display_eq])
    (fun s => (C48.token_parse s).2.2.2.2.2)

theorem plaintext (P : Prims) (v : Ver) (k : Kind) :
    TextSerde PlaintextKey.serialize (PlaintextKey.deserialize P v k)
      (fun x => paserkText v (keyTypeText k) x.key.toBytes.1) (PlaintextKey.parse P v k) :=
  textSerde_of _ _ _ PlaintextKey.display_eq (C48.plaintext_parse P v k).no_panic

theorem keyId (v : Ver) (k : Kind) :
    TextSerde KeyId.serialize (KeyId.deserialize v k)
      (fun x => paserkText v (idTypeText k) x.id.1) (KeyId.parse v k) :=
  textSerde_of _ _ _ KeyId.display_eq (C48.id_parse v k).no_panic

theorem pie (v : Ver) (k : WKind) :
    TextSerde PieWrappedKey.serialize (PieWrappedKey.deserialize v k)
      (fun x => paserkText v (pieType k.kind) (x.tag.1 ++ x.nonce.1 ++ x.wrappedKey.1))
      (PieWrappedKey.parse v k) :=
  textSerde_of _ _ _ PieWrappedKey.display_eq (C48.pie_parse v k).no_panic

theorem pw (v : Ver) (k : WKind) :
    TextSerde PwWrappedKey.serialize (PwWrappedKey.deserialize v k)
      (fun x => paserkText v (pwType k.kind)
        (x.salt.1 ++ (specParams x.state).encode ++ x.nonce.1 ++ x.edk.1 ++ x.tag.1))
      (PwWrappedKey.parse v k) :=
  textSerde_of _ _ _ PwWrappedKey.display_eq (C48.pw_parse v k).no_panic

theorem sealed (v : Ver) :
    TextSerde SealedKey.serialize (SealedKey.deserialize v)
      (fun x => paserkText v (asc "seal")
        (x.tag.1 ++ x.ephemeralPublicKey.1 ++ x.encryptedDataKey.1)) (SealedKey.parse v) :=
  textSerde_of _ _ _ SealedKey.display_eq (C48.seal_parse v).no_panic

/-- The serialized text is what `Display` prints, for every type. -/
theorem serialize_is_display :
    (∀ (v : Ver) (p : Purpose) (F E : Type) [Payload E] (t : SecuredToken v p F E),
      t.serialize = .ok (.str t.display)) ∧
    (∀ (P : Prims) (v : Ver) (k : Kind) (x : PlaintextKey P v k) (s : Bytes),
      x.serialize = .ok (.str s) ↔ x.display = .ok s) ∧
    (∀ (v : Ver) (k : Kind) (x : KeyId v k) (s : Bytes),
      x.serialize = .ok (.str s) ↔ x.display = .ok s) ∧
    (∀ (v : Ver) (k : WKind) (x : PieWrappedKey v k) (s : Bytes),
      x.serialize = .ok (.str s) ↔ x.display = .ok s) ∧
    (∀ (v : Ver) (k : WKind) (x : PwWrappedKey v k) (s : Bytes),
      x.serialize = .ok (.str s) ↔ x.display = .ok s) ∧
    (∀ (v : Ver) (x : SealedKey v) (s : Bytes),
      x.serialize = .ok (.str s) ↔ x.display = .ok s) := by
  refine ⟨fun _ _ _ _ _ _ => rfl, fun P v k x s => ?_, fun v k x s => ?_, fun v k x s => ?_,
    fun v k x s => ?_, fun v x s => ?_⟩
  · rw [(plaintext P v k).serialize_text, PlaintextKey.display_eq]; simp
  · rw [(keyId v k).serialize_text, KeyId.display_eq]; simp
  · rw [(pie v k).serialize_text, PieWrappedKey.display_eq]; simp [PieWrappedKey.data]
  · rw [(pw v k).serialize_text, PwWrappedKey.display_eq]; simp [PwWrappedKey.dataWith]
  · rw [(sealed v).serialize_text, SealedKey.display_eq]; simp [SealedKey.data]

/-- A value serialized and deserialized again is unchanged. -/
theorem roundtrip (P : Prims) (L : P.Laws) :
    (∀ (v : Ver) (p : Purpose) (F E : Type) [Footer F] [Payload E] (t : SecuredToken v p F E) d,
      Footer.decode t.encodedFooter = .ok t.footer → t.serialize = .ok d →
      ∃ t', SecuredToken.deserialize v p F E d = .ok t' ∧
        t' = { t with encoding := Payload.default }) ∧
    (∀ (v : Ver) (k : Kind) (x : PlaintextKey P v k) d, x.serialize = .ok d →
      PlaintextKey.deserialize P v k d = .ok x) ∧
    (∀ (v : Ver) (k : Kind) (x : KeyId v k) d, x.serialize = .ok d →
      KeyId.deserialize v k d = .ok x) ∧
    (∀ (v : Ver) (k : WKind) (x : PieWrappedKey v k) d, x.serialize = .ok d →
      PieWrappedKey.deserialize v k d = .ok x) ∧
    (∀ (v : Ver) (k : WKind) (x : PwWrappedKey v k) d, x.serialize = .ok d →
      PwWrappedKey.deserialize v k d = .ok x) ∧
    (∀ (v : Ver) (x : SealedKey v) d, x.serialize = .ok d →
      SealedKey.deserialize v d = .ok x) := by
  refine ⟨fun v p F E _ _ t d hf h => ?_, fun v k x d h => ?_, fun v k x d h => ?_,
    fun v k x d h => ?_, fun v k x d h => ?_, fun v x d h => ?_⟩
  · rw [(token v p F E).serialize_text] at h
    cases h
    refine ⟨_, ((token v p F E).accepts _ _).2 ?_, rfl⟩
    exact (SecuredToken.parse_ok_iff _ _).2
      ⟨SecuredToken.isToken_tokenText _ _ _, hf, rfl⟩
  · rw [(plaintext P v k).serialize_text] at h
    cases h
    exact ((plaintext P v k).accepts _ _).2
      (PlaintextKey.parse_ok_iff.2 ⟨_, rfl, Key.fromBytes_toBytes L _⟩)
  · rw [(keyId v k).serialize_text] at h
    cases h
    exact ((keyId v k).accepts _ _).2 (KeyId.parse_ok_iff.2 rfl)
  · rw [(pie v k).serialize_text] at h
    cases h
    exact ((pie v k).accepts _ _).2 (PieWrappedKey.parse_ok_iff.2 rfl)
  · rw [(pw v k).serialize_text] at h
    cases h
    refine ((pw v k).accepts _ _).2 ?_
    have := PwWrappedKey.parse_display x
    rw [PwWrappedKey.display_eq] at this
    exact this
  · rw [(sealed v).serialize_text] at h
    cases h
    exact ((sealed v).accepts _ _).2 (SealedKey.parse_ok_iff.2 rfl)

-- a string that is accepted, one that is refused, and a non-string
example : (KeyId.deserialize .V4 .Local (.str (asc "k4.lid.")) =
      .custom PasetoError.base64DecodeError.display) ∧
    (KeyId.deserialize .V4 .Local .other = .invalidType) ∧
    (∃ s x, KeyId.deserialize .V4 .Local (.str s) = .ok x) :=
  ⟨rfl, rfl, _, ⟨BytesN.fill 33 7⟩, ((keyId .V4 .Local).accepts _ _).2 (KeyId.parse_ok_iff.2 rfl)⟩

end C49

/-! ## C53 -/
namespace C53

/-- `source()` is the encoding's or footer's own error, present exactly for `PayloadError`. -/
theorem source_iff (e : PasetoError) (m : String) : e.source = some m ↔ e = .payloadError m := by
  cases e <;> simp [PasetoError.source]

/-- Errors of the other variants have one fixed text each, and these differ. -/
theorem display_constant (e : PasetoError) (h : e.source = none) :
    e.display ∈ ["The token could not be base64 decoded", "Could not parse the key",
      "Could not parse the token", "Token signature could not be validated"] ∧
    ∀ e' : PasetoError, e'.source = none → e'.display = e.display → e' = e := by
  have ne : ∀ {a b : String}, decide (a = b) = false → a ≠ b := fun h => of_decide_eq_false h
  refine ⟨?_, fun e' h' hd => ?_⟩
  · cases e with
    | payloadError m => cases h
    | base64DecodeError => exact .head _
    | invalidKey => exact .tail _ (.head _)
    | invalidToken => exact .tail _ (.tail _ (.head _))
    | cryptoError => exact .tail _ (.tail _ (.tail _ (.head _)))
  cases e with
  | payloadError m => cases h
  | base64DecodeError =>
    cases e' with
    | payloadError m => cases h'
    | base64DecodeError => rfl
    | invalidKey => exact absurd hd (ne (a :=
        "Could not parse the key") (b := "The token could not be base64 decoded") (by decide +kernel))
    | invalidToken => exact absurd hd (ne (a :=
        "Could not parse the token") (b := "The token could not be base64 decoded") (by decide +kernel))
    | cryptoError => exact absurd hd (ne (a :=
        "Token signature could not be validated") (b := "The token could not be base64 decoded") (by decide +kernel))
  | invalidKey =>
    cases e' with
    | payloadError m => cases h'
    | base64DecodeError => exact absurd hd (ne (a :=
        "The token could not be base64 decoded") (b := "Could not parse the key") (by decide +kernel))
    | invalidKey => rfl
    | invalidToken => exact absurd hd (ne (a :=
        "Could not parse the token") (b := "Could not parse the key") (by decide +kernel))
    | cryptoError => exact absurd hd (ne (a :=
        "Token signature could not be validated") (b := "Could not parse the key") (by decide +kernel))
  | invalidToken =>
    cases e' with
    | payloadError m => cases h'
    | base64DecodeError => exact absurd hd (ne (a :=
        "The token could not be base64 decoded") (b := "Could not parse the token") (by decide +kernel))
    | invalidKey => exact absurd hd (ne (a :=
        "Could not parse the key") (b := "Could not parse the token") (by decide +kernel))
    | invalidToken => rfl
    | cryptoError => exact absurd hd (ne (a :=
        "Token signature could not be validated") (b := "Could not parse the token") (by decide +kernel))
  | cryptoError =>
    cases e' with
    | payloadError m => cases h'
    | base64DecodeError => exact absurd hd (ne (a :=
        "The token could not be base64 decoded") (b := "Token signature could not be validated") (by decide +kernel))
    | invalidKey => exact absurd hd (ne (a :=
        "Could not parse the key") (b := "Token signature could not be validated") (by decide +kernel))
    | invalidToken => exact absurd hd (ne (a :=
        "Could not parse the token") (b := "Token signature could not be validated") (by decide +kernel))
    | cryptoError => rfl

/-- So outside payload errors the text carries nothing of the token or key: whatever any two
failing calls were given, equal variants print equally. The text of a payload error is a fixed
prefix and the text of its source. -/
theorem display_payload (m : String) :
    (PasetoError.payloadError m).display = "there was an error with the payload encoding: " ++ m :=
  rfl

example : PasetoError.cryptoError.source = none := rfl

end C53
end Pasta
