import Verif.Lemmas.JsonRecord
import Verif.Props.Harness
import Verif.Props.Service

/-!
# C79: the claims of the documented usage

The payload of the documented usage is a JSON struct with an expiry time and a subject. What the
receiver reads in a verified token are the claims that the signer put there.
-/

namespace Pasta

open JsonText (strBytes)
open Spec (header IsToken Fits)

namespace C79

variable {P : Prims} {v : Ver} {Time Id : Type} [TextField Time] [TextField Id]

/-- The JSON text spells these claims: `exp` and `sub` each occur once in it, with texts of the
expiry time and of the subject. -/
def Spells (c : Claims Time Id) (b : Bytes) : Prop :=
  ∃ e s : String, Spec.Json.Record [("exp", e), ("sub", s)] b ∧
    TextField.read e = some c.expiration ∧ TextField.read s = some c.userId

/-- The texts that are written for the two claims are read back as the claims. -/
def Survives (c : Claims Time Id) : Prop :=
  ∃ e s : String, TextField.write c.expiration = some e ∧ TextField.read e = some c.expiration ∧
    TextField.write c.userId = some s ∧ TextField.read s = some c.userId

/-- Structs with any number of string fields of different names: what is read, and from which texts
(RFC 8259). -/
theorem record_read_iff (names values : List String) (hne : names ≠ []) (b : Bytes) :
    JsonText.fromSliceRecord names b = .ok values ↔
      values.length = names.length ∧ Spec.Json.Record (names.zip values) b :=
  JsonText.fromSliceRecord_iff names values hne b

/-- What is written for such a struct is one of its texts, and is read back. -/
theorem record_written (fields : List (String × String)) (hne : fields ≠ [])
    (hd : (fields.map Prod.fst).Nodup) :
    Spec.Json.Record fields (JsonText.writeRecord fields) ∧
    JsonText.fromSliceRecord (fields.map Prod.fst) (JsonText.writeRecord fields) =
      .ok (fields.map Prod.snd) := by
  refine ⟨JsonText.writeRecord_record fields hne hd, ?_⟩
  rw [record_read_iff _ _ (by simpa using hne)]
  refine ⟨by simp, ?_⟩
  rw [List.zip_map', List.map_id']
  exact JsonText.writeRecord_record fields hne hd

/-- An object in which one of the fields is missing or repeated is refused, whatever its values. -/
theorem record_refused (names : List String) (name : String) (hn : name ∈ names) (a b body : Bytes)
    (fs : List (String × Bytes)) (ha : Spec.Json.Ws a) (hf : Spec.Json.Fields fs body)
    (h : (fs.filter fun f => f.1 = name).length ≠ 1) :
    JsonText.fromSliceRecord names (a ++ 0x7b :: (body ++ 0x7d :: b)) = .error "json" :=
  JsonText.fromSliceRecord_refused names name hn ha hf h

/-- In particular a payload with two expiry times, two subjects, or without one of them. -/
theorem claims_refused (name : String) (hn : name = "exp" ∨ name = "sub") (a b body : Bytes)
    (fs : List (String × Bytes)) (ha : Spec.Json.Ws a) (hf : Spec.Json.Fields fs body)
    (h : (fs.filter fun f => f.1 = name).length ≠ 1) :
    (Deserialize.fromSlice (a ++ 0x7b :: (body ++ 0x7d :: b)) :
      Except String (Claims Time Id)) = .error "json" := by
  simp only [Deserialize.fromSlice]
  rw [record_refused ["exp", "sub"] name (by simpa using hn) a b body fs ha hf h]

/-- The claims are read exactly from the texts that spell them. -/
theorem read_iff (b : Bytes) (c : Claims Time Id) :
    Deserialize.fromSlice b = .ok c ↔ Spells c b := by
  have key : ∀ values : List String, JsonText.fromSliceRecord ["exp", "sub"] b = .ok values ↔
      values.length = 2 ∧ Spec.Json.Record (["exp", "sub"].zip values) b := fun values =>
    record_read_iff _ values (by simp) b
  constructor
  · intro h
    simp only [Deserialize.fromSlice] at h
    split at h
    · rename_i e s hr
      split at h
      · rename_i e' s' he hs
        cases h
        exact ⟨e, s, ((key _).1 hr).2, he, hs⟩
      · cases h
    · cases h
  · rintro ⟨e, s, hr, he, hs⟩
    have := (key [e, s]).2 ⟨rfl, hr⟩
    simp only [Deserialize.fromSlice]
    rw [this]
    simp only [he, hs]

/-- A text spells at most one set of claims. -/
theorem one_meaning (b : Bytes) (c c' : Claims Time Id) (h : Spells c b) (h' : Spells c' b) :
    c = c' := by
  have h1 := (read_iff b c).2 h
  rw [(read_iff b c').2 h'] at h1
  exact (Except.ok.inj h1).symm

/-- The text that is written for claims spells them. -/
theorem written (c : Claims Time Id) (hc : Survives c) :
    ∃ b, Serialize.toVec c = .ok b ∧ Spells c b ∧ Deserialize.fromSlice b = .ok c := by
  obtain ⟨e, s, h1, h2, h3, h4⟩ := hc
  have hs : Spells c (JsonText.writeRecord [("exp", e), ("sub", s)]) :=
    ⟨e, s, (record_written _ (by simp) (by simp)).1, h2, h4⟩
  refine ⟨_, ?_, hs, (read_iff _ c).2 hs⟩
  simp only [Serialize.toVec]
  rw [h1, h3]

/-- Nothing else is ever written: what is written for claims is a text of both, each as it is written. -/
theorem written_only (c : Claims Time Id) (b : Bytes) (h : Serialize.toVec c = .ok b) :
    ∃ e s : String, TextField.write c.expiration = some e ∧ TextField.write c.userId = some s ∧
      Spec.Json.Record [("exp", e), ("sub", s)] b := by
  simp only [Serialize.toVec] at h
  split at h
  · rename_i e s h1 h2
    cases h
    exact ⟨e, s, h1, h2, (record_written _ (by simp) (by simp)).1⟩
  · cases h

/-- Claims of which one cannot be written are not signed: there is an error, and no token. -/
theorem unwritten_unsigned {F : Type} [Footer F] (c : Claims Time Id)
    (h : TextField.write c.expiration = none ∨ TextField.write c.userId = none)
    (t : TokenBuilder v .Public (Claims Time Id) F (Json Unit)) (ht : t.tok.message = c)
    (sk : Key P v .Secret) (implicit : Bytes) :
    ∃ e, t.signWithAssertions P sk implicit = .err e := by
  have he : ∃ x, (Serialize.toVec c : Except String Bytes) = .error x := by
    cases hw : (Serialize.toVec c : Except String Bytes) with
    | error x => exact ⟨x, rfl⟩
    | ok b =>
      obtain ⟨e, s, h1, h2, -⟩ := written_only c b hw
      rcases h with h | h
      · rw [h] at h1; cases h1
      · rw [h] at h2; cases h2
  obtain ⟨x, hx⟩ := he
  unfold TokenBuilder.signWithAssertions
  rw [ht]
  simp only [MessageEncoding.encode]
  rw [hx]
  exact ⟨_, rfl⟩

/-- The documented program: for all keys with different ids, a token for any claims, whose footer
names the key it is signed with, is accepted with these claims (unless signing panics, V3 only). -/
theorem documented_program (L : P.Laws) (c : Claims Time Id) (hc : Survives c)
    (keys : List (Key P v .Public)) (hd : C50.Distinct keys) (sk : Key P v .Secret)
    (hsk : sk.publicKey ∈ keys) :
    ∃ kid, sk.publicKey.toId = .ok kid ∧
      (((TokenBuilder.new v .Public c).withFooter (Json.mk (KidFooter.mk kid))).sign P sk ≠
        .panic →
      ∃ cache tok, KeyCache.ofKeys [] keys = .ok cache ∧
        ((TokenBuilder.new v .Public c).withFooter (Json.mk (KidFooter.mk kid))).sign P sk =
          .ok tok ∧
        verifyWithCache (E := Json Unit) (Claims Time Id) (fun f : Json (KidFooter v) => f.val.kid)
          cache tok.display = .ok ⟨⟨()⟩, c, ⟨⟨kid⟩⟩⟩) := by
  obtain ⟨b, h1, -, h2⟩ := written c hc
  exact C50.documented_flow L c ⟨b, h1, h2⟩ keys hd sk hsk

/-- The claims of an accepted token are those that its payload spells, and its footer names the key
that accepted it. -/
theorem accepted_spells (keys : KeyCache P v) (text : Bytes)
    (out : ValidatedToken v .Public (Claims Time Id) (Json (KidFooter v)) (Json Unit))
    (h : verifyWithCache _ (fun f : Json (KidFooter v) => f.val.kid) keys text = .ok out) :
    ∃ m sig f s, IsToken (header v .Public (asc "")) text (m ++ sig) f ∧
      sig.length = Spec.sigLen v ∧ Spells out.message m ∧
      Spec.Json.Struct "kid" s f ∧
      Spec.Json.utf8 s = Spec.paserkText v (Spec.idTypeText .Public) out.footer.val.kid.id.1 := by
  obtain ⟨t, ht, h⟩ := Res.bind_eq_ok.1 h
  obtain ⟨key, hk, h⟩ := Res.bind_eq_ok.1 h
  have hfo := C19.verify_footer P t key [] out h
  obtain ⟨h4, h5, h6⟩ := (C05.parse_iff text t).1 ht
  have h : t.verifyWithAssertions _ P key [] = .ok out := h
  have hs : sigSize v ≤ t.payload.length := by
    apply Nat.le_of_not_lt
    intro hlt
    have := (C13.verify_panic_iff P (M := Claims Time Id) t key []).2 (.inl (by rw [← sigSize_eq]; exact hlt))
    rw [h] at this
    cases this
  obtain ⟨m, sig, hp⟩ := public_payload_split (sigSize v) t.payload hs
  rw [verify_split t key [] m sig hp] at h
  obtain ⟨b, -, h⟩ := Res.bind_eq_ok.1 h
  split at h
  · obtain ⟨c, hm, h⟩ := Res.bind_eq_ok.1 h
    cases h
    have hm := Res.ofExcept_eq_ok.1 hm
    have hfo : Footer.decode t.encodedFooter = .ok t.footer := h5
    obtain ⟨⟨i⟩, hi⟩ : ∃ k : KidFooter v, t.footer = ⟨k⟩ := ⟨t.footer.val, rfl⟩
    rw [hi] at hfo
    simp only [Footer.decode] at hfo
    split at hfo
    · cases hfo
    · split at hfo
      · rename_i k hk
        cases hfo
        obtain ⟨s, hs1, hs2⟩ := (C18.kidFooter_grammar v t.encodedFooter i).1 hk
        exact ⟨m, sig.1, t.encodedFooter, s, hp ▸ h4, by rw [sig.2, sigSize_eq],
          (read_iff m c).1 hm, hs1, by show _ = Spec.paserkText _ _ t.footer.val.kid.id.1; rw [hi]; exact hs2⟩
      · cases hfo
  · cases h

/-- Nobody but the holder of the key makes claims: if every payload that `sk` signed was the text of
issued claims, then the claims of an accepted token that names the key of `sk` are issued claims (or
the token carries a signature of bytes that `sk` has never signed). -/
theorem claims_were_issued (h : List (C78.Action P v)) (hh : C78.Honest h)
    (sk : Key P v .Secret) (issued : List (Claims Time Id)) (hc : ∀ c ∈ issued, Survives c)
    (hi : ∀ e, .sign sk e ∈ h → ∃ c ∈ issued, Serialize.toVec c = .ok e.message)
    (text : Bytes) (hs : Fits text)
    (out : ValidatedToken v .Public (Claims Time Id) (Json (KidFooter v)) (Json Unit))
    (hok : verifyWithCache _ (fun f : Json (KidFooter v) => f.val.kid) (C78.keysAfter h) text =
      .ok out)
    (hkid : ∀ key, C78.InForce h out.footer.val.kid key → key = sk.publicKey) :
    out.message ∈ issued ∨
    ∃ m sig f, IsToken (header v .Public (asc "")) text (m ++ sig) f ∧
      Spec.sigValid P v sk.publicKey.key (header v .Public (asc "")) m f [] sig ∧
      ∀ e, .sign sk e ∈ h →
        signedBytes P v sk.publicKey.key (header v .Public e.suffix) e.message e.footer
          e.implicit ≠
        signedBytes P v sk.publicKey.key (header v .Public (asc "")) m f [] := by
  obtain ⟨key, hf, ha⟩ := C78.accepted (fun f : Json (KidFooter v) => f.val.kid) h hh text hs out hok
  rcases ha sk (hkid key hf).symm with ⟨e, he, -, -, -, hm⟩ | hforged
  · left
    obtain ⟨c, hc1, hc2⟩ := hi e he
    obtain ⟨b, h1, -, h2⟩ := written c (hc c hc1)
    rw [hc2] at h1
    cases h1
    have hm : (Deserialize.fromSlice e.message : Except String (Claims Time Id)) = .ok out.message := hm
    rw [h2] at hm
    cases hm
    exact hc1
  · exact .inr hforged

/-- Claims kept as texts. -/
local instance : TextField String := ⟨some, some⟩

/-- The claims of the documentation's token. -/
def sampleClaims : Claims String String :=
  ⟨"2023-10-01T14:48:26.346092Z", "190af1fa-edee-4b4e-8d10-9fe0f45dd994"⟩

theorem sample_survives : Survives sampleClaims := ⟨_, _, rfl, rfl, rfl, rfl⟩

/-- Times of which one cannot be written. -/
local instance : TextField Bool := ⟨fun b => if b then some "t" else none, fun s => if s = "t" then some true else none⟩

example (sk : Key P v .Secret) :
    ∃ e, (TokenBuilder.new v .Public (⟨false, "a"⟩ : Claims Bool String)).signWithAssertions P sk [] = .err e :=
  unwritten_unsigned ⟨false, "a"⟩ (.inl rfl) _ rfl sk []

-- which texts are read: any order, other fields, white space, arrays; a repeated or missing field is
-- refused
example :
    ((Deserialize.fromSlice (strBytes " {\"sub\":\"\\u0061\", \"x\":[{}], \"exp\" : \"b\"}") :
      Except String (Claims String String)).toOption.map fun c => (c.expiration, c.userId)) =
        some ("b", "a") ∧
    ((Deserialize.fromSlice (strBytes "[\"b\" ,\"a\"]") :
      Except String (Claims String String)).toOption.map fun c => (c.expiration, c.userId)) =
        some ("b", "a") ∧
    ((Deserialize.fromSlice (strBytes "{\"exp\":\"b\",\"sub\":\"a\",\"exp\":\"c\"}") :
      Except String (Claims String String)).toOption.map fun c => (c.expiration, c.userId)) = none ∧
    ((Deserialize.fromSlice (strBytes "{\"exp\":\"b\"}") :
      Except String (Claims String String)).toOption.map fun c => (c.expiration, c.userId)) = none ∧
    ((Deserialize.fromSlice (strBytes "[\"b\",\"a\",\"c\"]") :
      Except String (Claims String String)).toOption.map fun c => (c.expiration, c.userId)) = none := by
  decide +kernel

theorem escByte_length (b : UInt8) : (JsonText.escByte b).length ≤ 6 := by
  unfold JsonText.escByte
  repeat' split
  all_goals simp

theorem writeStr_length (s : Bytes) : (JsonText.writeStr s).length ≤ 6 * s.length + 2 := by
  have : (s.flatMap JsonText.escByte).length ≤ 6 * s.length := by
    induction s with
    | nil => simp
    | cons c s ih =>
      have := escByte_length c
      simp only [List.flatMap_cons, List.length_append, List.length_cons]
      omega
  simp only [JsonText.writeStr, List.length_cons, List.length_append, List.length_nil]
  omega

/-- A payload with two expiry times meets the hypotheses of `claims_refused`. -/
example : Spec.Json.Fields [("exp", strBytes "\"b\""), ("sub", strBytes "\"a\""), ("exp", strBytes "\"c\"")]
    (strBytes "\"exp\":\"b\",\"sub\":\"a\",\"exp\":\"c\"") := by
  have h := JsonText.writeMembers_fields [("exp", "b"), ("sub", "a"), ("exp", "c")] (by simp)
  have e1 : JsonText.writeMembers [("exp", "b"), ("sub", "a"), ("exp", "c")] =
    strBytes "\"exp\":\"b\",\"sub\":\"a\",\"exp\":\"c\"" := by decide +kernel
  have e2 : ([("exp", "b"), ("sub", "a"), ("exp", "c")] : List (String × String)).map
      (fun f => (f.1, JsonText.writeStr (strBytes f.2))) =
    [("exp", strBytes "\"b\""), ("sub", strBytes "\"a\""), ("exp", strBytes "\"c\"")] := by
    decide +kernel
  rw [← e1, ← e2]
  exact h

open C50 in
/-- The hypotheses of the theorems are met: two keys, a token with the claims above is signed and
accepted, and the claims are the issued ones. -/
example : ∃ (i : KeyId .V4 .Public) (tok : SecuredToken .V4 .Public (Json (KidFooter .V4)) (Json Unit))
      (e : C14.Event) (h : List (C78.Action Toy.prims .V4)),
    h = [.enter Toy.v4Secret.publicKey, .enter toySecret2.publicKey, .sign Toy.v4Secret e] ∧
    C78.Honest h ∧ Fits tok.display ∧
    (∀ e, .sign Toy.v4Secret e ∈ h → ∃ c ∈ [sampleClaims], Serialize.toVec c = .ok e.message) ∧
    verifyWithCache (E := Json Unit) (Claims String String)
      (fun f : Json (KidFooter .V4) => f.val.kid) (C78.keysAfter h) tok.display =
      .ok ⟨⟨()⟩, sampleClaims, ⟨⟨i⟩⟩⟩ ∧
    ∀ key, C78.InForce h i key → key = Toy.v4Secret.publicKey := by
  obtain ⟨i, hi, hi'⟩ := C30.id_spec Toy.v4Secret.publicKey
  obtain ⟨j, hj, hj'⟩ := C30.id_spec toySecret2.publicKey
  have hij : j ≠ i := by
    rintro rfl
    rw [hi'] at hj'
    revert hj'
    decide +kernel
  obtain ⟨m, hm, -, hm'⟩ := written _ sample_survives
  obtain ⟨f, hf, hf'⟩ := C54.json_footer_ok (C18.kidFooter_json .V4) ⟨i⟩
  let b := (TokenBuilder.new .V4 .Public sampleClaims).withFooter (Json.mk (KidFooter.mk i))
  obtain ⟨tok, hs⟩ := Sample.sign_ok .V4 Toy.v4Secret b [] hm hf
  let e : C14.Event := ⟨asc "", m, f, []⟩
  let h : List (C78.Action Toy.prims .V4) := [.enter Toy.v4Secret.publicKey,
    .enter toySecret2.publicKey, .sign Toy.v4Secret e]
  have hin : C78.InForce h i Toy.v4Secret.publicKey := by
    refine ⟨[], _, rfl, hi, by simp, ?_⟩
    intro key hk
    simp at hk
    subst hk
    rw [hj]; simpa using hij
  obtain ⟨tok', h1, h2⟩ := C78.signed_accepted Toy.laws (fun f : Json (KidFooter .V4) => f.val.kid) h
    Toy.v4Secret b hin m f hm hm' hf hf'
    (by show TokenBuilder.signWithAssertions _ _ _ [] ≠ _; rw [hs]; simp)
  have : tok' = tok := by
    have h1 : b.signWithAssertions Toy.prims Toy.v4Secret [] = .ok tok' := h1
    rw [hs] at h1; cases h1; rfl
  subst this
  obtain ⟨m', f', sg, hm2, hf2, -, htok⟩ := (sign_ok_iff _ _ _ _).1 hs
  have e1 : m' = m := by rw [show MessageEncoding.encode _ _ = _ from hm] at hm2; cases hm2; rfl
  have e2 : f' = f := by
    have : Footer.encode b.tok.footer = some f := hf
    rw [this] at hf2; cases hf2; rfl
  have hlm : m.length < 500 := by
    have : m = JsonText.writeRecord
        [("exp", sampleClaims.expiration), ("sub", sampleClaims.userId)] := by cases hm; rfl
    rw [this]
    decide +kernel
  have hlf : f.length < 1000 := by
    have hser : i.serialize = .ok (.str (Spec.paserkText .V4 (Spec.idTypeText .Public) i.id.1)) :=
      (C49.keyId .V4 .Public).serialize_text i
    have : f = JsonText.writeStruct (asc "kid") (Spec.paserkText .V4 (Spec.idTypeText .Public) i.id.1) := by
      have hf : (match (match i.serialize with
          | .ok (.str s) => Except.ok (JsonText.writeStruct (asc "kid") s)
          | _ => .error "json") with | .ok b => some b | .error _ => none) = some f := hf
      rw [hser] at hf
      exact (Option.some.inj hf).symm
    have hl := writeStr_length (Spec.paserkText .V4 (Spec.idTypeText .Public) i.id.1)
    have hl2 : (Spec.paserkText .V4 (Spec.idTypeText .Public) i.id.1).length = 51 := by
      rw [hi']
      decide +kernel
    have hl3 : (JsonText.writeStr (asc "kid")).length = 5 := by decide +kernel
    rw [this]
    simp only [JsonText.writeStruct, List.length_cons, List.length_append, hl3, List.length_nil]
    omega
  refine ⟨i, tok', e, h, rfl, ?_, ?_, ?_, h2, ?_⟩
  · intro sk e' hmem
    simp [h] at hmem
    obtain ⟨rfl, rfl⟩ := hmem
    refine ⟨⟨_, _, _, _, _, _, b, tok', hs, hm, rfl, ?_⟩, ?_⟩
    · rw [htok, e2]
    · refine ⟨⟨show (header .V4 .Public (asc "")).length < 2 ^ 63 by decide, ?_, ?_,
        show ([] : Bytes).length < 2 ^ 63 by decide⟩⟩
      · show m.length < _; omega
      · show f.length < _; omega
  · rw [SecuredToken.display_eq]
    have hp : tok'.payload.length < 1000 := by
      rw [htok, e1, List.length_append, sg.2]
      show m.length + 64 < 1000
      omega
    have hq : tok'.encodedFooter.length < 1000 := by rw [htok, e2]; exact hlf
    have la := C22.text_length tok'.payload
    have lb := C22.text_length tok'.encodedFooter
    have lh : (header .V4 .Public (Payload.suffix (Json Unit))).length < 20 := by decide
    have ld : (asc ".").length = 1 := rfl
    unfold Spec.tokenText Fits
    split
    · simp only [List.length_append]; omega
    · simp only [List.length_append]; omega
  · intro e' hmem
    simp [h] at hmem
    subst hmem
    exact ⟨sampleClaims, by simp, hm⟩
  · intro key hk
    have h3 := (C78.in_force_iff h i key).2 hk
    rw [(C78.in_force_iff h i _).2 hin] at h3
    exact (Option.some.inj h3).symm

end C79

end Pasta
