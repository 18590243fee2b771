import Verif.Model.Fuzz
import Verif.Lemmas.JsonText
import Verif.Lemmas.JsonGrammar
import Verif.Props.Parsers
import Verif.Props.Compose

/-!
# C54: the crate's fuzz harnesses never fail; C18, C50 with the JSON of serde_json
-/

namespace Pasta

open JsonText (strBytes)

/-! ## JSON payloads and footers -/
namespace C18

/-- Encoding `T` as JSON and decoding it again gives the value, and the JSON is not empty. -/
def JsonRoundtrip (T : Type) [Serialize T] [Deserialize T] : Prop :=
  ∀ x : T, ∃ b, Serialize.toVec x = .ok b ∧ b ≠ [] ∧ Deserialize.fromSlice b = .ok x

theorem asc_data : asc "data" = strBytes "data" := by decide +kernel
theorem asc_kid : asc "kid" = strBytes "kid" := by decide +kernel

theorem data_json : JsonRoundtrip Data := by
  rintro ⟨x⟩
  refine ⟨_, rfl, by simp [JsonText.writeStruct], ?_⟩
  show JsonText.fromSliceStruct (asc "data") _ (JsonText.writeStruct (asc "data") _) = _
  rw [asc_data]
  exact JsonText.fromSlice_write "data" (fun s => some (Data.mk s)) x ⟨x⟩ rfl

theorem stringFooter_json : JsonRoundtrip StringFooter := by
  rintro ⟨x⟩
  refine ⟨_, rfl, by simp [JsonText.writeStruct], ?_⟩
  show JsonText.fromSliceStruct (asc "kid") _ (JsonText.writeStruct (asc "kid") _) = _
  rw [asc_kid]
  exact JsonText.fromSlice_write "kid" (fun s => some (StringFooter.mk s)) x ⟨x⟩ rfl

theorem encodeChar_ascii : ∀ c : UInt8, c < 128 →
    String.utf8EncodeChar (Char.ofNat c.toNat) = [c] := by
  apply B64.forall_uint8
  decide +kernel

/-- ASCII bytes are the bytes of a string. -/
theorem ascii_string (b : Bytes) (h : ∀ c ∈ b, c < 128) : ∃ s : String, strBytes s = b := by
  have e : (b.map (fun c => Char.ofNat c.toNat)).flatMap String.utf8EncodeChar = b := by
    induction b with
    | nil => rfl
    | cons c b ih =>
      rw [List.map_cons, List.flatMap_cons, ih (fun c hc => h c (.tail _ hc)),
        encodeChar_ascii c (h c (.head _))]
      rfl
  refine ⟨⟨(b.map (fun c => Char.ofNat c.toNat)).utf8Encode, ⟨_, rfl⟩⟩, ?_⟩
  show ((b.map (fun c => Char.ofNat c.toNat)).utf8Encode).data.toList = b
  unfold List.utf8Encode
  rw [e]
  simp

theorem id_text_ascii (v : Ver) (k : Kind) (d : Bytes) :
    ∀ c ∈ Spec.paserkText v (Spec.idTypeText k) d, c < 128 := by
  have h1 : ∀ c ∈ Spec.paserkHeader v (Spec.idTypeText k), c < 128 := by
    cases v <;> cases k <;> decide
  have h2 : ∀ c ∈ Spec.alphabet, c < 128 := by decide +kernel
  intro c hc
  rcases List.mem_append.1 hc with hc | hc
  · exact h1 c hc
  · obtain ⟨g, -, rfl⟩ := List.mem_map.1 hc
    cases hg : Spec.alphabet[Spec.bitsValue g]? with
    | none => decide
    | some x => exact h2 _ (List.mem_of_getElem? hg)

/-- The documentation's footer, whose field is a key id. -/
theorem kidFooter_json (v : Ver) : JsonRoundtrip (KidFooter v) := by
  rintro ⟨i⟩
  have hs : i.serialize = .ok (.str (Spec.paserkText v (Spec.idTypeText .Public) i.id.1)) :=
    (C49.keyId v .Public).serialize_text i
  obtain ⟨s, hb⟩ := ascii_string _ (id_text_ascii v .Public i.id.1)
  refine ⟨JsonText.writeStruct (asc "kid") (strBytes s), ?_, by simp [JsonText.writeStruct], ?_⟩
  · show (match i.serialize with | .ok (.str s) => _ | _ => _) = _
    rw [hs, hb]
  · show JsonText.fromSliceStruct (asc "kid") _ _ = _
    rw [asc_kid]
    apply JsonText.fromSlice_write "kid"
    rw [hb, ((C49.keyId v .Public).accepts _ i).2 (KeyId.parse_ok_iff.2 rfl)]

/-- The documentation's footer is read exactly from the texts that the footer with a string is read
from, when the string is the text of a public key id: there is no other way to obtain an id, and
nothing is put in place of an unreadable one. -/
theorem kidFooter_read_iff (v : Ver) (b : Bytes) (i : KeyId v .Public) :
    (Deserialize.fromSlice b : Except String (KidFooter v)) = .ok ⟨i⟩ ↔
      ∃ s : String, (Deserialize.fromSlice b : Except String StringFooter) = .ok ⟨s⟩ ∧
        strBytes s = Spec.paserkText v (Spec.idTypeText .Public) i.id.1 := by
  show JsonText.fromSliceStruct _ _ _ = _ ↔ ∃ s : String, JsonText.fromSliceStruct _ _ _ = _ ∧ _
  rw [JsonText.fromSliceStruct_ok_iff]
  refine exists_congr fun s => ?_
  rw [JsonText.fromSliceStruct_ok_iff (f := fun s => some (StringFooter.mk s))]
  simp only [Option.some.injEq, StringFooter.mk.injEq, exists_eq_right]
  refine and_congr_right fun _ => ?_
  have h := (C49.keyId v .Public).accepts (strBytes s) i
  rw [KeyId.parse_ok_iff] at h
  rw [← h]
  cases KeyId.deserialize v .Public (.str (strBytes s)) with
  | ok k => simp
  | custom => simp
  | panic => simp
  | invalidType => simp

example : (Deserialize.fromSlice (strBytes "{\"kid\":\"k4.pid.x\"}") :
      Except String (KidFooter .V4)).toOption = none ∧
    (Deserialize.fromSlice (strBytes "{\"kid\":\"k4.pid.x\"}") :
      Except String StringFooter).toOption = some ⟨"k4.pid.x"⟩ := by
  decide +kernel

/-- Which JSON texts are read as a struct with one string field, and as what: those of the grammar of
RFC 8259 (`Spec.Json.Struct`). Other fields and white space are skipped; a missing or repeated field,
text after the value, raw control characters and unpaired surrogates are refused. -/
theorem data_read_iff (b : Bytes) (s : String) :
    (Deserialize.fromSlice b : Except String Data) = .ok ⟨s⟩ ↔ Spec.Json.Struct "data" s b := by
  show JsonText.fromSliceStruct (asc "data") _ _ = _ ↔ _
  rw [JsonText.fromSliceStruct_ok_iff, asc_data]
  simp only [Option.some.injEq, Data.mk.injEq, exists_eq_right]
  exact JsonText.fromSliceStruct_iff _ _ _

/-- The same for the footer with a string. -/
theorem stringFooter_read_iff (b : Bytes) (s : String) :
    (Deserialize.fromSlice b : Except String StringFooter) = .ok ⟨s⟩ ↔ Spec.Json.Struct "kid" s b := by
  show JsonText.fromSliceStruct (asc "kid") _ _ = _ ↔ _
  rw [JsonText.fromSliceStruct_ok_iff, asc_kid]
  simp only [Option.some.injEq, StringFooter.mk.injEq, exists_eq_right]
  exact JsonText.fromSliceStruct_iff _ _ _

/-- And for the documentation's footer with a key id: the string must be the text of the id. -/
theorem kidFooter_grammar (v : Ver) (b : Bytes) (i : KeyId v .Public) :
    (Deserialize.fromSlice b : Except String (KidFooter v)) = .ok ⟨i⟩ ↔
      ∃ s : String, Spec.Json.Struct "kid" s b ∧
        Spec.Json.utf8 s = Spec.paserkText v (Spec.idTypeText .Public) i.id.1 := by
  rw [kidFooter_read_iff]
  exact exists_congr fun s => and_congr_left fun _ => stringFooter_read_iff b s

/-- A token's JSON footer is accepted exactly when its bytes are such a text. -/
theorem json_footer_read_iff (f : Bytes) (s : String) :
    (Footer.decode f : Except String (Json StringFooter)) = .ok ⟨⟨s⟩⟩ ↔ Spec.Json.Struct "kid" s f := by
  rw [← stringFooter_read_iff]
  simp only [Footer.decode]
  split
  · rename_i h
    have : f = [] := by simpa using h
    subst this
    constructor
    · intro h; simp at h
    · intro h
      rw [show (Deserialize.fromSlice [] : Except String StringFooter) = .error "json" from rfl] at h
      simp at h
  · cases (Deserialize.fromSlice f : Except String StringFooter) <;> simp

-- the grammar at work: a text with white space, another field and an escape
example : Spec.Json.Struct "kid" "é" (strBytes "{ \"x\":[-1.5e3] ,\"kid\":\"\\u00e9\"}") := by
  have key : ∀ r : Except String StringFooter, r.toOption = some ⟨"é"⟩ → r = .ok ⟨"é"⟩ := by
    rintro (_ | x) h
    · simp [Except.toOption] at h
    · rw [Option.some.inj h]
  exact (stringFooter_read_iff _ _).1 (key _ (by decide +kernel))

-- escapes, white space, unknown fields, arrays; refused: duplicates, missing field, trailing text,
-- raw control characters, unpaired surrogates
example :
    (Deserialize.fromSlice (strBytes " { \"a\" : [1.5e3, {\"b\":null}] , \"data\":\"\\u00e9\\n\" } ") :
      Except String Data).toOption = some ⟨"é\n"⟩ ∧
    (Deserialize.fromSlice (strBytes "[\"\\ud83d\\ude00\"]") : Except String Data).toOption =
      some ⟨"😀"⟩ ∧
    (Deserialize.fromSlice (strBytes "{\"data\":\"\",\"data\":\"\"}") :
      Except String Data).toOption = none ∧
    (Deserialize.fromSlice (strBytes "{}") : Except String Data).toOption = none ∧
    (Deserialize.fromSlice (strBytes "{\"data\":\"\"}x") : Except String Data).toOption = none ∧
    (Deserialize.fromSlice (strBytes "{\"data\":\"\n\"}") : Except String Data).toOption = none ∧
    (Deserialize.fromSlice (strBytes "{\"data\":\"\\ud800\"}") : Except String Data).toOption = none := by
  decide +kernel

end C18

/-! ## C54 -/
namespace C54

variable {P : Prims} {v : Ver}

theorem json_footer_ok {T : Type} [Serialize T] [Deserialize T] (h : C18.JsonRoundtrip T) (x : T) :
    ∃ f, Footer.encode (Json.mk x) = some f ∧ Footer.decode f = .ok (Json.mk x) := by
  obtain ⟨b, h1, h2, h3⟩ := h x
  refine ⟨b, ?_, ?_⟩
  · show (match Serialize.toVec x with | .ok b => some b | .error _ => none) = _
    rw [h1]
  · simp only [Footer.decode]
    rw [if_neg (by simpa using h2), h3]

/-- `FuzzInput<V, Local>::run` never panics: for every key, nonce and strings, encrypting, printing,
parsing and decrypting a JSON token gives the message and the footer back. -/
theorem local_harness (P : Prims) (key : Key P v .Local) (eph : BytesN 32) (d1 d2 d3 : String) :
    fuzzLocal P v key eph d1 d2 d3 = .ok () := by
  obtain ⟨m, hm, -, hm'⟩ := C18.data_json ⟨d1⟩
  obtain ⟨f, hf, hf'⟩ := json_footer_ok C18.data_json ⟨d2⟩
  have h := C01.local_roundtrip (v := v) P
    ((TokenBuilder.new v .Local (Data.mk d1)).withFooter (Json.mk (Data.mk d2))) key (strBytes d3)
    eph.1 m f (by rw [eph.2]; exact Nat.le_refl _) hm hm' hf hf'
  obtain ⟨⟨tok, r⟩, h1, h⟩ := Res.bind_eq_ok.1 h
  obtain ⟨tok', h2, h⟩ := Res.bind_eq_ok.1 h
  have h3 := C19.decrypt_footer P tok' key (strBytes d3) _ h
  unfold fuzzLocal
  rw [h1]
  simp only [Res.expect, Res.ok_bind]
  rw [h2]
  simp only [Res.ok_bind]
  rw [← h3, h]
  simp [assertTrue, TokenBuilder.withFooter, TokenBuilder.new]

/-- The same for signing, for both versions, if signing itself does not panic. -/
theorem public_harness (L : P.Laws) (key : Key P v .Secret) (d1 d2 d3 : String)
    (hp : ((TokenBuilder.new v .Public (Data.mk d1)).withFooter (Json.mk (Data.mk d2))
      ).signWithAssertions P key (strBytes d3) ≠ .panic) :
    fuzzPublic P v key d1 d2 d3 = .ok () := by
  obtain ⟨m, hm, -, hm'⟩ := C18.data_json ⟨d1⟩
  obtain ⟨f, hf, hf'⟩ := json_footer_ok C18.data_json ⟨d2⟩
  have h := C02.public_roundtrip (v := v) P L
    ((TokenBuilder.new v .Public (Data.mk d1)).withFooter (Json.mk (Data.mk d2))) key (strBytes d3)
    m f hm hm' hf hf' hp
  obtain ⟨tok, h1, h⟩ := Res.bind_eq_ok.1 h
  obtain ⟨tok', h2, h⟩ := Res.bind_eq_ok.1 h
  have h3 := C19.verify_footer P tok' key.publicKey (strBytes d3) _ h
  unfold fuzzPublic
  rw [h1]
  simp only [Res.expect, Res.ok_bind]
  rw [h2]
  simp only [Res.ok_bind]
  rw [← h3, h]
  simp [assertTrue, TokenBuilder.withFooter, TokenBuilder.new]

/-- V4 signing never panics, so the V4 harness never does. -/
theorem public_harness_v4 (L : P.Laws) (key : Key P .V4 .Secret) (d1 d2 d3 : String) :
    fuzzPublic P .V4 key d1 d2 d3 = .ok () := by
  obtain ⟨m, hm, -⟩ := C18.data_json ⟨d1⟩
  obtain ⟨f, hf, -⟩ := json_footer_ok C18.data_json ⟨d2⟩
  obtain ⟨t, h⟩ := C02.v4_sign_ok P
    ((TokenBuilder.new .V4 .Public (Data.mk d1)).withFooter (Json.mk (Data.mk d2))) key (strBytes d3)
    m f hm hf
  exact public_harness L key d1 d2 d3 (by rw [h]; simp)

/-- PIE wrapping. -/
theorem wrap_harness (L : P.Laws) (k : WKind) (wk : Key P v .Local) (key : Key P v k.kind)
    (eph : BytesN 32) : fuzzWrap P v k wk key eph = .ok () := by
  obtain ⟨w, s, h1, h2, h3, h4⟩ := C33.pie_roundtrip L key wk eph.1 (by rw [eph.2]; exact Nat.le_refl _)
  unfold fuzzWrap
  rw [h1]
  simp only [Res.ok_bind]
  rw [h2]
  simp only [Res.ok_bind]
  rw [h3]
  simp only [Res.expect, Res.ok_bind]
  rw [h4]
  simp only [Res.ok_bind]
  unfold assertTrue
  rw [if_pos ((C27.beq_iff_bytes _ _).2 rfl)]

/-- Sealing, V3: whatever the 48 ephemeral bytes. -/
theorem seal_v3_harness (L : P.Laws) (key : Key P .V3 .Local) (sk : Key P .V3 .Secret)
    (eph : BytesN 48) : fuzzSealV3 P key sk eph = .ok () := by
  unfold fuzzSealV3
  by_cases h : p384ScalarOk eph
  · rw [if_neg (not_not_intro h)]
    obtain ⟨w, rng', s, h1, -, -, h4⟩ := C43.seal_roundtrip L key sk eph.1
      ⟨[], ⟨eph, h⟩, [], by simp, by simp⟩
    rw [h1]
    simp only [Res.ok_bind]
    rw [h4]
    simp only [Res.expect, Res.ok_bind]
    unfold assertTrue
    rw [if_pos ((C27.beq_iff_bytes _ _).2 rfl)]
  · rw [if_pos h]

/-- Sealing, V4. -/
theorem seal_v4_harness (L : P.Laws) (key : Key P .V4 .Local) (sk : Key P .V4 .Secret)
    (eph : BytesN 32) : fuzzSealV4 P key sk eph = .ok () := by
  unfold fuzzSealV4
  obtain ⟨w, rng', s, h1, -, -, h4⟩ := C43.seal_roundtrip L key sk eph.1
    (show 32 ≤ eph.1.length by rw [eph.2]; exact Nat.le_refl _)
  rw [h1]
  simp only [Res.ok_bind]
  rw [h4]
  simp only [Res.expect, Res.ok_bind]
  unfold assertTrue
  rw [if_pos ((C27.beq_iff_bytes _ _).2 rfl)]

/-- The parse targets never panic, on any string: tokens of both versions and purposes with a JSON
footer, and PIE-wrapped keys. -/
theorem parse_harness (s : String) (v : Ver) :
    (∀ p : Purpose, fuzzParse (SecuredToken.parse v p (Json StringFooter) (Json Unit)
      (strBytes s)) = .ok ()) ∧
    (∀ k : WKind, fuzzParse (PieWrappedKey.parse v k (strBytes s)) = .ok ()) := by
  have key : ∀ {α : Type} (r : Res α), r ≠ .panic → fuzzParse r = .ok () := by
    intro α r h
    cases r <;> simp_all [fuzzParse]
  exact ⟨fun p => key _ (C48.token_parse _).2.2.2.2.2, fun k => key _ ((C48.pie_parse v k).no_panic _)⟩

-- a run of each kind of harness
example (v : Ver) : fuzzLocal Toy.prims v (Toy.localKey v) Toy.key32 "a" "\"b\n" "c" = .ok () ∧
    fuzzPublic Toy.prims v (C43.sampleSecret v) "a" "b" "c" = .ok () ∧
    fuzzWrap Toy.prims v .Secret (Toy.localKey v) (C43.sampleSecret v) Toy.key32 = .ok () ∧
    fuzzSealV3 Toy.prims (Toy.localKey .V3) Toy.v3Secret Toy.v3Scalar.1 = .ok () ∧
    fuzzSealV4 Toy.prims (Toy.localKey .V4) Toy.v4Secret Toy.key32 = .ok () :=
  ⟨local_harness _ _ _ _ _ _, public_harness Toy.laws _ _ _ _ (by
    obtain ⟨m, hm, -⟩ := C18.data_json ⟨"a"⟩
    obtain ⟨f, hf, -⟩ := json_footer_ok C18.data_json ⟨"b"⟩
    obtain ⟨t, h⟩ := Sample.sign_ok v (C43.sampleSecret v) ((TokenBuilder.new v .Public
      (Data.mk "a")).withFooter (Json.mk (Data.mk "b"))) (strBytes "c") hm hf
    rw [h]; simp), wrap_harness Toy.laws _ _ _ _,
    seal_v3_harness Toy.laws _ _ _, seal_v4_harness Toy.laws _ _ _⟩

-- a harness can fail: a wrong assertion panics
example : assertTrue ((Toy.localKey .V4).beq ⟨BytesN.fill 32 0⟩) = .panic := by
  unfold assertTrue
  rw [if_neg]
  rw [C27.beq_iff_bytes]
  show ¬ Toy.key32.1 = (BytesN.fill 32 0).1
  decide

end C54

namespace C50

variable {P : Prims} {v : Ver}

/-- The documented flow, with its JSON footer `{"kid": ...}` and any JSON payload that survives
encoding: unless signing panics (V3 only, `C02.sign_outcome`), signing with any of the secret keys, printing, looking up the key id of the unverified
footer and verifying gives the payload and footer. -/
theorem documented_flow (L : P.Laws) {M : Type} [Serialize M] [Deserialize M] (msg : M)
    (hmsg : ∃ m, Serialize.toVec msg = .ok m ∧ Deserialize.fromSlice m = .ok msg)
    (keys : List (Key P v .Public)) (hd : Distinct keys) (sk : Key P v .Secret)
    (hsk : sk.publicKey ∈ keys) :
    ∃ kid, sk.publicKey.toId = .ok kid ∧
      (((TokenBuilder.new v .Public msg).withFooter (Json.mk (KidFooter.mk kid))).sign P sk ≠
        .panic →
      ∃ cache tok, KeyCache.ofKeys [] keys = .ok cache ∧
        ((TokenBuilder.new v .Public msg).withFooter (Json.mk (KidFooter.mk kid))).sign P sk =
          .ok tok ∧
        verifyWithCache (E := Json Unit) M (fun f : Json (KidFooter v) => f.val.kid) cache
          tok.display = .ok ⟨⟨()⟩, msg, ⟨⟨kid⟩⟩⟩) := by
  obtain ⟨kid, hkid, -⟩ := C30.id_spec sk.publicKey
  obtain ⟨m, hm, hm'⟩ := hmsg
  obtain ⟨f, hf, hf'⟩ := C54.json_footer_ok (C18.kidFooter_json v) ⟨kid⟩
  refine ⟨kid, hkid, fun hp => ?_⟩
  obtain ⟨c, t, h1, h2, -, h3⟩ := rotation L (fun f : Json (KidFooter v) => f.val.kid) keys hd sk
    hsk ((TokenBuilder.new v .Public msg).withFooter (Json.mk (KidFooter.mk kid))) hkid m f hm hm'
    hf hf' hp
  exact ⟨c, t, h1, h2, h3⟩

/-- Two toy keys and the payload `{"data":"x"}` meet the hypotheses, and signing succeeds. -/
example : ∃ kid, ∃ cache : KeyCache Toy.prims .V4, ∃ tok, Toy.v4Secret.publicKey.toId = .ok kid ∧
    ((TokenBuilder.new .V4 .Public (Data.mk "x")).withFooter (Json.mk (KidFooter.mk kid))).sign
      Toy.prims Toy.v4Secret = .ok tok ∧
    verifyWithCache (E := Json Unit) Data (fun f : Json (KidFooter .V4) => f.val.kid) cache
      tok.display = .ok ⟨⟨()⟩, ⟨"x"⟩, ⟨⟨kid⟩⟩⟩ := by
  obtain ⟨kid, h1, h2⟩ := documented_flow Toy.laws (Data.mk "x")
    (by obtain ⟨m, h, -, h'⟩ := C18.data_json ⟨"x"⟩; exact ⟨m, h, h'⟩) toyKeys toy_distinct Toy.v4Secret
    (by simp [toyKeys])
  obtain ⟨f, hf, -⟩ := C54.json_footer_ok (C18.kidFooter_json .V4) ⟨kid⟩
  obtain ⟨m, hm, -⟩ := C18.data_json ⟨"x"⟩
  obtain ⟨c, t, -, h3, h4⟩ := h2 (by
    obtain ⟨t, h⟩ := Sample.sign_ok .V4 Toy.v4Secret
      ((TokenBuilder.new .V4 .Public (Data.mk "x")).withFooter (Json.mk (KidFooter.mk kid))) [] hm hf
    show TokenBuilder.signWithAssertions _ _ _ [] ≠ _
    rw [h]; simp)
  exact ⟨kid, c, t, h1, h3, h4⟩

end C50
end Pasta
