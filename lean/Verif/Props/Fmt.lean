import Verif.Lemmas.Fmt
import Verif.Props.Samples
import Verif.Props.Encoding
import Verif.Props.Harness

/-!
# C56: printing into any receiver
-/

namespace Pasta

open Spec (feed Prints Faithful bounded header paserkText keyTypeText idTypeText pieType pwType
  base64url)

namespace C56

/-! ### Every printable type prints its text -/

theorem token_prints {v : Ver} {p : Purpose} {F E : Type} [Payload E] (t : SecuredToken v p F E) :
    Prints t.fmt (Spec.tokenText (header v p (Payload.suffix E)) t.payload t.encodedFooter) := by
  by_cases hf : t.encodedFooter.isEmpty
  · refine ⟨[v.pasetoHeader, Payload.suffix E, asc ".", p.header, asc ".", B64.encode t.payload],
      ?_, fun o σ w s => ?_⟩
    · rw [← SecuredToken.display_eq, SecuredToken.display, if_pos hf]
      simp
    · unfold SecuredToken.fmt
      simp only [hf, if_true]
      repeat' (refine put_andThen_feed w _ _ _ _ (fun s => ?_))
      rfl
  · refine ⟨[v.pasetoHeader, Payload.suffix E, asc ".", p.header, asc ".", B64.encode t.payload,
      asc ".", B64.encode t.encodedFooter], ?_, fun o σ w s => ?_⟩
    · rw [← SecuredToken.display_eq, SecuredToken.display, if_neg hf]
      simp
    · unfold SecuredToken.fmt
      simp only [hf]
      repeat' (refine put_andThen_feed w _ _ _ _ (fun s => ?_))
      rfl

theorem plaintext_prints {P : Prims} {v : Ver} {k : Kind} (t : PlaintextKey P v k) :
    Prints t.fmt (paserkText v (keyTypeText k) t.key.toBytes.1) := by
  refine ⟨[v.paserkHeader, asc ".", k.keyHeader] ++ b64Pieces t.key.toBytes.1, ?_, fun o σ w s => ?_⟩
  · rw [List.flatten_append, b64Pieces_flatten, paserkText, ← plainHeader_eq]
    simp
  · unfold PlaintextKey.fmt
    repeat' (refine put_andThen_feed w _ _ _ _ (fun s => ?_))
    exact writeB64Fmt_eq _ _ _

theorem id_prints {v : Ver} {k : Kind} (t : KeyId v k) :
    Prints t.fmt (paserkText v (idTypeText k) t.id.1) := by
  refine ⟨[v.paserkHeader, asc ".", k.idHeader] ++ b64Pieces t.id.1, ?_, fun o σ w s => ?_⟩
  · rw [List.flatten_append, b64Pieces_flatten, paserkText, ← idHeader_eq]
    simp
  · unfold KeyId.fmt
    repeat' (refine put_andThen_feed w _ _ _ _ (fun s => ?_))
    exact writeB64Fmt_eq _ _ _

theorem pie_prints {v : Ver} {k : WKind} (t : PieWrappedKey v k) :
    Prints t.fmt (paserkText v (pieType k.kind) (t.tag.1 ++ t.nonce.1 ++ t.wrappedKey.1)) := by
  refine ⟨[v.paserkHeader, asc ".", k.pieHeader, asc "pie."] ++
    b64Pieces (t.tag.1 ++ t.nonce.1 ++ t.wrappedKey.1), ?_, fun o σ w s => ?_⟩
  · rw [List.flatten_append, b64Pieces_flatten, paserkText, ← pieHeader_eq]
    simp
  · unfold PieWrappedKey.fmt
    repeat' (refine put_andThen_feed w _ _ _ _ (fun s => ?_))
    exact writeB64Fmt_eq _ _ _

theorem pw_prints {v : Ver} {k : WKind} (t : PwWrappedKey v k) :
    Prints t.fmt (paserkText v (pwType k.kind)
      (t.salt.1 ++ (specParams t.state).encode ++ t.nonce.1 ++ t.edk.1 ++ t.tag.1)) := by
  refine ⟨[v.paserkHeader, asc ".", k.pwHeader] ++
    b64Pieces (t.salt.1 ++ (specParams t.state).encode ++ t.nonce.1 ++ t.edk.1 ++ t.tag.1), ?_,
    fun o σ w s => ?_⟩
  · rw [List.flatten_append, b64Pieces_flatten, paserkText, ← pwHeader_eq]
    simp
  · unfold PwWrappedKey.fmt
    repeat' (refine put_andThen_feed w _ _ _ _ (fun s => ?_))
    rw [← encodeState_eq]
    exact writeB64Fmt_eq _ _ _

theorem seal_prints {v : Ver} (t : SealedKey v) :
    Prints t.fmt (paserkText v (asc "seal")
      (t.tag.1 ++ t.ephemeralPublicKey.1 ++ t.encryptedDataKey.1)) := by
  refine ⟨[v.paserkHeader, asc ".seal."] ++
    b64Pieces (t.tag.1 ++ t.ephemeralPublicKey.1 ++ t.encryptedDataKey.1), ?_, fun o σ w s => ?_⟩
  · rw [List.flatten_append, b64Pieces_flatten, paserkText, ← Spec.sealHeader, ← sealHeader_eq]
    simp
  · unfold SealedKey.fmt
    repeat' (refine put_andThen_feed w _ _ _ _ (fun s => ?_))
    exact writeB64Fmt_eq _ _ _

/-! ### Consequences for whatever prints a text -/

variable {fmt : FmtOptions → {σ : Type} → Sink σ → σ → FmtRes σ} {σ : Type} {text : Bytes}

/-- `to_string()` is the text. -/
theorem to_string (h : Prints fmt text) : fmtToString fmt = .ok text := by
  obtain ⟨ps, rfl, h⟩ := h
  unfold fmtToString
  rw [h, feed_string]
  rfl

/-- A receiver that keeps what it is given has received the whole text exactly when printing
returned `Ok`; on an error it has received a prefix of the text. There is no panic. -/
theorem faithful (h : Prints fmt text) (w : Sink σ) (out : σ → Bytes) (hw : Faithful w out)
    (o : FmtOptions) (s : σ) :
    (∃ s', fmt o w s = .ok s' ∧ out s' = out s ++ text) ∨
    (∃ s' q, fmt o w s = .err s' ∧ q <+: text ∧ out s' = out s ++ q) := by
  obtain ⟨ps, rfl, h⟩ := h
  rw [h]
  exact feed_faithful w out hw ps s

theorem no_panic (h : Prints fmt text) (w : Sink σ) (o : FmtOptions) (s : σ) :
    fmt o w s ≠ .panic := by
  obtain ⟨ps, rfl, h⟩ := h
  rw [h]
  exact feed_no_panic w ps s

/-- A receiver that never refuses receives everything. -/
theorem total (h : Prints fmt text) (w : Sink σ) (out : σ → Bytes) (hw : Faithful w out)
    (ht : ∀ s p, (w.writeStr s p).2 = true) (o : FmtOptions) (s : σ) :
    ∃ s', fmt o w s = .ok s' ∧ out s' = out s ++ text := by
  obtain ⟨ps, rfl, h⟩ := h
  rw [h]
  clear h
  induction ps generalizing s with
  | nil => exact ⟨s, rfl, by simp⟩
  | cons p ps ih =>
    rw [feed]
    have h1 := ht s p
    rcases hp : w.writeStr s p with ⟨s', b⟩
    rw [hp] at h1
    cases h1
    obtain ⟨s'', h2, h3⟩ := ih s'
    exact ⟨s'', h2, by rw [h3, hw.accepted s p s' hp]; simp⟩

/-- Width, fill, precision and `#` do not change what is printed. -/
theorem options_ignored (h : Prints fmt text) (w : Sink σ) (o o' : FmtOptions) (s : σ) :
    fmt o w s = fmt o' w s := by
  obtain ⟨ps, -, h⟩ := h
  rw [h, h]

/-- Printing into a buffer of fixed size succeeds exactly when the text fits. -/
theorem bounded_iff (h : Prints fmt text) (cap : Nat) (o : FmtOptions) (s : Bytes)
    (hs : s.length ≤ cap) :
    (∃ s', fmt o (bounded cap) s = .ok s') ↔ s.length + text.length ≤ cap := by
  obtain ⟨ps, rfl, h⟩ := h
  rw [h]
  clear h
  induction ps generalizing s with
  | nil =>
    refine ⟨fun _ => by simpa using hs, fun _ => ⟨s, rfl⟩⟩
  | cons p ps ih =>
    rw [feed_cons]
    have e : (bounded cap).writeStr s p =
        if s.length + p.length ≤ cap then (s ++ p, true) else (s, false) := rfl
    rw [e]
    by_cases hp : s.length + p.length ≤ cap
    · rw [if_pos hp]
      simp only [if_true]
      rw [ih (s ++ p) (by simpa using hp)]
      simp [Nat.add_assoc]
    · rw [if_neg hp]
      simp
      omega

/-- Printing twice to the same receiver prints the text twice. -/
theorem twice (h : Prints fmt text) (o o' : FmtOptions) (s : Bytes) :
    (fmt o .string s).andThen (fmt o' .string) = .ok (s ++ text ++ text) := by
  obtain ⟨ps, rfl, h⟩ := h
  rw [h, feed_string]
  show fmt o' .string _ = _
  rw [h, feed_string]

/-! ### JSON -/

/-- Serialized by serde_json to a string, the JSON is the text as a JSON string literal. -/
theorem json (h : Prints fmt text) (s : Bytes) :
    jsonCollectStr fmt .string s = .ok (s ++ JsonText.writeStr text) := by
  obtain ⟨ps, rfl, h⟩ := h
  unfold jsonCollectStr
  show FmtRes.andThen (fmt .plain (Sink.jsonEscape .string) (s ++ [0x22])) _ = _
  rw [h, feed_jsonEscape, feed_string, flatten_flatMap]
  show FmtRes.ok (s ++ [0x22] ++ _ ++ [0x22]) = _
  simp only [JsonText.writeStr, List.append_assoc]
  rfl

/-- A text that needs no escaping in JSON: printable ASCII without quote and backslash. -/
def JsonPlain (text : Bytes) : Prop := ∀ c ∈ text, 0x20 ≤ c ∧ c < 128 ∧ c ≠ 0x22 ∧ c ≠ 0x5c

theorem json_plain (h : Prints fmt text) (ht : JsonPlain text) :
    jsonCollectStr fmt .string [] = .ok (asc "\"" ++ text ++ asc "\"") := by
  rw [json h]
  have e : ∀ c : UInt8, (0x20 ≤ c ∧ c < 128 ∧ c ≠ 0x22 ∧ c ≠ 0x5c) → JsonText.escByte c = [c] := by
    apply B64.forall_uint8; decide +kernel
  have : text.flatMap JsonText.escByte = text := by
    clear h
    induction text with
    | nil => rfl
    | cons c t ih =>
      rw [List.flatMap_cons, ih (fun x hx => ht x (by simp [hx])), e c (ht c (by simp))]
      rfl
  unfold JsonText.writeStr
  rw [this]
  have e1 : asc "\"" = [0x22] := rfl
  simp [e1]

/-- Base64url text is plain. -/
theorem plain_base64url (d : Bytes) : JsonPlain (base64url d) := by
  have h2 : ∀ c ∈ Spec.alphabet, 0x20 ≤ c ∧ c < 128 ∧ c ≠ 0x22 ∧ c ≠ 0x5c := by decide +kernel
  intro c hc
  rw [← B64.encode_eq_spec] at hc
  exact h2 c ((C22.wf_encode d).1 c hc)

theorem JsonPlain.append {a b : Bytes} (ha : JsonPlain a) (hb : JsonPlain b) : JsonPlain (a ++ b) := by
  intro c hc
  rcases List.mem_append.1 hc with h | h
  · exact ha c h
  · exact hb c h

/-- All PASERK texts are plain. -/
theorem plain_paserk (v : Ver) (d : Bytes) :
    (∀ k, JsonPlain (paserkText v (keyTypeText k) d)) ∧ (∀ k, JsonPlain (paserkText v (idTypeText k) d)) ∧
    (∀ k : WKind, JsonPlain (paserkText v (pieType k.kind) d)) ∧
    (∀ k : WKind, JsonPlain (paserkText v (pwType k.kind) d)) ∧ JsonPlain (paserkText v (asc "seal") d) := by
  refine ⟨fun k => ?_, fun k => ?_, fun k => ?_, fun k => ?_, ?_⟩ <;>
    refine JsonPlain.append ?_ (plain_base64url d)
  · cases v <;> cases k <;> (unfold JsonPlain; decide)
  · cases v <;> cases k <;> (unfold JsonPlain; decide)
  · cases v <;> cases k <;> (unfold JsonPlain; decide)
  · cases v <;> cases k <;> (unfold JsonPlain; decide)
  · cases v <;> (unfold JsonPlain; decide)

/-- Token texts are plain when the payload encoding's suffix is. -/
theorem plain_token (v : Ver) (p : Purpose) (suffix : Bytes) (hs : JsonPlain suffix)
    (payload footer : Bytes) : JsonPlain (Spec.tokenText (header v p suffix) payload footer) := by
  have hh : JsonPlain (header v p suffix) := by
    cases p <;> refine JsonPlain.append (JsonPlain.append ?_ hs) ?_
    any_goals cases v <;> (unfold JsonPlain; decide)
    all_goals (unfold JsonPlain; decide)
  have hd : JsonPlain (asc ".") := by unfold JsonPlain; decide
  unfold Spec.tokenText
  split
  · exact hh.append (plain_base64url _)
  · exact ((hh.append (plain_base64url _)).append hd).append (plain_base64url _)

/-- Written as JSON and read back, a value is unchanged (`deserialize` accepts its text: C49). -/
theorem json_roundtrip {α : Type} (h : Prints fmt text) (ht : JsonPlain text)
    (deserialize : SerdeValue → SerdeRes α) (x : α) (hx : deserialize (.str text) = .ok x) :
    ∃ j, jsonCollectStr fmt .string [] = .ok j ∧ jsonFromSlice deserialize j = some x := by
  refine ⟨_, json h [], ?_⟩
  obtain ⟨str, hs⟩ := C18.ascii_string text (fun c hc => (ht c hc).2.1)
  subst hs
  have := JsonText.stringValue_write str []
  rw [List.append_nil] at this
  unfold jsonFromSlice
  rw [List.nil_append, this]
  simp only [JsonText.skipWs, if_true, hx]

/-- Which JSON texts are read: one string literal of RFC 8259 among white space, nothing after it,
when `deserialize` accepts the string it stands for (for the types of the crate: when the string is
accepted by parsing, C49). Escapes in the literal make no difference. -/
theorem json_read_iff {α : Type} (deserialize : SerdeValue → SerdeRes α) (j : Bytes) (x : α) :
    jsonFromSlice deserialize j = some x ↔
      ∃ a t b s, Spec.Json.Ws a ∧ Spec.Json.Ws b ∧ j = a ++ t ++ b ∧ Spec.Json.StrLit t s ∧
        deserialize (.str (Spec.Json.utf8 s)) = .ok x := by
  unfold jsonFromSlice
  constructor
  · intro h
    split at h
    · cases h
    · rename_i s rest hs
      split at h
      · rename_i hw
        split at h
        · rename_i y hy
          cases h
          obtain ⟨a, t, ha, ht, rfl⟩ := JsonText.stringValue_sound hs
          exact ⟨a, t, rest, s, ha, (JsonText.skipWs_nil_iff _).1 hw, rfl, ht, hy⟩
        · cases h
      · cases h
  · rintro ⟨a, t, b, s, ha, hb, rfl, ht, hd⟩
    have hd' : deserialize (.str (JsonText.strBytes s)) = .ok x := hd
    rw [JsonText.stringValue_complete ha ht]
    simp only [(JsonText.skipWs_nil_iff _).2 hb, if_true, hd']

/-! ### Messages of type errors -/

/-- The message for a value of the wrong type quotes the beginning of the texts that are accepted.
(For tokens: without the suffix of the payload encoding, which the message leaves out.) -/
theorem expecting :
    (∀ v p, SecuredToken.expecting v p = asc "a \"" ++ header v p [] ++ asc "\" paseto") ∧
    (∀ v k, PlaintextKey.expecting v k =
      asc "a \"" ++ Spec.paserkHeader v (keyTypeText k) ++ asc "\" serialized key") ∧
    (∀ v k, KeyId.expecting v k =
      asc "a \"" ++ Spec.paserkHeader v (idTypeText k) ++ asc "\" serialized key") ∧
    (∀ v (k : WKind), PieWrappedKey.expecting v k =
      asc "a \"" ++ Spec.paserkHeader v (pieType k.kind) ++ asc "\" serialized key") ∧
    (∀ v (k : WKind), PwWrappedKey.expecting v k =
      asc "a \"" ++ Spec.paserkHeader v (pwType k.kind) ++ asc "\" serialized key") ∧
    (∀ v, SealedKey.expecting v =
      asc "a \"" ++ Spec.paserkHeader v (asc "seal") ++ asc "\" serialized key") := by
  refine ⟨?_, ?_, ?_, ?_, ?_, ?_⟩
  · intro v p; cases v <;> cases p <;> decide
  · intro v k; cases v <;> cases k <;> decide
  · intro v k; cases v <;> cases k <;> decide
  · intro v k; cases v <;> cases k <;> decide
  · intro v k; cases v <;> cases k <;> decide
  · intro v; cases v <;> decide

/-! ### Examples -/

/-- A receiver that refuses its third piece, after taking one byte of it. -/
def flaky : Sink (Nat × Bytes) :=
  ⟨fun s p => if s.1 = 2 then ((3, s.2 ++ p.take 1), false) else ((s.1 + 1, s.2 ++ p), true)⟩

theorem flaky_faithful : Faithful flaky Prod.snd where
  accepted s p s' h := by
    unfold flaky at h
    dsimp only at h
    split at h <;> simp_all
    rw [← h]
  refused s p s' h := by
    unfold flaky at h
    dsimp only at h
    split at h
    · refine ⟨p.take 1, List.take_prefix _ _, ?_⟩
      simp only [Prod.mk.injEq, and_true] at h
      rw [← h]
    · simp at h

def sampleSeal : SealedKey .V4 := ⟨BytesN.fill 32 0, BytesN.fill 32 1, BytesN.fill 32 2⟩

-- an error after part of the text
example : sampleSeal.fmt .plain flaky (0, []) =
    .err (3, asc "k4" ++ asc ".seal." ++ asc "A") := by decide +kernel

-- 128 base64 characters and the header: fits in 136 bytes, not in 135
example : (∃ s', sampleSeal.fmt .plain (bounded 136) [] = .ok s') ∧
    ¬ ∃ s', sampleSeal.fmt .plain (bounded 135) [] = .ok s' := by
  rw [bounded_iff (seal_prints _) _ _ _ (by decide), bounded_iff (seal_prints _) _ _ _ (by decide)]
  decide +kernel

example (v : Ver) (x : SealedKey v) : ∃ j, jsonCollectStr x.fmt .string [] = .ok j ∧
    jsonFromSlice (SealedKey.deserialize v) j = some x :=
  json_roundtrip (seal_prints x) (plain_paserk v _).2.2.2.2 _ x
    (((C49.sealed v).accepts _ _).2 (SealedKey.parse_ok_iff.2 rfl))

-- white space and escapes are read through, text after the string is not
example : (jsonFromSlice (KeyId.deserialize .V4 .Local)
      (asc " \"k4.lid\\u002eAAAAAAAAAAAAAAAAAAAAAAAAAAAAAAAAAAAAAAAAAAAA\"\n")).isSome ∧
    (jsonFromSlice (KeyId.deserialize .V4 .Local)
      (asc "\"k4.lid.AAAAAAAAAAAAAAAAAAAAAAAAAAAAAAAAAAAAAAAAAAAA\"x")).isNone := by
  decide +kernel

end C56
end Pasta
