import Verif.Model.Serde
import Verif.Model.JsonText

/-!
# Printing into an arbitrary receiver

The `fmt::Display` implementations as they are written: a sequence of `write_str` calls on a
`fmt::Formatter`, each of which may fail. `SecuredToken.display` and its siblings (Model/Token.lean
and others) are the text received by a receiver that never fails.
-/

namespace Pasta

/-- An implementation of `std::fmt::Write`: `write_str` changes the state and returns `Ok` or `Err`. -/
structure Sink (σ : Type) where
  writeStr : σ → Bytes → σ × Bool

/-- The options in a `fmt::Formatter` (`{:>10.3}`, `{:#}`): fill, width, precision, `#`. -/
structure FmtOptions where
  fill : UInt8
  width : Option Nat
  precision : Option Nat
  alternate : Bool

/-- Result of a `fmt` call, with the state the receiver is left in. -/
inductive FmtRes (σ : Type) where
  | ok (s : σ)
  | err (s : σ)
  | panic
  deriving DecidableEq

namespace FmtRes

/-- `?` -/
def andThen {σ : Type} : FmtRes σ → (σ → FmtRes σ) → FmtRes σ
  | .ok s, f => f s
  | .err s, _ => .err s
  | .panic, _ => .panic

end FmtRes

/-- `Formatter::write_str`: passed on to the receiver, whatever the options. -/
def Sink.put {σ : Type} (w : Sink σ) (b : Bytes) (s : σ) : FmtRes σ :=
  match w.writeStr s b with
  | (s, true) => .ok s
  | (s, false) => .err s

/-- `write_b64`, src/paserk/mod.rs:201-208 -/
def writeB64Fmt (b : Bytes) {σ : Type} (w : Sink σ) (s : σ) : FmtRes σ :=
  (chunks 48 b).foldl (fun r chunk => r.andThen fun s =>
    match B64.encodeInto 64 chunk with
    | none => .panic
    | some t => w.put t s) (.ok s)

/-- `Display for SecuredToken`, src/lib.rs:449-469 -/
def SecuredToken.fmt {v : Ver} {p : Purpose} {F E : Type} [Payload E] (t : SecuredToken v p F E)
    (_ : FmtOptions) {σ : Type} (w : Sink σ) (s : σ) : FmtRes σ :=
  (w.put v.pasetoHeader s).andThen fun s =>
  (w.put (Payload.suffix E) s).andThen fun s =>
  (w.put (asc ".") s).andThen fun s =>
  (w.put p.header s).andThen fun s =>
  (w.put (asc ".") s).andThen fun s =>
  (w.put (B64.encode t.payload) s).andThen fun s =>
  if t.encodedFooter.isEmpty then .ok s
  else
    (w.put (asc ".") s).andThen fun s =>
    (w.put (B64.encode t.encodedFooter) s).andThen fun s =>
    .ok s

/-- `Display for PlaintextKey`, src/paserk/plaintext.rs:22-29 -/
def PlaintextKey.fmt {P : Prims} {v : Ver} {k : Kind} (t : PlaintextKey P v k)
    (_ : FmtOptions) {σ : Type} (w : Sink σ) (s : σ) : FmtRes σ :=
  (w.put v.paserkHeader s).andThen fun s =>
  (w.put (asc ".") s).andThen fun s =>
  (w.put k.keyHeader s).andThen fun s =>
  writeB64Fmt t.key.toBytes.1 w s

/-- `Display for KeyId`, src/paserk/id.rs:67-74 -/
def KeyId.fmt {v : Ver} {k : Kind} (t : KeyId v k) (_ : FmtOptions) {σ : Type} (w : Sink σ) (s : σ) :
    FmtRes σ :=
  (w.put v.paserkHeader s).andThen fun s =>
  (w.put (asc ".") s).andThen fun s =>
  (w.put k.idHeader s).andThen fun s =>
  writeB64Fmt t.id.1 w s

/-- `Display for PieWrappedKey`, src/paserk/wrap.rs:334-346 -/
def PieWrappedKey.fmt {v : Ver} {k : WKind} (t : PieWrappedKey v k) (_ : FmtOptions) {σ : Type} (w : Sink σ)
    (s : σ) : FmtRes σ :=
  (w.put v.paserkHeader s).andThen fun s =>
  (w.put (asc ".") s).andThen fun s =>
  (w.put k.pieHeader s).andThen fun s =>
  (w.put (asc "pie.") s).andThen fun s =>
  let tagiv := BytesN.append (pieTagIvLen v) (pieTagIvLen_eq v) t.tag t.nonce
  let output := BytesN.append (pieOutputLen v k) (pieOutputLen_eq v k) tagiv t.wrappedKey
  writeB64Fmt output.1 w s

/-- `Display for PwWrappedKey`, src/paserk/pbkw.rs:283-299 -/
def PwWrappedKey.fmt {v : Ver} {k : WKind} (t : PwWrappedKey v k) (_ : FmtOptions) {σ : Type} (w : Sink σ)
    (s : σ) : FmtRes σ :=
  (w.put v.paserkHeader s).andThen fun s =>
  (w.put (asc ".") s).andThen fun s =>
  (w.put k.pwHeader s).andThen fun s =>
  let o := BytesN.append (pwSaltStateLen v) (pwSaltStateLen_eq v) t.salt (encodeState v t.state)
  let o := BytesN.append (pwSaltStateIvLen v) (pwSaltStateIvLen_eq v) o t.nonce
  let o := BytesN.append (pwSaltStateIvEdkLen v k) (pwSaltStateIvEdkLen_eq v k) o t.edk
  let o := BytesN.append (pwTotalLen v k) (pwTotalLen_eq v k) o t.tag
  writeB64Fmt o.1 w s

/-- `Display for SealedKey`, src/paserk/pke.rs:446-453 -/
def SealedKey.fmt {v : Ver} (t : SealedKey v) (_ : FmtOptions) {σ : Type} (w : Sink σ) (s : σ) : FmtRes σ :=
  (w.put v.paserkHeader s).andThen fun s =>
  (w.put (asc ".seal.") s).andThen fun s =>
  writeB64Fmt t.joinTotal.1 w s

/-- `fmt::Write for String`: appends, never fails. -/
def Sink.string : Sink Bytes := ⟨fun s b => (s ++ b, true)⟩

/-- The options of `{}`. -/
def FmtOptions.plain : FmtOptions := ⟨32, none, none, false⟩

/-- `ToString::to_string`: `fmt` into a new `String`, panicking on an error. -/
def fmtToString (fmt : FmtOptions → {σ : Type} → Sink σ → σ → FmtRes σ) : Res Bytes :=
  match fmt .plain .string [] with
  | .ok s => .ok s
  | .err _ => .panic
  | .panic => .panic

/-- The receiver used by serde_json's `collect_str`: every piece is escaped and passed on to the
output (an `io::Write`, here another `Sink`). -/
def Sink.jsonEscape {σ : Type} (w : Sink σ) : Sink σ :=
  ⟨fun s b => w.writeStr s (b.flatMap JsonText.escByte)⟩

/-- serde_json `Serializer::collect_str`: quote, escaped pieces, quote. -/
def jsonCollectStr (fmt : FmtOptions → {σ : Type} → Sink σ → σ → FmtRes σ) {σ : Type} (w : Sink σ) (s : σ) :
    FmtRes σ :=
  (w.put [0x22] s).andThen fun s =>
  (fmt .plain w.jsonEscape s).andThen fun s =>
  w.put [0x22] s

/-- `serde_json::from_slice` for a type deserialized with `deserialize_str` (Model/Serde.lean):
one string value, then only white space. Other JSON values and malformed input are refused
(`none`). -/
def jsonFromSlice {α : Type} (deserialize : SerdeValue → SerdeRes α) (b : Bytes) : Option α :=
  match JsonText.stringValue b with
  | none => none
  | some (x, rest) =>
    if JsonText.skipWs rest = [] then
      match deserialize (.str (JsonText.strBytes x)) with
      | .ok a => some a
      | _ => none
    else none

/-! ### The texts of `Visitor::expecting` -/

/-- src/lib.rs:494-501 -/
def SecuredToken.expecting (v : Ver) (p : Purpose) : Bytes :=
  asc "a \"" ++ v.pasetoHeader ++ asc "." ++ p.header ++ asc ".\" paseto"

/-- src/paserk/plaintext.rs:77-84 -/
def PlaintextKey.expecting (v : Ver) (k : Kind) : Bytes :=
  asc "a \"" ++ v.paserkHeader ++ asc "." ++ k.keyHeader ++ asc "\" serialized key"

/-- src/paserk/id.rs:232-239 -/
def KeyId.expecting (v : Ver) (k : Kind) : Bytes :=
  asc "a \"" ++ v.paserkHeader ++ asc "." ++ k.idHeader ++ asc "\" serialized key"

/-- src/paserk/wrap.rs:530-537 -/
def PieWrappedKey.expecting (v : Ver) (k : WKind) : Bytes :=
  asc "a \"" ++ v.paserkHeader ++ asc "." ++ k.pieHeader ++ asc "pie.\" serialized key"

/-- src/paserk/pbkw.rs:569-576 -/
def PwWrappedKey.expecting (v : Ver) (k : WKind) : Bytes :=
  asc "a \"" ++ v.paserkHeader ++ asc "." ++ k.pwHeader ++ asc "\" serialized key"

/-- src/paserk/pke.rs:527-529 -/
def SealedKey.expecting (v : Ver) : Bytes :=
  asc "a \"" ++ v.paserkHeader ++ asc ".seal.\" serialized key"

end Pasta
