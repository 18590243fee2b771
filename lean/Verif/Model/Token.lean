import Verif.Model.Key
import Verif.Model.Base64

/-! # Tokens, encodings and footers: src/lib.rs:239-556 -/

namespace Pasta

/-- `serde::Serialize` through `serde_json::to_vec` -/
class Serialize (T : Type) where
  toVec : T → Except String Bytes

/-- `serde::Deserialize` through `serde_json::from_slice` -/
class Deserialize (T : Type) where
  fromSlice : Bytes → Except String T

/-- `Json<T>`, src/lib.rs:306-307 -/
structure Json (T : Type) where
  val : T

/-- `encodings::Payload: Default`, src/lib.rs:245-248 -/
class Payload (E : Type) where
  suffix : Bytes
  default : E

/-- `encodings::MessageEncoding<M>`, src/lib.rs:251-254 -/
class MessageEncoding (E : Type) (M : Type) [Payload E] where
  encode : E → M → Except String Bytes

/-- `encodings::MessageDecoding<M>`, src/lib.rs:257-260 -/
class MessageDecoding (E : Type) (M : Type) [Payload E] where
  decode : E → Bytes → Except String M

/-- `impl Payload for Json<()>`, src/lib.rs:262-265 -/
instance : Payload (Json Unit) where
  suffix := asc ""
  default := ⟨()⟩

/-- `impl MessageEncoding<M> for Json<()>`, src/lib.rs:267-271 -/
instance {M : Type} [Serialize M] : MessageEncoding (Json Unit) M where
  encode _ m := Serialize.toVec m

/-- `impl MessageDecoding<M> for Json<()>`, src/lib.rs:273-277 -/
instance {M : Type} [Deserialize M] : MessageDecoding (Json Unit) M where
  decode _ b := Deserialize.fromSlice b

/-- `Footer`, src/lib.rs:288-293. `encode = none` models a panic in `encode`. -/
class Footer (F : Type) where
  encode : F → Option Bytes
  decode : Bytes → Except String F

/-- `impl Footer for Json<T>`, src/lib.rs:309-320 -/
instance {T : Type} [Serialize T] [Deserialize T] : Footer (Json T) where
  encode f := match Serialize.toVec f.val with
    | .ok b => some b
    | .error _ => none
  decode b :=
    if b.isEmpty then .error "missing footer"
    else match Deserialize.fromSlice b with
      | .ok t => .ok ⟨t⟩
      | .error e => .error e

/-- `impl Footer for Vec<u8>`, src/lib.rs:322-330 -/
instance : Footer Bytes where
  encode f := some f
  decode b := .ok b

/-- The text `{x:?}` of a byte slice in `format!("unexpected footer {x:?}")`. -/
def debugBytes (b : Bytes) : String := toString (b.map UInt8.toNat)

/-- `impl Footer for ()`, src/lib.rs:332-343 -/
instance : Footer Unit where
  encode _ := some []
  decode b := if b.isEmpty then .ok () else .error ("unexpected footer " ++ debugBytes b)

/-- `ValidatedToken`, src/lib.rs:374-380. Of `TokenMetadata` (src/lib.rs:349-355) only the
encoding carries data; version and purpose are the type indices. -/
structure ValidatedToken (v : Ver) (p : Purpose) (M F E : Type) where
  encoding : E
  message : M
  footer : F

/-- `TokenBuilder`, src/lib.rs:412-415 -/
structure TokenBuilder (v : Ver) (p : Purpose) (M F E : Type) where
  tok : ValidatedToken v p M F E

/-- `SecuredToken`, src/lib.rs:441-447 -/
structure SecuredToken (v : Ver) (p : Purpose) (F E : Type) where
  encoding : E
  payload : Bytes
  encodedFooter : Bytes
  footer : F

namespace TokenBuilder

/-- `TokenBuilder::new`, src/lib.rs:419-425 (also `new_unencrypted`, `new_unsigned`,
`new_v3_local`, ... which only call it) -/
def new (v : Ver) (p : Purpose) {M : Type} (message : M) : TokenBuilder v p M Unit (Json Unit) :=
  ⟨{ encoding := Payload.default, message, footer := () }⟩

/-- `with_footer`, src/lib.rs:386-392 -/
def withFooter {v : Ver} {p : Purpose} {M F E : Type} (t : TokenBuilder v p M Unit E) (footer : F) :
    TokenBuilder v p M F E :=
  ⟨{ encoding := t.tok.encoding, message := t.tok.message, footer }⟩

/-- `with_encoding`, src/lib.rs:399-409 -/
def withEncoding {v : Ver} {p : Purpose} {M F E : Type} (t : TokenBuilder v p M F (Json Unit))
    (encoding : E) : TokenBuilder v p M F E :=
  ⟨{ message := t.tok.message, footer := t.tok.footer, encoding }⟩

end TokenBuilder

namespace SecuredToken

variable {v : Ver} {p : Purpose} {F E : Type}

/-- `Display for SecuredToken`, src/lib.rs:449-469 -/
def display [Payload E] (t : SecuredToken v p F E) : Bytes :=
  let s := v.pasetoHeader ++ Payload.suffix E ++ asc "." ++ p.header ++ asc "." ++
    B64.encode t.payload
  if t.encodedFooter.isEmpty then s
  else s ++ asc "." ++ B64.encode t.encodedFooter

/-- `FromStr for SecuredToken`, src/lib.rs:514-549 -/
def parse (v : Ver) (p : Purpose) (F E : Type) [Footer F] [Payload E] (s : Bytes) :
    Res (SecuredToken v p F E) := do
  let s ← Res.okOr .invalidToken (stripPrefix v.pasetoHeader s)
  let s ← Res.okOr .invalidToken (stripPrefix (Payload.suffix E) s)
  let s ← Res.okOr .invalidToken (stripPrefix (asc ".") s)
  let s ← Res.okOr .invalidToken (stripPrefix p.header s)
  let s ← Res.okOr .invalidToken (stripPrefix (asc ".") s)
  let (payload, footer) := match splitOnce dot s with
    | some (payload, footer) => (payload, some footer)
    | none => (s, none)
  let payload ← Res.okOr .base64DecodeError (B64.decodeVec payload)
  let encodedFooter ← match footer with
    | some f => Res.okOr .base64DecodeError (B64.decodeVec f)
    | none => Res.ok []
  let footer ← Res.ofExcept (Footer.decode encodedFooter)
  return { encoding := Payload.default, payload, encodedFooter, footer }

/-- `unverified_footer`, src/lib.rs:551-556 -/
def unverifiedFooter (t : SecuredToken v p F E) : F := t.footer

end SecuredToken

/-- `Error::source for PasetoError`, src/lib.rs:575-582 -/
def PasetoError.source : PasetoError → Option String
  | .payloadError m => some m
  | _ => none

/-- `Display for PasetoError`, src/lib.rs:584-596 -/
def PasetoError.display : PasetoError → String
  | .base64DecodeError => "The token could not be base64 decoded"
  | .invalidKey => "Could not parse the key"
  | .invalidToken => "Could not parse the token"
  | .cryptoError => "Token signature could not be validated"
  | .payloadError m => "there was an error with the payload encoding: " ++ m

end Pasta
