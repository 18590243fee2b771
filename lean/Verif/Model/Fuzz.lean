import Verif.Model.JsonText

/-!
# The crate's fuzz harnesses: src/lib.rs:598-742, src/paserk/wrap.rs:471-510,
src/paserk/pke.rs:455-507, fuzz/fuzz_targets/*.rs

A harness returns unit or panics. `FakeRng<N>` (src/lib.rs:612-657) is a tape of `N` bytes. Inputs
come from `Arbitrary`: keys are any 32 bytes, any Ed25519 seed, or any 48 bytes that
`SigningKey::from_slice` accepts (src/key/arbitrary.rs), that is, any key of the type.
-/

namespace Pasta

/-- `Result::unwrap` -/
def Res.expect {α : Type} : Res α → Res α
  | .ok a => .ok a
  | .err _ => .panic
  | .panic => .panic

/-- `assert_eq!` on values whose equality is given as a boolean -/
def assertTrue (b : Bool) : Res Unit := if b then .ok () else .panic

/-- `FuzzInput<V, Local>::run`, src/lib.rs:688-705 -/
def fuzzLocal (P : Prims) (v : Ver) (key : Key P v .Local) (ephemeral : BytesN 32)
    (data1 data2 data3 : String) : Res Unit := do
  let (token, _) ← Res.expect (((TokenBuilder.new v .Local (Data.mk data1)).withFooter
    (Json.mk (Data.mk data2))).encryptWithAssertionsAndRng P key (JsonText.strBytes data3)
      ephemeral.1)
  let token ← Res.expect (SecuredToken.parse v .Local (Json Data) (Json Unit) token.display)
  assertTrue (token.unverifiedFooter.val.data = data2)
  let token ← Res.expect (token.decryptWithAssertions Data P key (JsonText.strBytes data3))
  assertTrue (token.message.data = data1)

/-- `FuzzInput<V3, Secret>::run` and `FuzzInput<V4, Secret>::run`, src/lib.rs:706-741 (the same code
twice) -/
def fuzzPublic (P : Prims) (v : Ver) (key : Key P v .Secret) (data1 data2 data3 : String) :
    Res Unit := do
  let token ← Res.expect (((TokenBuilder.new v .Public (Data.mk data1)).withFooter
    (Json.mk (Data.mk data2))).signWithAssertions P key (JsonText.strBytes data3))
  let token ← Res.expect (SecuredToken.parse v .Public (Json Data) (Json Unit) token.display)
  assertTrue (token.unverifiedFooter.val.data = data2)
  let token ← Res.expect (token.verifyWithAssertions Data P key.publicKey
    (JsonText.strBytes data3))
  assertTrue (token.message.data = data1)

/-- `wrap::fuzz_tests::FuzzInput<V, K>::run`, src/paserk/wrap.rs:498-509 -/
def fuzzWrap (P : Prims) (v : Ver) (k : WKind) (wrappingKey : Key P v .Local)
    (key : Key P v k.kind) (ephemeral : BytesN 32) : Res Unit := do
  let (wrapped, _) ← key.wrapPie (k := k) wrappingKey ephemeral.1
  let s ← wrapped.display
  let wrapped ← Res.expect (PieWrappedKey.parse v k s)
  let key2 ← Res.expect (wrapped.unwrapKey P wrappingKey)
  assertTrue (key.beq key2)

/-- `V3SealInput::run`, src/paserk/pke.rs:472-487: returns at once if the bytes are not a non-zero
scalar -/
def fuzzSealV3 (P : Prims) (key : Key P .V3 .Local) (secretKey : Key P .V3 .Secret)
    (ephemeral : BytesN 48) : Res Unit :=
  if ¬ p384ScalarOk ephemeral then .ok ()
  else do
    let (sealed, _) ← key.sealKey secretKey.publicKey ephemeral.1
    let key2 ← Res.expect (sealed.unsealKey P secretKey)
    assertTrue (key.beq key2)

/-- `V4SealInput::run`, src/paserk/pke.rs:497-506 -/
def fuzzSealV4 (P : Prims) (key : Key P .V4 .Local) (secretKey : Key P .V4 .Secret)
    (ephemeral : BytesN 32) : Res Unit := do
  let (sealed, _) ← key.sealKey secretKey.publicKey ephemeral.1
  let key2 ← Res.expect (sealed.unsealKey P secretKey)
  assertTrue (key.beq key2)

/-- The parse targets throw the result away; only a panic would be noticed. -/
def fuzzParse {α : Type} (r : Res α) : Res Unit :=
  match r with
  | .panic => .panic
  | _ => .ok ()

end Pasta
