import Verif.Vectors.Run
import Verif.Model.Cache
import Verif.Model.JsonRecord

/-!
# Running the model on the documented usage

The crate's documentation (src/lib.rs:36-105, README.md) shows a program and the token that it
printed. A test, not a proof: the model, with `Real.prims` for the cryptography, prints the same
token from the same keys, time and subject, and reads it back. -/

namespace Pasta.Vectors

/-- Times and UUIDs are kept as their texts. -/
local instance : TextField String := ⟨some, some⟩

/-- The documented program with the time and UUID of the printed token. -/
def documented : Option (Bytes × String × String) := do
  let seed ← BytesN.ofBytes? 32
    (hex "407796f4bc4b8184e9fe0c54b336822d34823092ad873d87ba14c3efb9db8c1d")
  let sk := Key.v4SecretFromSeed P seed
  let kid ← Res.val? sk.publicKey.toId
  let claims : Claims String String :=
    ⟨"2023-10-01T14:48:26.346092Z", "190af1fa-edee-4b4e-8d10-9fe0f45dd994"⟩
  let token ← Res.val? (((TokenBuilder.new .V4 .Public claims).withFooter
    (Json.mk (KidFooter.mk kid))).sign P sk)
  let pk ← publicKey .V4 "b7715bd661458d928654d3e832f53ff5c9480542e0e3d4c9b032c768c7ce6023"
  let keys ← Res.val? (KeyCache.ofKeys [] [pk])
  let out ← Res.val? (verifyWithCache (E := Json Unit) (Claims String String)
    (fun f : Json (KidFooter .V4) => f.val.kid) keys token.display)
  return (token.display, out.message.expiration, out.message.userId)

-- src/lib.rs:77
#guard documented = some (text ("v4.public.eyJleHAiOiIyMDIzLTEwLTAxVDE0OjQ4OjI2LjM0NjA5MloiLCJzdWIi" ++
  "OiIxOTBhZjFmYS1lZGVlLTRiNGUtOGQxMC05ZmUwZjQ1ZGQ5OTQifXo-Vsr45NroJZ9pLkuN3xcxgFncGF3eject5GdZH7" ++
  "WwTEfCgmo6hD-zNh0txsLvZi1vC601oNCgXq_2cK4XKQw.eyJraWQiOiJrNC5waWQuQUdQQ09CUkI4UHowQ3dNOFFfQnNV" ++
  "UEw0OF8zZjRUbE0yc2Z0R3Y0ejkzVFkifQ"),
  "2023-10-01T14:48:26.346092Z", "190af1fa-edee-4b4e-8d10-9fe0f45dd994")

end Pasta.Vectors
