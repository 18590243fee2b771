import Mathlib.Data.Fintype.BigOperators
import Mathlib.Data.Fintype.Vector
import Verif.Model.Wrap

/-!
# Sessions on uniformly random bytes

Someone has tokens encrypted and keys wrapped, under whatever keys, choosing every request from the
texts seen so far. Every such operation draws a nonce of 32 bytes. Probabilities are counted: all
sequences of `n` blocks of 32 random bytes are equally likely.
-/

namespace Pasta

/-- The values of a byte. -/
def byteEquiv : Fin 256 ≃ UInt8 where
  toFun i := UInt8.ofFin i
  invFun b := b.toFin
  left_inv _ := rfl
  right_inv _ := rfl

instance : Fintype UInt8 := Fintype.ofEquiv _ byteEquiv

instance (n : Nat) : Fintype (BytesN n) := inferInstanceAs (Fintype (List.Vector UInt8 n))

/-- A sequence of `n` blocks of random bytes. -/
abbrev Blocks (n : Nat) := Fin n → BytesN 32

/-- The random source that delivers these blocks. -/
def Blocks.tape {n : Nat} (t : Blocks n) : Rng := ((List.ofFn t).map Subtype.val).flatten

/-- The operations that draw a nonce of 32 bytes. -/
inductive Drawing (P : Prims) : Type 1
  /-- encrypt a token -/
  | token (v : Ver) (M F E : Type) (instP : Payload E) (instM : MessageEncoding E M)
      (instF : Footer F) (builder : TokenBuilder v .Local M F E) (key : Key P v .Local)
      (implicit : Bytes)
  /-- wrap a key with a key -/
  | pie (v : Ver) (k : WKind) (hidden : Key P v k.kind) (wrappingKey : Key P v .Local)

/-- Perform the operation: the text, the nonce that stands in it, and the random source afterwards. -/
def Drawing.run {P : Prims} : Drawing P → Rng → Res ((Bytes × Bytes) × Rng)
  | .token _ _ _ _ iP iM iF b key implicit, rng => do
    let _ := iP; let _ := iM; let _ := iF
    let (tok, rng) ← b.encryptWithAssertionsAndRng P key implicit rng
    return ((tok.display, tok.payload.take 32), rng)
  | .pie _ _ hidden wk, rng => do
    let (w, rng) ← hidden.wrapPie wk rng
    let text ← w.display
    return ((text, w.nonce.1), rng)

/-- The message and the footer can be encoded (a key always can). -/
def Drawing.Encodable {P : Prims} : Drawing P → Prop
  | .token _ _ _ _ iP iM iF b _ _ =>
    let _ := iP; let _ := iM; let _ := iF
    (∃ m, MessageEncoding.encode b.tok.encoding b.tok.message = .ok m) ∧
      ∃ f, Footer.encode b.tok.footer = some f
  | .pie .. => True

/-- At most `n` requests, one after the other, each chosen from the texts so far; the texts and
nonces, oldest first. -/
def session {P : Prims} (ask : List Bytes → Option (Drawing P)) :
    Nat → Rng → List (Bytes × Bytes) → Res (List (Bytes × Bytes))
  | 0, _, log => .ok log
  | n + 1, rng, log =>
    match ask (log.map Prod.fst) with
    | none => .ok log
    | some a => do
      let (out, rng) ← a.run rng
      session ask n rng (log ++ [out])

end Pasta
