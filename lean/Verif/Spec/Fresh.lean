import Mathlib.Data.Rat.Defs
import Verif.Spec.Birthday
import Verif.Model.Pbkw
import Verif.Model.Pke

/-!
# Everything that is drawn from a random source

Someone has tokens encrypted, keys wrapped, wrapped with passwords and sealed, and new keys made, in any
order, choosing every request from all answers so far. Everything is drawn from one random source of `N`
bytes. Probabilities are counted: all sequences of `N` bytes are equally likely.
-/

namespace Pasta

open Classical in
/-- The share of the random sources of `N` bytes for which `p` holds. -/
noncomputable def chance (N : Nat) (p : Rng → Prop) : ℚ :=
  ((Finset.univ.filter fun t : BytesN N => p t.1).card : ℚ) / Fintype.card (BytesN N)

/-- The operations that draw from a random source. -/
inductive Draw (P : Prims) : Type 1
  /-- encrypt a token -/
  | token (v : Ver) (M F E : Type) (instP : Payload E) (instM : MessageEncoding E M)
      (instF : Footer F) (builder : TokenBuilder v .Local M F E) (key : Key P v .Local)
      (implicit : Bytes)
  /-- wrap a key with a key -/
  | pie (v : Ver) (k : WKind) (hidden : Key P v k.kind) (wrappingKey : Key P v .Local)
  /-- wrap a key with a password -/
  | pw (v : Ver) (k : WKind) (hidden : Key P v k.kind) (password : Bytes) (settings : KdfState v)
  /-- seal a key to a public key -/
  | sealKey (v : Ver) (hidden : Key P v .Local) (recipient : Key P v .Public)
  /-- make a new local key -/
  | newLocal (v : Ver)
  /-- make a new secret key -/
  | newSecret (v : Ver)

/-- Perform the operation: its text; what stands in it that was drawn or made from what was drawn (the
nonce, the salt and the nonce, the ephemeral public key, the new key); and the random source
afterwards. -/
def Draw.run {P : Prims} : Draw P → Rng → Res ((Bytes × Bytes) × Rng)
  | .token _ _ _ _ iP iM iF b key implicit, rng => do
    let _ := iP; let _ := iM; let _ := iF
    let (tok, rng) ← b.encryptWithAssertionsAndRng P key implicit rng
    return ((tok.display, tok.payload.take 32), rng)
  | .pie _ _ hidden wk, rng => do
    let (w, rng) ← hidden.wrapPie wk rng
    let text ← w.display
    return ((text, w.nonce.1), rng)
  | .pw _ _ hidden password st, rng => do
    let (w, rng) ← hidden.pwWrapWithSettings password st rng
    let text ← w.display
    return ((text, w.salt.1 ++ w.nonce.1), rng)
  | .sealKey _ hidden pk, rng => do
    let (w, rng) ← hidden.sealKey pk rng
    let text ← w.display
    return ((text, w.ephemeralPublicKey.1), rng)
  | .newLocal v, rng => do
    let (key, rng) ← Key.localRandom P v rng
    return ((key.toBytes.1, key.toBytes.1), rng)
  | .newSecret v, rng => do
    let (key, rng) ← Key.secretRandom P v rng
    return ((key.toBytes.1, key.toBytes.1), rng)

/-- A key to be wrapped with a password. -/
structure PwDraw (P : Prims) (v : Ver) where
  k : WKind
  hidden : Key P v k.kind
  password : Bytes
  settings : KdfState v

/-- Wrap it: the text, and the salt in it. -/
def PwDraw.run {P : Prims} {v : Ver} (d : PwDraw P v) (rng : Rng) : Res ((Bytes × Bytes) × Rng) := do
  let (w, rng) ← d.hidden.pwWrapWithSettings d.password d.settings rng
  let text ← w.display
  return ((text, w.salt.1), rng)

/-- At most `n` requests, one after the other, each chosen from all answers so far; the answers, oldest
first. -/
def draws {Q : Type*} (run : Q → Rng → Res ((Bytes × Bytes) × Rng)) (ask : List (Bytes × Bytes) → Option Q) :
    Nat → Rng → List (Bytes × Bytes) → Res (List (Bytes × Bytes))
  | 0, _, log => .ok log
  | n + 1, rng, log =>
    match ask log with
    | none => .ok log
    | some a => do
      let (out, rng) ← run a rng
      draws run ask n rng (log ++ [out])

end Pasta
