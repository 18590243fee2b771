import Verif.Spec.Birthday
import Verif.Spec.Paserk

/-!
# The forging game

Someone who does not know a key has tokens encrypted and keys wrapped under it, choosing everything
— message, footer, assertion, the key to be wrapped, even the random bytes — from the answers so far,
and in between hands in texts of their own to be decrypted or unwrapped under the key. They win when
a text is found authentic that is not one they were given.

The MAC that makes the tags is exchanged for a function `f`; everything else is that of the
primitives `P`. Probabilities are counted: on a finite set of inputs all functions are equally
likely.
-/

namespace Pasta

/-- What a tag is computed from begins with the number of pieces of a pre-authentication encoding
(5) or with the `k` of a PASERK header. -/
def isTagInput (m : Bytes) : Bool := m.head? == some 5 || m.head? == some 0x6b

/-- A function that makes the tags of version `v` from a MAC key and a message. -/
abbrev Tags (v : Ver) := Bytes × Bytes → BytesN (Spec.tagLen v)

/-- `P` with another function for the tags. Key derivation with the same MAC is not touched. -/
def Prims.withTags (P : Prims) : (v : Ver) → Tags v → Prims
  | .V3, f => { P with
      hmacSha384 := fun k m => if isTagInput m then f (k, m) else P.hmacSha384 k m }
  | .V4, f => { P with
      blake2bMac := fun n k m =>
        if h : n = 32 ∧ isTagInput m = true then ⟨(f (k, m)).1, h.1 ▸ (f (k, m)).2⟩
        else P.blake2bMac n k m }

/-- One request. The issuing ones come with the random bytes to be used. -/
inductive Asked (v : Ver) : Type 1
  /-- encrypt a token -/
  | encrypt (M F E : Type) (instP : Payload E) (instM : MessageEncoding E M) (instF : Footer F)
      (builder : TokenBuilder v .Local M F E) (implicit : Bytes) (rng : Rng)
  /-- wrap the key with these bytes -/
  | wrap (k : WKind) (hidden : BytesN (keyLen v k.kind)) (rng : Rng)
  /-- parse and decrypt a token; `look` is what the asker wants to know of the result -/
  | decrypt (M F E : Type) (instP : Payload E) (instM : MessageDecoding E M) (instF : Footer F)
      (text : Bytes) (look : ValidatedToken v .Local M F E → Bytes) (implicit : Bytes)
  /-- parse and unwrap a wrapped key -/
  | unwrap (k : WKind) (text : Bytes)

/-- What is issued: a token for an assertion, or a wrapped key. -/
inductive Item where
  | token (text implicit : Bytes)
  | wrapped (text : Bytes)
  deriving DecidableEq

namespace Asked

variable {v : Ver}

/-- Does the request hand in a text of the asker's own? -/
def isAttempt : Asked v → Bool
  | .encrypt .. => false
  | .wrap .. => false
  | .decrypt .. => true
  | .unwrap .. => true

/-- Serve the request under `key`. -/
def run (P : Prims) (key : Key P v .Local) : Asked v → Res Bytes
  | .encrypt _ _ _ iP iM iF b implicit rng => do
    let _ := iP; let _ := iM; let _ := iF
    let (tok, _) ← b.encryptWithAssertionsAndRng P key implicit rng
    return tok.display
  | .wrap k hidden rng => do
    let hidden ← Key.fromBytes P v k.kind hidden
    let (w, _) ← hidden.wrapPie key rng
    w.display
  | .decrypt M F E iP iM iF text look implicit => do
    let _ := iP; let _ := iM; let _ := iF
    let t ← SecuredToken.parse v .Local F E text
    let r ← t.decryptWithAssertions M P key implicit
    return look r
  | .unwrap k text => do
    let w ← PieWrappedKey.parse v k text
    let key ← w.unwrapKey P key
    return key.toBytes.1

/-- What the answer to a request issues. -/
def issues : Asked v → Res Bytes → Option Item
  | .encrypt _ _ _ _ _ _ _ implicit _, .ok text => some (.token text implicit)
  | .wrap .., .ok text => some (.wrapped text)
  | _, _ => none

/-- An attempt that parses and is found authentic (neither `CryptoError` nor a panic), and what was
presented. Of a token that is the text it prints as: one token can have two texts (C06). -/
def Accepted (P : Prims) (key : Key P v .Local) : Asked v → Item → Prop
  | .decrypt M F E iP iM iF text _ implicit, item =>
    let _ := iP; let _ := iM; let _ := iF
    ∃ t, SecuredToken.parse v .Local F E text = .ok t ∧
      t.decryptWithAssertions M P key implicit ≠ .err .cryptoError ∧
      t.decryptWithAssertions M P key implicit ≠ .panic ∧
      item = .token t.display implicit
  | .unwrap k text, item =>
    ∃ w, PieWrappedKey.parse v k text = .ok w ∧ w.unwrapKey P key ≠ .err .cryptoError ∧
      w.unwrapKey P key ≠ .panic ∧ item = .wrapped text
  | _, _ => False

/-- Everything the request mentions has a length that exists in memory (with room for a nonce and a
tag). -/
def Fits : Asked v → Prop
  | .encrypt _ _ E iP iM iF b implicit _ =>
    let _ := iP; let _ := iM; let _ := iF
    Spec.Fits (Spec.header v .Local (Payload.suffix E)) ∧ Spec.Fits implicit ∧
      (∀ m, MessageEncoding.encode b.tok.encoding b.tok.message = .ok m → m.length + 80 < 2 ^ 63) ∧
      ∀ f, Footer.encode b.tok.footer = some f → Spec.Fits f
  | .decrypt _ _ E iP _ _ text _ implicit =>
    let _ := iP
    Spec.Fits (Spec.header v .Local (Payload.suffix E)) ∧ Spec.Fits text ∧ Spec.Fits implicit
  | .wrap .. => True
  | .unwrap .. => True

end Asked

/-- The requests served so far and their answers, oldest first. -/
abbrev Served (v : Ver) := List (Asked v × Res Bytes)

/-- What has been issued. -/
def Served.items {v : Ver} (log : Served v) : List Item := log.filterMap fun e => e.1.issues e.2

/-- At most `n` requests, of which at most `q` hand in a text, each chosen from the answers so far. -/
def forging (P : Prims) {v : Ver} (key : Key P v .Local) (ask : List (Res Bytes) → Option (Asked v)) :
    (n q : Nat) → Served v → Served v
  | 0, _, log => log
  | n + 1, q, log =>
    match ask (log.map Prod.snd) with
    | none => log
    | some a =>
      if a.isAttempt then
        match q with
        | 0 => log
        | q + 1 => forging P key ask n q (log ++ [(a, a.run P key)])
      else forging P key ask n q (log ++ [(a, a.run P key)])

/-- Somewhere in the session a text was accepted that had not been issued before. -/
def Forged (P : Prims) {v : Ver} (key : Key P v .Local) (log : Served v) : Prop :=
  ∃ before a answer after item, log = before ++ (a, answer) :: after ∧ a.Accepted P key item ∧
    item ∉ Served.items before

/-- A function on a finite set of MAC inputs, continued by `f` outside. -/
def Tags.on {v : Ver} (f : Tags v) (X : Finset (Bytes × Bytes)) (g : X → BytesN (Spec.tagLen v)) :
    Tags v :=
  fun x => if h : x ∈ X then g ⟨x, h⟩ else f x

end Pasta
