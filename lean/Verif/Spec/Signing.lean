import Mathlib.Data.ZMod.Basic
import Mathlib.Data.Rat.Defs
import Mathlib.Data.Fintype.Pi
import Verif.Spec.Sealing
import Verif.Spec.Paseto
import Verif.Real.Prims

/-!
# The game about signed tokens (version 4)

Someone who has a public key has tokens of their choice signed with the secret key and computes the hash
that makes the challenges of signatures, choosing everything from the answers so far. In the end they hand
in a text. They win when it is accepted and was not signed for them (for that assertion).

The two uses of SHA-512 in RFC 8032 are exchanged for random functions: the hash of `R`, the public key
and the message, which everyone can compute, and the hash of the secret prefix and the message, reduced
modulo the group order, which only the signer can compute. The rest is the actual Ed25519. Probabilities
are counted: all functions are equally likely.

Beside it stands an attempt to compute the secret scalar from the public key with the help of such a
person: signatures are made up and the answers are arranged accordingly, the person is run twice, the
second time with other answers from the decisive hash on, and an equation is solved.
-/

namespace Pasta.Signing

open Real (prims)
open Real.Ed (base)

/-! ### Signatures with exchangeable hashes -/

/-- Numbers modulo the order of the group. -/
abbrev Scalar := ZMod ed25519Order

instance : NeZero ed25519Order := ⟨by decide⟩

/-- The number that a hash stands for. -/
def number (b : BytesN 64) : Scalar := (leNat b.1 : ℕ)

/-- The secret scalar of a seed. -/
def secretScalar (seed : BytesN 32) : Scalar :=
  (Spec.decodeScalar25519 (Real.fit 32 (Real.sha512 seed.1).1) : ℕ)

/-- The public key of a seed. -/
def publicKey (seed : BytesN 32) : BytesN 32 := Real.Ed.publicBytes seed

/-- What is hashed for the challenge. -/
def challengeInput (R pk m : Bytes) : Bytes := R ++ pk ++ m

/-- First half `R`, second half `s`. -/
def join (R : BytesN 32) (s : Scalar) : BytesN 64 := Real.fit 64 (R.1 ++ leBytes 32 s.val)

/-- RFC 8032, 5.1.6: `R = r B`, `s = r + k a`. -/
def signature (seed : BytesN 32) (nonce : Bytes → Scalar) (chal : Bytes → BytesN 64) (m : Bytes) :
    BytesN 64 :=
  let R := (base.smul (nonce m).val).encode
  join R (nonce m + number (chal (challengeInput R.1 (publicKey seed).1 m)) * secretScalar seed)

/-- RFC 8032, 5.1.7, without multiplying by 8: `s` is reduced and `s B - k A` is encoded as `R`. -/
def verifies (chal : Bytes → BytesN 64) (pk m sig : Bytes) : Bool :=
  (Real.Ed.decode pk).any fun A =>
    let R := sig.take 32
    let s := leNat (sig.drop 32)
    let k := leNat (chal (challengeInput R pk m)).1 % ed25519Order
    decide (s < ed25519Order) && ((base.smul s).add (A.neg.smul k)).encode.1 == R

/-- The actual primitives, but signatures are made and their challenges hashed in a given way. (One key
signs in the game, so that `sign` need not be told which.) -/
def primsWith (sign chal : Bytes → BytesN 64) : Prims := { prims with
  edSign := fun _ m => sign m
  edVerify := fun k m sig => verifies chal (k : Real.EdKey).1.1 m sig.1 }

/-- The nonce of RFC 8032. -/
def ownNonce (seed : BytesN 32) (m : Bytes) : Scalar :=
  (leNat (Real.sha512 ((Real.sha512 seed.1).1.drop 32 ++ m)).1 : ℕ)

/-- A function on short inputs, continued by another. -/
def onShort {α : Type} {M : Nat} (f : ShortBytes M → α) (d : Bytes → α) : Bytes → α :=
  fun m => if h : m.length ≤ M then f ⟨m, h⟩ else d m

/-! ### The game -/

/-- One request. -/
inductive Ask : Type 1
  /-- sign a token -/
  | sign (M F E : Type) (instP : Payload E) (instM : MessageEncoding E M) (instF : Footer F)
      (builder : TokenBuilder .V4 .Public M F E) (implicit : Bytes)
  /-- the challenge hash of an input -/
  | hash (x : Bytes)

/-- One answer: the text of the token or the hash. -/
inductive Answer : Type
  | token (r : Res Bytes)
  | hash (b : BytesN 64)

/-- What is handed in. -/
structure Claim : Type 1 where
  M : Type
  F : Type
  E : Type
  instP : Payload E
  instM : MessageDecoding E M
  instF : Footer F
  text : Bytes
  implicit : Bytes

/-- Someone who wants to forge. -/
structure Forger : Type 1 where
  ask : List Answer → Option Ask
  claim : List Answer → Claim

abbrev Log := List (Ask × Answer)

/-- Serve a request. -/
def Ask.run (P : Prims) (key : Key P .V4 .Secret) (chal : Bytes → BytesN 64) : Ask → Answer
  | .sign _ _ _ iP iM iF b implicit =>
    let _ := iP; let _ := iM; let _ := iF
    .token (do
      let t ← b.signWithAssertions P key implicit
      return t.display)
  | .hash x => .hash (chal x)

/-- The input of a request to hash. -/
def Ask.input : Ask → Option Bytes
  | .sign .. => none
  | .hash x => some x

/-- At most `n` requests, of which at most `q` are for a hash, each chosen from the answers so far. -/
def play (run : Ask → Answer) (ask : List Answer → Option Ask) : (n q : Nat) → Log → Log
  | 0, _, log => log
  | n + 1, q, log =>
    match ask (log.map Prod.snd) with
    | none => log
    | some a =>
      if a.input.isSome then
        match q with
        | 0 => log
        | q + 1 => play run ask n q (log ++ [(a, run a)])
      else play run ask n q (log ++ [(a, run a)])

/-- The texts that were signed, each with its assertion. -/
def issued (log : Log) : List (Bytes × Bytes) := log.filterMap fun e =>
  match e with
  | (.sign _ _ _ _ _ _ _ implicit, .token (.ok text)) => some (text, implicit)
  | _ => none

/-- The claim parses and is accepted, and is not one of the texts issued. (One token can have two texts,
C06; what counts is the one that it prints as.) -/
def Forged (P : Prims) (pk : Key P .V4 .Public) (log : Log) (c : Claim) : Prop :=
  let _ := c.instP; let _ := c.instM; let _ := c.instF
  ∃ t, SecuredToken.parse .V4 .Public c.F c.E c.text = .ok t ∧
    t.verifyWithAssertions c.M P pk c.implicit ≠ .err .cryptoError ∧
    t.verifyWithAssertions c.M P pk c.implicit ≠ .panic ∧
    (t.display, c.implicit) ∉ issued log

/-- The signed bytes and the signature of a claim. -/
def Claim.signed (c : Claim) : Option (Bytes × Bytes) :=
  let _ := c.instP; let _ := c.instF
  match SecuredToken.parse .V4 .Public c.F c.E c.text with
  | .ok t =>
    let l := t.payload.length - 64
    if 64 ≤ t.payload.length then
      some (Spec.v4Signed (Spec.header .V4 .Public (Payload.suffix c.E)) (t.payload.take l)
        t.encodedFooter c.implicit, t.payload.drop l)
    else none
  | _ => none

/-- Everything signed has at most `M` bytes. -/
def Ask.Short (M : Nat) : Ask → Prop
  | .sign _ _ E iP iM iF b implicit =>
    let _ := iP; let _ := iM; let _ := iF
    ∀ m f, MessageEncoding.encode b.tok.encoding b.tok.message = .ok m →
      Footer.encode b.tok.footer = some f →
      (Spec.v4Signed (Spec.header .V4 .Public (Payload.suffix E)) m f implicit).length ≤ M
  | .hash _ => True

def Claim.Short (M : Nat) (c : Claim) : Prop := ∀ p, c.signed = some p → p.1.length ≤ M

def Forger.Short (M : Nat) (φ : Forger) : Prop :=
  (∀ answers a, φ.ask answers = some a → a.Short M) ∧ ∀ answers, (φ.claim answers).Short M

section games

variable {M : Nat} (φ : Forger) (n q : Nat)

/-- What the function that makes nonces, and the challenge hash, could be. -/
abbrev Nonces (M : Nat) := ShortBytes M → Scalar
abbrev Challenges (M : Nat) := ShortBytes (M + 64) → BytesN 64

/-- The challenge hash. -/
def chalOf (h : Challenges M) : Bytes → BytesN 64 := onShort h Real.sha512

/-- The primitives of the game. -/
def gamePrims (seed : BytesN 32) (N : Nonces M) (h : Challenges M) : Prims :=
  primsWith (signature seed (onShort N (ownNonce seed)) (chalOf h)) (chalOf h)

/-- The game: the requests and their answers. -/
def game (seed : BytesN 32) (N : Nonces M) (h : Challenges M) : Log :=
  play (Ask.run (gamePrims seed N h) ⟨seed⟩ (chalOf h)) φ.ask n q []

/-- The forger wins. -/
def Wins (seed : BytesN 32) (N : Nonces M) (h : Challenges M) : Prop :=
  let log := game φ n q seed N h
  Forged (gamePrims seed N h) ⟨prims.edPublic seed⟩ log (φ.claim (log.map Prod.snd))

open Classical in
/-- The chance that the forger wins. -/
noncomputable def forgeChance (M : Nat) (seed : BytesN 32) : ℚ :=
  (Finset.univ.filter fun x : Nonces M × Challenges M => Wins φ n q seed x.1 x.2).card /
    Fintype.card (Nonces M × Challenges M)

/-! ### Computing the secret scalar -/

/-- The first half that goes with a second half and a challenge: `s B - k A`. -/
def commitment (pk : BytesN 32) (s k : Scalar) : BytesN 32 :=
  let A := (Real.Ed.decode pk.1).getD Real.Ed.zero
  ((base.smul s.val).add (A.neg.smul k.val)).encode

/-- What is drawn for every message: the second half of its signature and its challenge. -/
abbrev MadeUp (M : Nat) := (ShortBytes M → Scalar) × (ShortBytes M → BytesN 64)

/-- The first half of the made-up signature on a message. -/
def MadeUp.first (pk : BytesN 32) (z : MadeUp M) (m : ShortBytes M) : BytesN 32 :=
  commitment pk (z.1 m) (number (z.2 m))

/-- The made-up signature on a message. -/
def MadeUp.sign (pk : BytesN 32) (z : MadeUp M) : Bytes → BytesN 64 :=
  onShort (fun m => join (z.first pk m) (z.1 m)) fun _ => join pk 0

/-- The challenge hash: as made up where a made-up signature needs it, otherwise as given. -/
def MadeUp.challenges (pk : BytesN 32) (z : MadeUp M) (h : Challenges M) : Challenges M := fun x =>
  if 64 ≤ x.1.length then
    let m : ShortBytes M := ⟨x.1.drop 64, by have := x.2; rw [List.length_drop]; omega⟩
    if x.1 = challengeInput (z.first pk m).1 pk.1 m.1 then z.2 m else h x
  else h x

/-- The forger is served without the secret key (any other key does). -/
def simulate (pk : BytesN 32) (z : MadeUp M) (h : Challenges M) : Log :=
  let chal := chalOf (z.challenges pk h)
  play (Ask.run (primsWith (z.sign pk) chal) ⟨pk⟩ chal) φ.ask n q []

/-- The input of the challenge hash that the verification of the claim computes (if there is one). -/
def Claim.point (pk : BytesN 32) (c : Claim) : ShortBytes (M + 64) :=
  match c.signed with
  | none => ⟨[], Nat.zero_le _⟩
  | some (m, sig) =>
    let x := challengeInput (sig.take 32) pk.1 m
    if h : x.length ≤ M + 64 then ⟨x, h⟩ else ⟨[], Nat.zero_le _⟩

/-- The second half of its signature. -/
def Claim.second (c : Claim) : Scalar :=
  match c.signed with
  | none => 0
  | some (_, sig) => (leNat (sig.drop 32) : ℕ)

/-- The inputs of the challenge hash in the order of their computation, that of the verification last. -/
def points (pk : BytesN 32) (log : Log) (c : Claim) : List (ShortBytes (M + 64)) :=
  (log.filterMap fun e => match e.1.input with
    | some x => if h : x.length ≤ M + 64 then some ⟨x, h⟩ else none
    | none => none) ++ [c.point pk]

/-- The values of `h` at what comes before `x` in the list, those of `h'` elsewhere. -/
def rewind {α β : Type} [DecidableEq α] (x : α) (l : List α) (h h' : α → β) : α → β := fun y =>
  if y ∈ l.take (l.idxOf x) then h y else h' y

/-- The `a` with `s - k a = s' - k' a`. -/
def solve (s k s' k' : Scalar) : Scalar := (s - s') * (k - k')⁻¹

/-- Run the forger; run them again, with other hashes (`h'`) from the decisive one on; solve for
the secret. -/
def extract (pk : BytesN 32) (z : MadeUp M) (h h' : Challenges M) : Scalar :=
  let log := simulate φ n q pk z h
  let c := φ.claim (log.map Prod.snd)
  let x : ShortBytes (M + 64) := c.point pk
  let h₂ : Challenges M := rewind x (points pk log c) h h'
  let c₂ := φ.claim ((simulate φ n q pk z h₂).map Prod.snd)
  solve c.second (number (z.challenges pk h x)) c₂.second (number (z.challenges pk h₂ x))

open Classical in
/-- The chance that the secret scalar comes out. -/
noncomputable def extractChance (M : Nat) (seed : BytesN 32) : ℚ :=
  (Finset.univ.filter fun x : MadeUp M × Challenges M × Challenges M =>
      extract φ n q (publicKey seed) x.1 x.2.1 x.2.2 = secretScalar seed).card /
    Fintype.card (MadeUp M × Challenges M × Challenges M)

end games

end Pasta.Signing
