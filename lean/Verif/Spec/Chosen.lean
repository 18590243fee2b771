import Verif.Spec.Secrecy
import Verif.Spec.Seal

/-!
# The left-or-right game with opening

The game of Spec/Secrecy.lean, for someone who also has things opened: they may hand in any text, to
be decrypted, unwrapped or unsealed under any key, and learn the outcome. They choose what to ask next
from all answers so far. The only thing refused is to open what the game itself has hidden.
-/

namespace Pasta

/-- One request to open something. -/
inductive Open (P : Prims) : Type 1
  /-- parse and decrypt a token; `look` is what the asker wants to know of the result -/
  | token (v : Ver) (M F E : Type) (instP : Payload E) (instM : MessageDecoding E M)
      (instF : Footer F) (text : Bytes) (look : ValidatedToken v .Local M F E → Bytes)
      (key : Key P v .Local) (implicit : Bytes)
  /-- parse and unwrap a wrapped key -/
  | pie (v : Ver) (k : WKind) (text : Bytes) (wrappingKey : Key P v .Local)
  /-- parse and unwrap a password-wrapped key -/
  | pw (v : Ver) (k : WKind) (text : Bytes) (password : Bytes)
  /-- parse and unseal a sealed key -/
  | sealing (v : Ver) (text : Bytes) (secretKey : Key P v .Secret)

/-- What it takes to open something: a key or password, and for a token the assertion. -/
inductive Opener where
  | token (v : Ver) (key implicit : Bytes)
  | pie (v : Ver) (key : Bytes)
  | pw (v : Ver) (password : Bytes)
  | sealing (v : Ver) (publicKey : Bytes)

/-- What it takes to open the text of an operation. -/
def Act.opener {P : Prims} : Act P → Opener
  | .token v _ _ _ _ _ _ _ _ _ key implicit => .token v key.toBytes.1 implicit
  | .pie v _ _ wk => .pie v wk.toBytes.1
  | .pw v _ _ password _ => .pw v password
  | .sealing v _ pk => .sealing v pk.toBytes.1

namespace Open

variable {P : Prims}

def opener : Open P → Opener
  | .token v _ _ _ _ _ _ _ _ key implicit => .token v key.toBytes.1 implicit
  | .pie v _ _ wk => .pie v wk.toBytes.1
  | .pw v _ _ password => .pw v password
  | .sealing v _ sk => .sealing v sk.publicKey.toBytes.1

def ver : Open P → Ver
  | .token v .. => v
  | .pie v .. => v
  | .pw v .. => v
  | .sealing v .. => v

/-- Open it with the given ciphers. Of a key, the asker learns the bytes. -/
def run (c : Ciphers) : Open P → Res Bytes
  | .token v M F E iP iM iF text look key implicit => do
    let _ := iP; let _ := iM; let _ := iF
    let t ← SecuredToken.parse v .Local F E text
    let r ← t.decryptWithAssertions M (P.withCiphers c) (key.under c) implicit
    return look r
  | .pie v k text wk => do
    let w ← PieWrappedKey.parse v k text
    let key ← w.unwrapKey (P.withCiphers c) (wk.under c)
    return key.toBytes.1
  | .pw v k text password => do
    let w ← PwWrappedKey.parse v k text
    let key ← w.unwrapKey (P.withCiphers c) password
    return key.toBytes.1
  | .sealing v text sk => do
    let w ← SealedKey.parse v text
    let key ← w.unsealKey (P.withCiphers c) (sk.under c)
    return key.toBytes.1

/-- The text of what was parsed. (One token can have two texts, C06; this is the one printed.) -/
def printed : Open P → Res Bytes
  | .token v _ F E iP _ iF text _ _ _ => do
    let _ := iP; let _ := iF
    let t ← SecuredToken.parse v .Local F E text
    return t.display
  | .pie v k text _ => do
    let w ← PieWrappedKey.parse v k text
    w.display
  | .pw v k text _ => do
    let w ← PwWrappedKey.parse v k text
    w.display
  | .sealing v text _ => do
    let w ← SealedKey.parse v text
    w.display

/-- It parses and is found authentic: neither `CryptoError` nor a panic. -/
def Authentic : Open P → Prop
  | .token v M F E iP iM iF text _ key implicit =>
    let _ := iP; let _ := iM; let _ := iF
    ∃ t, SecuredToken.parse v .Local F E text = .ok t ∧
      t.decryptWithAssertions M P key implicit ≠ .err .cryptoError ∧
      t.decryptWithAssertions M P key implicit ≠ .panic
  | .pie v k text wk =>
    ∃ w, PieWrappedKey.parse v k text = .ok w ∧ w.unwrapKey P wk ≠ .err .cryptoError ∧
      w.unwrapKey P wk ≠ .panic
  | .pw v k text password =>
    ∃ w, PwWrappedKey.parse v k text = .ok w ∧ w.unwrapKey P password ≠ .err .cryptoError ∧
      w.unwrapKey P password ≠ .panic
  | .sealing v text sk =>
    ∃ w, SealedKey.parse v text = .ok w ∧ w.unsealKey P sk ≠ .err .cryptoError ∧
      w.unsealKey P sk ≠ .panic

/-- `k` is the cipher key the specifications prescribe for opening it. -/
def CipherKey : Open P → BytesN 32 → Prop
  | .token .V3 _ F E iP _ iF text _ key _, k =>
    let _ := iP; let _ := iF
    ∃ t, SecuredToken.parse .V3 .Local F E text = .ok t ∧
      k = (Spec.v3EncKey P key.key (t.payload.take 32)).1
  | .token .V4 _ F E iP _ iF text _ key _, k =>
    let _ := iP; let _ := iF
    ∃ t, SecuredToken.parse .V4 .Local F E text = .ok t ∧
      k = (Spec.v4EncKey P key.key (t.payload.take 32)).1
  | .pie .V3 kind text wk, k =>
    ∃ w, PieWrappedKey.parse .V3 kind text = .ok w ∧ k = (Spec.v3PieEnc P wk.key w.nonce.1).1
  | .pie .V4 kind text wk, k =>
    ∃ w, PieWrappedKey.parse .V4 kind text = .ok w ∧ k = (Spec.v4PieEnc P wk.key w.nonce.1).1
  | .pw .V3 kind text password, k =>
    ∃ w, PwWrappedKey.parse .V3 kind text = .ok w ∧
      k = Spec.pwEncKey P .V3 (Spec.pwKey P (.pbkdf2 w.settings.iterations) password w.salt.1)
  | .pw .V4 kind text password, k =>
    ∃ w, PwWrappedKey.parse .V4 kind text = .ok w ∧
      k = Spec.pwEncKey P .V4 (Spec.pwKey P
        (.argon2id w.settings.mem.toNat w.settings.time w.settings.para) password w.salt.1)
  | .sealing .V3 text sk, k =>
    ∃ w xk, SealedKey.parse .V3 text = .ok w ∧
      Spec.unsealSecret P sk w.ephemeralPublicKey = some xk ∧
      k.1 = (P.sha384 (Spec.sealKdfInput .V3 1 xk w.ephemeralPublicKey.1
        (Spec.sealPub P sk.publicKey))).1.take 32
  | .sealing .V4 text sk, k =>
    ∃ w xk, SealedKey.parse .V4 text = .ok w ∧
      Spec.unsealSecret P sk w.ephemeralPublicKey = some xk ∧
      k = P.blake2b 32 (Spec.sealKdfInput .V4 1 xk w.ephemeralPublicKey.1
        (Spec.sealPub P sk.publicKey))

/-- `x.1` is the MAC key and `x.2` the message whose MAC the specifications compare with the tag when
it is opened. -/
def Tagged : Open P → Bytes × Bytes → Prop
  | .token v _ F E iP _ iF text _ key implicit, x =>
    let _ := iP; let _ := iF
    ∃ t n c tag, SecuredToken.parse v .Local F E text = .ok t ∧ t.payload = n ++ c ++ tag ∧
      n.length = 32 ∧ tag.length = Spec.tagLen v ∧
      x = (Spec.localAuthKey P v key.key n,
        Spec.localPreAuth (Spec.header v .Local (Payload.suffix E)) n c t.encodedFooter implicit)
  | .pie v k text wk, x =>
    ∃ w, PieWrappedKey.parse v k text = .ok w ∧
      x = (Spec.pieAuthKey P v wk.key w.nonce.1, Spec.pieTagged v k.kind w.nonce.1 w.wrappedKey.1)
  | .pw .V3 k text password, x =>
    ∃ w, PwWrappedKey.parse .V3 k text = .ok w ∧
      let params := Spec.PwParams.pbkdf2 w.settings.iterations
      x = (Spec.pwAuthKey P .V3 (Spec.pwKey P params password w.salt.1),
        Spec.pwTagged k.kind w.salt.1 params w.nonce.1 w.edk.1)
  | .pw .V4 k text password, x =>
    ∃ w, PwWrappedKey.parse .V4 k text = .ok w ∧
      let params := Spec.PwParams.argon2id w.settings.mem.toNat w.settings.time w.settings.para
      x = (Spec.pwAuthKey P .V4 (Spec.pwKey P params password w.salt.1),
        Spec.pwTagged k.kind w.salt.1 params w.nonce.1 w.edk.1)
  | .sealing v text sk, x =>
    ∃ w xk, SealedKey.parse v text = .ok w ∧
      Spec.unsealSecret P sk w.ephemeralPublicKey = some xk ∧
      x = (Spec.sealAuthKey P v xk w.ephemeralPublicKey.1 (Spec.sealPub P sk.publicKey),
        Spec.sealTagged v w.ephemeralPublicKey.1 w.encryptedDataKey.1)

/-- All parts of the token have lengths that exist in memory. -/
def Fits : Open P → Prop
  | .token v _ F E iP _ iF text _ _ implicit =>
    let _ := iP; let _ := iF
    Spec.Fits (Spec.header v .Local (Payload.suffix E)) ∧ Spec.Fits implicit ∧
      ∀ t, SecuredToken.parse v .Local F E text = .ok t →
        Spec.Fits t.payload ∧ Spec.Fits t.encodedFooter
  | _ => True

end Open

/-- A request: to hide one of two candidates, or to open something. -/
inductive Query (P : Prims) : Type 1
  | hide (a : Act P)
  | reveal (o : Open P)

inductive Answer where
  | text (t : Bytes)
  | opened (r : Res Bytes)
  | refused

/-- Requests and answers, oldest first. -/
abbrev Log (P : Prims) := List (Query P × Answer)

namespace Log

variable {P : Prims}

/-- The operations that were asked for, in order. -/
def hidden (log : Log P) : List (Act P) :=
  log.filterMap fun
    | (.hide a, _) => some a
    | _ => none

/-- The request is to open something that this game has hidden, with what opens it. -/
def Refused (log : Log P) (o : Open P) : Prop :=
  ∃ a t, (Query.hide a, Answer.text t) ∈ log ∧ o.printed = .ok t ∧ o.opener = a.opener

open Classical in
/-- The answer to a request to open something. -/
noncomputable def answer (c : Ciphers) (log : Log P) (o : Open P) : Answer :=
  if log.Refused o then .refused else .opened (o.run c)

end Log

/-- Play at most `n` rounds. What is asked next is any function of the answers so far. There is no
outcome if hiding fails (the random source runs dry, or a footer cannot be encoded). -/
noncomputable def play {P : Prims} (c : Ciphers) (s : Side) (ask : List Answer → Option (Query P)) :
    Nat → Rng → Log P → Option (Log P)
  | 0, _, log => some log
  | n + 1, rng, log =>
    match ask (log.map Prod.snd) with
    | none => some log
    | some (.hide a) =>
      match a.run c s rng with
      | .ok (t, rng) => play c s ask n rng (log ++ [(.hide a, .text t)])
      | _ => none
    | some (.reveal o) => play c s ask n rng (log ++ [(.reveal o, log.answer c o)])

end Pasta
