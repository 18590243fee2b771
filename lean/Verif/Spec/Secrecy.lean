import Verif.Model.Local
import Verif.Model.Pke
import Verif.Spec.Paserk

/-!
# The left-or-right game

Someone watches a sequence of operations that hide something: encrypting messages into tokens,
wrapping keys (with a key, with a password), sealing keys. Every operation comes with two
candidates for the hidden thing, a left and a right one. The watcher sees all texts produced and
may know every other argument, including the keys. What may be swapped to explain the same texts by
the other candidates are only the two stream ciphers, under the cipher keys used.
-/

namespace Pasta

/-- The two ciphers: the AES-256 block function and the XChaCha20 key stream. -/
structure Ciphers where
  aes : BytesN 32 → BytesN 16 → BytesN 16
  xchacha : BytesN 32 → BytesN 24 → Nat → UInt8

/-- The ciphers of `P`. -/
def Prims.ciphers (P : Prims) : Ciphers := ⟨P.aes256, P.xchacha20⟩

/-- `P` with other ciphers and everything else (hashes, MACs, key derivation, curves) the same. -/
def Prims.withCiphers (P : Prims) (c : Ciphers) : Prims :=
  { P with aes256 := c.aes, xchacha20 := c.xchacha }

/-- The ciphers agree under one key (of AES for version 3, of XChaCha20 for version 4). -/
def Ciphers.AgreeAt (c d : Ciphers) : Ver × BytesN 32 → Prop
  | (.V3, k) => c.aes k = d.aes k
  | (.V4, k) => c.xchacha k = d.xchacha k

/-- A key is the same key when the ciphers are exchanged. -/
def Key.under {P : Prims} (c : Ciphers) : {v : Ver} → {k : Kind} → Key P v k →
    Key (P.withCiphers c) v k
  | _, .Local, x => ⟨x.key⟩
  | .V3, .Public, x => ⟨x.key⟩
  | .V4, .Public, x => ⟨x.key⟩
  | .V3, .Secret, x => ⟨x.key⟩
  | .V4, .Secret, x => ⟨x.key⟩

/-- The left or the right candidate. -/
inductive Side where | left | right
  deriving DecidableEq

/-- One operation with two candidates for what it hides. -/
inductive Act (P : Prims) : Type 1
  /-- encrypt a message into a token -/
  | token (v : Ver) (M F E : Type) (instP : Payload E) (instM : MessageEncoding E M)
      (instF : Footer F) (encoding : Side → E) (message : Side → M) (footer : F)
      (key : Key P v .Local) (implicit : Bytes)
  /-- wrap a key with a key -/
  | pie (v : Ver) (k : WKind) (hidden : Side → Key P v k.kind) (wrappingKey : Key P v .Local)
  /-- wrap a key with a password -/
  | pw (v : Ver) (k : WKind) (hidden : Side → Key P v k.kind) (password : Bytes)
      (settings : KdfState v)
  /-- seal a key for a public key -/
  | sealing (v : Ver) (hidden : Side → Key P v .Local) (publicKey : Key P v .Public)

namespace Act

variable {P : Prims}

/-- Perform the operation with one of the candidates and the given ciphers; the outcome is the
printed text. -/
def run (c : Ciphers) (s : Side) : Act P → Rng → Res (Bytes × Rng)
  | .token v _ _ _ iP iM iF encoding message footer key implicit, rng => do
    let _ := iP; let _ := iM; let _ := iF
    let b : TokenBuilder v .Local _ _ _ :=
      ⟨{ encoding := encoding s, message := message s, footer := footer }⟩
    let (tok, rng) ← b.encryptWithAssertionsAndRng (P.withCiphers c) (key.under c) implicit rng
    return (tok.display, rng)
  | .pie _ _ hidden wk, rng => do
    let (w, rng) ← ((hidden s).under c).wrapPie (wk.under c) rng
    let text ← w.display
    return (text, rng)
  | .pw _ _ hidden password settings, rng => do
    let (w, rng) ← ((hidden s).under c).pwWrapWithSettings password settings rng
    let text ← w.display
    return (text, rng)
  | .sealing _ hidden pk, rng => do
    let (w, rng) ← ((hidden s).under c).sealKey (pk.under c) rng
    let text ← w.display
    return (text, rng)

/-- The bytes that are hidden. -/
def secret (s : Side) : Act P → Except String Bytes
  | .token _ _ _ _ iP iM _ encoding message _ _ _ =>
    let _ := iP; let _ := iM
    MessageEncoding.encode (encoding s) (message s)
  | .pie _ _ hidden _ => .ok (hidden s).toBytes.1
  | .pw _ _ hidden _ _ => .ok (hidden s).toBytes.1
  | .sealing _ hidden _ => .ok (hidden s).toBytes.1

/-- The protocol version. -/
def ver : Act P → Ver
  | .token v .. => v
  | .pie v .. => v
  | .pw v .. => v
  | .sealing v .. => v

/-- The cipher key the specifications prescribe for the operation, given the random source. -/
def cipherKey : Act P → Rng → Option (BytesN 32)
  | .token .V3 _ _ _ _ _ _ _ _ _ key _, rng => some (Spec.v3EncKey P key.key (rng.take 32)).1
  | .token .V4 _ _ _ _ _ _ _ _ _ key _, rng => some (Spec.v4EncKey P key.key (rng.take 32)).1
  | .pie .V3 _ _ wk, rng => some (Spec.v3PieEnc P wk.key (rng.take 32)).1
  | .pie .V4 _ _ wk, rng => some (Spec.v4PieEnc P wk.key (rng.take 32)).1
  | .pw .V3 _ _ pass st, rng =>
    some (Spec.pwEncKey P .V3 (Spec.pwKey P (.pbkdf2 st.iterations) pass (rng.take 32)))
  | .pw .V4 _ _ pass st, rng =>
    some (Spec.pwEncKey P .V4
      (Spec.pwKey P (.argon2id st.mem.toNat st.time st.para) pass (rng.take 16)))
  | .sealing .V3 _ pk, rng =>
    match p384Random rng with
    | .ok (esk, _) =>
      some (BytesN.split 32 16 rfl (P.sha384 (Spec.sealKdfInput .V3 1 (P.p384Dh esk pk.key).1
        (P.p384Compress (P.p384Public esk)).1 (P.p384Compress pk.key).1))).1
    | _ => none
  | .sealing .V4 _ pk, rng =>
    match fillBytes 32 rng with
    | .ok (b, _) =>
      let e := scalarModOrder (clampInteger b)
      some (P.blake2b 32 (Spec.sealKdfInput .V4 1 (P.montMul e (P.edToMontgomery pk.key)).1
        (P.montMulBase e).1 (P.edToMontgomery pk.key).1))
    | _ => none

/-- Perform operations one after the other on the same random source. -/
def runAll (c : Ciphers) (s : Side) : List (Act P) → Rng → Res (List Bytes × Rng)
  | [], rng => .ok ([], rng)
  | a :: as, rng => do
    let (t, rng) ← a.run c s rng
    let (ts, rng) ← runAll c s as rng
    return (t :: ts, rng)

/-- The cipher keys of a sequence of operations (performed with the left candidates). -/
def cipherKeys : List (Act P) → Rng → List (Ver × BytesN 32)
  | [], _ => []
  | a :: as, rng =>
    match a.cipherKey rng, a.run P.ciphers .left rng with
    | some k, .ok (_, rng') => (a.ver, k) :: cipherKeys as rng'
    | _, _ => []

/-- Both candidates can be encoded, to the same length, which is representable. -/
def Comparable (a : Act P) : Prop :=
  ∃ m m', a.secret .left = .ok m ∧ a.secret .right = .ok m' ∧ m.length = m'.length ∧ Spec.Fits m

end Act
end Pasta
