import Mathlib.Data.Rat.Defs
import Mathlib.Data.Fintype.Pi
import Verif.Spec.Birthday
import Verif.Spec.Secrecy
import Verif.Spec.Seal

/-!
# The game about a sealed key

One of two keys has been sealed for a public key. Someone who sees the text may compute the key
derivation hash, the cipher and the MAC, and may have any other text unsealed, choosing everything from the
answers so far; the question is which of the two keys was sealed. Probabilities are counted over the
random bytes of the sealing, the key derivation hash and the cipher: all values and all functions are
equally likely. Everything else is that of the primitives `P`.

Beside it stands the same game with a text that has nothing to do with the keys: its ciphertext is
random, its tag is made with a random authentication key, and of all other texts with the same
ephemeral key none is accepted.
-/

namespace Pasta

/-- How long the inputs of the key derivation hash are. -/
def sealInLen : Ver → Nat
  | .V3 => 155
  | .V4 => 105

/-- A key derivation hash: what SHA-384 could be on inputs of 155 bytes (version 3), what BLAKE2b with
output of 32 bytes could be on inputs of 105 bytes (version 4). -/
abbrev SealHash (v : Ver) := BytesN (sealInLen v) → BytesN (pkeTagLen v)

/-- `P` with another key derivation hash. -/
def Prims.withSealHash (P : Prims) : (v : Ver) → SealHash v → Prims
  | .V3, f => { P with
      sha384 := fun m => if h : m.length = 155 then f ⟨m, h⟩ else P.sha384 m }
  | .V4, f => { P with
      blake2b := fun n m =>
        if h : n = 32 ∧ m.length = 105 then ⟨(f ⟨m, h.2⟩).1, by rw [(f ⟨m, h.2⟩).2, h.1]; rfl⟩
        else P.blake2b n m }

/-- What the cipher could be under one key: the block function of AES-256 (version 3), the first `L`
bytes of the key streams of XChaCha20 (version 4). -/
def OneCipher (v : Ver) (L : Nat) : Type :=
  match v with
  | .V3 => BytesN 16 → BytesN 16
  | .V4 => BytesN 24 → Fin L → UInt8

instance (v : Ver) (L : Nat) : Fintype (OneCipher v L) :=
  match v with
  | .V3 => inferInstanceAs (Fintype (BytesN 16 → BytesN 16))
  | .V4 => inferInstanceAs (Fintype (BytesN 24 → Fin L → UInt8))

/-- What the cipher could be. -/
abbrev CipherOf (v : Ver) (L : Nat) := BytesN 32 → OneCipher v L

/-- The ciphers: the given one, and for the other version that of `P`. -/
def CipherOf.ciphers (P : Prims) {L : Nat} : {v : Ver} → CipherOf v L → Ciphers
  | .V3, c => ⟨c, P.xchacha20⟩
  | .V4, c => ⟨P.aes256, fun k iv i => if h : i < L then c k iv ⟨i, h⟩ else 0⟩

/-- `P` with another key derivation hash and another cipher. -/
def Prims.withSeal (P : Prims) {v : Ver} {L : Nat} (f : SealHash v) (c : CipherOf v L) : Prims :=
  (P.withSealHash v f).withCiphers (c.ciphers P)

/-- A key is the same key when hash and cipher are exchanged. -/
def Key.underSeal {P : Prims} {L : Nat} : {v : Ver} → {k : Kind} → (f : SealHash v) →
    (c : CipherOf v L) → Key P v k → Key (P.withSeal f c) v k
  | .V3, .Local, _, _, x => ⟨x.key⟩
  | .V4, .Local, _, _, x => ⟨x.key⟩
  | .V3, .Public, _, _, x => ⟨x.key⟩
  | .V4, .Public, _, _, x => ⟨x.key⟩
  | .V3, .Secret, _, _, x => ⟨x.key⟩
  | .V4, .Secret, _, _, x => ⟨x.key⟩

/-- Messages of at most `M` bytes. -/
abbrev ShortBytes (M : Nat) : Type := { m : Bytes // m.length ≤ M }

instance (M : Nat) : Fintype (ShortBytes M) :=
  .ofEquiv ((n : Fin (M + 1)) × BytesN n)
    { toFun := fun x => ⟨x.2.1, by rw [x.2.2]; exact Nat.le_of_lt_succ x.1.2⟩
      invFun := fun m => ⟨⟨m.1.length, Nat.lt_succ_of_le m.2⟩, m.1, rfl⟩
      left_inv := by
        rintro ⟨⟨n, hn⟩, m, h⟩
        change m.length = n at h
        subst h
        rfl
      right_inv := fun _ => rfl }

/-- A MAC: what HMAC-SHA-384, or keyed BLAKE2b with output of 32 bytes, could be under the keys used for
sealing, on messages of at most `M` bytes. -/
abbrev SealMac (v : Ver) (M : Nat) := BytesN (pkeTagLen v) → ShortBytes M → BytesN (pkeTagLen v)

/-- `P` with another MAC. -/
def Prims.withSealMac (P : Prims) {M : Nat} : (v : Ver) → SealMac v M → Prims
  | .V3, T => { P with
      hmacSha384 := fun k m =>
        if h : k.length = 48 ∧ m.length ≤ M then T ⟨k, h.1⟩ ⟨m, h.2⟩ else P.hmacSha384 k m }
  | .V4, T => { P with
      blake2bMac := fun n k m =>
        if h : n = 32 ∧ k.length = 32 ∧ m.length ≤ M then
          ⟨(T ⟨k, h.2.1⟩ ⟨m, h.2.2⟩).1, by rw [(T ⟨k, h.2.1⟩ ⟨m, h.2.2⟩).2, h.1]; rfl⟩
        else P.blake2bMac n k m }

/-- A key is the same key when the MAC is exchanged. -/
def Key.underMac {P : Prims} {M : Nat} : {v : Ver} → {k : Kind} → (T : SealMac v M) → Key P v k →
    Key (P.withSealMac v T) v k
  | .V3, .Local, _, x => ⟨x.key⟩
  | .V4, .Local, _, x => ⟨x.key⟩
  | .V3, .Public, _, x => ⟨x.key⟩
  | .V4, .Public, _, x => ⟨x.key⟩
  | .V3, .Secret, _, x => ⟨x.key⟩
  | .V4, .Secret, _, x => ⟨x.key⟩

/-- One request. -/
inductive SealAsk (v : Ver) : Type
  /-- the key derivation hash of an input -/
  | hash (m : BytesN (sealInLen v))
  /-- the cipher under a key -/
  | cipher (k : BytesN 32)
  /-- the MAC of a message under a key -/
  | mac (ak : BytesN (pkeTagLen v)) (m : Bytes)
  /-- parse a text and unseal it -/
  | unseal (text : Bytes)

/-- One answer. -/
inductive SealAnswer (v : Ver) (L : Nat) : Type
  | hash (b : BytesN (pkeTagLen v))
  | cipher (c : OneCipher v L)
  | mac (t : BytesN (pkeTagLen v))
  | unseal (r : Res Bytes)
  /-- asked to unseal the text that the game is about -/
  | refused

/-- At most `n` requests one after the other, each chosen from the answers so far: all answers and
all requests. -/
def sealPlay {v : Ver} {L : Nat} (answer : SealAsk v → SealAnswer v L)
    (ask : List (SealAnswer v L) → Option (SealAsk v)) :
    Nat → List (SealAnswer v L) → List (SealAnswer v L) × List (SealAsk v)
  | 0, seen => (seen, [])
  | n + 1, seen =>
    match ask seen with
    | none => (seen, [])
    | some a =>
      let r := sealPlay answer ask n (seen ++ [answer a])
      (r.1, a :: r.2)

section game

variable (P : Prims) {v : Ver} {L : Nat} (sk : Key P v .Secret)

/-- The text of the sealed key. -/
def sealedText (key : Key P v .Local) (pk : Key P v .Public) (rng : Rng) : Res Bytes := do
  let (w, _) ← key.sealKey pk rng
  w.display

/-- Parse and unseal. -/
def unsealText (text : Bytes) : Res Bytes := do
  let w ← SealedKey.parse v text
  let key ← w.unsealKey P sk
  return key.toBytes.1

/-- The MAC. -/
def authTag : {v : Ver} → (ak : BytesN (pkeTagLen v)) → (m : Bytes) → BytesN (pkeTagLen v)
  | .V3, ak, m => P.hmacSha384 ak.1 m
  | .V4, ak, m => P.blake2bMac 32 ak.1 m

/-- How requests are answered; `text` is the text the game is about. -/
def sealAnswer (f : SealHash v) (c : CipherOf v L) (text : Bytes) : SealAsk v → SealAnswer v L
  | .hash m => .hash (f m)
  | .cipher k => .cipher (c k)
  | .mac ak m => .mac (authTag P ak m)
  | .unseal s =>
    if s = text then .refused
    else .unseal (unsealText (P.withSeal f c) (sk.underSeal f c) s)

/-- The game: the key is sealed, requests are made; the text and all answers. -/
def sealGame (key : Key P v .Local) (ask : Bytes → List (SealAnswer v L) → Option (SealAsk v))
    (n : Nat) (rng : Rng) (f : SealHash v) (c : CipherOf v L) : Res (Bytes × List (SealAnswer v L)) := do
  let text ← sealedText (P.withSeal f c) (key.underSeal f c) (sk.publicKey.underSeal f c) rng
  return (text, (sealPlay (sealAnswer P sk f c text) (ask text) n []).1)

/-- The shared secret and the ephemeral public key of a sealing. -/
def ephemeral : {v : Ver} → Key P v .Public → Rng → Option (Bytes × BytesN (pkeEpkLen v))
  | .V3, pk, rng =>
    match p384Random rng with
    | .ok (esk, _) => some ((P.p384Dh esk pk.key).1, P.p384Compress (P.p384Public esk))
    | _ => none
  | .V4, pk, rng =>
    match fillBytes 32 rng with
    | .ok (b, _) =>
      let e := scalarModOrder (clampInteger b)
      some ((P.montMul e (P.edToMontgomery pk.key)).1, P.montMulBase e)
    | _ => none

/-- The tag of a sealed key, from the authentication key. -/
def sealMac (ak : BytesN (pkeTagLen v)) (epk : BytesN (pkeEpkLen v)) (edk : BytesN 32) :
    BytesN (pkeTagLen v) :=
  authTag P ak (Spec.sealTagged v epk.1 edk.1)

/-- A text made of an ephemeral public key, a ciphertext and an authentication key. -/
def randomText (epk : BytesN (pkeEpkLen v)) (edk : BytesN 32) (ak : BytesN (pkeTagLen v)) : Bytes :=
  Spec.paserkText v (asc "seal") ((sealMac P ak epk edk).1 ++ epk.1 ++ edk.1)

/-- The text is a sealed key with this ephemeral public key. -/
def HasEphemeral (epk : BytesN (pkeEpkLen v)) (s : Bytes) : Prop :=
  ∃ w : SealedKey v, SealedKey.parse v s = .ok w ∧ w.ephemeralPublicKey = epk

open Classical in
/-- How requests are answered in the other game. -/
noncomputable def idealAnswer (epk : BytesN (pkeEpkLen v)) (f : SealHash v) (c : CipherOf v L)
    (text : Bytes) : SealAsk v → SealAnswer v L
  | .unseal s =>
    if s = text then .refused
    else if HasEphemeral epk s then .unseal (.err .cryptoError)
    else sealAnswer P sk f c text (.unseal s)
  | a => sealAnswer P sk f c text a

/-- The other game: a random text; all requests. -/
noncomputable def idealAsked (ask : Bytes → List (SealAnswer v L) → Option (SealAsk v)) (n : Nat)
    (epk : BytesN (pkeEpkLen v)) (f : SealHash v) (c : CipherOf v L) (edk : BytesN 32)
    (ak : BytesN (pkeTagLen v)) : List (SealAsk v) :=
  let text := randomText P epk edk ak
  (sealPlay (idealAnswer P sk epk f c text) (ask text) n []).2

/-- The shared secret has been hashed. -/
def SecretHashed (pk : Key P v .Public) (xk : Bytes) (epk : BytesN (pkeEpkLen v))
    (asked : List (SealAsk v)) : Prop :=
  ∃ m, SealAsk.hash m ∈ asked ∧ ∃ d, m.1 = Spec.sealKdfInput v d xk epk.1 (Spec.sealPub P pk)

/-- A text other than the given one has been made, with the same ephemeral key and a right tag. -/
def TagForged (epk : BytesN (pkeEpkLen v)) (edk : BytesN 32) (ak : BytesN (pkeTagLen v))
    (asked : List (SealAsk v)) : Prop :=
  ∃ s, SealAsk.unseal s ∈ asked ∧ s ≠ randomText P epk edk ak ∧ ∃ edk', s = randomText P epk edk' ak

/-- What someone asks who makes no request to unseal, shown a random text. No secret key is involved. -/
def passiveAsked (ask : Bytes → List (SealAnswer v L) → Option (SealAsk v)) (n : Nat)
    (epk : BytesN (pkeEpkLen v)) (f : SealHash v) (c : CipherOf v L) (edk : BytesN 32)
    (ak : BytesN (pkeTagLen v)) : List (SealAsk v) :=
  let text := randomText P epk edk ak
  let answer : SealAsk v → SealAnswer v L := fun
    | .hash m => .hash (f m)
    | .cipher k => .cipher (c k)
    | .mac ak m => .mac (authTag P ak m)
    | .unseal _ => .refused
  (sealPlay answer (ask text) n []).2

/-- How long the shared secret is. -/
def xkLen : Ver → Nat
  | .V3 => 48
  | .V4 => 32

/-- Computing a shared secret with the help of someone who tells sealed keys apart: of their `i`-th
request, if it is an input of the hash, the bytes where the shared secret stands. -/
def solve (ask : Bytes → List (SealAnswer v L) → Option (SealAsk v)) (n : Nat)
    (epk : BytesN (pkeEpkLen v)) (f : SealHash v) (c : CipherOf v L) (edk : BytesN 32)
    (ak : BytesN (pkeTagLen v)) (i : Nat) : Option Bytes :=
  match (passiveAsked P ask n epk f c edk ak)[i]? with
  | some (.hash m) => some ((m.1.drop 9).take (xkLen v))
  | _ => none

end game

open Classical in
/-- The chance of an event, over key derivation hash and cipher, and random bytes from a finite set
of tapes. -/
noncomputable def sealChance {v : Ver} {L : Nat} {R : Finset Rng}
    (A : R → SealHash v → CipherOf v L → Prop) : ℚ :=
  (Finset.univ.filter fun x : R × SealHash v × CipherOf v L => A x.1 x.2.1 x.2.2).card /
    Fintype.card (R × SealHash v × CipherOf v L)

open Classical in
/-- The chance of an event in the other game: also over ciphertext and authentication key. -/
noncomputable def idealSealChance {v : Ver} {L : Nat} {R : Finset Rng}
    (A : R → SealHash v → CipherOf v L → BytesN 32 → BytesN (pkeTagLen v) → Prop) : ℚ :=
  (Finset.univ.filter fun x : R × SealHash v × CipherOf v L × BytesN 32 × BytesN (pkeTagLen v) =>
      A x.1 x.2.1 x.2.2.1 x.2.2.2.1 x.2.2.2.2).card /
    Fintype.card (R × SealHash v × CipherOf v L × BytesN 32 × BytesN (pkeTagLen v))

open Classical in
/-- The chance of an event, over a MAC as well. -/
noncomputable def sealTagChance {v : Ver} {L M : Nat} {R : Finset Rng}
    (A : SealMac v M → R → SealHash v → CipherOf v L → Prop) : ℚ :=
  (Finset.univ.filter fun x : SealMac v M × R × SealHash v × CipherOf v L =>
      A x.1 x.2.1 x.2.2.1 x.2.2.2).card /
    Fintype.card (SealMac v M × R × SealHash v × CipherOf v L)

open Classical in
/-- The chance of an event in the other game, over a MAC as well. -/
noncomputable def idealSealTagChance {v : Ver} {L M : Nat} {R : Finset Rng}
    (A : SealMac v M → R → SealHash v → CipherOf v L → BytesN 32 → BytesN (pkeTagLen v) → Prop) : ℚ :=
  (Finset.univ.filter fun x : SealMac v M × R × SealHash v × CipherOf v L × BytesN 32 ×
      BytesN (pkeTagLen v) => A x.1 x.2.1 x.2.2.1 x.2.2.2.1 x.2.2.2.2.1 x.2.2.2.2.2).card /
    Fintype.card (SealMac v M × R × SealHash v × CipherOf v L × BytesN 32 × BytesN (pkeTagLen v))

end Pasta
