import Verif.Spec.Sealing

/-!
# The game about the recipient of a sealed key

There are two recipients. A key has been sealed for one of them: the first key for the one, the second
key (which may be the same) for the other. Someone who sees the text and knows both public keys may
compute the key derivation hash, the cipher and the MAC, and may have any other text unsealed by either
recipient, choosing everything from the answers so far; the question is for whom the key was sealed.
Probabilities are counted as in the game about a sealed key (Spec/Sealing.lean).

Beside it stands the same game with a text that has nothing to do with the recipients or the keys: its
ciphertext is random, its tag is made with a random authentication key, and of all other texts with the
same ephemeral key none is accepted by anyone.
-/

namespace Pasta

/-- At most `n` requests one after the other, each chosen from the answers so far: all answers and
all requests. -/
def dialog {A B : Type} (answer : A → B) (ask : List B → Option A) : Nat → List B → List B × List A
  | 0, seen => (seen, [])
  | n + 1, seen =>
    match ask seen with
    | none => (seen, [])
    | some a =>
      let r := dialog answer ask n (seen ++ [answer a])
      (r.1, a :: r.2)

/-- A request, and to which recipient it goes; that matters for unsealing only. -/
abbrev RecipientAsk (v : Ver) := Side × SealAsk v

/-- Whoever asks: requests chosen from the text and the answers so far. -/
abbrev RecipientAsks (v : Ver) (L : Nat) := Bytes → List (SealAnswer v L) → Option (RecipientAsk v)

section game

variable (P : Prims) {v : Ver} {L : Nat} (sks : Side → Key P v .Secret)

/-- The game: the key of one side is sealed for the recipient of that side, requests are made; the text
and all answers. -/
def recipientGame (keys : Side → Key P v .Local) (ask : RecipientAsks v L) (n : Nat) (a : Side)
    (rng : Rng) (f : SealHash v) (c : CipherOf v L) : Res (Bytes × List (SealAnswer v L)) := do
  let text ← sealedText (P.withSeal f c) ((keys a).underSeal f c) ((sks a).publicKey.underSeal f c) rng
  return (text, (dialog (fun r => sealAnswer P (sks r.1) f c text r.2) (ask text) n []).1)

/-- The other game: a random text; answers and requests. -/
noncomputable def noRecipient (ask : RecipientAsks v L) (n : Nat) (epk : BytesN (pkeEpkLen v))
    (f : SealHash v) (c : CipherOf v L) (edk : BytesN 32) (ak : BytesN (pkeTagLen v)) :
    List (SealAnswer v L) × List (RecipientAsk v) :=
  let text := randomText P epk edk ak
  dialog (fun r => idealAnswer P (sks r.1) epk f c text r.2) (ask text) n []

/-- In the other game, the secret shared with one of the recipients has been hashed. -/
def HashedFor (ask : RecipientAsks v L) (n : Nat) (a : Side) (rng : Rng) (f : SealHash v)
    (c : CipherOf v L) (edk : BytesN 32) (ak : BytesN (pkeTagLen v)) : Prop :=
  ∃ xk epk, ephemeral P (sks a).publicKey rng = some (xk, epk) ∧
    SecretHashed P (sks a).publicKey xk epk ((noRecipient P sks ask n epk f c edk ak).2.map Prod.snd)

/-- In the other game, a recipient was sent a text other than the given one, with the same ephemeral
key, and either its tag is right under the authentication key of the given text or that recipient
accepts it. -/
def OtherMade (ask : RecipientAsks v L) (n : Nat) (rng : Rng) (f : SealHash v) (c : CipherOf v L)
    (edk : BytesN 32) (ak : BytesN (pkeTagLen v)) : Prop :=
  ∃ a xk epk, ephemeral P (sks a).publicKey rng = some (xk, epk) ∧
    ∃ b s, (b, SealAsk.unseal s) ∈ (noRecipient P sks ask n epk f c edk ak).2 ∧
      s ≠ randomText P epk edk ak ∧ HasEphemeral epk s ∧
      ((∃ edk', s = randomText P epk edk' ak) ∨
        ∃ key, unsealText (P.withSeal f c) ((sks b).underSeal f c) s = .ok key)

/-- What someone asks who makes no request to unseal, shown a random text. No secret key is involved. -/
def strangerAsked (ask : RecipientAsks v L) (n : Nat) (epk : BytesN (pkeEpkLen v)) (f : SealHash v)
    (c : CipherOf v L) (edk : BytesN 32) (ak : BytesN (pkeTagLen v)) : List (RecipientAsk v) :=
  let text := randomText P epk edk ak
  let answer : RecipientAsk v → SealAnswer v L := fun
    | (_, .hash m) => .hash (f m)
    | (_, .cipher k) => .cipher (c k)
    | (_, .mac ak m) => .mac (authTag P ak m)
    | (_, .unseal _) => .refused
  (dialog answer (ask text) n []).2

/-- Computing a shared secret with the help of someone who tells recipients apart: of their `i`-th
request, if it is an input of the hash, the bytes where the shared secret stands. -/
def secretFrom (ask : RecipientAsks v L) (n : Nat) (epk : BytesN (pkeEpkLen v)) (f : SealHash v)
    (c : CipherOf v L) (edk : BytesN 32) (ak : BytesN (pkeTagLen v)) (i : Nat) : Option Bytes :=
  match (strangerAsked P ask n epk f c edk ak)[i]? with
  | some (_, .hash m) => some ((m.1.drop 9).take (xkLen v))
  | _ => none

end game

end Pasta
