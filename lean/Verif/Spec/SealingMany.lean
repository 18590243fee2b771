import Verif.Spec.Recipients

/-!
# The game about many sealed keys

There are any number of recipients, and `m` keys are sealed, each with random bytes of its own. For every
one of them there are two cases, left and right, which say which key is sealed and for whom. Either all
are sealed as on the left or all as on the right. Someone who sees all texts may compute the key
derivation hash, the cipher and the MAC, and may have any other text unsealed by any recipient, choosing
everything from the answers so far; the question is which of the two cases it is.

Beside it stand games in which one of the texts has nothing to do with the recipients and the keys: its
ciphertext is random, its tag is made with a random authentication key, and of all other texts with the
same ephemeral key none is accepted by the recipients of the two cases.
-/

namespace Pasta

/-- How much of a finite set satisfies something. -/
noncomputable def fractionOf {α : Type} [Fintype α] (A : α → Prop) : ℚ :=
  open Classical in (Finset.univ.filter A).card / Fintype.card α

/-- One sealing: for whom and which key, in both cases. -/
structure SealJob (P : Prims) (v : Ver) (ι : Type) where
  recipient : Side → ι
  key : Side → Key P v .Local

/-- The same sealing when the MAC is exchanged. -/
def SealJob.underMac {P : Prims} {v : Ver} {ι : Type} {M : Nat} (j : SealJob P v ι) (T : SealMac v M) :
    SealJob (P.withSealMac v T) v ι :=
  ⟨j.recipient, fun a => (j.key a).underMac T⟩

/-- Whoever asks: requests chosen from the texts and the answers so far. -/
abbrev ManyAsks (v : Ver) (L m : Nat) (ι : Type) :=
  (Fin m → Res Bytes) → List (SealAnswer v L) → Option (ι × SealAsk v)

section game

variable (P : Prims) {v : Ver} {L m : Nat} {ι : Type} (pks : ι → Key P v .Public)
  (sks : ι → Key P v .Secret) (jobs : Fin m → SealJob P v ι)

/-- The texts; `side` says of each which case it is. -/
def sealedTexts (side : Fin m → Side) (rngs : Fin m → Rng) (f : SealHash v) (c : CipherOf v L) :
    Fin m → Res Bytes := fun i =>
  sealedText (P.withSeal f c) (((jobs i).key (side i)).underSeal f c)
    ((pks ((jobs i).recipient (side i))).underSeal f c) (rngs i)

/-- To unseal one of the texts that the game is about. -/
def Excluded (texts : Fin m → Res Bytes) : SealAsk v → Prop
  | .unseal s => ∃ i, texts i = .ok s
  | _ => False

open Classical in
/-- How requests are answered. -/
noncomputable def manyAnswer (f : SealHash v) (c : CipherOf v L) (texts : Fin m → Res Bytes) :
    ι × SealAsk v → SealAnswer v L
  | (_, .hash m) => .hash (f m)
  | (_, .cipher k) => .cipher (c k)
  | (_, .mac ak m) => .mac (authTag P ak m)
  | (b, .unseal s) =>
    if Excluded texts (.unseal s : SealAsk v) then .refused
    else .unseal (unsealText (P.withSeal f c) ((sks b).underSeal f c) s)

/-- The game: all texts and all answers. -/
noncomputable def sealManyGame (ask : ManyAsks v L m ι) (n : Nat) (side : Fin m → Side)
    (rngs : Fin m → Rng) (f : SealHash v) (c : CipherOf v L) : (Fin m → Res Bytes) × List (SealAnswer v L) :=
  let texts := sealedTexts P (fun b => (sks b).publicKey) jobs side rngs f c
  (texts, (dialog (manyAnswer P sks f c texts) (ask texts) n []).1)

/-- The random bytes are enough for all sealings, and no ephemeral key is used twice. -/
def GoodTapes (rngs : Fin m → Rng) : Prop :=
  ∃ epks : Fin m → BytesN (pkeEpkLen v), Function.Injective epks ∧
    ∀ i a, ∃ xk, ephemeral P (pks ((jobs i).recipient a)) (rngs i) = some (xk, epks i)

/-- This recipient has the public key, as far as sealing uses it, of one of the two recipients of the
`i`-th sealing. -/
def Meant (i : Fin m) (b : ι) : Prop :=
  ∃ a, Spec.sealPub P (pks b) = Spec.sealPub P (pks ((jobs i).recipient a))

/-- The texts, the `i`-th being a random one; the random bytes for the `i`-th sealing are not used. -/
def textsWithout (i : Fin m) (side : Fin m → Side) (rngs : Fin m → Rng)
    (epk : BytesN (pkeEpkLen v)) (f : SealHash v) (c : CipherOf v L) (edk : BytesN 32)
    (ak : BytesN (pkeTagLen v)) : Fin m → Res Bytes := fun j =>
  if j = i then .ok (randomText P epk edk ak) else sealedTexts P pks jobs side rngs f c j

open Classical in
/-- How requests are answered in the game without the `i`-th sealing. -/
noncomputable def answerWithout (i : Fin m) (epk : BytesN (pkeEpkLen v)) (f : SealHash v)
    (c : CipherOf v L) (texts : Fin m → Res Bytes) : ι × SealAsk v → SealAnswer v L
  | (b, .unseal s) =>
    if Excluded texts (.unseal s : SealAsk v) then .refused
    else if HasEphemeral epk s ∧ Meant P (fun b => (sks b).publicKey) jobs i b then
      .unseal (.err .cryptoError)
    else manyAnswer P sks f c texts (b, .unseal s)
  | r => manyAnswer P sks f c texts r

/-- The game without the `i`-th sealing: answers and requests. -/
noncomputable def gameWithout (ask : ManyAsks v L m ι) (n : Nat) (i : Fin m) (side : Fin m → Side)
    (rngs : Fin m → Rng) (epk : BytesN (pkeEpkLen v)) (f : SealHash v) (c : CipherOf v L)
    (edk : BytesN 32) (ak : BytesN (pkeTagLen v)) : List (SealAnswer v L) × List (ι × SealAsk v) :=
  let texts := textsWithout P (fun b => (sks b).publicKey) jobs i side rngs epk f c edk ak
  dialog (answerWithout P sks jobs i epk f c texts) (ask texts) n []

/-- In the game without the `i`-th sealing, the secret shared with its recipient in one of the two
cases has been hashed. -/
def ManyHashed (ask : ManyAsks v L m ι) (n : Nat) (i : Fin m) (side : Fin m → Side) (a : Side)
    (rngs : Fin m → Rng) (f : SealHash v) (c : CipherOf v L) (edk : BytesN 32)
    (ak : BytesN (pkeTagLen v)) : Prop :=
  ∃ xk epk, ephemeral P (sks ((jobs i).recipient a)).publicKey (rngs i) = some (xk, epk) ∧
    SecretHashed P (sks ((jobs i).recipient a)).publicKey xk epk
      ((gameWithout P sks jobs ask n i side rngs epk f c edk ak).2.map Prod.snd)

/-- In the game without the `i`-th sealing, one of the recipients meant was sent a text that is none of
the given ones, with the same ephemeral key, and either its tag is right under the authentication key of
the `i`-th text or that recipient accepts it. -/
def ManyMade (ask : ManyAsks v L m ι) (n : Nat) (i : Fin m) (side : Fin m → Side)
    (rngs : Fin m → Rng) (f : SealHash v) (c : CipherOf v L) (edk : BytesN 32)
    (ak : BytesN (pkeTagLen v)) : Prop :=
  ∃ a xk epk, ephemeral P (sks ((jobs i).recipient a)).publicKey (rngs i) = some (xk, epk) ∧
    ∃ b s, (b, SealAsk.unseal s) ∈ (gameWithout P sks jobs ask n i side rngs epk f c edk ak).2 ∧
      ¬ Excluded (textsWithout P (fun b => (sks b).publicKey) jobs i side rngs epk f c edk ak)
        (.unseal s : SealAsk v) ∧
      HasEphemeral epk s ∧ Meant P (fun b => (sks b).publicKey) jobs i b ∧
      ((∃ edk', s = randomText P epk edk' ak) ∨
        ∃ key, unsealText (P.withSeal f c) ((sks b).underSeal f c) s = .ok key)

/-- What someone asks who makes no request to unseal, shown texts of which the `i`-th is random. No
secret key is involved. -/
def outsiderAsked (ask : ManyAsks v L m ι) (n : Nat) (i : Fin m) (side : Fin m → Side)
    (rngs : Fin m → Rng) (epk : BytesN (pkeEpkLen v)) (f : SealHash v) (c : CipherOf v L)
    (edk : BytesN 32) (ak : BytesN (pkeTagLen v)) : List (ι × SealAsk v) :=
  let texts := textsWithout P pks jobs i side rngs epk f c edk ak
  let answer : ι × SealAsk v → SealAnswer v L := fun
    | (_, .hash m) => .hash (f m)
    | (_, .cipher k) => .cipher (c k)
    | (_, .mac ak m) => .mac (authTag P ak m)
    | (_, .unseal _) => .refused
  (dialog answer (ask texts) n []).2

/-- Computing a shared secret with the help of someone who tells many sealed keys apart: of their `k`-th
request, if it is an input of the hash, the bytes where the shared secret stands. -/
def secretFromMany (ask : ManyAsks v L m ι) (n : Nat) (i : Fin m) (side : Fin m → Side)
    (rngs : Fin m → Rng) (epk : BytesN (pkeEpkLen v)) (f : SealHash v) (c : CipherOf v L)
    (edk : BytesN 32) (ak : BytesN (pkeTagLen v)) (k : Nat) : Option Bytes :=
  match (outsiderAsked P pks jobs ask n i side rngs epk f c edk ak)[k]? with
  | some (_, .hash m) => some ((m.1.drop 9).take (xkLen v))
  | _ => none

end game

/-- The sealings before the `k`-th are as on the right, the others as on the left. -/
def rightBefore (m k : Nat) : Fin m → Side := fun i => if i.1 < k then .right else .left

end Pasta
