import Verif.Spec.SealingMany

/-!
# Guessing a secret that was sealed for many recipients

As in Spec/SealingMany.lean, but there are no two cases. A secret is drawn from some finite type. For each of the `m`
sealings it is known for whom it is, and the key that is sealed is a function of the secret: one key sealed for
everyone, for example, or a key for each recipient. Who sees the texts and makes the requests does not know the
secret, and in the end guesses it.
-/

namespace Pasta

/-- `m` sealings: for whom, and the keys that are sealed. -/
structure Sealings (P : Prims) (v : Ver) (ι : Type) (m : Nat) (W : Type) where
  recipient : Fin m → ι
  key : W → Fin m → Key P v .Local

namespace Sealings

variable {P : Prims} {v : Ver} {ι : Type} {L m : Nat} {W : Type}

/-- With one secret in each of two cases. -/
def jobs (x : Sealings P v ι m W) (w w' : W) : Fin m → SealJob P v ι := fun i =>
  { recipient := fun _ => x.recipient i
    key := fun
      | .left => x.key w i
      | .right => x.key w' i }

/-- All texts and all answers when the secret is `w`: it is so in both cases. -/
noncomputable def seen (x : Sealings P v ι m W) (sks : ι → Key P v .Secret) (ask : ManyAsks v L m ι) (n : Nat) (w : W)
    (rngs : Fin m → Rng) (f : SealHash v) (c : CipherOf v L) : (Fin m → Res Bytes) × List (SealAnswer v L) :=
  sealManyGame P sks (x.jobs w w) ask n (fun _ => .left) rngs f c

/-- The random bytes are enough for all sealings, and no ephemeral key is used twice. -/
def GoodTapes (x : Sealings P v ι m W) (pks : ι → Key P v .Public) (rngs : Fin m → Rng) : Prop :=
  ∃ epks : Fin m → BytesN (pkeEpkLen v), Function.Injective epks ∧
    ∀ i, ∃ xk, ephemeral P (pks (x.recipient i)) (rngs i) = some (xk, epks i)

/-- The same sealings when the MAC is exchanged. -/
def underMac {M : Nat} (x : Sealings P v ι m W) (T : SealMac v M) : Sealings (P.withSealMac v T) v ι m W :=
  ⟨x.recipient, fun w i => (x.key w i).underMac T⟩

end Sealings

end Pasta
