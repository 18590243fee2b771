import Verif.Spec.Lifecycle

/-!
# Guessing a secret that is hidden in texts

As in Spec/Lifecycle.lean, but there are no two sides. A secret is drawn from some finite type, and the requests are
filled in with it: it can stand in any number of tokens and wrapped keys, in any form. Who makes the requests does not
know it, and in the end guesses it from the ids and all answers.
-/

namespace Pasta

/-- Something to be hidden, where `r` keys are in use: a function of all keys and the secret. -/
inductive Holding (v : Ver) (r : Nat) (W : Type) : Type 1
  /-- encrypt a token -/
  | token (M F E : Type) (instP : Payload E) (instM : MessageEncoding E M) (instF : Footer F)
      (encoding : (Fin r → BytesN 32) → W → E) (message : (Fin r → BytesN 32) → W → M) (footer : F)
      (implicit : Bytes)
  /-- wrap the key with these bytes -/
  | wrap (k : WKind) (hidden : (Fin r → BytesN 32) → W → BytesN (keyLen v k.kind))

namespace Holding

variable {v : Ver} {r : Nat} {W : Type}

/-- The candidates of both sides, with a secret for each. -/
def filled (f : Side → W) : Holding v r W → Containing v r
  | .token M F E iP iM iF encoding message footer implicit =>
    .token M F E iP iM iF (fun keys s => encoding keys (f s)) (fun keys s => message keys (f s)) footer implicit
  | .wrap k hidden => .wrap k fun keys s => hidden keys (f s)

/-- With all secrets and keys it can be encoded with equal lengths. -/
def Comparable (P : Prims) (L : Nat) (a : Holding v r W) : Prop := ∀ f, (a.filled f).Comparable P L

/-- All lengths exist in memory. -/
def Fits (a : Holding v r W) : Prop := ∀ f, (a.filled f).Fits

end Holding

/-- A request. -/
inductive SecretWish (v : Ver) (r : Nat) (W : Type) : Type 1
  /-- hide it under the key with this number -/
  | hide (i : Fin r) (a : Holding v r W)
  /-- open a text under a key in use -/
  | look (i : Fin r) (a : Opening v)
  /-- what a key derives -/
  | derive (x : BytesN 32)
  /-- the cipher under a key -/
  | cipher (x : BytesN 32)
  /-- the tag for a message under a MAC key -/
  | mac (x y : Bytes)
  /-- what the hash makes of the text for the id of a key -/
  | hash (m : IdInput v)

/-- The request filled in, with a secret for each side. -/
def SecretWish.filled {v : Ver} {r : Nat} {W : Type} (f : Side → W) : SecretWish v r W → IdWish v r
  | .hide i a => .demand (.hide (fun _ => i) (a.filled f))
  | .look i a => .demand (.look i a)
  | .derive x => .demand (.derive x)
  | .cipher x => .demand (.cipher x)
  | .mac x y => .demand (.mac x y)
  | .hash m => .hash m

/-- All that is seen when the secret is `w`: both sides have it, so that it does not matter which one is taken. -/
noncomputable def Life.seenWith (P : Prims) {v : Ver} {r n L : Nat} {X : Finset (Bytes × Bytes)} (d : Tags v) {W : Type}
    (ask : (Fin r → Res Bytes) → List (IdGot v L) → Option (SecretWish v r W)) (k o u q m : Nat) (w : W)
    (x : Life v r n L X) : Res ((Fin r → Res Bytes) × List (IdGot v L)) :=
  x.view P d (fun ids answers => (ask ids answers).map (SecretWish.filled fun _ => w)) k o u q m .left

end Pasta
