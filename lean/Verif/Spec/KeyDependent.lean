import Verif.Spec.Trying

/-!
# The distinguishing game where texts may contain the keys in use

As in Spec/Trying.lean, but what is to be hidden may depend on the keys in use: one key is wrapped under
another, keys are wrapped under themselves or under each other, a token carries a key or something computed from
keys. Whoever makes the request need not know the keys: they name a function of the keys.
-/

namespace Pasta

variable {v : Ver} {r : Nat}

/-- Something to hide that may depend on the keys in use: whatever they are, one candidate for each side. -/
inductive Containing (v : Ver) (r : Nat) : Type 1
  /-- encrypt a token -/
  | token (M F E : Type) (instP : Payload E) (instM : MessageEncoding E M) (instF : Footer F)
      (encoding : (Fin r → BytesN 32) → Side → E) (message : (Fin r → BytesN 32) → Side → M) (footer : F)
      (implicit : Bytes)
  /-- wrap the key with these bytes -/
  | wrap (k : WKind) (hidden : (Fin r → BytesN 32) → Side → BytesN (keyLen v k.kind))

namespace Containing

/-- Two of the candidates: for each side, the keys and the side to take it from. -/
def pick (x : Side → (Fin r → BytesN 32) × Side) : Containing v r → Hiding v
  | .token M F E iP iM iF encoding message footer implicit =>
    .token M F E iP iM iF (fun s => encoding (x s).1 (x s).2) (fun s => message (x s).1 (x s).2) footer implicit
  | .wrap k hidden => .wrap k fun s => hidden (x s).1 (x s).2

/-- The candidates with these keys. -/
def given (keys : Fin r → BytesN 32) (a : Containing v r) : Hiding v := a.pick fun s => (keys, s)

/-- Any two candidates, of either side and with whatever keys, can be encoded with equal lengths. -/
def Comparable (P : Prims) (L : Nat) (a : Containing v r) : Prop := ∀ x, (a.pick x).Comparable P L

/-- All lengths exist in memory. -/
def Fits (a : Containing v r) : Prop := ∀ x, (a.pick x).Fits

end Containing

/-- A request, where `r` keys are in use. -/
inductive Demand (v : Ver) (r : Nat) : Type 1
  /-- hide one of two candidates, each under a key of its own -/
  | hide (key : Side → Fin r) (what : Containing v r)
  /-- open a text under a key in use -/
  | look (key : Fin r) (a : Opening v)
  /-- what a key derives -/
  | derive (k : BytesN 32)
  /-- the cipher under a key -/
  | cipher (k : BytesN 32)
  /-- the tag for a message under a MAC key -/
  | mac (k m : Bytes)

/-- The request when these keys are in use. -/
def Demand.given (keys : Fin r → BytesN 32) : Demand v r → Attempt v r
  | .hide i a => .hide i (a.given keys)
  | .look i a => .look i a
  | .derive x => .derive x
  | .cipher x => .cipher x
  | .mac x y => .mac x y

/-- All requests when these keys are in use. -/
def demands {L : Nat} (ask : List (Found v L) → Option (Demand v r)) (keys : Fin r → BytesN 32)
    (answers : List (Found v L)) : Option (Attempt v r) :=
  (ask answers).map (Demand.given keys)

/-- All answers seen, with one of the two sides: requests are served as in Spec/Trying.lean. -/
def Tried.demandView (P : Prims) {n L : Nat} {X : Finset (Bytes × Bytes)} (d : Tags v)
    (ask : List (Found v L) → Option (Demand v r)) (k o u q m : Nat) (s : Side) (x : Tried v r n L X) :
    Res (List (Found v L)) :=
  x.view P d (demands ask x.1) k o u q m s

end Pasta
