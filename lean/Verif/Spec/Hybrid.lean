import Verif.Spec.SealingMany
import Verif.Spec.Trying

/-!
# The distinguishing game after a key has been sealed

One of the keys in use has been sealed for a public key, as is done to send the key to someone and then use
it. The text of the sealed key is known. Requests are those of Spec/Trying.lean (something is to be hidden
or opened under a key in use, or what a key derives, the cipher or the MAC is to be computed), requests
for the key derivation hash of sealing, and requests to unseal other texts. Counted are the random bytes of
the sealing, that hash, and what is counted in Spec/Trying.lean; the tag of the sealed key is made by the same
random function as all other tags.

Beside it stands the game with a text that has nothing to do with any key: its ciphertext and its
authentication key are random. In that game the random bytes of the sealing are not used, except for the
ephemeral public key, and the secret key is used only to unseal texts with other ephemeral keys.
-/

namespace Pasta

/-- A request, where `r` keys are in use. -/
inductive Wish (v : Ver) (r : Nat) : Type 1
  | attempt (a : Attempt v r)
  /-- the key derivation hash of an input -/
  | hash (m : BytesN (sealInLen v))
  /-- what the recipient gets from a text -/
  | unseal (s : Bytes)

/-- An answer. -/
inductive Got (v : Ver) (L : Nat) : Type
  | found (x : Found v L)
  | hash (b : BytesN (pkeTagLen v))
  /-- what the text holds; nothing if it is the text the game is about -/
  | unsealed (x : Option (Res Bytes))

/-- At most `k` requests one after the other, each chosen from the answers so far, of them at most `n`
that hide something, `o` openings, `u` about what keys derive (`D`), `q` about the cipher `c` or the hash
`g`, and `m` about the MAC `f`. To unseal counts as one of the last two each; `U` says what comes of it.
All answers, and what was to be hashed or unsealed. -/
def hybrid (P : Prims) {v : Ver} {r L : Nat} (keys : Fin r → BytesN 32) (D : Derivation v)
    (c : CipherOf v L) (f : Tags v) (g : SealHash v) (U : Bytes → Option (Res Bytes)) (s : Side)
    (ask : List (Got v L) → Option (Wish v r)) :
    (k n o u q m : Nat) → Rng → List Item → List (Got v L) →
      Res (List (Got v L)) × List (SealAsk v)
  | 0, _, _, _, _, _, _, _, answers => (.ok answers, [])
  | k + 1, n, o, u, q, m, rng, issued, answers =>
    match ask answers with
    | none => (.ok answers, [])
    | some (.attempt (.hide i a)) =>
      match n with
      | 0 => (.ok answers, [])
      | n + 1 =>
        match a.run P ⟨keys (i s)⟩ s rng with
        | .ok (text, rng) => hybrid P keys D c f g U s ask k n o u q m rng (a.item text :: issued)
            (answers ++ [.found (.told (some (.ok text)))])
        | .err e => (.err e, [])
        | .panic => (.panic, [])
    | some (.attempt (.look i a)) =>
      match o with
      | 0 => (.ok answers, [])
      | o + 1 => hybrid P keys D c f g U s ask k n o u q m rng issued
          (answers ++ [.found (.told (a.answer P (keys i) issued))])
    | some (.attempt (.derive x)) =>
      match u with
      | 0 => (.ok answers, [])
      | u + 1 => hybrid P keys D c f g U s ask k n o u q m rng issued
          (answers ++ [.found (.derived (D x))])
    | some (.attempt (.cipher x)) =>
      match q with
      | 0 => (.ok answers, [])
      | q + 1 => hybrid P keys D c f g U s ask k n o u q m rng issued
          (answers ++ [.found (.cipher (c x))])
    | some (.attempt (.mac x y)) =>
      match m with
      | 0 => (.ok answers, [])
      | m + 1 => hybrid P keys D c f g U s ask k n o u q m rng issued
          (answers ++ [.found (.tag (f (x, y)))])
    | some (.hash x) =>
      match q with
      | 0 => (.ok answers, [])
      | q + 1 =>
        let rest := hybrid P keys D c f g U s ask k n o u q m rng issued (answers ++ [.hash (g x)])
        (rest.1, .hash x :: rest.2)
    | some (.unseal x) =>
      match q, m with
      | q + 1, m + 1 =>
        let rest := hybrid P keys D c f g U s ask k n o u q m rng issued (answers ++ [.unsealed (U x)])
        (rest.1, .unseal x :: rest.2)
      | _, _ => (.ok answers, [])

section views

variable (P : Prims) {v : Ver} {r n L : Nat} {X : Finset (Bytes × Bytes)} (d : Tags v)

/-- `P` with the tags and the derivation that have been drawn. -/
def Tried.base (x : Tried v r n L X) : Prims :=
  (P.withTags v (d.on X x.2.2)).withDerived Finset.univ v x.2.1.2.1

/-- A secret key is the same key under these. -/
def Tried.secret (x : Tried v r n L X) (sk : Key P v .Secret) : Key (x.base P d) v .Secret :=
  match v, d, x, sk with
  | .V3, _, _, sk => ⟨sk.key⟩
  | .V4, _, _, sk => ⟨sk.key⟩

/-- What the recipient gets from a text. -/
def Tried.unsealed (x : Tried v r n L X) (sk : Key P v .Secret) (g : SealHash v) (s : Bytes) : Res Bytes :=
  unsealText ((x.base P d).withSeal g x.2.1.2.2) ((x.secret P d sk).underSeal g x.2.1.2.2) s

/-- The requests and their answers, after the text has been seen. -/
def Tried.hybrid (ask : Bytes → List (Got v L) → Option (Wish v r)) (k o u q m : Nat) (s : Side)
    (g : SealHash v) (U : Bytes → Option (Res Bytes)) (text : Bytes) (x : Tried v r n L X) :
    Res (List (Got v L)) × List (SealAsk v) :=
  Pasta.hybrid ((x.base P d).withSeal g x.2.1.2.2) x.1 x.2.1.2.1 x.2.1.2.2 (d.on X x.2.2) g U s (ask text)
    k n o u q m x.2.1.1.tape [] []

/-- The game: the `j`-th key is sealed with the random bytes `rng` for the public key of `sk`, then requests are
made; other texts than this one may be unsealed. The text and all answers. -/
def Tried.sealedView (sk : Key P v .Secret) (j : Fin r)
    (ask : Bytes → List (Got v L) → Option (Wish v r)) (k o u q m : Nat) (s : Side) (rng : Rng)
    (g : SealHash v) (x : Tried v r n L X) : Res (Bytes × List (Got v L)) := do
  let text ← sealedText ((x.base P d).withSeal g x.2.1.2.2) ⟨x.1 j⟩
    ((x.secret P d sk).underSeal g x.2.1.2.2).publicKey rng
  let answers ← (x.hybrid P d ask k o u q m s g
    (fun y => if y = text then none else some (x.unsealed P d sk g y)) text).1
  return (text, answers)

open Classical in
/-- The other game: what is to be hashed or unsealed when the text is made of a random ciphertext and a random
authentication key. Texts with the ephemeral key of this one are refused. -/
noncomputable def Tried.asked (sk : Key P v .Secret) (ask : Bytes → List (Got v L) → Option (Wish v r))
    (k o u q m : Nat) (s : Side) (epk : BytesN (pkeEpkLen v)) (g : SealHash v) (x : Tried v r n L X)
    (edk : BytesN 32) (ak : BytesN (pkeTagLen v)) : List (SealAsk v) :=
  let text := randomText (x.base P d) epk edk ak
  (x.hybrid P d ask k o u q m s g (fun y =>
    if y = text then none
    else if HasEphemeral epk y then some (.err .cryptoError)
    else some (x.unsealed P d sk g y)) text).2

/-- In the other game the shared secret of the sealing with the random bytes `rng` has been hashed. -/
def Tried.Hashed (sk : Key P v .Secret) (ask : Bytes → List (Got v L) → Option (Wish v r))
    (k o u q m : Nat) (s : Side) (rng : Rng) (g : SealHash v) (x : Tried v r n L X) (edk : BytesN 32)
    (ak : BytesN (pkeTagLen v)) : Prop :=
  ∃ xk epk, ephemeral P sk.publicKey rng = some (xk, epk) ∧
    SecretHashed P sk.publicKey xk epk (x.asked P d sk ask k o u q m s epk g edk ak)

/-- What is hashed by someone who has nothing unsealed, shown a random text. No secret key is involved. -/
def Tried.passive (ask : Bytes → List (Got v L) → Option (Wish v r)) (k o u q m : Nat) (s : Side)
    (epk : BytesN (pkeEpkLen v)) (g : SealHash v) (x : Tried v r n L X) (edk : BytesN 32)
    (ak : BytesN (pkeTagLen v)) : List (SealAsk v) :=
  (x.hybrid P d ask k o u q m s g (fun _ => none) (randomText (x.base P d) epk edk ak)).2

/-- Computing the shared secret with the help of someone who makes the requests: the bytes where it stands in
the `i`-th input that they have hashed. -/
def Tried.solve (ask : Bytes → List (Got v L) → Option (Wish v r)) (k o u q m : Nat) (s : Side)
    (epk : BytesN (pkeEpkLen v)) (g : SealHash v) (x : Tried v r n L X) (edk : BytesN 32)
    (ak : BytesN (pkeTagLen v)) (i : Nat) : Option Bytes :=
  match (x.passive P d ask k o u q m s epk g edk ak)[i]? with
  | some (.hash y) => some ((y.1.drop 9).take (xkLen v))
  | _ => none

open Classical in
/-- The same with a recipient who unseals texts with other ephemeral keys: `recipient` says what they get. -/
noncomputable def Tried.solveWith (recipient : Bytes → Res Bytes)
    (ask : Bytes → List (Got v L) → Option (Wish v r)) (k o u q m : Nat) (s : Side)
    (epk : BytesN (pkeEpkLen v)) (g : SealHash v) (x : Tried v r n L X) (edk : BytesN 32)
    (ak : BytesN (pkeTagLen v)) (i : Nat) : Option Bytes :=
  let text := randomText (x.base P d) epk edk ak
  match (x.hybrid P d ask k o u q m s g (fun y =>
    if y = text then none
    else if HasEphemeral epk y then some (.err .cryptoError)
    else some (recipient y)) text).2[i]? with
  | some (.hash y) => some ((y.1.drop 9).take (xkLen v))
  | _ => none

end views

/-- Among the answers there is one that opens a text. -/
def Unlocked {v : Ver} {r L : Nat} (ask : List (Got v L) → Option (Wish v r)) (answers : List (Got v L)) :
    Prop :=
  ∃ before after i a bytes, answers = before ++ .found (.told (some (.ok bytes))) :: after ∧
    ask before = some (.attempt (.look i a))

/-- Among the answers there is one about what one of the keys in use derives. -/
def KeyMet {v : Ver} {r L : Nat} (keys : Fin r → BytesN 32) (ask : List (Got v L) → Option (Wish v r))
    (answers : List (Got v L)) : Prop :=
  ∃ before after e i, answers = before ++ .found (.derived e) :: after ∧
    ask before = some (.attempt (.derive (keys i)))

end Pasta
