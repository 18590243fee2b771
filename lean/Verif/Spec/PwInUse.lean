import Verif.Spec.Hybrid
import Verif.Spec.PwHiding

/-!
# The distinguishing game after a key has been wrapped with a password

One of the keys in use has been wrapped with a password, as is done to store the key and then use it. The text
of the wrapped key is known. Requests are those of Spec/Trying.lean (something is to be hidden or opened under
a key in use, or what a key derives, the cipher or the MAC is to be computed), and requests for the password
hash and for the hash that derives keys from its value. Counted are the password (one of a finite set `W`), both
hashes, and what is counted in Spec/Trying.lean; the tag of the wrapped key is made by the same random
function as all other tags.
-/

namespace Pasta

/-- A request, where `r` keys are in use. -/
inductive PwWish (v : Ver) (r : Nat) : Type 1
  | attempt (a : Attempt v r)
  /-- the password hash -/
  | hash (pw : Bytes) (salt : BytesN (pwSaltLen v)) (settings : KdfState v)
  /-- the hash that derives keys -/
  | keyHash (m : BytesN 33)

/-- An answer. -/
inductive PwGot (v : Ver) (L : Nat) : Type
  | found (x : Found v L)
  | hash (b : Res Bytes)
  | keyHash (b : BytesN (pwKeyHashLen v))

/-- At most `k` requests one after the other, each chosen from the answers so far, of them at most `n`
that hide something, `o` openings, `u` about what keys derive (`D`), `q` about the cipher `c` or one of the
hashes, `m` about the MAC `f`, and `w` that run the password hash. `h` is the hash that derives keys, `H` says
what comes of running the password hash. All answers, and what was to be hashed. -/
def pwInUse (P : Prims) {v : Ver} {r L : Nat} (keys : Fin r → BytesN 32) (D : Derivation v)
    (c : CipherOf v L) (f : Tags v) (h : KeyHash v)
    (H : Bytes → BytesN (pwSaltLen v) → KdfState v → Res Bytes) (s : Side)
    (ask : List (PwGot v L) → Option (PwWish v r)) :
    (k n o u q m w : Nat) → Rng → List Item → List (PwGot v L) →
      Res (List (PwGot v L)) × List (PwAsk v)
  | 0, _, _, _, _, _, _, _, _, answers => (.ok answers, [])
  | k + 1, n, o, u, q, m, w, rng, issued, answers =>
    match ask answers with
    | none => (.ok answers, [])
    | some (.attempt (.hide i a)) =>
      match n with
      | 0 => (.ok answers, [])
      | n + 1 =>
        match a.run P ⟨keys (i s)⟩ s rng with
        | .ok (text, rng) => pwInUse P keys D c f h H s ask k n o u q m w rng (a.item text :: issued)
            (answers ++ [.found (.told (some (.ok text)))])
        | .err e => (.err e, [])
        | .panic => (.panic, [])
    | some (.attempt (.look i a)) =>
      match o with
      | 0 => (.ok answers, [])
      | o + 1 => pwInUse P keys D c f h H s ask k n o u q m w rng issued
          (answers ++ [.found (.told (a.answer P (keys i) issued))])
    | some (.attempt (.derive x)) =>
      match u with
      | 0 => (.ok answers, [])
      | u + 1 => pwInUse P keys D c f h H s ask k n o u q m w rng issued
          (answers ++ [.found (.derived (D x))])
    | some (.attempt (.cipher x)) =>
      match q with
      | 0 => (.ok answers, [])
      | q + 1 => pwInUse P keys D c f h H s ask k n o u q m w rng issued
          (answers ++ [.found (.cipher (c x))])
    | some (.attempt (.mac x y)) =>
      match m with
      | 0 => (.ok answers, [])
      | m + 1 => pwInUse P keys D c f h H s ask k n o u q m w rng issued
          (answers ++ [.found (.tag (f (x, y)))])
    | some (.hash pw salt settings) =>
      match q, w with
      | q + 1, w + 1 =>
        let rest := pwInUse P keys D c f h H s ask k n o u q m w rng issued
          (answers ++ [.hash (H pw salt settings)])
        (rest.1, .seek (.hash pw salt settings) :: rest.2)
      | _, _ => (.ok answers, [])
    | some (.keyHash x) =>
      match q with
      | 0 => (.ok answers, [])
      | q + 1 =>
        let rest := pwInUse P keys D c f h H s ask k n o u q m w rng issued (answers ++ [.keyHash (h x)])
        (rest.1, .keyHash x :: rest.2)

section views

variable (P : Prims) {v : Ver} {r n L : Nat} {X : Finset (Bytes × Bytes)} {W : Finset Bytes} (d : Tags v)

/-- The primitives of the game. -/
def Tried.pwPrims (F : W → PwHash v) (h : KeyHash v) (x : Tried v r n L X) : Prims :=
  (x.base P d).withPw W F h x.2.1.2.2

/-- The game: the `j`-th key is wrapped with the password `pw`, then requests are made. The text and all
answers. -/
def Tried.pwView (j : Fin r) (settings : KdfState v) (salt : BytesN (pwSaltLen v)) (nonce : BytesN (ivLen v))
    (ask : Bytes → List (PwGot v L) → Option (PwWish v r)) (k o u q m w : Nat) (s : Side) (pw : Bytes)
    (F : W → PwHash v) (h : KeyHash v) (x : Tried v r n L X) : Res (Bytes × List (PwGot v L)) := do
  let text ← (Seek.wrap .Local (x.1 j) settings (salt.1 ++ nonce.1)).run (x.pwPrims P d F h) pw
  let answers ← (pwInUse (x.pwPrims P d F h) x.1 x.2.1.2.1 x.2.1.2.2 (d.on X x.2.2) h
    (fun pw salt settings => (Seek.hash pw salt settings).run (x.pwPrims P d F h) []) s (ask text)
    k n o u q m w x.2.1.1.tape [] []).1
  return (text, answers)

/-- What someone with the password gets from a text. -/
def Tried.pwUnwrapped (pw : Bytes) (F : W → PwHash v) (h : KeyHash v) (x : Tried v r n L X) (text : Bytes) :
    Res Bytes :=
  (Seek.unwrap .Local text : Seek v).run (x.pwPrims P d F h) pw

end views

/-- Among the answers there is one that opens a text. -/
def PwUnlocked {v : Ver} {r L : Nat} (ask : List (PwGot v L) → Option (PwWish v r))
    (answers : List (PwGot v L)) : Prop :=
  ∃ before after i a bytes, answers = before ++ .found (.told (some (.ok bytes))) :: after ∧
    ask before = some (.attempt (.look i a))

/-- Among the answers there is one about what one of the keys in use derives. -/
def PwKeyMet {v : Ver} {r L : Nat} (keys : Fin r → BytesN 32) (ask : List (PwGot v L) → Option (PwWish v r))
    (answers : List (PwGot v L)) : Prop :=
  ∃ before after e i, answers = before ++ .found (.derived e) :: after ∧
    ask before = some (.attempt (.derive (keys i)))

end Pasta
