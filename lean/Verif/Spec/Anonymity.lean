import Mathlib.Data.Rat.Cast.Order
import Verif.Spec.Birthday
import Verif.Spec.Distinguish

/-!
# The game of telling keys apart

Someone has messages encrypted and keys wrapped. Every request names two keys and what is to be
hidden, chosen from the texts seen so far; it is always the left key that is used, or always the right
one, and the question is which. Probabilities are counted over everything that is idealised: the
random bytes, and what is derived from the keys in use and a nonce. All values are equally likely.
Everything else, cipher and MAC included, is that of the primitives `P`.
-/

namespace Pasta

/-- Length of an authentication key as it is derived. -/
def authKeyLen : Ver → Nat
  | .V3 => 48
  | .V4 => 32

/-- What is derived from a key and a nonce: cipher key, initialisation vector, authentication key. -/
structure Derived (v : Ver) where
  cipherKey : BytesN 32
  iv : BytesN (ivLen v)
  authKey : BytesN (authKeyLen v)

/-- The nonce of a token (`false`) or of a wrapped key (`true`) from which an authentication key is
derived, read from the message given to the key derivation function or MAC. -/
def authInput (m : Bytes) : Option EncInput :=
  if h : (asc "paseto-auth-key-for-aead").isPrefixOf m = true ∧ m.length = 56 then
    some (false, ⟨m.drop 24, by simp [h.2]⟩)
  else if h : m.head? = some 0x81 ∧ m.length = 33 then
    some (true, ⟨m.drop 1, by simp [h.2]⟩)
  else none

/-- What every key derives from every nonce. -/
abbrev Derivation (v : Ver) := BytesN 32 → EncInput → Derived v

/-- `b` as one of the keys in use. -/
def inUse (K : Finset (BytesN 32)) (b : Bytes) : Option (BytesN 32) :=
  if h : b.length = 32 then if ⟨b, h⟩ ∈ K then some ⟨b, h⟩ else none else none

/-- `P` where what the keys in use derive from nonces is something else. -/
def Prims.withDerived (P : Prims) (K : Finset (BytesN 32)) : (v : Ver) → Derivation v → Prims
  | .V3, D => { P with
      hkdfSha384 := fun n k m =>
        if hn : n = 48 then
          match inUse K k, encInput m, authInput m with
          | some k, some (false, x), _ =>
            ⟨(D k (false, x)).cipherKey.1 ++ (D k (false, x)).iv.1, by
              rw [hn, List.length_append, (D k (false, x)).cipherKey.2, (D k (false, x)).iv.2]; rfl⟩
          | some k, _, some (false, x) =>
            ⟨(D k (false, x)).authKey.1, by rw [hn]; exact (D k (false, x)).authKey.2⟩
          | _, _, _ => P.hkdfSha384 n k m
        else P.hkdfSha384 n k m
      hmacSha384 := fun k m =>
        match inUse K k, encInput m, authInput m with
        | some k, some (true, x), _ =>
          ⟨(D k (true, x)).cipherKey.1 ++ (D k (true, x)).iv.1, by
            rw [List.length_append, (D k (true, x)).cipherKey.2, (D k (true, x)).iv.2]; rfl⟩
        | some k, _, some (true, x) => (D k (true, x)).authKey
        | _, _, _ => P.hmacSha384 k m }
  | .V4, D => { P with
      blake2bMac := fun n k m =>
        match inUse K k, encInput m, authInput m with
        | some k', some x, _ =>
          if hn : n = 56 then
            ⟨(D k' x).cipherKey.1 ++ (D k' x).iv.1, by
              rw [hn, List.length_append, (D k' x).cipherKey.2, (D k' x).iv.2]; rfl⟩
          else P.blake2bMac n k m
        | some k', _, some x =>
          if hn : n = 32 then
            ⟨(D k' x).authKey.1, by rw [hn]; exact (D k' x).authKey.2⟩
          else P.blake2bMac n k m
        | _, _, _ => P.blake2bMac n k m }

/-- What is to be hidden. -/
inductive Hidden (v : Ver) : Type 1
  /-- the message of a token -/
  | token (M F E : Type) (instP : Payload E) (instM : MessageEncoding E M) (instF : Footer F)
      (encoding : E) (message : M) (footer : F) (implicit : Bytes)
  /-- the key with these bytes -/
  | wrap (k : WKind) (hidden : BytesN (keyLen v k.kind))

namespace Hidden

variable {v : Ver}

/-- Encrypt or wrap with the key. -/
def run (P : Prims) (key : Key P v .Local) : Hidden v → Rng → Res (Bytes × Rng)
  | .token _ _ _ iP iM iF encoding message footer implicit, rng => do
    let _ := iP; let _ := iM; let _ := iF
    let b : TokenBuilder v .Local _ _ _ :=
      ⟨{ encoding := encoding, message := message, footer := footer }⟩
    let (tok, rng) ← b.encryptWithAssertionsAndRng P key implicit rng
    return (tok.display, rng)
  | .wrap k hidden, rng => do
    let x ← Key.fromBytes P v k.kind hidden
    let (w, rng) ← x.wrapPie key rng
    let text ← w.display
    return (text, rng)

/-- Message and footer can be encoded; the key to be wrapped is valid. -/
def Possible (P : Prims) : Hidden v → Prop
  | .token _ _ _ iP iM iF encoding message footer _ =>
    let _ := iP; let _ := iM; let _ := iF
    (∃ m, MessageEncoding.encode encoding message = .ok m) ∧ ∃ f, Footer.encode footer = some f
  | .wrap k hidden => ∃ x, Key.fromBytes P v k.kind hidden = .ok x

end Hidden

/-- A request: what is to be hidden, and under which key. -/
structure Naming (v : Ver) where
  key : Side → BytesN 32
  what : Hidden v

/-- At most `n` requests one after the other, each chosen from the texts so far; all texts. -/
def namingGame (P : Prims) {v : Ver} (s : Side) (ask : List Bytes → Option (Naming v)) :
    Nat → Rng → List Bytes → Res (List Bytes)
  | 0, _, texts => .ok texts
  | n + 1, rng, texts =>
    match ask texts with
    | none => .ok texts
    | some a => do
      let (text, rng) ← a.what.run P ⟨a.key s⟩ rng
      namingGame P s ask n rng (texts ++ [text])

noncomputable instance (v : Ver) : Fintype (Derived v) :=
  Fintype.ofEquiv (BytesN 32 × BytesN (ivLen v) × BytesN (authKeyLen v))
    { toFun := fun x => ⟨x.1, x.2.1, x.2.2⟩
      invFun := fun d => (d.cipherKey, d.iv, d.authKey)
      left_inv := fun _ => rfl
      right_inv := fun _ => rfl }

/-- Everything that is idealised: `n` blocks of random bytes, and what keys derive from nonces. -/
abbrev Anon (v : Ver) (n : Nat) := Blocks n × Derivation v

open Classical in
/-- The chance of an event. -/
noncomputable def Anon.chance {v : Ver} {n : Nat} (A : Anon v n → Prop) : ℚ :=
  (Finset.univ.filter A).card / Fintype.card (Anon v n)

/-- The texts seen when the keys of one side are used. -/
def Anon.view (P : Prims) (K : Finset (BytesN 32)) {v : Ver} {n : Nat}
    (ask : List Bytes → Option (Naming v)) (s : Side) (x : Anon v n) : Res (List Bytes) :=
  namingGame (P.withDerived K v x.2) s ask n x.1.tape []

end Pasta
