import Mathlib.Data.Rat.Cast.Order
import Verif.Spec.Birthday
import Verif.Spec.Secrecy

/-!
# The distinguishing game

Someone has messages encrypted and keys wrapped under one key. Every request comes with two
candidates, chosen from the texts seen so far; it is always the left one that is used, or always the
right one, and the question is which. Probabilities are counted over everything that is idealised:
the random bytes, the function that derives the cipher key from a nonce, and the cipher. All values
are equally likely. Everything else is that of the primitives `P`, the key included.
-/

namespace Pasta

/-- What a cipher key is derived from: the nonce of a token (`false`) or of a wrapped key (`true`). -/
abbrev EncInput := Bool × BytesN 32

/-- Read the message given to the key derivation function or MAC. -/
def encInput (m : Bytes) : Option EncInput :=
  if h : (asc "paseto-encryption-key").isPrefixOf m = true ∧ m.length = 53 then
    some (false, ⟨m.drop 21, by simp [h.2]⟩)
  else if h : m.head? = some 0x80 ∧ m.length = 33 then
    some (true, ⟨m.drop 1, by simp [h.2]⟩)
  else none

/-- Derived cipher keys. -/
abbrev EncKeys := EncInput → BytesN 32

/-- Derived initialisation vectors. -/
abbrev Ivs (v : Ver) := EncInput → BytesN (ivLen v)

/-- `P` where cipher keys and initialisation vectors derived from the given key are others. The
derivation of authentication keys is not touched. -/
def Prims.withEncKeys (P : Prims) (key : BytesN 32) : (v : Ver) → EncKeys → Ivs v → Prims
  | .V3, e, iv => { P with
      hkdfSha384 := fun n k m =>
        match encInput m with
        | some x =>
          if h : k = key.1 ∧ n = 48 then
            ⟨(e x).1 ++ (iv x).1, by rw [h.2, List.length_append, (e x).2, (iv x).2]; rfl⟩
          else P.hkdfSha384 n k m
        | none => P.hkdfSha384 n k m
      hmacSha384 := fun k m =>
        match encInput m with
        | some x =>
          if k = key.1 then
            ⟨(e x).1 ++ (iv x).1, by rw [List.length_append, (e x).2, (iv x).2]; rfl⟩
          else P.hmacSha384 k m
        | none => P.hmacSha384 k m }
  | .V4, e, iv => { P with
      blake2bMac := fun n k m =>
        match encInput m with
        | some x =>
          if h : k = key.1 ∧ n = 56 then
            ⟨(e x).1 ++ (iv x).1, by rw [h.2, List.length_append, (e x).2, (iv x).2]; rfl⟩
          else P.blake2bMac n k m
        | none => P.blake2bMac n k m }

/-- All functions that AES-256 could be (version 3), and that the first `L` bytes of the key stream of
XChaCha20 could be (version 4). -/
def CipherFam (v : Ver) (L : Nat) : Type :=
  match v with
  | .V3 => BytesN 32 → BytesN 16 → BytesN 16
  | .V4 => BytesN 32 → BytesN 24 → Fin L → UInt8

instance (v : Ver) (L : Nat) : Fintype (CipherFam v L) :=
  match v with
  | .V3 => inferInstanceAs (Fintype (BytesN 32 → BytesN 16 → BytesN 16))
  | .V4 => inferInstanceAs (Fintype (BytesN 32 → BytesN 24 → Fin L → UInt8))

/-- The ciphers: the given one, and for the other version those of `P`. -/
def CipherFam.ciphers (P : Prims) {L : Nat} : {v : Ver} → CipherFam v L → Ciphers
  | .V3, c => ⟨c, P.xchacha20⟩
  | .V4, c => ⟨P.aes256, fun k iv i => if h : i < L then c k iv ⟨i, h⟩ else 0⟩

/-- A request, with two candidates for what is to be hidden. -/
inductive Hiding (v : Ver) : Type 1
  /-- encrypt a token -/
  | token (M F E : Type) (instP : Payload E) (instM : MessageEncoding E M) (instF : Footer F)
      (encoding : Side → E) (message : Side → M) (footer : F) (implicit : Bytes)
  /-- wrap the key with these bytes -/
  | wrap (k : WKind) (hidden : Side → BytesN (keyLen v k.kind))

namespace Hiding

variable {v : Ver}

/-- Serve the request with one of the candidates. -/
def run (P : Prims) (key : Key P v .Local) (s : Side) : Hiding v → Rng → Res (Bytes × Rng)
  | .token _ _ _ iP iM iF encoding message footer implicit, rng => do
    let _ := iP; let _ := iM; let _ := iF
    let b : TokenBuilder v .Local _ _ _ :=
      ⟨{ encoding := encoding s, message := message s, footer := footer }⟩
    let (tok, rng) ← b.encryptWithAssertionsAndRng P key implicit rng
    return (tok.display, rng)
  | .wrap k hidden, rng => do
    let x ← Key.fromBytes P v k.kind (hidden s)
    let (w, rng) ← x.wrapPie key rng
    let text ← w.display
    return (text, rng)

/-- Both candidates can be encoded, with equal lengths of at most `L` that exist in memory; and so
can the footer. Both keys are valid. -/
def Comparable (P : Prims) (L : Nat) : Hiding v → Prop
  | .token _ _ _ iP iM iF encoding message footer _ =>
    let _ := iP; let _ := iM; let _ := iF
    (∃ m : Side → Bytes, (∀ s, MessageEncoding.encode (encoding s) (message s) = .ok (m s)) ∧
      (m .left).length = (m .right).length ∧ (m .left).length ≤ L ∧ Spec.Fits (m .left)) ∧
    ∃ f, Footer.encode footer = some f
  | .wrap k hidden =>
    (∀ s, ∃ x, Key.fromBytes P v k.kind (hidden s) = .ok x) ∧ keyLen v k.kind ≤ L

end Hiding

/-- At most `n` requests one after the other, each chosen from the texts so far; all texts. -/
def hidingGame (P : Prims) {v : Ver} (key : Key P v .Local) (s : Side)
    (ask : List Bytes → Option (Hiding v)) : Nat → Rng → List Bytes → Res (List Bytes)
  | 0, _, texts => .ok texts
  | n + 1, rng, texts =>
    match ask texts with
    | none => .ok texts
    | some a => do
      let (text, rng) ← a.run P key s rng
      hidingGame P key s ask n rng (texts ++ [text])

/-- Everything that is idealised: `n` blocks of random bytes, the derived cipher keys, the cipher. -/
abbrev Ideal (v : Ver) (n L : Nat) := Blocks n × EncKeys × CipherFam v L

open Classical in
/-- The chance of an event. -/
noncomputable def Ideal.chance {v : Ver} {n L : Nat} (A : Ideal v n L → Prop) : ℚ :=
  (Finset.univ.filter A).card / Fintype.card (Ideal v n L)

/-- `P` with derived cipher keys and cipher exchanged. -/
def Ideal.prims (P : Prims) {v : Ver} {n L : Nat} (key : BytesN 32) (iv : Ivs v) (x : Ideal v n L) :
    Prims :=
  (P.withEncKeys key v x.2.1 iv).withCiphers (x.2.2.ciphers P)

/-- The texts seen with one of the two sides. -/
def Ideal.view (P : Prims) {v : Ver} {n L : Nat} (key : BytesN 32) (iv : Ivs v)
    (ask : List Bytes → Option (Hiding v)) (s : Side) (x : Ideal v n L) : Res (List Bytes) :=
  hidingGame (x.prims P key iv) ⟨key⟩ s ask n x.1.tape []

end Pasta
