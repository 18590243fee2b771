import Verif.Spec.Sealing
import Verif.Spec.Seeking

/-!
# The game about a key wrapped with a password

One of two keys has been wrapped with a password. Someone who sees the text may run the password hash,
the key hash, the cipher and the MAC on anything, may have other keys wrapped and other texts unwrapped with
the same password, choosing everything from the answers so far; the question is which of the two keys
was wrapped. Probabilities are counted over the password (one of a finite set `W`), the password hash,
the hash that derives keys from its value, and the cipher: all functions are equally likely.
Everything else is that of the primitives `P`.

Beside it stands the same game with a text that has nothing to do with keys and password: its
ciphertext is random, its tag is made with a random authentication key, and of all other texts that lead
to the same value of the password hash none is accepted.
-/

namespace Pasta

/-- A hash for deriving keys: what SHA-384, or BLAKE2b with output of 32 bytes, could be on inputs of
33 bytes. -/
abbrev KeyHash (v : Ver) := BytesN 33 → BytesN (pwKeyHashLen v)

/-- `P` with another hash for deriving keys. -/
def Prims.withKeyHash (P : Prims) : (v : Ver) → KeyHash v → Prims
  | .V3, h => { P with
      sha384 := fun m => if e : m.length = 33 then h ⟨m, e⟩ else P.sha384 m }
  | .V4, h => { P with
      blake2b := fun n m =>
        if e : n = 32 ∧ m.length = 33 then ⟨(h ⟨m, e.2⟩).1, by rw [(h ⟨m, e.2⟩).2, e.1]; rfl⟩
        else P.blake2b n m }

/-- `P` with another hash for deriving keys, another cipher, and another password hash on `W`. -/
def Prims.withPw (P : Prims) {v : Ver} {L : Nat} (W : Finset Bytes) (f : W → PwHash v) (h : KeyHash v)
    (c : CipherOf v L) : Prims :=
  ((P.withKeyHash v h).withCiphers (c.ciphers P)).withPwHash W v f

/-- Where the password hash is evaluated, for a salt and settings. -/
def hashPoint : {v : Ver} → BytesN (pwSaltLen v) → KdfState v → HashPoint v
  | .V3, salt, st => (salt, st.iterations)
  | .V4, salt, st => (salt, st.mem / 1024, st.time, st.para)

/-- The settings with which the password hash does not panic. -/
def StateOk : {v : Ver} → KdfState v → Prop
  | .V3, _ => True
  | .V4, st => argon2ParamsOk (st.mem / 1024) st.time st.para

/-- A MAC: what HMAC-SHA-384, or keyed BLAKE2b with output of 32 bytes, could be under the keys used for
wrapping with a password, on messages of at most `M` bytes. -/
abbrev PwMac (v : Ver) (M : Nat) := BytesN (pwKeyHashLen v) → ShortBytes M → BytesN (pwTagLen v)

/-- `P` with another MAC. -/
def Prims.withPwMac (P : Prims) {M : Nat} : (v : Ver) → PwMac v M → Prims
  | .V3, T => { P with
      hmacSha384 := fun k m =>
        if h : k.length = 48 ∧ m.length ≤ M then T ⟨k, h.1⟩ ⟨m, h.2⟩ else P.hmacSha384 k m }
  | .V4, T => { P with
      blake2bMac := fun n k m =>
        if h : n = 32 ∧ k.length = 32 ∧ m.length ≤ M then
          ⟨(T ⟨k, h.2.1⟩ ⟨m, h.2.2⟩).1, by rw [(T ⟨k, h.2.1⟩ ⟨m, h.2.2⟩).2, h.1]; rfl⟩
        else P.blake2bMac n k m }

/-- One request. -/
inductive PwAsk (v : Ver) : Type
  /-- wrap or unwrap with the unknown password, or run the password hash -/
  | seek (a : Seek v)
  /-- the key hash -/
  | keyHash (m : BytesN 33)
  /-- the cipher under a key -/
  | cipher (k : BytesN 32)
  /-- the MAC of a message under a key -/
  | mac (ak : BytesN (pwKeyHashLen v)) (m : Bytes)

/-- One answer. -/
inductive PwAnswer (v : Ver) (L : Nat) : Type
  | bytes (r : Res Bytes)
  | keyHash (b : BytesN (pwKeyHashLen v))
  | cipher (c : OneCipher v L)
  | mac (t : BytesN (pwTagLen v))
  /-- not allowed -/
  | refused

/-- The password hashed. -/
def PwAsk.tried {v : Ver} : PwAsk v → Option Bytes
  | .seek a => a.tried
  | _ => none

/-- At most `n` requests one after the other, each chosen from the answers so far, of them at most `q`
that run the password hash: all answers and all requests. -/
def pwPlay {v : Ver} {L : Nat} (answer : PwAsk v → PwAnswer v L)
    (ask : List (PwAnswer v L) → Option (PwAsk v)) :
    (n q : Nat) → List (PwAnswer v L) → List (PwAnswer v L) × List (PwAsk v)
  | 0, _, seen => (seen, [])
  | n + 1, q, seen =>
    match ask seen with
    | none => (seen, [])
    | some a =>
      match a.tried with
      | none =>
        let r := pwPlay answer ask n q (seen ++ [answer a])
        (r.1, a :: r.2)
      | some _ =>
        match q with
        | 0 => (seen, [])
        | q + 1 =>
          let r := pwPlay answer ask n q (seen ++ [answer a])
          (r.1, a :: r.2)

section game

variable (P : Prims) {v : Ver} {L : Nat} {W : Finset Bytes}

/-- What is refused: wrapping with the salt and settings of the text, and unwrapping what is printed as
the text. -/
def Barred (x : HashPoint v) (text : Bytes) : Seek v → Prop
  | .wrap _ _ settings rng => ∃ salt rng', fillBytes (pwSaltLen v) rng = .ok (salt, rng') ∧
      hashPoint salt settings = x
  | .unwrap k s => ∃ w : PwWrappedKey v k, PwWrappedKey.parse v k s = .ok w ∧ w.display = .ok text
  | .hash .. => False

/-- The MAC. -/
def pwTag : {v : Ver} → (ak : BytesN (pwKeyHashLen v)) → (m : Bytes) → BytesN (pwTagLen v)
  | .V3, ak, m => P.hmacSha384 ak.1 m
  | .V4, ak, m => P.blake2bMac 32 ak.1 m

open Classical in
/-- How requests are answered. -/
noncomputable def pwAnswer (pw : Bytes) (x : HashPoint v) (f : W → PwHash v) (h : KeyHash v)
    (c : CipherOf v L) (text : Bytes) : PwAsk v → PwAnswer v L
  | .seek a => if Barred x text a then .refused else .bytes (a.run (P.withPw W f h c) pw)
  | .keyHash m => .keyHash (h m)
  | .cipher k => .cipher (c k)
  | .mac ak m => .mac (pwTag P ak m)

/-- The game: the key with these bytes is wrapped, requests are made; the text and all answers. -/
noncomputable def pwGame {k : WKind} (pw : Bytes) (key : BytesN (keyLen v k.kind)) (settings : KdfState v)
    (salt : BytesN (pwSaltLen v)) (nonce : BytesN (ivLen v))
    (ask : Bytes → List (PwAnswer v L) → Option (PwAsk v)) (n q : Nat) (f : W → PwHash v)
    (h : KeyHash v) (c : CipherOf v L) : Res (Bytes × List (PwAnswer v L)) := do
  let text ← (Seek.wrap k key settings (salt.1 ++ nonce.1)).run (P.withPw W f h c) pw
  return (text, (pwPlay (pwAnswer P pw (hashPoint salt settings) f h c text) (ask text) n q []).1)

/-- The tag of a wrapped key, from the authentication key. -/
def pwMac (ak : BytesN (pwKeyHashLen v)) (k : WKind) (salt : BytesN (pwSaltLen v))
    (settings : KdfState v) (nonce : BytesN (ivLen v)) (edk : BytesN (keyLen v k.kind)) :
    BytesN (pwTagLen v) :=
  pwTag P ak (pwTagInput v k salt.1 settings nonce.1 edk.1)

/-- The wrapped key made of salt, settings, nonce, a ciphertext and an authentication key. -/
def randomWrap (k : WKind) (settings : KdfState v) (salt : BytesN (pwSaltLen v))
    (nonce : BytesN (ivLen v)) (edk : BytesN (keyLen v k.kind)) (ak : BytesN (pwKeyHashLen v)) :
    PwWrappedKey v k :=
  ⟨salt, settings, nonce, edk, pwMac P ak k salt settings nonce edk⟩

/-- Its text. -/
def PwWrappedKey.text {k : WKind} (w : PwWrappedKey v k) : Bytes :=
  Spec.paserkText v (Spec.pwType k.kind)
    (w.salt.1 ++ (encodeState v w.state).1 ++ w.nonce.1 ++ w.edk.1 ++ w.tag.1)

open Classical in
/-- How requests are answered in the other game. The unknown password has the hash `g`. -/
noncomputable def idealPwAnswer (x : HashPoint v) (f : W → PwHash v) (g : PwHash v) (h : KeyHash v)
    (c : CipherOf v L) (text : Bytes) : PwAsk v → PwAnswer v L
  | .seek (.hash pw salt settings) =>
    .bytes ((Seek.hash pw salt settings).run (P.withPw W f h c) [])
  | .seek a =>
    if Barred x text a then .refused
    else if ∃ k s, a = .unwrap k s ∧ ∃ w, PwWrappedKey.parse v k s = .ok w ∧ hashPoint w.salt w.state = x then
      .bytes (.err .cryptoError)
    else .bytes (a.run (P.withPw {[]} (fun _ => g) h c) [])
  | .keyHash m => .keyHash (h m)
  | .cipher k => .cipher (c k)
  | .mac ak m => .mac (pwTag P ak m)

/-- The other game: all requests. -/
noncomputable def idealPwAsked (k : WKind) (settings : KdfState v) (salt : BytesN (pwSaltLen v))
    (nonce : BytesN (ivLen v)) (ask : Bytes → List (PwAnswer v L) → Option (PwAsk v)) (n q : Nat)
    (f : W → PwHash v) (g : PwHash v) (h : KeyHash v) (c : CipherOf v L)
    (edk : BytesN (keyLen v k.kind)) (ak : BytesN (pwKeyHashLen v)) : List (PwAsk v) :=
  let text := (randomWrap P k settings salt nonce edk ak).text
  (pwPlay (idealPwAnswer P (hashPoint salt settings) f g h c text) (ask text) n q []).2

/-- Another wrapped key has been made for the same value of the password hash, with a right tag. -/
def PwForged (k : WKind) (settings : KdfState v) (salt : BytesN (pwSaltLen v)) (nonce : BytesN (ivLen v))
    (edk : BytesN (keyLen v k.kind)) (ak : BytesN (pwKeyHashLen v)) (asked : List (PwAsk v)) : Prop :=
  ∃ k' s w, PwAsk.seek (.unwrap k' s) ∈ asked ∧ PwWrappedKey.parse v k' s = .ok w ∧
    hashPoint w.salt w.state = hashPoint salt settings ∧
    w.display ≠ .ok (randomWrap P k settings salt nonce edk ak).text ∧
    w.tag = pwMac P ak k' w.salt w.state w.nonce w.edk

end game

open Classical in
/-- The chance of an event, over password, password hash, key hash and cipher. -/
noncomputable def pwHidingChance {v : Ver} {L : Nat} {W : Finset Bytes}
    (A : W → (W → PwHash v) → KeyHash v → CipherOf v L → Prop) : ℚ :=
  (Finset.univ.filter fun x : W × (W → PwHash v) × KeyHash v × CipherOf v L =>
      A x.1 x.2.1 x.2.2.1 x.2.2.2).card /
    Fintype.card (W × (W → PwHash v) × KeyHash v × CipherOf v L)

open Classical in
/-- The chance of an event in the other game. -/
noncomputable def idealPwChance {v : Ver} {L m : Nat} {W : Finset Bytes}
    (A : (W → PwHash v) → PwHash v → KeyHash v → CipherOf v L → BytesN m → BytesN (pwKeyHashLen v) → Prop) :
    ℚ :=
  (Finset.univ.filter fun x : ((W → PwHash v) × PwHash v) × KeyHash v × CipherOf v L × BytesN m ×
      BytesN (pwKeyHashLen v) => A x.1.1 x.1.2 x.2.1 x.2.2.1 x.2.2.2.1 x.2.2.2.2).card /
    Fintype.card (((W → PwHash v) × PwHash v) × KeyHash v × CipherOf v L × BytesN m ×
      BytesN (pwKeyHashLen v))

open Classical in
/-- The chance of an event, over a MAC as well. -/
noncomputable def pwTagChance {v : Ver} {L M : Nat} {W : Finset Bytes}
    (A : PwMac v M → W → (W → PwHash v) → KeyHash v → CipherOf v L → Prop) : ℚ :=
  (Finset.univ.filter fun x : PwMac v M × W × (W → PwHash v) × KeyHash v × CipherOf v L =>
      A x.1 x.2.1 x.2.2.1 x.2.2.2.1 x.2.2.2.2).card /
    Fintype.card (PwMac v M × W × (W → PwHash v) × KeyHash v × CipherOf v L)

end Pasta
