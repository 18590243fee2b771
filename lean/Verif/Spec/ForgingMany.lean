import Verif.Spec.Forging

/-!
# The forging game with many keys

As in Spec/Forging.lean, with any number of keys in use: every request names the one under which it is
to be served. The asker may know other keys: they can have the MAC computed under every MAC key that is
not derived from a key in use.
-/

namespace Pasta

/-- One request. -/
inductive AskedOf (v : Ver) : Type 1
  /-- serve this under that key -/
  | use (key : BytesN 32) (a : Asked v)
  /-- compute the MAC -/
  | mac (macKey msg : Bytes)

namespace AskedOf

variable {v : Ver}

/-- Does the request hand in a text of the asker's own? -/
def isAttempt : AskedOf v → Bool
  | .use _ a => a.isAttempt
  | .mac .. => false

/-- Serve the request. -/
def run (P : Prims) : AskedOf v → Res Bytes
  | .use key a => a.run P ⟨key⟩
  | .mac k m => .ok (Spec.mac P v k m)

/-- What the answer issues, and under which key. -/
def issues : AskedOf v → Res Bytes → Option (BytesN 32 × Item)
  | .use key a, r => (a.issues r).map fun i => (key, i)
  | .mac .., _ => none

/-- Accepted under a key. -/
def Accepted (P : Prims) : AskedOf v → BytesN 32 → Item → Prop
  | .use key a, k, item => k = key ∧ a.Accepted P ⟨key⟩ item
  | .mac .., _, _ => False

/-- The keys in use are used, and MAC keys derived from them are not known. All lengths exist in
memory. -/
def Proper (P : Prims) (K : Set (BytesN 32)) : AskedOf v → Prop
  | .use key a => key ∈ K ∧ a.Fits
  | .mac k _ => ∀ key ∈ K, ∀ n, k ≠ Spec.localAuthKey P v key n ∧ k ≠ Spec.pieAuthKey P v key n

end AskedOf

/-- The requests served so far and their answers, oldest first. -/
abbrev ServedOf (v : Ver) := List (AskedOf v × Res Bytes)

/-- What has been issued, and under which key. -/
def ServedOf.items {v : Ver} (log : ServedOf v) : List (BytesN 32 × Item) :=
  log.filterMap fun e => e.1.issues e.2

/-- At most `n` requests, of which at most `q` hand in a text, each chosen from the answers so far. -/
def forgingMany (P : Prims) {v : Ver} (ask : List (Res Bytes) → Option (AskedOf v)) :
    (n q : Nat) → ServedOf v → ServedOf v
  | 0, _, log => log
  | n + 1, q, log =>
    match ask (log.map Prod.snd) with
    | none => log
    | some a =>
      if a.isAttempt then
        match q with
        | 0 => log
        | q + 1 => forgingMany P ask n q (log ++ [(a, a.run P)])
      else forgingMany P ask n q (log ++ [(a, a.run P)])

/-- Somewhere in the session a text was accepted under one of the keys that had not been issued before,
under whatever key. -/
def ForgedMany (P : Prims) {v : Ver} (log : ServedOf v) : Prop :=
  ∃ before a answer after key item, log = before ++ (a, answer) :: after ∧ a.Accepted P key item ∧
    ∀ k, (k, item) ∉ ServedOf.items before

/-- Somewhere in the session a text was accepted under one of the keys that had not been issued before
under this key. -/
def MisusedMany (P : Prims) {v : Ver} (log : ServedOf v) : Prop :=
  ∃ before a answer after key item, log = before ++ (a, answer) :: after ∧ a.Accepted P key item ∧
    (key, item) ∉ ServedOf.items before

end Pasta
