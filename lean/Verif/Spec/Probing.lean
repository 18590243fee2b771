import Verif.Spec.Distinguish
import Verif.Spec.Forging

/-!
# The distinguishing game with openings

As in Spec/Distinguish.lean, and in between texts may be handed in to be decrypted or unwrapped under
the key; the outcome is told. Only what has been issued in the game is not opened. Counted in addition
is the function that makes the tags, as in Spec/Forging.lean.
-/

namespace Pasta

/-- A text handed in. -/
inductive Opening (v : Ver) : Type 1
  /-- parse and decrypt a token; `look` is what the asker wants to know of the result -/
  | decrypt (M F E : Type) (instP : Payload E) (instM : MessageDecoding E M) (instF : Footer F)
      (text : Bytes) (look : ValidatedToken v .Local M F E → Bytes) (implicit : Bytes)
  /-- parse and unwrap a wrapped key -/
  | unwrap (k : WKind) (text : Bytes)

namespace Opening

variable {v : Ver}

/-- Serve the request under `key`. -/
def run (P : Prims) (key : BytesN 32) : Opening v → Res Bytes
  | .decrypt M F E iP iM iF text look implicit => do
    let _ := iP; let _ := iM; let _ := iF
    let t ← SecuredToken.parse v .Local F E text
    let r ← t.decryptWithAssertions M P ⟨key⟩ implicit
    return look r
  | .unwrap k text => do
    let w ← PieWrappedKey.parse v k text
    let key ← w.unwrapKey P ⟨key⟩
    return key.toBytes.1

/-- What is presented. Of a token that is the text it prints as: one token can have two texts (C06). -/
def item : Opening v → Option Item
  | .decrypt _ F E iP _ iF text _ implicit =>
    let _ := iP; let _ := iF
    match SecuredToken.parse v .Local F E text with
    | .ok t => some (.token t.display implicit)
    | _ => none
  | .unwrap _ text => some (.wrapped text)

/-- All lengths exist in memory. -/
def Fits : Opening v → Prop
  | .decrypt _ _ E iP _ _ text _ implicit =>
    let _ := iP
    Spec.Fits (Spec.header v .Local (Payload.suffix E)) ∧ Spec.Fits text ∧ Spec.Fits implicit
  | .unwrap .. => True

end Opening

/-- What a text made on request counts as. -/
def Hiding.item {v : Ver} (text : Bytes) : Hiding v → Item
  | .token _ _ _ _ _ _ _ _ _ implicit => .token text implicit
  | .wrap .. => .wrapped text

/-- All lengths exist in memory (with room for a nonce and a tag). -/
def Hiding.Fits {v : Ver} : Hiding v → Prop
  | .token _ _ E iP iM iF encoding message footer implicit =>
    let _ := iP; let _ := iM; let _ := iF
    Spec.Fits (Spec.header v .Local (Payload.suffix E)) ∧ Spec.Fits implicit ∧
      (∀ s m, MessageEncoding.encode (encoding s) (message s) = .ok m → m.length + 80 < 2 ^ 63) ∧
      ∀ f, Footer.encode footer = some f → Spec.Fits f
  | .wrap .. => True

/-- A request. -/
inductive Probe (v : Ver) : Type 1
  | hide (a : Hiding v)
  | look (a : Opening v)

/-- An answer: none is given to an opening of something issued. -/
abbrev Told := Option (Res Bytes)

/-- The answer to an opening when these have been issued. -/
def Opening.answer {v : Ver} (P : Prims) (key : BytesN 32) (issued : List Item) (a : Opening v) :
    Told :=
  match a.item with
  | some i => if i ∈ issued then none else some (a.run P key)
  | none => some (a.run P key)

/-- At most `k` requests one after the other, each chosen from the answers so far, of them at most `n`
that hide something and at most `q` openings; all answers. -/
def probing (P : Prims) {v : Ver} (key : BytesN 32) (s : Side) (ask : List Told → Option (Probe v)) :
    (k n q : Nat) → Rng → List Item → List Told → Res (List Told)
  | 0, _, _, _, _, answers => .ok answers
  | k + 1, n, q, rng, issued, answers =>
    match ask answers with
    | none => .ok answers
    | some (.hide a) =>
      match n with
      | 0 => .ok answers
      | n + 1 => do
        let (text, rng) ← a.run P ⟨key⟩ s rng
        probing P key s ask k n q rng (a.item text :: issued) (answers ++ [some (.ok text)])
    | some (.look a) =>
      match q with
      | 0 => .ok answers
      | q + 1 => probing P key s ask k n q rng issued (answers ++ [a.answer P key issued])

/-- Everything that is idealised: random bytes, derived cipher keys, cipher, and the MAC on a finite
set of inputs. -/
abbrev Ideal' (v : Ver) (n L : Nat) (X : Finset (Bytes × Bytes)) :=
  Ideal v n L × (X → BytesN (Spec.tagLen v))

open Classical in
/-- The chance of an event. -/
noncomputable def Ideal'.chance {v : Ver} {n L : Nat} {X : Finset (Bytes × Bytes)}
    (A : Ideal' v n L X → Prop) : ℚ :=
  (Finset.univ.filter A).card / Fintype.card (Ideal' v n L X)

/-- All answers seen, with one of the two sides. -/
def Ideal'.view (P : Prims) {v : Ver} {n L : Nat} {X : Finset (Bytes × Bytes)} (key : BytesN 32)
    (iv : Ivs v) (d : Tags v) (ask : List Told → Option (Probe v)) (k q : Nat) (s : Side)
    (x : Ideal' v n L X) : Res (List Told) :=
  probing (x.1.prims (P.withTags v (d.on X x.2)) key iv) key s ask k n q x.1.1.tape [] []

end Pasta
