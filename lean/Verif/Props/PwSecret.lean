import Verif.Props.PwHiding
import Verif.Props.SealedSecret

/-!
# C109: a key wrapped with a password cannot be guessed without guessing the password

The game is that of Spec/PwHiding.lean, with one key instead of two: it is made from a secret that is drawn from
some finite type `S`.
-/

namespace Pasta.C109

open C108 (mean_close mean_const blind)

variable {P : Prims} {v : Ver} {L M : Nat} {W : Finset Bytes} {k : WKind} {S : Type} [Fintype S] [Nonempty S]

/-- Whatever is concluded about the secret from the text and the answers, the conclusion is right as often as when it
is drawn from a text with something else, `s₀`, in place of the secret; but for the chance of guessing the password
in `q` guesses. -/
theorem semantic (hW : ∀ pw ∈ W, pw.length < 2 ^ 32) (st : KdfState v) (salt : BytesN (pwSaltLen v))
    (nonce : BytesN (ivLen v)) (hst : StateOk st) (hM : 133 ≤ M) (hP : P.Laws) (hL : keyLen v k.kind ≤ L)
    (key : S → Key P v k.kind) (ask : Bytes → List (PwAnswer v L) → Option (PwAsk v)) (n q : Nat)
    (D : Res (Bytes × List (PwAnswer v L)) → S → Prop) (s₀ : S) :
    |fractionOf (fun z : S × PwMac v M × W × (W → PwHash v) × KeyHash v × CipherOf v L =>
          D (pwGame (P.withPwMac v z.2.1) z.2.2.1.1 (key z.1).toBytes st salt nonce ask n q z.2.2.2.1 z.2.2.2.2.1
            z.2.2.2.2.2) z.1) -
        fractionOf (fun z : S × PwMac v M × W × (W → PwHash v) × KeyHash v × CipherOf v L =>
          D (pwGame (P.withPwMac v z.2.1) z.2.2.1.1 (key s₀).toBytes st salt nonce ask n q z.2.2.2.1 z.2.2.2.2.1
            z.2.2.2.2.2) z.1)| ≤
      q / W.card + 4 * n / 2 ^ 256 := by
  have h : ∀ s, |fractionOf (fun z : PwMac v M × W × (W → PwHash v) × KeyHash v × CipherOf v L =>
          D (pwGame (P.withPwMac v z.1) z.2.1.1 (key s).toBytes st salt nonce ask n q z.2.2.1 z.2.2.2.1
            z.2.2.2.2) s) -
        fractionOf (fun z : PwMac v M × W × (W → PwHash v) × KeyHash v × CipherOf v L =>
          D (pwGame (P.withPwMac v z.1) z.2.1.1 (key s₀).toBytes st salt nonce ask n q z.2.2.1 z.2.2.2.1
            z.2.2.2.2) s)| ≤ q / W.card + 4 * n / 2 ^ 256 := fun s =>
    C89.which_key_random_tags hW st salt nonce hst hM hP hL
      (fun | .left => key s | .right => key s₀) ask n q fun res => D res s
  have h := mean_close (A := fun z : S × PwMac v M × W × (W → PwHash v) × KeyHash v × CipherOf v L =>
      D (pwGame (P.withPwMac v z.2.1) z.2.2.1.1 (key z.1).toBytes st salt nonce ask n q z.2.2.2.1 z.2.2.2.2.1
        z.2.2.2.2.2) z.1)
    (B := fun z : S × PwMac v M × W × (W → PwHash v) × KeyHash v × CipherOf v L =>
      D (pwGame (P.withPwMac v z.2.1) z.2.2.1.1 (key s₀).toBytes st salt nonce ask n q z.2.2.2.1 z.2.2.2.2.1
        z.2.2.2.2.2) z.1) h
  rw [mean_const] at h
  exact h

/-- With `t` guesses the secret is found with a chance of at most `t` in the number of secrets, but for the chance of
guessing the password. -/
theorem guessed (hW : ∀ pw ∈ W, pw.length < 2 ^ 32) (st : KdfState v) (salt : BytesN (pwSaltLen v))
    (nonce : BytesN (ivLen v)) (hst : StateOk st) (hM : 133 ≤ M) (hP : P.Laws) (hL : keyLen v k.kind ≤ L)
    (key : S → Key P v k.kind) (ask : Bytes → List (PwAnswer v L) → Option (PwAsk v)) (n q t : Nat)
    (guesses : Res (Bytes × List (PwAnswer v L)) → Finset S) (ht : ∀ res, (guesses res).card ≤ t) :
    fractionOf (fun z : S × PwMac v M × W × (W → PwHash v) × KeyHash v × CipherOf v L => z.1 ∈ guesses
        (pwGame (P.withPwMac v z.2.1) z.2.2.1.1 (key z.1).toBytes st salt nonce ask n q z.2.2.2.1 z.2.2.2.2.1
          z.2.2.2.2.2)) ≤
      t / Fintype.card S + q / W.card + 4 * n / 2 ^ 256 := by
  have s₀ : S := Classical.arbitrary S
  have h := (abs_le.1 (semantic hW st salt nonce hst hM hP hL key ask n q (fun res s => s ∈ guesses res) s₀)).2
  have h2 := blind t (fun z : PwMac v M × W × (W → PwHash v) × KeyHash v × CipherOf v L =>
    pwGame (P.withPwMac v z.1) z.2.1.1 (key s₀).toBytes st salt nonce ask n q z.2.2.1 z.2.2.2.1 z.2.2.2.2) guesses ht
  linarith

/-! ### Whoever has the password has the key -/

theorem laws_mac (hP : P.Laws) (T : PwMac v M) (F : W → PwHash v) (h : KeyHash v) (c : CipherOf v L) :
    ((P.withPwMac v T).withPw W F h c).Laws := by
  cases v <;> exact { hP with }

/-- Wrapping succeeds with every password, and whoever has the password gets the key from the text. -/
theorem opened (hW : ∀ pw ∈ W, pw.length < 2 ^ 32) (st : KdfState v) (salt : BytesN (pwSaltLen v))
    (nonce : BytesN (ivLen v)) (hst : StateOk st) (hP : P.Laws) (key : Key P v k.kind)
    (ask : Bytes → List (PwAnswer v L) → Option (PwAsk v)) (n q : Nat) (T : PwMac v M) (pw : W) (F : W → PwHash v)
    (h : KeyHash v) (c : CipherOf v L) :
    ∃ text answers, pwGame (P.withPwMac v T) pw.1 key.toBytes st salt nonce ask n q F h c = .ok (text, answers) ∧
      (Seek.unwrap k text : Seek v).run ((P.withPwMac v T).withPw W F h c) pw.1 = .ok key.toBytes.1 := by
  have hkb : C89.keyBytes (P.withPwMac v T) k key.toBytes = .ok key.toBytes := by
    rw [C89.keyBytes_with]
    exact C89.bytes_ok hP key
  have hw : ∃ text, (Seek.wrap k key.toBytes st (salt.1 ++ nonce.1)).run ((P.withPwMac v T).withPw W F h c) pw.1 =
      .ok text := by
    rw [C89.run_eq hW _ _ _ _ _ rfl]
    unfold C89.served
    dsimp only
    rw [hkb, Res.ok_bind, fillBytes_eq_ok.2 rfl, Res.ok_bind]
    dsimp only
    rw [(C89.hashOf_eq _ _ _).1 hst, Res.ok_bind]
    have hn : fillBytes (ivLen v) nonce.1 = .ok (nonce, []) := fillBytes_eq_ok.2 (List.append_nil _).symm
    rw [hn, Res.ok_bind]
    exact ⟨_, rfl⟩
  obtain ⟨text, h1⟩ := hw
  refine ⟨text, (pwPlay (pwAnswer (P.withPwMac v T) pw.1 (hashPoint salt st) F h c text) (ask text) n q []).1, ?_, ?_⟩
  · unfold pwGame
    rw [h1]
    rfl
  · unfold Seek.run at h1
    obtain ⟨key', e1, h1⟩ := Res.bind_eq_ok.1 h1
    obtain ⟨⟨wk, rng⟩, e2, h1⟩ := Res.bind_eq_ok.1 h1
    have hL := laws_mac hP T F h c
    have e3 := C37.pw_roundtrip_direct hL key' pw.1 st _ _ wk e2
    obtain ⟨t', e4, e5⟩ := C40.parse_display wk
    cases e4.symm.trans h1
    unfold Seek.run
    dsimp only
    rw [e5, Res.ok_bind, e3, Res.ok_bind]
    exact congrArg (fun b : BytesN _ => Res.ok b.1) (Key.toBytes_fromBytes hL (fun h => by cases k <;> cases h.2) e1)

/-! ### A case: a random local key, wrapped with one of two passwords -/

section

open Real (prims)

/-- Whoever does not run the password hash, but has texts unwrapped a thousand times, does not find the key. -/
example (v : Ver) (salt : BytesN (pwSaltLen v)) (nonce : BytesN (ivLen v)) (own : List (PwAnswer v 32) → Bytes)
    (guess : Res (Bytes × List (PwAnswer v 32)) → BytesN 32) :
    fractionOf (fun z : BytesN 32 × PwMac v 133 × ({[97], [98]} : Finset Bytes) ×
        (({[97], [98]} : Finset Bytes) → PwHash v) × KeyHash v × CipherOf v 32 => z.1 ∈ ({guess
          (pwGame (k := .Local) (prims.withPwMac v z.2.1) z.2.2.1.1 (Key.toBytes (⟨z.1⟩ : Key prims v .Local))
            (KdfState.default v) salt nonce (fun _ seen => some (.seek (.unwrap .Local (own seen)))) 1000 0 z.2.2.2.1
            z.2.2.2.2.1 z.2.2.2.2.2)} : Finset _)) ≤ 4001 / 2 ^ 256 := by
  have : Nonempty (BytesN 32) := ⟨⟨List.replicate 32 0, List.length_replicate⟩⟩
  refine (guessed (k := .Local) (M := 133) C89.two_short (KdfState.default v) salt nonce (C89.default_ok v)
    (Nat.le_refl _) Real.laws (by cases v <;> exact Nat.le_refl 32) (fun w : BytesN 32 => ⟨w⟩)
    (fun _ seen => some (.seek (.unwrap .Local (own seen)))) 1000 0 1 (fun res => {guess res})
    (fun _ => (Finset.card_singleton _).le)).trans ?_
  have e : (Fintype.card (BytesN 32) : ℚ) = 2 ^ 256 := by
    rw [C75.card_bytes]
    norm_num
  rw [e]
  norm_num

/-- Whoever has the password finds it. -/
example (v : Ver) (salt : BytesN (pwSaltLen v)) (nonce : BytesN (ivLen v)) (key : Key prims v .Local)
    (ask : Bytes → List (PwAnswer v 32) → Option (PwAsk v)) (T : PwMac v 133) (pw : ({[97], [98]} : Finset Bytes))
    (F : ({[97], [98]} : Finset Bytes) → PwHash v) (h : KeyHash v) (c : CipherOf v 32) :=
  opened (k := .Local) C89.two_short (KdfState.default v) salt nonce (C89.default_ok v) Real.laws key ask 5 1 T pw F h c

end

end Pasta.C109
