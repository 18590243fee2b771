import Verif.Lemmas.PwInUse
import Verif.Props.Hybrid

/-!
# C103: a key wrapped with a password may be used

The bound of C101 where one of the keys in use has been wrapped with a password, but for the chance that the
password is guessed.
-/

namespace Pasta.C103

variable {P : Prims} {v : Ver} {r L : Nat} {K : Finset (BytesN 32)} {W : Finset Bytes}

open C102 (bs bound bound_nonneg average_hop common)
open C89 (kdfIn kdfIn_inj splitEk_count split_card)
open C84 (hashOf)
open Plug (fixAt outAt out_fixAt fixAt_fixAt)
open C82 (count)
open C98 (fraction_count fraction_prod fraction_mono)
open Trying (fraction_equiv fraction_fst fraction_prod_le)

/-! ### The wrapped key -/

/-- What the tag is made of. -/
def tagged (st : KdfState v) (salt : BytesN (pwSaltLen v)) (nonce : BytesN (ivLen v)) (edk : BytesN 32) : Bytes :=
  pwTagInput v .Local salt.1 st nonce.1 edk.1

theorem pwMac_eq (P : Prims) (K : Finset (BytesN 32)) (f : Tags v) (D : Derivation v)
    (ak : BytesN (pwKeyHashLen v)) (st : KdfState v) (salt : BytesN (pwSaltLen v)) (nonce : BytesN (ivLen v))
    (edk : BytesN 32) :
    (pwMac (bs P K f D) ak .Local salt st nonce edk).1 = (f (ak.1, tagged st salt nonce edk)).1 := by
  have h1 : encInput (tagged st salt nonce edk) = none :=
    encInput_head (b := 0x6b) (by cases v <;> rfl) (by decide) (by decide)
  have h2 : authInput (tagged st salt nonce edk) = none :=
    authInput_head (b := 0x6b) (by cases v <;> rfl) (by decide) (by decide)
  have e : (pwMac (bs P K f D) ak .Local salt st nonce edk).1 =
      Spec.mac (bs P K f D) v ak.1 (tagged st salt nonce edk) := by cases v <;> rfl
  rw [e]
  unfold bs
  rw [mac_derived _ _ h1 h2, C81.mac_tags _ _ _ (by cases v <;> rfl)]

/-- The text, from its tag. -/
def textOf (st : KdfState v) (salt : BytesN (pwSaltLen v)) (nonce : BytesN (ivLen v)) (edk : BytesN 32)
    (t : BytesN (Spec.tagLen v)) : Bytes :=
  Spec.paserkText v (Spec.pwType .Local) (salt.1 ++ (encodeState v st).1 ++ nonce.1 ++ edk.1 ++ t.1)

theorem text_eq (P : Prims) (K : Finset (BytesN 32)) (f : Tags v) (D : Derivation v)
    (ak : BytesN (pwKeyHashLen v)) (st : KdfState v) (salt : BytesN (pwSaltLen v)) (nonce : BytesN (ivLen v))
    (edk : BytesN 32) :
    (randomWrap (bs P K f D) .Local st salt nonce edk ak).text =
      textOf st salt nonce edk (f (ak.1, tagged st salt nonce edk)) := by
  unfold textOf
  rw [← pwMac_eq P K f D]
  rfl

/-- Running the password hash. -/
def hRun (P : Prims) (F : W → PwHash v) : Run v := fun y z t =>
  (if hw : y ∈ W then hashOf (F ⟨y, hw⟩) z t else pwKdf P v y z t) >>= fun b => .ok b.1

theorem kdf_bs (P : Prims) (K : Finset (BytesN 32)) (f : Tags v) (D : Derivation v) (y : Bytes)
    (z : BytesN (pwSaltLen v)) (t : KdfState v) : pwKdf (bs P K f D) v y z t = pwKdf P v y z t := by
  cases v <;> rfl

theorem run_hRun (hW : ∀ pw ∈ W, pw.length < 2 ^ 32) (P : Prims) (K : Finset (BytesN 32)) (f : Tags v)
    (D : Derivation v) (F : W → PwHash v) (h : KeyHash v) (c : CipherOf v L) :
    (fun y z t => (Seek.hash y z t).run ((bs P K f D).withPw W F h c) []) = hRun P F := by
  funext y z t
  rw [C89.hash_run hW]
  unfold hRun
  rw [kdf_bs]

/-- The game. -/
def realAt (P : Prims) (K : Finset (BytesN 32)) (j : Fin r) (st : KdfState v) (salt : BytesN (pwSaltLen v))
    (nonce : BytesN (ivLen v)) (ask : Bytes → List (PwGot v L) → Option (PwWish v r)) (k n o u q m w : Nat)
    (s : Side) (tape : Rng) (keys : Fin r → BytesN 32) (D : Derivation v) (f : Tags v) (pw : Bytes)
    (F : W → PwHash v) (h : KeyHash v) (c : CipherOf v L) : Res (Bytes × List (PwGot v L)) := do
  let text ← (Seek.wrap .Local (keys j) st (salt.1 ++ nonce.1)).run ((bs P K f D).withPw W F h c) pw
  let answers ← (pwInUse ((bs P K f D).withPw W F h c) keys D c f h
    (fun y z t => (Seek.hash y z t).run ((bs P K f D).withPw W F h c) []) s (ask text) k n o u q m w tape [] []).1
  return (text, answers)

/-- The requests where the text has nothing to do with keys and password. -/
def idealAt (P : Prims) (K : Finset (BytesN 32)) (st : KdfState v) (salt : BytesN (pwSaltLen v))
    (nonce : BytesN (ivLen v)) (ask : Bytes → List (PwGot v L) → Option (PwWish v r)) (k n o u q m w : Nat)
    (s : Side) (tape : Rng) (keys : Fin r → BytesN 32) (D : Derivation v) (f : Tags v)
    (F : W → PwHash v) (h : KeyHash v) (c : CipherOf v L) (edk : BytesN 32) (ak : BytesN (pwKeyHashLen v)) :
    Res (List (PwGot v L)) × List (PwAsk v) :=
  pwInUse (C101.pr P K c f D) keys D c f h (hRun P F) s
    (ask (textOf st salt nonce edk (f (ak.1, tagged st salt nonce edk)))) k n o u q m w tape [] []

/-- Text and answers. -/
def idealSeen (P : Prims) (K : Finset (BytesN 32)) (st : KdfState v) (salt : BytesN (pwSaltLen v))
    (nonce : BytesN (ivLen v)) (ask : Bytes → List (PwGot v L) → Option (PwWish v r)) (k n o u q m w : Nat)
    (s : Side) (tape : Rng) (keys : Fin r → BytesN 32) (D : Derivation v) (f : Tags v)
    (F : W → PwHash v) (h : KeyHash v) (c : CipherOf v L) (edk : BytesN 32) (ak : BytesN (pwKeyHashLen v)) :
    Res (Bytes × List (PwGot v L)) :=
  (idealAt P K st salt nonce ask k n o u q m w s tape keys D f F h c edk ak).1 >>= fun a =>
    .ok (textOf st salt nonce edk (f (ak.1, tagged st salt nonce edk)), a)

theorem ideal_trying (P : Prims) (K : Finset (BytesN 32)) (st : KdfState v) (salt : BytesN (pwSaltLen v))
    (nonce : BytesN (ivLen v)) (ask : Bytes → List (PwGot v L) → Option (PwWish v r)) (k n o u q m w : Nat)
    (s : Side) (tape : Rng) (keys : Fin r → BytesN 32) (D : Derivation v) (f : Tags v)
    (F : W → PwHash v) (h : KeyHash v) (c : CipherOf v L) (edk : BytesN 32) (ak : BytesN (pwKeyHashLen v)) :
    idealSeen P K st salt nonce ask k n o u q m w s tape keys D f F h c edk ak =
      (trying (C101.pr P K c f D) keys D c f s
          (withTag w ak.1 (tagged st salt nonce edk) (textOf st salt nonce edk) h (hRun P F) ask)
          (k + 1) n o u q (m + 1) tape [] [] >>=
        fun ys => .ok (seen w (textOf st salt nonce edk) h (hRun P F) ask ys)) :=
  simulated (C101.pr P K c f D) c f h (hRun P F) s w ak.1 (tagged st salt nonce edk) (textOf st salt nonce edk)
    ask D keys (f (ak.1, tagged st salt nonce edk)) k n o u q m w tape [] [] [] rfl

section

variable (hW : ∀ pw ∈ W, pw.length < 2 ^ 32) (st : KdfState v) (salt : BytesN (pwSaltLen v))
  (nonce : BytesN (ivLen v)) (hst : StateOk st)

/-- The password hash with one value set. -/
def setHash (x : HashPoint v) (pw : W) (F : W → PwHash v) (p0 : BytesN 32) : W → PwHash v :=
  Function.update F pw (Function.update (F pw) x p0)

include hW hst in
/-- The wrapped key, when hashes and cipher have been set. -/
theorem wrapped_set (hL : 32 ≤ L) (key : BytesN (keyLen v WKind.Local.kind)) (f : Tags v) (D : Derivation v)
    (pw : W) (F : W → PwHash v) (p0 : BytesN 32) (h : KeyHash v) (c : CipherOf v L)
    (e : BytesN (keyLen v WKind.Local.kind)) (t1 t2 : BytesN (pwKeyHashLen v))
    (s : OneCipher v L) :
    (Seek.wrap .Local key st (salt.1 ++ nonce.1)).run ((bs P K f D).withPw W
        (setHash (hashPoint salt st) pw F p0)
        (Function.update (Function.update h (kdfIn 0xff p0) t1) (kdfIn 0xfe p0) t2)
        (Function.update c (splitEk v t1) (fixAt (bs P K f D) nonce key s e))) pw.1 =
      .ok (randomWrap (bs P K f D) .Local st salt nonce e t2).text := by
  have ne : kdfIn 0xff p0 ≠ kdfIn 0xfe p0 := fun h' => absurd (kdfIn_inj h').1 (by decide)
  have ho := out_fixAt (P := bs P K f D) hL (by decide) nonce key s e
  have hkb : C89.keyBytes (bs P K f D) (v := v) .Local key = .ok key := by cases v <;> rfl
  rw [C89.run_eq hW _ _ _ _ _ rfl]
  unfold C89.served setHash
  dsimp only
  rw [hkb, Res.ok_bind, fillBytes_eq_ok.2 rfl, Res.ok_bind]
  dsimp only
  rw [(C89.hashOf_eq _ _ _).1 hst, Res.ok_bind, Function.update_self, Function.update_self]
  have hn : fillBytes (ivLen v) nonce.1 = .ok (nonce, []) := fillBytes_eq_ok.2 (List.append_nil _).symm
  rw [hn, Res.ok_bind, Function.update_self, Function.update_of_ne ne, Function.update_self,
    Function.update_self]
  exact congrArg (fun e => Res.ok (randomWrap (bs P K f D) .Local st salt nonce e t2).text) ho

include hW hst in
theorem wrapped_key (hL : 32 ≤ L) (key : BytesN 32) (f : Tags v) (D : Derivation v) (pw : W) (F : W → PwHash v)
    (p0 : BytesN 32) (h : KeyHash v) (c : CipherOf v L) (e : BytesN 32) (t1 t2 : BytesN (pwKeyHashLen v))
    (s : OneCipher v L) :
    (Seek.wrap .Local key st (salt.1 ++ nonce.1)).run ((bs P K f D).withPw W
        (setHash (hashPoint salt st) pw F p0)
        (Function.update (Function.update h (kdfIn 0xff p0) t1) (kdfIn 0xfe p0) t2)
        (Function.update c (splitEk v t1) (fixAt (bs P K f D) nonce key s e))) pw.1 =
      .ok (randomWrap (bs P K f D) .Local st salt nonce e t2).text :=
  wrapped_set hW st salt nonce hst hL key f D pw F p0 h c e t1 t2 s

theorem hRun_set (P : Prims) (x : HashPoint v) (pw : W) (F : W → PwHash v) (p0 : BytesN 32) (y : Bytes)
    (hy : y ≠ pw.1) (z : BytesN (pwSaltLen v)) (t : KdfState v) :
    hRun P (setHash x pw F p0) y z t = hRun P F y z t := by
  unfold hRun setHash
  by_cases hw : y ∈ W
  · rw [dif_pos hw, dif_pos hw, Function.update_of_ne]
    rintro rfl
    exact hy rfl
  · rw [dif_neg hw, dif_neg hw]

/-- The password has been tried, or the value of its hash has been met. -/
def Met (pw : W) (p0 : BytesN 32) (asked : List (PwAsk v)) : Prop :=
  pw.1 ∈ asked.filterMap PwAsk.tried ∨ p0 ∈ asked.flatMap (C89.usesPre fun _ => Plug.k0)

include hW hst in
/-- The games look alike but for the chance that the password is tried, or the value of its hash or the cipher
key met. -/
theorem hop_at (hK : ∀ x, x ∈ K) (hL : 32 ≤ L) (j : Fin r)
    (ask : Bytes → List (PwGot v L) → Option (PwWish v r))
    (hask : ∀ text answers i a, ask text answers = some (.attempt (.hide i a)) → a.Comparable P L)
    (k o u q m w : Nat) (s : Side) (ns : List (BytesN 32)) (keys : Fin r → BytesN 32) (D : Derivation v)
    (f : Tags v) (pw : W) (F : W → PwHash v) (p0 : BytesN 32) (A : Res (Bytes × List (PwGot v L)) → Prop) :
    |(count (fun y : KeyHash v × CipherOf v L => A (realAt P K j st salt nonce ask k ns.length o u q m w s
          (ns.map Subtype.val).flatten keys D f pw.1 (setHash (hashPoint salt st) pw F p0) y.1 y.2)) : ℚ) /
          Fintype.card (KeyHash v × CipherOf v L) -
        count (fun y : KeyHash v × CipherOf v L × BytesN 32 × BytesN (pwKeyHashLen v) =>
          A (idealSeen P K st salt nonce ask k ns.length o u q m w s (ns.map Subtype.val).flatten keys D f F y.1
            y.2.1 y.2.2.1 y.2.2.2)) /
          Fintype.card (KeyHash v × CipherOf v L × BytesN 32 × BytesN (pwKeyHashLen v))| ≤
      count (fun y : KeyHash v × CipherOf v L × BytesN 32 × BytesN (pwKeyHashLen v) =>
        Met pw p0 (idealAt P K st salt nonce ask k ns.length o u q m w s (ns.map Subtype.val).flatten keys D f F
          y.1 y.2.1 y.2.2.1 y.2.2.2).2) /
        Fintype.card (KeyHash v × CipherOf v L × BytesN 32 × BytesN (pwKeyHashLen v)) +
      k / (256 ^ 32 : Nat) := by
  have hf := fun y : KeyHash v × CipherOf v L × BytesN 32 × BytesN (pwKeyHashLen v) =>
    few P hK y.2.1 f y.1 (hRun P F) s (ask (textOf st salt nonce y.2.2.1 (f (y.2.2.2.1, tagged st salt nonce y.2.2.1))))
      (hask _) D keys k o u q m w ns [] []
  choose touched ht hsame using hf
  refine Plug.hop (I := BytesN 33) (T := BytesN (pwKeyHashLen v)) (K := BytesN 32)
    (S := OneCipher v L) (E := BytesN 32) (kdfIn 0xff p0) (kdfIn 0xfe p0) (splitEk v)
    (256 ^ (pwKeyHashLen v - 32)) (256 ^ 32) k
    (fun _ s e => fixAt (bs P K f D) nonce (keys j) s e) (fun _ s => outAt (bs P K f D) nonce (keys j) s)
    (fun _ s e => out_fixAt hL (by decide) _ _ s e) (fun _ s e => fixAt_fixAt hL (by decide) _ _ s e)
    splitEk_count (split_card v) (Nat.pow_pos (by decide)) (Nat.pow_pos (by decide)) Fintype.card_pos
    (Fintype.card_pos_iff.2 ⟨Plug.k0⟩) _ _ _ touched ht ?_
  intro h c e t2 t1 sc hb hu
  have hg : realAt P K j st salt nonce ask k ns.length o u q m w s (ns.map Subtype.val).flatten keys D f pw.1
      (setHash (hashPoint salt st) pw F p0)
      (Function.update (Function.update h (kdfIn 0xff p0) t1) (kdfIn 0xfe p0) t2)
      (Function.update c (splitEk v t1) (fixAt (bs P K f D) nonce (keys j) sc e)) =
      idealSeen P K st salt nonce ask k ns.length o u q m w s (ns.map Subtype.val).flatten keys D f F h c e t2 := by
    unfold realAt
    rw [wrapped_key hW st salt nonce hst hL, Res.ok_bind, text_eq, run_hRun hW]
    have hx := hsame (h, c, e, t2)
      (Function.update c (splitEk v t1) (fixAt (bs P K f D) nonce (keys j) sc e))
      (Function.update (Function.update h (kdfIn 0xff p0) t1) (kdfIn 0xfe p0) t2)
      (hRun P (setHash (hashPoint salt st) pw F p0)) ?_ ?_ ?_
    · dsimp only at hx
      unfold bs at hx ⊢
      rw [pw_pr, pwInUse_hashed, hx]
      rfl
    · intro x hx
      have hne : x ≠ splitEk v t1 := fun h => hu (h ▸ hx)
      exact Function.update_of_ne hne _ _
    · intro y hy
      have hn : ∀ b, y ≠ kdfIn b p0 := by
        rintro b rfl
        exact hb (.inr (List.mem_flatMap.2 ⟨_, hy, List.mem_singleton.2 (Subtype.ext rfl)⟩))
      dsimp only
      rw [Function.update_of_ne (hn _), Function.update_of_ne (hn _)]
    · intro y z t hy
      exact hRun_set P _ pw F p0 y
        (fun h => hb (.inl (List.mem_filterMap.2 ⟨_, hy, by rw [h]; rfl⟩))) z t
  show A (realAt P K j st salt nonce ask k ns.length o u q m w s _ keys D f pw.1 _ _ _) ↔ _
  rw [← hg]
  exact Iff.rfl

end

/-! ### Everything drawn -/

/-- What both games draw, but for the hash that derives keys and the cipher. -/
abbrev Rest (v : Ver) (r n : Nat) (X : Finset (Bytes × Bytes)) (W : Finset Bytes) :=
  (W × (W → PwHash v) × BytesN 32) × (Fin r → BytesN 32) × Blocks n × Derivation v × (X → BytesN (Spec.tagLen v))

/-- The value of the password hash drawn apart. -/
def redraw (v : Ver) (r n L : Nat) (X : Finset (Bytes × Bytes)) (W : Finset Bytes) (x : HashPoint v) :
    Rest v r n X W × (KeyHash v × CipherOf v L) ≃
      (W × (W → PwHash v) × KeyHash v × Tried v r n L X) × BytesN 32 where
  toFun y := ((y.1.1.1, setHash x y.1.1.1 y.1.1.2.1 y.1.1.2.2, y.2.1,
    (y.1.2.1, ((y.1.2.2.1, y.1.2.2.2.1, y.2.2), y.1.2.2.2.2))), y.1.1.2.1 y.1.1.1 x)
  invFun z := (((z.1.1, setHash x z.1.1 z.1.2.1 z.2, z.1.2.1 z.1.1 x),
    z.1.2.2.2.1, z.1.2.2.2.2.1.1, z.1.2.2.2.2.1.2.1, z.1.2.2.2.2.2), (z.1.2.2.1, z.1.2.2.2.2.1.2.2))
  left_inv y := by
    obtain ⟨⟨⟨pw, F, p⟩, rest⟩, hc⟩ := y
    simp [setHash]
  right_inv z := by
    obtain ⟨⟨pw, F, rest⟩, p⟩ := z
    simp [setHash]

/-- The things drawn in the game without password. -/
abbrev Unrelated (v : Ver) (r n L : Nat) (X : Finset (Bytes × Bytes)) (W : Finset Bytes) :=
  (((W → PwHash v) × KeyHash v × BytesN 32 × BytesN (pwKeyHashLen v)) × Tried v r n L X)

/-- Hash and cipher, random ciphertext and authentication key taken apart. -/
def regroup (v : Ver) (r n L : Nat) (X : Finset (Bytes × Bytes)) (W : Finset Bytes) :
    Rest v r n X W × (KeyHash v × CipherOf v L × BytesN 32 × BytesN (pwKeyHashLen v)) ≃
      Unrelated v r n L X W × W × BytesN 32 where
  toFun y := (((y.1.1.2.1, y.2.1, y.2.2.2.1, y.2.2.2.2),
    (y.1.2.1, ((y.1.2.2.1, y.1.2.2.2.1, y.2.2.1), y.1.2.2.2.2))), y.1.1.1, y.1.1.2.2)
  invFun z := (((z.2.1, z.1.1.1, z.2.2), z.1.2.1, z.1.2.2.1.1, z.1.2.2.1.2.1, z.1.2.2.2),
    (z.1.1.2.1, z.1.2.2.1.2.2, z.1.1.2.2.1, z.1.1.2.2.2))
  left_inv _ := rfl
  right_inv _ := rfl

section

variable {n : Nat} {X : Finset (Bytes × Bytes)} (st : KdfState v) (salt : BytesN (pwSaltLen v))
  (nonce : BytesN (ivLen v))

/-- The game, from everything drawn. -/
def realOf (P : Prims) (K : Finset (BytesN 32)) (d : Tags v) (j : Fin r)
    (ask : Bytes → List (PwGot v L) → Option (PwWish v r)) (k o u q m w : Nat) (s : Side)
    (z : W × (W → PwHash v) × KeyHash v × Tried v r n L X) : Res (Bytes × List (PwGot v L)) :=
  realAt P K j st salt nonce ask k n o u q m w s z.2.2.2.2.1.1.tape z.2.2.2.1 z.2.2.2.2.1.2.1
    (d.on X z.2.2.2.2.2) z.1.1 z.2.1 z.2.2.1 z.2.2.2.2.1.2.2

/-- The other game, from everything drawn. -/
def idealOf (P : Prims) (K : Finset (BytesN 32)) (d : Tags v)
    (ask : Bytes → List (PwGot v L) → Option (PwWish v r)) (k o u q m w : Nat) (s : Side)
    (z : Unrelated v r n L X W) : Res (Bytes × List (PwGot v L)) :=
  idealSeen P K st salt nonce ask k n o u q m w s z.2.2.1.1.tape z.2.1 z.2.2.1.2.1 (d.on X z.2.2.2) z.1.1 z.1.2.1
    z.2.2.1.2.2 z.1.2.2.1 z.1.2.2.2

/-- What is hashed in the other game. -/
def askedOf (P : Prims) (K : Finset (BytesN 32)) (d : Tags v)
    (ask : Bytes → List (PwGot v L) → Option (PwWish v r)) (k o u q m w : Nat) (s : Side)
    (z : Unrelated v r n L X W) : List (PwAsk v) :=
  (idealAt P K st salt nonce ask k n o u q m w s z.2.2.1.1.tape z.2.1 z.2.2.1.2.1 (d.on X z.2.2.2) z.1.1 z.1.2.1
    z.2.2.1.2.2 z.1.2.2.1 z.1.2.2.2).2

/-- One of few is hardly ever drawn. -/
theorem drawn_among {T B : Type} [Fintype T] (i : T → B) (hi : Function.Injective i) (l : List B) (n : Nat)
    (hl : l.length ≤ n) : fractionOf (fun t : T => i t ∈ l) ≤ n / Fintype.card T := by
  classical
  rw [fraction_count]
  refine div_le_div_of_nonneg_right ?_ (Nat.cast_nonneg _)
  have h := Plug.count_touched i 1 n (fun b => by
    unfold count
    exact Finset.card_le_one.2 fun x hx y hy => hi (by rw [Plug.mem_count.1 hx, Plug.mem_count.1 hy]))
    (α := Unit) (fun _ => l) fun _ => hl
  have e : count (fun t : T => i t ∈ l) = count (fun y : Unit × T => i y.2 ∈ l) :=
    Plug.count_bij (g := fun t : T => ((), t)) ⟨fun _ _ h => (Prod.mk.inj h).2, fun y => ⟨y.2, rfl⟩⟩
      fun _ => Iff.rfl
  rw [e]
  simpa using h

theorem met_le (P : Prims) (K : Finset (BytesN 32)) (d : Tags v)
    (ask : Bytes → List (PwGot v L) → Option (PwWish v r)) (k o u q m w : Nat) (s : Side) :
    fractionOf (fun z : Unrelated v r n L X W × W × BytesN 32 =>
      Met z.2.1 z.2.2 (askedOf st salt nonce P K d ask k o u q m w s z.1)) ≤ w / W.card + q / 2 ^ 256 := by
  have hw0 : (0 : ℚ) ≤ w / W.card := by positivity
  have hq0 : (0 : ℚ) ≤ q / 2 ^ 256 := by positivity
  have h0 := add_nonneg hw0 hq0
  refine fraction_prod_le _ _ h0 fun z => ?_
  have hl := asked_length (C101.pr P K z.2.2.1.2.2 (d.on X z.2.2.2) z.2.2.1.2.1) z.2.1 z.2.2.1.2.1 z.2.2.1.2.2
    (d.on X z.2.2.2) z.1.2.1 (hRun P z.1.1) s (ask (textOf st salt nonce z.1.2.2.1
      ((d.on X z.2.2.2) (z.1.2.2.2.1, tagged st salt nonce z.1.2.2.1)))) k n o u q m w z.2.2.1.1.tape [] []
  refine (C98.fraction_or _ _).trans (add_le_add ?_ ?_)
  · have e := fraction_equiv (Equiv.prodComm (BytesN 32) W) (fun y : W × BytesN 32 =>
      y.1.1 ∈ (askedOf st salt nonce P K d ask k o u q m w s z).filterMap PwAsk.tried)
    refine (le_of_eq e.symm).trans (fraction_prod_le _ _ hw0 fun p => ?_)
    refine (drawn_among (fun t : W => t.1) Subtype.val_injective _ w hl.2).trans (le_of_eq ?_)
    rw [Fintype.card_coe]
  · refine fraction_prod_le _ _ hq0 fun pw => ?_
    refine (drawn_among (fun t : BytesN 32 => t) (fun _ _ h => h) _ q
      ((Plug.flat_length _ (C89.usesPre_length _) _).trans hl.1)).trans (le_of_eq ?_)
    rw [C75.card_bytes]
    norm_num

variable (hW : ∀ pw ∈ W, pw.length < 2 ^ 32) (hst : StateOk st)

include hW hst in
theorem hop_all (hK : ∀ x, x ∈ K) (hL : 32 ≤ L) (hne : W.Nonempty) (d : Tags v) (j : Fin r)
    (ask : Bytes → List (PwGot v L) → Option (PwWish v r))
    (hask : ∀ text answers i a, ask text answers = some (.attempt (.hide i a)) → a.Comparable P L)
    (k o u q m w : Nat) (s : Side) (A : (Fin r → BytesN 32) → Res (Bytes × List (PwGot v L)) → Prop) :
    |fractionOf (fun z : W × (W → PwHash v) × KeyHash v × Tried v r n L X =>
          A z.2.2.2.1 (realOf st salt nonce P K d j ask k o u q m w s z)) -
        fractionOf (fun z : Unrelated v r n L X W =>
          A z.2.1 (idealOf st salt nonce P K d ask k o u q m w s z))| ≤
      w / W.card + q / 2 ^ 256 + k / 2 ^ 256 := by
  have : Nonempty (BytesN 32) := ⟨Plug.k0⟩
  have : Nonempty W := hne.to_subtype
  rw [← fraction_fst (β := BytesN 32) (fun z : W × (W → PwHash v) × KeyHash v × Tried v r n L X =>
      A z.2.2.2.1 (realOf st salt nonce P K d j ask k o u q m w s z)),
    ← fraction_fst (β := W × BytesN 32) (fun z : Unrelated v r n L X W =>
      A z.2.1 (idealOf st salt nonce P K d ask k o u q m w s z)),
    ← fraction_equiv (redraw v r n L X W (hashPoint salt st)), ← fraction_equiv (regroup v r n L X W)]
  have hm := met_le (W := W) (n := n) (X := X) st salt nonce P K d ask k o u q m w s
  rw [← fraction_equiv (regroup v r n L X W)] at hm
  refine (average_hop _ _ _ (k / 2 ^ 256) (by positivity) fun y => ?_).trans (add_le_add_left hm _)
  have h := hop_at hW st salt nonce hst hK hL j ask hask k o u q m w s (List.ofFn y.2.2.1) y.2.1 y.2.2.2.1
    (d.on X y.2.2.2.2) y.1.1 y.1.2.1 y.1.2.2 (A y.2.1)
  rw [List.length_ofFn] at h
  simp only [fraction_count]
  have e256 : ((256 ^ 32 : Nat) : ℚ) = 2 ^ 256 := by norm_num
  rw [e256] at h
  exact h

/-- The other game with one side and with the other. -/
theorem ideal_sides (hu : K = Finset.univ) (ask : Bytes → List (PwGot v L) → Option (PwWish v r))
    (hhide : ∀ text answers i a, ask text answers = some (.attempt (.hide i a)) → a.Comparable P L ∧ a.Fits)
    (hlook : ∀ text answers i a, ask text answers = some (.attempt (.look i a)) → a.Fits)
    (k o u q m w : Nat) (A : Res (Bytes × List (PwGot v L)) → Prop) :
    ∃ X₀ : Finset (Bytes × Bytes), ∀ X, X₀ ⊆ X → ∀ d : Tags v,
      |fractionOf (fun z : Unrelated v r n L X W => A (idealOf st salt nonce P K d ask k o u q m w .left z)) -
        fractionOf (fun z : Unrelated v r n L X W => A (idealOf st salt nonce P K d ask k o u q m w .right z))| ≤
        bound v r n o u q (m + 1) := by
  have hone := fun y : (W → PwHash v) × KeyHash v × BytesN 32 × BytesN (pwKeyHashLen v) =>
    C101.advantage P (k + 1) n o u q (m + 1)
      (withTag w y.2.2.2.1 (tagged st salt nonce y.2.2.1) (textOf st salt nonce y.2.2.1) y.2.1 (hRun P y.1) ask)
      (fun _ _ _ h => by
        obtain ⟨t, as, h⟩ := withTag_hide h
        exact hhide _ _ _ _ h)
      (fun _ _ _ h => by
        obtain ⟨t, as, h⟩ := withTag_look h
        exact hlook _ _ _ _ h)
      (fun res => A (res >>= fun ys => .ok (seen w (textOf st salt nonce y.2.2.1) y.2.1 (hRun P y.1) ask ys)))
  obtain ⟨X₀, hX⟩ := common _ hone
  refine ⟨X₀, fun X hs d => C101.average_le _ _ _ (bound_nonneg _ _ _ _ _ _ _) fun y => ?_⟩
  have h := hX X hs y d
  simp only [C101.view_eq, ← hu] at h
  have e : ∀ (s : Side) (x : Tried v r n L X),
      idealOf st salt nonce P K d ask k o u q m w s (y, x) =
        (C101.viewIn P K d (withTag w y.2.2.2.1 (tagged st salt nonce y.2.2.1) (textOf st salt nonce y.2.2.1)
          y.2.1 (hRun P y.1) ask) (k + 1) o u q (m + 1) s x >>= fun ys =>
            .ok (seen w (textOf st salt nonce y.2.2.1) y.2.1 (hRun P y.1) ask ys)) :=
    fun s x => ideal_trying P K st salt nonce ask k n o u q m w s _ _ _ _ _ _ _ _ _
  simp only [e]
  unfold bound
  push_cast at h ⊢
  exact h

end

theorem view_real (P : Prims) {n : Nat} {X : Finset (Bytes × Bytes)} (d : Tags v) (j : Fin r) (st : KdfState v)
    (salt : BytesN (pwSaltLen v)) (nonce : BytesN (ivLen v))
    (ask : Bytes → List (PwGot v L) → Option (PwWish v r)) (k o u q m w : Nat) (s : Side)
    (z : W × (W → PwHash v) × KeyHash v × Tried v r n L X) :
    z.2.2.2.pwView P d j st salt nonce ask k o u q m w s z.1.1 z.2.1 z.2.2.1 =
      realOf st salt nonce P Finset.univ d j ask k o u q m w s z := rfl

/-- **C103**: whatever is asked for after a key in use has been wrapped with a password, and whatever is
concluded from text and answers: the conclusion is drawn (almost) as often when the left candidates are used as
when the right ones are, but for twice the chance of guessing the password in `w` guesses. -/
theorem advantage (hL : 32 ≤ L) (hne : W.Nonempty) (hW : ∀ pw ∈ W, pw.length < 2 ^ 32) (st : KdfState v)
    (hst : StateOk st) (salt : BytesN (pwSaltLen v)) (nonce : BytesN (ivLen v)) (j : Fin r)
    (k n o u q m w : Nat) (ask : Bytes → List (PwGot v L) → Option (PwWish v r))
    (hhide : ∀ text answers i a, ask text answers = some (.attempt (.hide i a)) → a.Comparable P L ∧ a.Fits)
    (hlook : ∀ text answers i a, ask text answers = some (.attempt (.look i a)) → a.Fits)
    (A : Res (Bytes × List (PwGot v L)) → Prop) :
    ∃ X₀ : Finset (Bytes × Bytes), ∀ X, X₀ ⊆ X → ∀ d : Tags v,
      |fractionOf (fun z : W × (W → PwHash v) × KeyHash v × Tried v r n L X =>
          A (z.2.2.2.pwView P d j st salt nonce ask k o u q m w .left z.1 z.2.1 z.2.2.1)) -
        fractionOf (fun z : W × (W → PwHash v) × KeyHash v × Tried v r n L X =>
          A (z.2.2.2.pwView P d j st salt nonce ask k o u q m w .right z.1 z.2.1 z.2.2.1))| ≤
        2 * w / W.card + 2 * (q + k) / 2 ^ 256 +
        (3 * (n * (n - 1)) / 2 ^ 256 + n * q / 2 ^ 256 + 2 * o / 2 ^ (8 * Spec.tagLen v) +
          2 * (n + o) * (m + 1) / 2 ^ 256 + 2 * r * u / 2 ^ 256 + r * (r - 1) / 2 ^ 256) := by
  obtain ⟨K, hu, hK⟩ := C101.all (T := BytesN 32)
  obtain ⟨X₀, hX⟩ := ideal_sides (W := W) (n := n) st salt nonce hu ask hhide hlook k o u q m w A
  refine ⟨X₀, fun X hs d => ?_⟩
  have h0 := hX X hs d
  have hc := fun text answers i a ha => (hhide text answers i a ha).1
  have hl := hop_all (n := n) (X := X) st salt nonce hW hst hK hL hne d j ask hc k o u q m w .left fun _ => A
  have hr := hop_all (n := n) (X := X) st salt nonce hW hst hK hL hne d j ask hc k o u q m w .right fun _ => A
  simp only [view_real, ← hu]
  unfold bound at h0
  push_cast at h0
  rw [abs_le] at h0 hl hr ⊢
  have e2 : (2 : ℚ) * w / W.card + 2 * (q + k) / 2 ^ 256 = (w / W.card + q / 2 ^ 256 + k / 2 ^ 256) +
      (w / W.card + q / 2 ^ 256 + k / 2 ^ 256) := by ring
  rw [e2]
  constructor <;> linarith [h0.1, h0.2, hl.1, hl.2, hr.1, hr.2]

/-! ### Finding a key, opening a text -/

section

variable {n : Nat} {X : Finset (Bytes × Bytes)} (st : KdfState v) (salt : BytesN (pwSaltLen v))
  (nonce : BytesN (ivLen v)) (hW : ∀ pw ∈ W, pw.length < 2 ^ 32) (hst : StateOk st)

include hW hst in
/-- One side: from the game to the other game. -/
theorem one_side (hK : ∀ x, x ∈ K) (hu : K = Finset.univ) (hL : 32 ≤ L) (hne : W.Nonempty) (d : Tags v) (j : Fin r)
    (ask : Bytes → List (PwGot v L) → Option (PwWish v r))
    (hask : ∀ text answers i a, ask text answers = some (.attempt (.hide i a)) → a.Comparable P L)
    (k o u q m w : Nat) (s : Side) (A : (Fin r → BytesN 32) → Res (Bytes × List (PwGot v L)) → Prop) (b : ℚ)
    (hb : 0 ≤ b)
    (h : ∀ y : (W → PwHash v) × KeyHash v × BytesN 32 × BytesN (pwKeyHashLen v),
      fractionOf (fun z : Tried v r n L X =>
        A z.1 (z.view P d (withTag w y.2.2.2.1 (tagged st salt nonce y.2.2.1) (textOf st salt nonce y.2.2.1) y.2.1
          (hRun P y.1) ask) (k + 1) o u q (m + 1) s >>= fun ys =>
            .ok (seen w (textOf st salt nonce y.2.2.1) y.2.1 (hRun P y.1) ask ys))) ≤ b) :
    fractionOf (fun z : W × (W → PwHash v) × KeyHash v × Tried v r n L X =>
        A z.2.2.2.1 (z.2.2.2.pwView P d j st salt nonce ask k o u q m w s z.1 z.2.1 z.2.2.1)) ≤
      w / W.card + (q + k) / 2 ^ 256 + b := by
  have hl := hop_all (n := n) (X := X) st salt nonce hW hst hK hL hne d j ask hask k o u q m w s A
  have hid : fractionOf (fun z : Unrelated v r n L X W =>
      A z.2.1 (idealOf st salt nonce P K d ask k o u q m w s z)) ≤ b := by
    refine fraction_prod_le _ _ hb fun y => ?_
    have h := h y
    simp only [C101.view_eq, ← hu] at h
    have e : ∀ x : Tried v r n L X,
        idealOf st salt nonce P K d ask k o u q m w s (y, x) =
          (C101.viewIn P K d (withTag w y.2.2.2.1 (tagged st salt nonce y.2.2.1) (textOf st salt nonce y.2.2.1)
            y.2.1 (hRun P y.1) ask) (k + 1) o u q (m + 1) s x >>= fun ys =>
              .ok (seen w (textOf st salt nonce y.2.2.1) y.2.1 (hRun P y.1) ask ys)) :=
      fun x => ideal_trying P K st salt nonce ask k n o u q m w s _ _ _ _ _ _ _ _ _
    simp only [e]
    exact h
  simp only [view_real, ← hu]
  rw [abs_le] at hl
  have e2 : (w : ℚ) / W.card + (q + k) / 2 ^ 256 = w / W.card + q / 2 ^ 256 + k / 2 ^ 256 := by ring
  rw [e2]
  linarith [hl.2]

end

/-- A key in use, the wrapped one for example, is hardly ever tried by someone who does not guess the
password. -/
theorem key_met (hL : 32 ≤ L) (hne : W.Nonempty) (hW : ∀ pw ∈ W, pw.length < 2 ^ 32) (st : KdfState v)
    (hst : StateOk st) (salt : BytesN (pwSaltLen v)) (nonce : BytesN (ivLen v)) (j : Fin r)
    (k n o u q m w : Nat) (ask : Bytes → List (PwGot v L) → Option (PwWish v r))
    (hhide : ∀ text answers i a, ask text answers = some (.attempt (.hide i a)) → a.Comparable P L)
    (X : Finset (Bytes × Bytes)) (d : Tags v) (s : Side) :
    fractionOf (fun z : W × (W → PwHash v) × KeyHash v × Tried v r n L X => ∃ text answers,
        z.2.2.2.pwView P d j st salt nonce ask k o u q m w s z.1 z.2.1 z.2.2.1 = .ok (text, answers) ∧
          PwKeyMet z.2.2.2.1 (ask text) answers) ≤
      w / W.card + (q + k) / 2 ^ 256 + (r * u / 2 ^ 256 + r * (r - 1) / 2 ^ 257) := by
  obtain ⟨K, hu, hK⟩ := C101.all (T := BytesN 32)
  have h2 := C101.pairs_nonneg r
  refine one_side st salt nonce hW hst hK hu hL hne d j ask hhide k o u q m w s
    (fun keys res => ∃ text answers, res = .ok (text, answers) ∧ PwKeyMet keys (ask text) answers) _
    (by positivity) fun y => ?_
  refine (fraction_mono ?_).trans (C101.key_found P (k + 1) n o u q (m + 1)
    (withTag w y.2.2.2.1 (tagged st salt nonce y.2.2.1) (textOf st salt nonce y.2.2.1) y.2.1 (hRun P y.1) ask)
    (fun _ _ _ h => by
      obtain ⟨t, as, h⟩ := withTag_hide h
      exact hhide _ _ _ _ h) X d s)
  rintro z ⟨text, answers, h1, h2⟩
  obtain ⟨ys, h3, h4⟩ := Res.bind_eq_ok.1 h1
  refine ⟨ys, h3, ?_⟩
  have h5 := Res.ok.inj h4
  apply seen_key (w := w) (text := textOf st salt nonce y.2.2.1) (h := y.2.1) (H := hRun P y.1) (ask := ask)
  rw [h5]
  exact h2

/-- A text that was not issued is hardly ever opened for someone who does not guess the password. -/
theorem unopened (hL : 32 ≤ L) (hne : W.Nonempty) (hW : ∀ pw ∈ W, pw.length < 2 ^ 32) (st : KdfState v)
    (hst : StateOk st) (salt : BytesN (pwSaltLen v)) (nonce : BytesN (ivLen v)) (j : Fin r)
    (k n o u q m w : Nat) (ask : Bytes → List (PwGot v L) → Option (PwWish v r))
    (hhide : ∀ text answers i a, ask text answers = some (.attempt (.hide i a)) → a.Comparable P L ∧ a.Fits)
    (hlook : ∀ text answers i a, ask text answers = some (.attempt (.look i a)) → a.Fits) (s : Side) :
    ∃ X₀ : Finset (Bytes × Bytes), ∀ X, X₀ ⊆ X → ∀ d : Tags v,
      fractionOf (fun z : W × (W → PwHash v) × KeyHash v × Tried v r n L X => ∃ text answers,
          z.2.2.2.pwView P d j st salt nonce ask k o u q m w s z.1 z.2.1 z.2.2.1 = .ok (text, answers) ∧
            PwUnlocked (ask text) answers) ≤
        w / W.card + (q + k) / 2 ^ 256 +
          (n * (n - 1) / 2 ^ 257 + o / 2 ^ (8 * Spec.tagLen v) + (n + o) * (m + 1) / 2 ^ 256 +
            r * u / 2 ^ 256 + r * (r - 1) / 2 ^ 257) := by
  obtain ⟨K, hu, hK⟩ := C101.all (T := BytesN 32)
  have hone := fun y : (W → PwHash v) × KeyHash v × BytesN 32 × BytesN (pwKeyHashLen v) =>
    C101.unopened P (k + 1) n o u q (m + 1)
      (withTag w y.2.2.2.1 (tagged st salt nonce y.2.2.1) (textOf st salt nonce y.2.2.1) y.2.1 (hRun P y.1) ask)
      (fun _ _ _ h => by
        obtain ⟨t, as, h⟩ := withTag_hide h
        exact hhide _ _ _ _ h)
      (fun _ _ _ h => by
        obtain ⟨t, as, h⟩ := withTag_look h
        exact hlook _ _ _ _ h) s
  obtain ⟨X₀, hX⟩ := common _ hone
  refine ⟨X₀, fun X hs d => ?_⟩
  have h1 := C101.pairs_nonneg n
  have h2 := C101.pairs_nonneg r
  refine one_side st salt nonce hW hst hK hu hL hne d j ask (fun _ _ _ _ h => (hhide _ _ _ _ h).1) k o u q m w s
    (fun _ res => ∃ text answers, res = .ok (text, answers) ∧ PwUnlocked (ask text) answers) _
    (by positivity) fun y => ?_
  have h := hX X hs y d
  push_cast at h
  refine (fraction_mono ?_).trans h
  rintro z ⟨text, answers, h1, h2⟩
  obtain ⟨ys, h3, h4⟩ := Res.bind_eq_ok.1 h1
  refine ⟨ys, h3, ?_⟩
  have h5 := Res.ok.inj h4
  apply seen_text (w := w) (text := textOf st salt nonce y.2.2.1) (h := y.2.1) (H := hRun P y.1) (ask := ask)
  rw [h5]
  exact h2

/-- With up to `2 ^ 64` keys in use, `2 ^ 64` texts and `2 ^ 64` openings, `2 ^ 100` keys, cipher keys, MAC keys and
hashes tried, in all at most `2 ^ 128` requests, the chances differ by at most `2 ^ -88` but for twice the chance of
guessing the password. -/
theorem advantage_practical (hL : 32 ≤ L) (hne : W.Nonempty) (hW : ∀ pw ∈ W, pw.length < 2 ^ 32)
    (st : KdfState v) (hst : StateOk st) (salt : BytesN (pwSaltLen v)) (nonce : BytesN (ivLen v)) (j : Fin r)
    (k n o u q m w : Nat) (hk : k ≤ 2 ^ 128) (hr : r ≤ 2 ^ 64) (hn : n ≤ 2 ^ 64) (ho : o ≤ 2 ^ 64)
    (hu : u ≤ 2 ^ 100) (hq : q ≤ 2 ^ 100) (hm : m + 1 ≤ 2 ^ 100)
    (ask : Bytes → List (PwGot v L) → Option (PwWish v r))
    (hhide : ∀ text answers i a, ask text answers = some (.attempt (.hide i a)) → a.Comparable P L ∧ a.Fits)
    (hlook : ∀ text answers i a, ask text answers = some (.attempt (.look i a)) → a.Fits)
    (A : Res (Bytes × List (PwGot v L)) → Prop) :
    ∃ X₀ : Finset (Bytes × Bytes), ∀ X, X₀ ⊆ X → ∀ d : Tags v,
      |fractionOf (fun z : W × (W → PwHash v) × KeyHash v × Tried v r n L X =>
          A (z.2.2.2.pwView P d j st salt nonce ask k o u q m w .left z.1 z.2.1 z.2.2.1)) -
        fractionOf (fun z : W × (W → PwHash v) × KeyHash v × Tried v r n L X =>
          A (z.2.2.2.pwView P d j st salt nonce ask k o u q m w .right z.1 z.2.1 z.2.2.1))| ≤
        2 * w / W.card + 1 / 2 ^ 88 := by
  obtain ⟨X₀, h⟩ := advantage hL hne hW st hst salt nonce j k n o u q m w ask hhide hlook A
  refine ⟨X₀, fun X hX d => (h X hX d).trans ?_⟩
  have h1 : (2 : ℚ) * (q + k) / 2 ^ 256 ≤ 1 / 2 ^ 90 := by
    have h1 : (k : ℚ) ≤ 2 ^ 128 := by exact_mod_cast hk
    have h2 : (q : ℚ) ≤ 2 ^ 100 := by exact_mod_cast hq
    rw [div_le_div_iff₀ (by positivity) (by positivity)]
    calc (2 : ℚ) * (q + k) * 2 ^ 90 ≤ 2 * (2 ^ 100 + 2 ^ 128) * 2 ^ 90 := by gcongr
      _ ≤ 1 * 2 ^ 256 := by norm_num
  have h2 := C102.practical_bound v r n o u q (m + 1) hr hn ho hu hq hm
  push_cast at h2
  have h3 : (1 : ℚ) / 2 ^ 90 + 1 / 2 ^ 89 ≤ 1 / 2 ^ 88 := by norm_num
  linarith

/-! ### The game is played -/

theorem wrapped_ok (hW : ∀ pw ∈ W, pw.length < 2 ^ 32) (st : KdfState v) (hst : StateOk st)
    (salt : BytesN (pwSaltLen v)) (nonce : BytesN (ivLen v)) (key : BytesN (keyLen v WKind.Local.kind)) (f : Tags v)
    (D : Derivation v) (pw : W) (F : W → PwHash v) (h : KeyHash v) (c : CipherOf v L) :
    ∃ text, (Seek.wrap .Local key st (salt.1 ++ nonce.1)).run ((bs P K f D).withPw W F h c) pw.1 = .ok text := by
  have hkb : C89.keyBytes (bs P K f D) (v := v) .Local key = .ok key := by cases v <;> rfl
  rw [C89.run_eq hW _ _ _ _ _ rfl]
  unfold C89.served
  dsimp only
  rw [hkb, Res.ok_bind, fillBytes_eq_ok.2 rfl, Res.ok_bind]
  dsimp only
  rw [(C89.hashOf_eq _ _ _).1 hst, Res.ok_bind]
  have hn : fillBytes (ivLen v) nonce.1 = .ok (nonce, []) := fillBytes_eq_ok.2 (List.append_nil _).symm
  rw [hn, Res.ok_bind]
  exact ⟨_, rfl⟩

/-- Nothing breaks the game off: the key is wrapped, and with `k` requests and `k` of each kind allowed, there
are `k` answers unless nothing more is asked. -/
theorem runs (hW : ∀ pw ∈ W, pw.length < 2 ^ 32) (st : KdfState v) (hst : StateOk st) (salt : BytesN (pwSaltLen v))
    (nonce : BytesN (ivLen v)) (j : Fin r) (k n o u q m w : Nat) (hn : k ≤ n) (ho : k ≤ o) (hu : k ≤ u)
    (hq : k ≤ q) (hm : k ≤ m) (hw : k ≤ w) (ask : Bytes → List (PwGot v L) → Option (PwWish v r))
    (hhide : ∀ text answers i a, ask text answers = some (.attempt (.hide i a)) → a.Comparable P L)
    (X : Finset (Bytes × Bytes)) (d : Tags v) (s : Side) (pw : W) (F : W → PwHash v) (h : KeyHash v)
    (x : Tried v r n L X) :
    ∃ text answers, x.pwView P d j st salt nonce ask k o u q m w s pw F h = .ok (text, answers) ∧
      (answers.length = k ∨ answers.length < k ∧ ask text answers = none) := by
  obtain ⟨K, hall, hK⟩ := C101.all (T := BytesN 32)
  obtain ⟨text, ht⟩ := wrapped_ok (P := P) (K := K) hW st hst salt nonce (x.1 j) (d.on X x.2.2) x.2.1.2.1 pw F h
    x.2.1.2.2
  have ht' := pwInUse_total P hK x.2.1.2.2 (d.on X x.2.2) h (hRun P F) s (ask text) (hhide text) x.2.1.2.1 x.1
    k o u q m w (List.ofFn x.2.1.1) [] [] (by rw [List.length_ofFn]; exact hn) ho hu hq hm hw
  rw [List.length_ofFn] at ht'
  obtain ⟨answers, h1, h2⟩ := ht'
  refine ⟨text, answers, ?_, by simpa using h2⟩
  have e := view_real P d j st salt nonce ask k o u q m w s (pw, F, h, x)
  dsimp only at e
  rw [e, ← hall]
  unfold realOf realAt
  dsimp only
  rw [run_hRun hW]
  have e2 : (pwInUse ((bs P K (d.on X x.2.2) x.2.1.2.1).withPw W F h x.2.1.2.2) x.1 x.2.1.2.1 x.2.1.2.2
      (d.on X x.2.2) h (hRun P F) s (ask text) k n o u q m w x.2.1.1.tape [] []).1 = .ok answers := by
    unfold bs
    rw [pw_pr, pwInUse_hashed]
    exact h1
  refine (congrArg (· >>= _) ht).trans ?_
  rw [Res.ok_bind, e2]
  rfl

/-! ### Whoever has the password has the key -/

theorem laws_pw (hP : P.Laws) {n : Nat} {X : Finset (Bytes × Bytes)} (d : Tags v) (F : W → PwHash v) (h : KeyHash v)
    (x : Tried v r n L X) : (x.pwPrims P d F h).Laws := by
  cases v <;> exact { hP with }

/-- Wrapping has a point: whoever has the password gets from the text the key in use. -/
theorem recipient (hP : P.Laws) (st : KdfState v) (salt : BytesN (pwSaltLen v)) (nonce : BytesN (ivLen v))
    (j : Fin r) (k n o u q m w : Nat) (ask : Bytes → List (PwGot v L) → Option (PwWish v r))
    (X : Finset (Bytes × Bytes)) (d : Tags v) (s : Side) (pw : Bytes) (F : W → PwHash v) (h : KeyHash v)
    (x : Tried v r n L X) {text : Bytes} {answers : List (PwGot v L)}
    (hv : x.pwView P d j st salt nonce ask k o u q m w s pw F h = .ok (text, answers)) :
    x.pwUnwrapped P d pw F h text = .ok (x.1 j).1 := by
  unfold Tried.pwView at hv
  obtain ⟨t, h1, h2⟩ := Res.bind_eq_ok.1 hv
  obtain ⟨a, h3, h4⟩ := Res.bind_eq_ok.1 h2
  cases h4
  unfold Seek.run at h1
  obtain ⟨key, e1, h1⟩ := Res.bind_eq_ok.1 h1
  obtain ⟨⟨wk, rng⟩, e2, h1⟩ := Res.bind_eq_ok.1 h1
  have hL := laws_pw hP d F h x
  have e3 := C37.pw_roundtrip_direct hL key pw st _ _ wk e2
  obtain ⟨t', e4, e5⟩ := C40.parse_display wk
  cases e4.symm.trans h1
  unfold Tried.pwUnwrapped Seek.run
  dsimp only
  rw [e5, Res.ok_bind, e3, Res.ok_bind]
  exact congrArg (fun b : BytesN _ => Res.ok b.1) (Key.toBytes_fromBytes hL (fun h => Kind.noConfusion h.2) e1)

/-! ### A case -/

/-- After the first of two keys has been wrapped: a password is hashed, and a key derived. Then, left, the first
key wraps zeros; right, the second wraps ones. Then a key is guessed; with text, answers and what the guess
derives another text is made, and handed in under the first key. -/
def prober (v : Ver) (L : Nat) (pw : Bytes) (salt : BytesN (pwSaltLen v)) (m : Res Bytes → BytesN 33)
    (guess : BytesN (pwKeyHashLen v) → BytesN 32) (make : Bytes → Told → (EncInput → Derived v) → Bytes)
    (text : Bytes) : List (PwGot v L) → Option (PwWish v 2)
  | [] => some (.hash pw salt (KdfState.default v))
  | [.hash b] => some (.keyHash (m b))
  | [_, .keyHash _] => some (.attempt (.hide (fun | .left => 0 | .right => 1) (.wrap .Local (C83.twoKeys v))))
  | [_, .keyHash y, .found (.told _)] => some (.attempt (.derive (guess y)))
  | [_, _, .found (.told t), .found (.derived e)] =>
    some (.attempt (.look 0 (.unwrap .Local (make text t e))))
  | _ => none

section

variable (pw : Bytes) (salt : BytesN (pwSaltLen v)) (m : Res Bytes → BytesN 33)
  (guess : BytesN (pwKeyHashLen v) → BytesN 32) (make : Bytes → Told → (EncInput → Derived v) → Bytes)

theorem prober_hides (P : Prims) (hL : 32 ≤ L) (text : Bytes) (answers : List (PwGot v L)) (i : Side → Fin 2)
    (a : Hiding v) (h : prober v L pw salt m guess make text answers = some (.attempt (.hide i a))) :
    a.Comparable P L ∧ a.Fits := by
  unfold prober at h
  split at h <;> cases h
  refine ⟨⟨fun s => ⟨⟨C83.twoKeys v s⟩, by cases v <;> rfl⟩, ?_⟩, trivial⟩
  cases v <;> exact hL

theorem prober_looks (text : Bytes) (answers : List (PwGot v L)) (i : Fin 2) (a : Opening v)
    (h : prober v L pw salt m guess make text answers = some (.attempt (.look i a))) : a.Fits := by
  unfold prober at h
  split at h <;> cases h
  trivial

/-- The hypotheses of `advantage_practical` are met: one of two passwords has been used, -/
example (nonce : BytesN (ivLen v)) (A : Res (Bytes × List (PwGot v 32)) → Prop) :=
  advantage_practical (P := Toy.prims) (Nat.le_refl 32) (W := {[97], [98]}) ⟨[97], by simp⟩ C89.two_short
    (KdfState.default v) (C89.default_ok v) salt nonce 0 5 1 1 1 2 0 1 (by norm_num) (by norm_num) (by norm_num)
    (by norm_num) (by norm_num) (by norm_num) (by norm_num) _
    (prober_hides pw salt m guess make Toy.prims (Nat.le_refl 32)) (prober_looks pw salt m guess make) A

/-- … those of `key_met` and `unopened`, -/
example (nonce : BytesN (ivLen v)) (X : Finset (Bytes × Bytes)) (d : Tags v) (s : Side) :=
  key_met (P := Toy.prims) (Nat.le_refl 32) (W := {[97], [98]}) ⟨[97], by simp⟩ C89.two_short
    (KdfState.default v) (C89.default_ok v) salt nonce 0 5 1 1 1 2 0 1 _ (fun text answers i a h =>
      (prober_hides pw salt m guess make Toy.prims (Nat.le_refl 32) text answers i a h).1) X d s

example (nonce : BytesN (ivLen v)) (s : Side) :=
  unopened (P := Toy.prims) (Nat.le_refl 32) (W := {[97], [98]}) ⟨[97], by simp⟩ C89.two_short
    (KdfState.default v) (C89.default_ok v) salt nonce 0 5 1 1 1 2 0 1 _
    (prober_hides pw salt m guess make Toy.prims (Nat.le_refl 32)) (prober_looks pw salt m guess make) s

/-- … and those of `runs` and `recipient`: the requests are made, and whoever has the password has the first
key. -/
example (nonce : BytesN (ivLen v)) (X : Finset (Bytes × Bytes)) (d : Tags v) (s : Side)
    (secret : ({[97], [98]} : Finset Bytes)) (F : ({[97], [98]} : Finset Bytes) → PwHash v) (h : KeyHash v)
    (x : Tried v 2 5 32 X) :
    ∃ text answers, x.pwView Toy.prims d 0 (KdfState.default v) salt nonce (prober v 32 pw salt m guess make)
        5 5 5 5 5 5 s secret F h = .ok (text, answers) ∧
      (answers.length = 5 ∨ answers.length < 5 ∧ prober v 32 pw salt m guess make text answers = none) ∧
      x.pwUnwrapped Toy.prims d secret F h text = .ok (x.1 0).1 := by
  have hn := Nat.le_refl 5
  obtain ⟨text, answers, h1, h2⟩ := runs (P := Toy.prims) C89.two_short (KdfState.default v) (C89.default_ok v)
    salt nonce 0 5 5 5 5 5 5 5 hn hn hn hn hn hn (prober v 32 pw salt m guess make)
    (fun text answers i a h =>
      (prober_hides pw salt m guess make Toy.prims (Nat.le_refl 32) text answers i a h).1) X d s secret F h x
  exact ⟨text, answers, h1, h2, recipient Toy.laws _ salt nonce 0 5 5 5 5 5 5 5 _ X d s _ F h x h1⟩

end

/-- Whether a key in use is met is not decided beforehand. -/
example (pw : Bytes) (salt : BytesN (pwSaltLen v)) (m : Res Bytes → BytesN 33)
    (guess : BytesN (pwKeyHashLen v) → BytesN 32) (make : Bytes → Told → (EncInput → Derived v) → Bytes)
    (text : Bytes) (b : Res Bytes) (y : BytesN (pwKeyHashLen v)) (t : Told) (e : EncInput → Derived v) :
    PwKeyMet (L := L) (fun _ => guess y) (prober v L pw salt m guess make text)
      [.hash b, .keyHash y, .found (.told t), .found (.derived e)] :=
  ⟨[.hash b, .keyHash y, .found (.told t)], [], e, 0, rfl, rfl⟩

end Pasta.C103
