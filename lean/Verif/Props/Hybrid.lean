import Verif.Lemmas.HybridTags

/-!
# C102: a sealed key may be used

The bound of C101 where one of the keys in use has been sealed and other texts are unsealed, but for the chance
that the shared secret of the sealing is computed.
-/

namespace Pasta.C102

variable {P : Prims} {v : Ver} {r L : Nat} {K : Finset (BytesN 32)}

/-! ### The sealed key -/

open Spec (sealPub sealTagged sealKdfInput unsealSecret)
open Plug (stream1)
open C88 (kOf ivOf fixc out out_fixc fixc_fixc)

/-- The primitives but for hash and cipher. -/
def bs (P : Prims) (K : Finset (BytesN 32)) (f : Tags v) (D : Derivation v) : Prims :=
  (P.withTags v f).withDerived K v D

/-- The public key under these. -/
def pubAt (K : Finset (BytesN 32)) (f : Tags v) (D : Derivation v) (pk : Key P v .Public) :
    Key (bs P K f D) v .Public :=
  match v, f, D, pk with
  | .V3, _, _, pk => ⟨pk.key⟩
  | .V4, _, _, pk => ⟨pk.key⟩

/-- The secret key under these. -/
def skAt (K : Finset (BytesN 32)) (f : Tags v) (D : Derivation v) (sk : Key P v .Secret) :
    Key (bs P K f D) v .Secret :=
  match v, f, D, sk with
  | .V3, _, _, sk => ⟨sk.key⟩
  | .V4, _, _, sk => ⟨sk.key⟩

theorem sk_pub (f : Tags v) (D : Derivation v) (sk : Key P v .Secret) :
    (skAt K f D sk).publicKey = pubAt K f D sk.publicKey := by cases v <;> rfl

theorem sk_secret (f : Tags v) (D : Derivation v) (sk : Key P v .Secret) (epk : BytesN (pkeEpkLen v)) :
    unsealSecret (bs P K f D) (skAt K f D sk) epk = unsealSecret P sk epk := by cases v <;> rfl

theorem laws_bs (hP : P.Laws) (K : Finset (BytesN 32)) (f : Tags v) (D : Derivation v) :
    (bs P K f D).Laws := by
  cases v <;> exact { hP with }

theorem pub_eq (f : Tags v) (D : Derivation v) (pk : Key P v .Public) :
    sealPub (bs P K f D) (pubAt K f D pk) = sealPub P pk := by cases v <;> rfl

theorem ephemeral_eq (f : Tags v) (D : Derivation v) (pk : Key P v .Public) (rng : Rng) :
    ephemeral (bs P K f D) (pubAt K f D pk) rng = ephemeral P pk rng := by cases v <;> rfl

theorem local_under (Q : Prims) (g : SealHash v) (c : CipherOf v L) (key : BytesN 32) :
    (⟨key⟩ : Key Q v .Local).underSeal g c = ⟨key⟩ := by cases v <;> rfl

theorem sealMac_eq (P : Prims) (K : Finset (BytesN 32)) (f : Tags v) (D : Derivation v)
    (ak : BytesN (pkeTagLen v)) (epk : BytesN (pkeEpkLen v)) (edk : BytesN 32) :
    (sealMac (bs P K f D) ak epk edk).1 = (f (ak.1, sealTagged v epk.1 edk.1)).1 := by
  have h1 : encInput (sealTagged v epk.1 edk.1) = none :=
    encInput_head (b := 0x6b) (by cases v <;> rfl) (by decide) (by decide)
  have h2 : authInput (sealTagged v epk.1 edk.1) = none :=
    authInput_head (b := 0x6b) (by cases v <;> rfl) (by decide) (by decide)
  have e : (sealMac (bs P K f D) ak epk edk).1 =
      Spec.mac (bs P K f D) v ak.1 (sealTagged v epk.1 edk.1) := by cases v <;> rfl
  rw [e]
  unfold bs
  rw [mac_derived _ _ h1 h2, C81.mac_tags _ _ _ (by cases v <;> rfl)]

/-- The text, from its tag. -/
def textOf (epk : BytesN (pkeEpkLen v)) (edk : BytesN 32) (t : BytesN (Spec.tagLen v)) : Bytes :=
  Spec.paserkText v (asc "seal") (t.1 ++ epk.1 ++ edk.1)

theorem randomText_eq (P : Prims) (K : Finset (BytesN 32)) (f : Tags v) (D : Derivation v)
    (ak : BytesN (pkeTagLen v)) (epk : BytesN (pkeEpkLen v)) (edk : BytesN 32) :
    randomText (bs P K f D) epk edk ak = textOf epk edk (f (ak.1, sealTagged v epk.1 edk.1)) := by
  unfold randomText textOf
  rw [sealMac_eq]

/-- What comes of unsealing in the game. -/
def realU (P : Prims) (K : Finset (BytesN 32)) (sk : Key P v .Secret) (D : Derivation v) (f : Tags v)
    (g : SealHash v) (c : CipherOf v L) (text y : Bytes) : Option (Res Bytes) :=
  if y = text then none
  else some (unsealText ((bs P K f D).withSeal g c) ((skAt K f D sk).underSeal g c) y)

open Classical in
/-- What comes of unsealing in the other game. -/
noncomputable def idealU (P : Prims) (K : Finset (BytesN 32)) (sk : Key P v .Secret) (D : Derivation v)
    (f : Tags v) (epk : BytesN (pkeEpkLen v)) (g : SealHash v) (c : CipherOf v L) (text y : Bytes) :
    Option (Res Bytes) :=
  if y = text then none
  else if HasEphemeral epk y then some (.err .cryptoError)
  else some (unsealText ((bs P K f D).withSeal g c) ((skAt K f D sk).underSeal g c) y)

theorem of_answer (sk : Key P v .Secret) (D : Derivation v) (f : Tags v) (epk : BytesN (pkeEpkLen v))
    (g g' : SealHash v) (c c' : CipherOf v L) (text y : Bytes)
    (h : sealAnswer (bs P K f D) (skAt K f D sk) g' c' text (.unseal y) =
      idealAnswer (bs P K f D) (skAt K f D sk) epk g c text (.unseal y)) :
    realU P K sk D f g' c' text y = idealU P K sk D f epk g c text y := by
  unfold sealAnswer idealAnswer at h
  unfold realU idealU
  dsimp only at h
  by_cases hx : y = text
  · rw [if_pos hx, if_pos hx]
  rw [if_neg hx, if_neg hx] at h ⊢
  by_cases he : HasEphemeral epk y
  · rw [if_pos he] at h ⊢
    rw [SealAnswer.unseal.inj h]
  · rw [if_neg he] at h ⊢
    unfold sealAnswer at h
    dsimp only at h
    rw [if_neg hx] at h
    rw [SealAnswer.unseal.inj h]

/-- The key derivation hash as unsealing uses it. -/
def kdf (P : Prims) (sk : Key P v .Secret) (g : SealHash v) (d : UInt8) (xk : Bytes)
    (epk : BytesN (pkeEpkLen v)) : BytesN (pkeTagLen v) :=
  if h : (sealKdfInput v d xk epk.1 (sealPub P sk.publicKey)).length = sealInLen v then g ⟨_, h⟩
  else ⟨List.replicate _ 0, List.length_replicate⟩

open Classical in
/-- How texts are unsealed in the other game. -/
noncomputable def way (P : Prims) (sk : Key P v .Secret) (g : SealHash v) (epk : BytesN (pkeEpkLen v)) :
    Way v L where
  mac y :=
    match SealedKey.parse v y with
    | .ok w =>
      match unsealSecret P sk w.ephemeralPublicKey with
      | some xk => ((kdf P sk g 2 xk w.ephemeralPublicKey).1,
          sealTagged v w.ephemeralPublicKey.1 w.encryptedDataKey.1)
      | none => ([], [])
    | _ => ([], [])
  key y :=
    match SealedKey.parse v y with
    | .ok w =>
      match unsealSecret P sk w.ephemeralPublicKey with
      | some xk => kOf (kdf P sk g 1 xk w.ephemeralPublicKey)
      | none => Plug.k0
    | _ => Plug.k0
  res text y t c :=
    if y = text then none
    else if HasEphemeral epk y then some (.err .cryptoError)
    else some (
      match SealedKey.parse v y with
      | .ok w =>
        match unsealSecret P sk w.ephemeralPublicKey with
        | some xk =>
          if w.tag.1 = t.1 then
            .ok (applyKeystreamN (stream1 P c (ivOf P w.ephemeralPublicKey.1 (sealPub P sk.publicKey)
              (kdf P sk g 1 xk w.ephemeralPublicKey))) w.encryptedDataKey).1
          else .err .cryptoError
        | none => .panic
      | .err e => .err e
      | .panic => .panic)

theorem stream_bs (K : Finset (BytesN 32)) (f : Tags v) (D : Derivation v) (c : OneCipher v L) (epk pk : Bytes)
    (t : BytesN (pkeTagLen v)) :
    stream1 (bs P K f D) c (ivOf (bs P K f D) epk pk t) = stream1 P c (ivOf P epk pk t) := by
  cases v <;> rfl

theorem way_run (P : Prims) (K : Finset (BytesN 32)) (sk : Key P v .Secret) (D : Derivation v)
    (f : Tags v) (epk : BytesN (pkeEpkLen v)) (g : SealHash v) (c : CipherOf v L) (text y : Bytes) :
    (way P sk g epk).run f c text y = idealU P K sk D f epk g c text y := by
  unfold Way.run idealU way
  dsimp only
  by_cases hx : y = text
  · rw [if_pos hx, if_pos hx]
  rw [if_neg hx, if_neg hx]
  by_cases he : HasEphemeral epk y
  · rw [if_pos he, if_pos he]
  rw [if_neg he, if_neg he]
  congr 1
  cases hw : SealedKey.parse v y with
  | err e => unfold unsealText; rw [hw]; rfl
  | panic => unfold unsealText; rw [hw]; rfl
  | ok w =>
    have hu := C88.unsealed (skAt K f D sk) g c hw
    have hp : sealPub (bs P K f D) (skAt K f D sk).publicKey = sealPub P sk.publicKey := by
      rw [sk_pub, pub_eq]
    rw [sk_secret] at hu
    dsimp only
    rcases Option.eq_none_or_eq_some (unsealSecret P sk w.ephemeralPublicKey) with hs | ⟨xk, hs⟩
    · simp only [hs]
      exact (hu.1 hs).symm
    · simp only [hs]
      have hl := C88.secret_length hs
      have g1 := C88.input_length (v := v) 1 hl w.ephemeralPublicKey.2 (sealPub_length sk.publicKey)
      have g2 := C88.input_length (v := v) 2 hl w.ephemeralPublicKey.2 (sealPub_length sk.publicKey)
      have h := hu.2 xk hs (by rw [hp]; exact g1) (by rw [hp]; exact g2)
      simp only [hp, stream_bs] at h
      rw [h]
      have k1 : kdf P sk g 1 xk w.ephemeralPublicKey = g ⟨_, g1⟩ := dif_pos g1
      have k2 : kdf P sk g 2 xk w.ephemeralPublicKey = g ⟨_, g2⟩ := dif_pos g2
      rw [k1, k2]
      have ht : w.tag = sealMac (bs P K f D) (g ⟨_, g2⟩) w.ephemeralPublicKey w.encryptedDataKey ↔
          w.tag.1 = (f ((g ⟨_, g2⟩).1, sealTagged v w.ephemeralPublicKey.1 w.encryptedDataKey.1)).1 := by
        rw [← sealMac_eq P K f D]
        exact Subtype.ext_iff
      exact if_congr ht.symm rfl rfl

/-- The game: the key is sealed, then requests are made. -/
def realAt (P : Prims) (K : Finset (BytesN 32)) (sk : Key P v .Secret) (j : Fin r)
    (ask : Bytes → List (Got v L) → Option (Wish v r)) (k n o u q m : Nat) (s : Side) (rng tape : Rng)
    (keys : Fin r → BytesN 32) (D : Derivation v) (f : Tags v) (g : SealHash v) (c : CipherOf v L) :
    Res (Bytes × List (Got v L)) := do
  let text ← sealedText ((bs P K f D).withSeal g c) ⟨keys j⟩ ((skAt K f D sk).underSeal g c).publicKey rng
  let answers ← (hybrid ((bs P K f D).withSeal g c) keys D c f g (realU P K sk D f g c text) s (ask text)
    k n o u q m tape [] []).1
  return (text, answers)

/-- The other game. -/
noncomputable def idealAt (P : Prims) (K : Finset (BytesN 32)) (sk : Key P v .Secret)
    (ask : Bytes → List (Got v L) → Option (Wish v r))
    (k n o u q m : Nat) (s : Side) (tape : Rng) (keys : Fin r → BytesN 32) (D : Derivation v) (f : Tags v)
    (epk : BytesN (pkeEpkLen v)) (g : SealHash v) (c : CipherOf v L) (edk : BytesN 32)
    (ak : BytesN (pkeTagLen v)) : Res (List (Got v L)) × List (SealAsk v) :=
  hybrid ((bs P K f D).withSeal g c) keys D c f g
    (idealU P K sk D f epk g c (randomText (bs P K f D) epk edk ak)) s
    (ask (randomText (bs P K f D) epk edk ak)) k n o u q m tape [] []

/-- Text and answers of the other game. -/
noncomputable def idealSeen (P : Prims) (K : Finset (BytesN 32)) (sk : Key P v .Secret)
    (ask : Bytes → List (Got v L) → Option (Wish v r))
    (k n o u q m : Nat) (s : Side) (tape : Rng) (keys : Fin r → BytesN 32) (D : Derivation v) (f : Tags v)
    (epk : BytesN (pkeEpkLen v)) (g : SealHash v) (c : CipherOf v L) (edk : BytesN 32)
    (ak : BytesN (pkeTagLen v)) : Res (Bytes × List (Got v L)) :=
  (idealAt P K sk ask k n o u q m s tape keys D f epk g c edk ak).1 >>= fun a =>
    .ok (randomText (bs P K f D) epk edk ak, a)

/-- The other game can be played without hash and secret key. -/
theorem ideal_trying (P : Prims) (K : Finset (BytesN 32)) (sk : Key P v .Secret)
    (ask : Bytes → List (Got v L) → Option (Wish v r))
    (k n o u q m : Nat) (s : Side) (tape : Rng) (keys : Fin r → BytesN 32) (D : Derivation v) (f : Tags v)
    (epk : BytesN (pkeEpkLen v)) (g : SealHash v) (c : CipherOf v L) (edk : BytesN 32)
    (ak : BytesN (pkeTagLen v)) :
    idealSeen P K sk ask k n o u q m s tape keys D f epk g c edk ak =
      (trying (C101.pr P K c f D) keys D c f s
          (withTag (way P sk g epk) k ak.1 (sealTagged v epk.1 edk.1) (textOf epk edk) g ask)
          (2 * k + 1) n o u q (m + 1) tape [] [] >>=
        fun ys => .ok (seen (way P sk g epk) k (textOf epk edk) g ask ys)) := by
  have h := simulated (C101.pr P K c f D) c f g s (way P sk g epk) k ak.1 (sealTagged v epk.1 edk.1)
    (textOf epk edk) ask D keys (f (ak.1, sealTagged v epk.1 edk.1)) k (2 * k) n o u q m tape [] [] []
    rfl (Nat.zero_add k) (Nat.le_refl _)
  unfold idealSeen idealAt
  rw [randomText_eq]
  have hU : idealU P K sk D f epk g c (textOf epk edk (f (ak.1, sealTagged v epk.1 edk.1))) =
      (way P sk g epk).run f c (textOf epk edk (f (ak.1, sealTagged v epk.1 edk.1))) :=
    funext fun y => (way_run P K sk D f epk g c _ y).symm
  rw [hU]
  unfold bs
  rw [Hybrid.seal_pr]
  exact h

section

variable (hK : ∀ x, x ∈ K) (hL : 32 ≤ L) (pk : Key P v .Public) {rng : Rng} {xk : Bytes}
  {epk : BytesN (pkeEpkLen v)} (he : ephemeral P pk rng = some (xk, epk))
  (h1 : (sealKdfInput v 1 xk epk.1 (sealPub P pk)).length = sealInLen v)
  (h2 : (sealKdfInput v 2 xk epk.1 (sealPub P pk)).length = sealInLen v)

include hL he in
/-- The sealed key, when hash and cipher have been set. -/
theorem sealed_set (key : BytesN 32) (f : Tags v) (D : Derivation v) (g : SealHash v) (c : CipherOf v L)
    (e : BytesN 32) (t1 t2 : BytesN (pkeTagLen v)) (s : OneCipher v L) :
    sealedText ((bs P K f D).withSeal (Function.update (Function.update g ⟨_, h1⟩ t1) ⟨_, h2⟩ t2)
        (Function.update c (kOf t1) (fixc (bs P K f D) epk.1 (sealPub P pk) key t1 s e))) ⟨key⟩
        ((pubAt K f D pk).underSeal _ _) rng =
      .ok (randomText (bs P K f D) epk e t2) := by
  have ne : (⟨_, h1⟩ : BytesN (sealInLen v)) ≠ ⟨_, h2⟩ := fun h =>
    absurd (congrArg (fun l : BytesN (sealInLen v) => l.1.head?) h) (by simp [sealKdfInput])
  have hp := pub_eq (K := K) f D pk
  have h := C88.sealed (⟨key⟩ : Key (bs P K f D) v .Local) (pubAt K f D pk)
    (Function.update (Function.update g ⟨_, h1⟩ t1) ⟨_, h2⟩ t2)
    (Function.update c (kOf t1) (fixc (bs P K f D) epk.1 (sealPub P pk) key t1 s e))
    ((ephemeral_eq f D pk rng).trans he) (by rw [hp]; exact h1) (by rw [hp]; exact h2)
  simp only [hp, local_under] at h
  refine h.trans ?_
  rw [Function.update_self, Function.update_of_ne ne, Function.update_self, Function.update_self]
  have ho := out_fixc (P := bs P K f D) hL epk.1 (sealPub P pk) key t1 s e
  unfold out Plug.outAt at ho
  exact congrArg (fun x => Res.ok (randomText (bs P K f D) epk x t2)) ho

open C82 (count)

end

section

variable (hP : P.Laws) (hK : ∀ x, x ∈ K) (hL : 32 ≤ L) (sk : Key P v .Secret) {rng : Rng} {xk : Bytes}
  {epk : BytesN (pkeEpkLen v)} (he : ephemeral P sk.publicKey rng = some (xk, epk))
  (h1 : (sealKdfInput v 1 xk epk.1 (sealPub P sk.publicKey)).length = sealInLen v)
  (h2 : (sealKdfInput v 2 xk epk.1 (sealPub P sk.publicKey)).length = sealInLen v)

include hP he in
/-- Other texts are unsealed alike, unless one is made with the same ephemeral key and a right tag. -/
theorem unseal_set (f : Tags v) (D : Derivation v) (g : SealHash v) (c : CipherOf v L) (e : BytesN 32)
    (t1 t2 : BytesN (pkeTagLen v)) (s : OneCipher v L) (y : Bytes)
    (hf : y ≠ randomText (bs P K f D) epk e t2 → ∀ e', y ≠ randomText (bs P K f D) epk e' t2)
    (hu : kOf t1 ∉ C88.uses (skAt K f D sk) g (.unseal y)) :
    realU P K sk D f (Function.update (Function.update g ⟨_, h1⟩ t1) ⟨_, h2⟩ t2) (Function.update c (kOf t1) s)
        (randomText (bs P K f D) epk e t2) y =
      idealU P K sk D f epk g c (randomText (bs P K f D) epk e t2) y := by
  have hp : sealPub (bs P K f D) (skAt K f D sk).publicKey = sealPub P sk.publicKey := by
    rw [sk_pub, pub_eq]
  have he' : ephemeral (bs P K f D) (skAt K f D sk).publicKey rng = some (xk, epk) := by
    rw [sk_pub, ephemeral_eq]
    exact he
  have h := C88.answer_eq (laws_bs hP K f D) (skAt K f D sk) he' (by rw [hp]; exact h1) (by rw [hp]; exact h2)
    g c e t1 t2 s (.unseal y) (fun _ h => by cases h) (fun x hx => by cases hx; exact hf) hu
  simp only [hp] at h
  exact of_answer sk D f epk g _ c _ _ y h

open C82 (count)

include hP hK hL he h1 h2 in
/-- The games look alike but for the chance that the shared secret is hashed, another text made, or the cipher
key met. -/
theorem hop_at (j : Fin r) (ask : Bytes → List (Got v L) → Option (Wish v r))
    (hask : ∀ text answers i a, ask text answers = some (.attempt (.hide i a)) → a.Comparable P L)
    (k o u q m : Nat) (s : Side) (ns : List (BytesN 32)) (keys : Fin r → BytesN 32) (D : Derivation v)
    (f : Tags v) (A : Res (Bytes × List (Got v L)) → Prop) :
    |(count (fun y : SealHash v × CipherOf v L => A (realAt P K sk j ask k ns.length o u q m s rng
          (ns.map Subtype.val).flatten keys D f y.1 y.2)) : ℚ) /
          Fintype.card (SealHash v × CipherOf v L) -
        count (fun y : SealHash v × CipherOf v L × BytesN 32 × BytesN (pkeTagLen v) =>
          A (idealSeen P K sk ask k ns.length o u q m s (ns.map Subtype.val).flatten keys D f epk y.1 y.2.1
            y.2.2.1 y.2.2.2)) /
          Fintype.card (SealHash v × CipherOf v L × BytesN 32 × BytesN (pkeTagLen v))| ≤
      count (fun y : SealHash v × CipherOf v L × BytesN 32 × BytesN (pkeTagLen v) =>
        SecretHashed P sk.publicKey xk epk (idealAt P K sk ask k ns.length o u q m s
          (ns.map Subtype.val).flatten keys D f epk y.1 y.2.1 y.2.2.1 y.2.2.2).2 ∨
        TagForged (bs P K f D) epk y.2.2.1 y.2.2.2 (idealAt P K sk ask k ns.length o u q m s
          (ns.map Subtype.val).flatten keys D f epk y.1 y.2.1 y.2.2.1 y.2.2.2).2) /
        Fintype.card (SealHash v × CipherOf v L × BytesN 32 × BytesN (pkeTagLen v)) +
      k / (256 ^ 32 : Nat) := by
  have hf := fun y : SealHash v × CipherOf v L × BytesN 32 × BytesN (pkeTagLen v) =>
    few P hK y.2.1 f y.1 (idealU P K sk D f epk y.1 y.2.1 (randomText (bs P K f D) epk y.2.2.1 y.2.2.2)) s
      (ask (randomText (bs P K f D) epk y.2.2.1 y.2.2.2)) (hask _) D keys k o u q m ns [] []
  choose touched ht hsame using hf
  have hasked : ∀ (g : SealHash v) (c : CipherOf v L) (e : BytesN 32) (t : BytesN (pkeTagLen v)),
      idealAt P K sk ask k ns.length o u q m s (ns.map Subtype.val).flatten keys D f epk g c e t =
        hybrid (hp P K c f D g) keys D c f g (idealU P K sk D f epk g c (randomText (bs P K f D) epk e t)) s
          (ask (randomText (bs P K f D) epk e t)) k ns.length o u q m (ns.map Subtype.val).flatten [] [] := by
    intro g c e t
    unfold idealAt hp
    rw [← Hybrid.seal_pr]
    rfl
  refine Plug.hop (I := BytesN (sealInLen v)) (T := BytesN (pkeTagLen v)) (K := BytesN 32)
    (S := OneCipher v L) (E := BytesN 32) ⟨_, h1⟩ ⟨_, h2⟩ kOf (256 ^ (pkeTagLen v - 32)) (256 ^ 32) k
    (fun t s e => fixc (bs P K f D) epk.1 (sealPub P sk.publicKey) (keys j) t s e)
    (fun t s => out (bs P K f D) epk.1 (sealPub P sk.publicKey) (keys j) t s)
    (fun t s e => out_fixc hL _ _ _ t s e) (fun t s e => fixc_fixc hL _ _ _ t s e)
    C88.kOf_count (C88.split_card v) (Nat.pow_pos (by decide)) (Nat.pow_pos (by decide)) Fintype.card_pos
    (Fintype.card_pos_iff.2 ⟨Plug.k0⟩) _ _ _
    (fun y => touched y ++ (idealAt P K sk ask k ns.length o u q m s (ns.map Subtype.val).flatten keys D f epk
      y.1 y.2.1 y.2.2.1 y.2.2.2).2.flatMap (C88.uses (skAt K f D sk) y.1)) ?_ ?_
  · intro y
    have hl := ht y
    rw [← hasked] at hl
    rw [List.length_append]
    exact le_trans (Nat.add_le_add_left (Plug.flat_length _ (C88.uses_length _ _) _) _) hl
  intro g c e t2 t1 sc hb hu
  have hg : realAt P K sk j ask k ns.length o u q m s rng (ns.map Subtype.val).flatten keys D f
      (Function.update (Function.update g ⟨_, h1⟩ t1) ⟨_, h2⟩ t2)
      (Function.update c (kOf t1) (fixc (bs P K f D) epk.1 (sealPub P sk.publicKey) (keys j) t1 sc e)) =
      idealSeen P K sk ask k ns.length o u q m s (ns.map Subtype.val).flatten keys D f epk g c e t2 := by
    unfold realAt
    rw [C88.public_under, sk_pub, sealed_set hL sk.publicKey he h1 h2, Res.ok_bind]
    have hx := hsame (g, c, e, t2)
      (Function.update c (kOf t1) (fixc (bs P K f D) epk.1 (sealPub P sk.publicKey) (keys j) t1 sc e))
      (Function.update (Function.update g ⟨_, h1⟩ t1) ⟨_, h2⟩ t2)
      (realU P K sk D f (Function.update (Function.update g ⟨_, h1⟩ t1) ⟨_, h2⟩ t2)
        (Function.update c (kOf t1) (fixc (bs P K f D) epk.1 (sealPub P sk.publicKey) (keys j) t1 sc e))
        (randomText (bs P K f D) epk e t2)) ?_ ?_ ?_
    · rw [← hasked] at hx
      unfold idealSeen
      rw [← hx]
      unfold hp
      rw [← Hybrid.seal_pr]
      rfl
    · intro x hx
      have hne : x ≠ kOf t1 := fun h => hu (List.mem_append_left _ (h ▸ hx))
      exact Function.update_of_ne hne _ _
    · intro y hy
      rw [← hasked] at hy
      have hn : ∀ e, y.1 ≠ sealKdfInput v e xk epk.1 (sealPub P sk.publicKey) :=
        fun e' h => hb (.inl ⟨y, hy, e', h⟩)
      dsimp only
      rw [Function.update_of_ne fun h => hn 2 (congrArg Subtype.val h),
        Function.update_of_ne fun h => hn 1 (congrArg Subtype.val h)]
    · intro y hy
      rw [← hasked] at hy
      refine unseal_set hP sk he h1 h2 f D g c e t1 t2 _ y (fun hne e' h => hb (.inr ⟨y, hy, hne, e', h⟩))
        fun hk => hu (List.mem_append_right _ (List.mem_flatMap.2 ⟨_, hy, hk⟩))
  show A (realAt P K sk j ask k ns.length o u q m s rng _ keys D f _ _) ↔ _
  rw [← hg]
  exact Iff.rfl

end

/-! ### Everything drawn -/

open C98 (fraction_count fraction_prod fraction_mono)
open Trying (fraction_equiv)

/-- What both games draw, but for hash and cipher. -/
abbrev Rest (v : Ver) (r n : Nat) (X : Finset (Bytes × Bytes)) (R : Finset Rng) :=
  R × (Fin r → BytesN 32) × Blocks n × Derivation v × (X → BytesN (Spec.tagLen v))

/-- Hash and cipher taken apart. -/
def regroup (v : Ver) (r n L : Nat) (X : Finset (Bytes × Bytes)) (R : Finset Rng) :
    Rest v r n X R × (SealHash v × CipherOf v L) ≃ R × SealHash v × Tried v r n L X where
  toFun y := (y.1.1, y.2.1, (y.1.2.1, ((y.1.2.2.1, y.1.2.2.2.1, y.2.2), y.1.2.2.2.2)))
  invFun z := ((z.1, z.2.2.1, z.2.2.2.1.1, z.2.2.2.1.2.1, z.2.2.2.2), (z.2.1, z.2.2.2.1.2.2))
  left_inv _ := rfl
  right_inv _ := rfl

/-- Hash and cipher, random ciphertext and authentication key taken apart. -/
def regroup' (v : Ver) (r n L : Nat) (X : Finset (Bytes × Bytes)) (R : Finset Rng) :
    Rest v r n X R × (SealHash v × CipherOf v L × BytesN 32 × BytesN (pkeTagLen v)) ≃
      R × SealHash v × Tried v r n L X × BytesN 32 × BytesN (pkeTagLen v) where
  toFun y := (y.1.1, y.2.1, (y.1.2.1, ((y.1.2.2.1, y.1.2.2.2.1, y.2.2.1), y.1.2.2.2.2)), y.2.2.2)
  invFun z := ((z.1, z.2.2.1.1, z.2.2.1.2.1.1, z.2.2.1.2.1.2.1, z.2.2.1.2.2),
    (z.2.1, z.2.2.1.2.1.2.2, z.2.2.2))
  left_inv _ := rfl
  right_inv _ := rfl

/-- The things drawn in C101 taken apart. -/
def regroupTried (v : Ver) (r n L : Nat) (X : Finset (Bytes × Bytes)) (R : Finset Rng) :
    (R × SealHash v × BytesN 32 × BytesN (pkeTagLen v)) × Tried v r n L X ≃
      R × SealHash v × Tried v r n L X × BytesN 32 × BytesN (pkeTagLen v) where
  toFun y := (y.1.1, y.1.2.1, y.2, y.1.2.2)
  invFun z := ((z.1, z.2.1, z.2.2.2), z.2.2.1)
  left_inv _ := rfl
  right_inv _ := rfl

theorem average_hop {ω α β : Type} [Fintype ω] [Fintype α] [Fintype β] (A : ω × α → Prop)
    (B C : ω × β → Prop) (b : ℚ) (hb : 0 ≤ b)
    (h : ∀ w, |fractionOf (fun x => A (w, x)) - fractionOf (fun x => B (w, x))| ≤
      fractionOf (fun x => C (w, x)) + b) :
    |fractionOf A - fractionOf B| ≤ fractionOf C + b := by
  rw [fraction_prod, fraction_prod, fraction_prod C]
  exact C97.average (fun a => fractionOf fun x => A (a, x)) (fun a => fractionOf fun x => B (a, x))
    (fun a => fractionOf fun x => C (a, x)) b hb h

theorem common {ι α : Type} [Fintype ι] (Φ : ι → Finset α → Prop)
    (h : ∀ i, ∃ X₀ : Finset α, ∀ X, X₀ ⊆ X → Φ i X) : ∃ X₀ : Finset α, ∀ X, X₀ ⊆ X → ∀ i, Φ i X := by
  classical
  choose X₀ hX using h
  exact ⟨Finset.univ.biUnion X₀, fun X hs i =>
    hX i X (Finset.Subset.trans (Finset.subset_biUnion_of_mem X₀ (Finset.mem_univ i)) hs)⟩

theorem tape_eq {n : Nat} (b : Blocks n) : b.tape = ((List.ofFn b).map Subtype.val).flatten := rfl

section

variable {n : Nat} {X : Finset (Bytes × Bytes)} {R : Finset Rng}

/-- The game, from everything drawn. -/
def realOf (P : Prims) (K : Finset (BytesN 32)) (d : Tags v) (sk : Key P v .Secret) (j : Fin r)
    (ask : Bytes → List (Got v L) → Option (Wish v r)) (k o u q m : Nat) (s : Side)
    (z : R × SealHash v × Tried v r n L X) : Res (Bytes × List (Got v L)) :=
  realAt P K sk j ask k n o u q m s z.1 z.2.2.2.1.1.tape z.2.2.1 z.2.2.2.1.2.1 (d.on X z.2.2.2.2) z.2.1
    z.2.2.2.1.2.2

/-- The other game, from everything drawn. -/
noncomputable def idealOf (P : Prims) (K : Finset (BytesN 32)) (d : Tags v) (sk : Key P v .Secret)
    (ask : Bytes → List (Got v L) → Option (Wish v r)) (k o u q m : Nat) (s : Side)
    (epk : R → BytesN (pkeEpkLen v))
    (z : R × SealHash v × Tried v r n L X × BytesN 32 × BytesN (pkeTagLen v)) :
    Res (Bytes × List (Got v L)) :=
  idealSeen P K sk ask k n o u q m s z.2.2.1.2.1.1.tape z.2.2.1.1 z.2.2.1.2.1.2.1 (d.on X z.2.2.1.2.2) (epk z.1)
    z.2.1 z.2.2.1.2.1.2.2 z.2.2.2.1 z.2.2.2.2

/-- What is hashed or unsealed in the other game. -/
noncomputable def askedOf (P : Prims) (K : Finset (BytesN 32)) (d : Tags v) (sk : Key P v .Secret)
    (ask : Bytes → List (Got v L) → Option (Wish v r)) (k o u q m : Nat) (s : Side)
    (epk : R → BytesN (pkeEpkLen v))
    (z : R × SealHash v × Tried v r n L X × BytesN 32 × BytesN (pkeTagLen v)) :
    List (SealAsk v) :=
  (idealAt P K sk ask k n o u q m s z.2.2.1.2.1.1.tape z.2.2.1.1 z.2.2.1.2.1.2.1 (d.on X z.2.2.1.2.2) (epk z.1)
    z.2.1 z.2.2.1.2.1.2.2 z.2.2.2.1 z.2.2.2.2).2

theorem hop_all (hP : P.Laws) (hK : ∀ x, x ∈ K) (hL : 32 ≤ L) (d : Tags v) (sk : Key P v .Secret) (xk : R → Bytes)
    (epk : R → BytesN (pkeEpkLen v)) (he : ∀ ρ : R, ephemeral P sk.publicKey ρ.1 = some (xk ρ, epk ρ)) (j : Fin r)
    (ask : Bytes → List (Got v L) → Option (Wish v r))
    (hask : ∀ text answers i a, ask text answers = some (.attempt (.hide i a)) → a.Comparable P L)
    (k o u q m : Nat) (s : Side) (A : (Fin r → BytesN 32) → Res (Bytes × List (Got v L)) → Prop) :
    |fractionOf (fun z : R × SealHash v × Tried v r n L X =>
          A z.2.2.1 (realOf P K d sk j ask k o u q m s z)) -
        fractionOf (fun z : R × SealHash v × Tried v r n L X × BytesN 32 × BytesN (pkeTagLen v) =>
          A z.2.2.1.1 (idealOf P K d sk ask k o u q m s epk z))| ≤
      fractionOf (fun z : R × SealHash v × Tried v r n L X × BytesN 32 × BytesN (pkeTagLen v) =>
        SecretHashed P sk.publicKey (xk z.1) (epk z.1) (askedOf P K d sk ask k o u q m s epk z) ∨
          TagForged (bs P K (d.on X z.2.2.1.2.2) z.2.2.1.2.1.2.1) (epk z.1) z.2.2.2.1 z.2.2.2.2
            (askedOf P K d sk ask k o u q m s epk z)) + k / (256 ^ 32 : Nat) := by
  rw [← fraction_equiv (regroup v r n L X R), ← fraction_equiv (regroup' v r n L X R),
    ← fraction_equiv (regroup' v r n L X R)]
  refine average_hop _ _ _ _ (div_nonneg (Nat.cast_nonneg _) (Nat.cast_nonneg _)) fun w => ?_
  have hp : (sealPub P sk.publicKey).length = pkeEpkLen v := sealPub_length _
  have hl := C88.ephemeral_length (he w.1)
  have h := hop_at hP hK hL sk (he w.1) (C88.input_length 1 hl (epk w.1).2 hp)
    (C88.input_length 2 hl (epk w.1).2 hp) j ask hask k o u q m s (List.ofFn w.2.2.1) w.2.1 w.2.2.2.1
    (d.on X w.2.2.2.2) (A w.2.1)
  rw [List.length_ofFn] at h
  simp only [fraction_count]
  exact h

/-- The bound of C101. -/
def bound (v : Ver) (r n o u q m : Nat) : ℚ :=
  3 * (n * (n - 1)) / 2 ^ 256 + n * q / 2 ^ 256 + 2 * o / 2 ^ (8 * Spec.tagLen v) +
    2 * (n + o) * m / 2 ^ 256 + 2 * r * u / 2 ^ 256 + r * (r - 1) / 2 ^ 256

theorem bound_nonneg (v : Ver) (r n o u q m : Nat) : 0 ≤ bound v r n o u q m := by
  have h1 := C101.pairs_nonneg n
  have h2 := C101.pairs_nonneg r
  unfold bound
  positivity

/-- The other game with one side and with the other. -/
theorem ideal_sides (hu : K = Finset.univ) (sk : Key P v .Secret) (ask : Bytes → List (Got v L) → Option (Wish v r))
    (hhide : ∀ text answers i a, ask text answers = some (.attempt (.hide i a)) → a.Comparable P L ∧ a.Fits)
    (hlook : ∀ text answers i a, ask text answers = some (.attempt (.look i a)) → a.Fits)
    (k o u q m : Nat) (epk : R → BytesN (pkeEpkLen v)) (A : Res (Bytes × List (Got v L)) → Prop) :
    ∃ X₀ : Finset (Bytes × Bytes), ∀ X, X₀ ⊆ X → ∀ d : Tags v,
      |fractionOf (fun z : R × SealHash v × Tried v r n L X × BytesN 32 × BytesN (pkeTagLen v) =>
          A (idealOf P K d sk ask k o u q m .left epk z)) -
        fractionOf (fun z : R × SealHash v × Tried v r n L X × BytesN 32 × BytesN (pkeTagLen v) =>
          A (idealOf P K d sk ask k o u q m .right epk z))| ≤ bound v r n o u q (m + 1) := by
  have hone := fun y : R × SealHash v × BytesN 32 × BytesN (pkeTagLen v) =>
    C101.advantage P (2 * k + 1) n o u q (m + 1)
      (withTag (way P sk y.2.1 (epk y.1)) k y.2.2.2.1 (sealTagged v (epk y.1).1 y.2.2.1.1) (textOf (epk y.1) y.2.2.1) y.2.1 ask)
      (fun _ _ _ h => by
        obtain ⟨t, as, h⟩ := withTag_hide h
        exact hhide _ _ _ _ h)
      (fun _ _ _ h => by
        obtain ⟨t, as, h⟩ := withTag_look h
        exact hlook _ _ _ _ h)
      (fun res => A (res >>= fun ys => .ok (seen (way P sk y.2.1 (epk y.1)) k (textOf (epk y.1) y.2.2.1) y.2.1 ask ys)))
  obtain ⟨X₀, hX⟩ := common _ hone
  refine ⟨X₀, fun X hs d => ?_⟩
  rw [← fraction_equiv (regroupTried v r n L X R), ← fraction_equiv (regroupTried v r n L X R)]
  refine C101.average_le _ _ _ (bound_nonneg _ _ _ _ _ _ _) fun y => ?_
  have h := hX X hs y d
  simp only [C101.view_eq, ← hu] at h
  have e : ∀ (s : Side) (x : Tried v r n L X),
      idealOf P K d sk ask k o u q m s epk (regroupTried v r n L X R (y, x)) =
        (C101.viewIn P K d (withTag (way P sk y.2.1 (epk y.1)) k y.2.2.2.1
          (sealTagged v (epk y.1).1 y.2.2.1.1) (textOf (epk y.1) y.2.2.1) y.2.1 ask)
          (2 * k + 1) o u q (m + 1) s x >>= fun ys =>
            .ok (seen (way P sk y.2.1 (epk y.1)) k (textOf (epk y.1) y.2.2.1) y.2.1 ask ys)) :=
    fun s x => ideal_trying P K sk ask k n o u q m s _ _ _ _ _ _ _ _ _
  simp only [e]
  unfold bound
  push_cast at h ⊢
  exact h

end

theorem view_real (P : Prims) {n : Nat} {X : Finset (Bytes × Bytes)} {R : Finset Rng} (d : Tags v)
    (sk : Key P v .Secret) (j : Fin r) (ask : Bytes → List (Got v L) → Option (Wish v r)) (k o u q m : Nat)
    (s : Side) (z : R × SealHash v × Tried v r n L X) :
    z.2.2.sealedView P d sk j ask k o u q m s z.1 z.2.1 =
      realOf P Finset.univ d sk j ask k o u q m s z := by
  have e : z.2.2.secret P d sk = skAt Finset.univ (d.on X z.2.2.2.2) z.2.2.2.1.2.1 sk := by
    cases v <;> rfl
  unfold Tried.sealedView Tried.unsealed
  rw [e]
  rfl

theorem asked_ideal (P : Prims) {n : Nat} {X : Finset (Bytes × Bytes)} {R : Finset Rng} (d : Tags v)
    (sk : Key P v .Secret) (ask : Bytes → List (Got v L) → Option (Wish v r)) (k o u q m : Nat)
    (s : Side) (epk : R → BytesN (pkeEpkLen v))
    (z : R × SealHash v × Tried v r n L X × BytesN 32 × BytesN (pkeTagLen v)) :
    askedOf P Finset.univ d sk ask k o u q m s epk z =
      z.2.2.1.asked P d sk ask k o u q m s (epk z.1) z.2.1 z.2.2.2.1 z.2.2.2.2 := by
  have e : z.2.2.1.secret P d sk = skAt Finset.univ (d.on X z.2.2.1.2.2) z.2.2.1.2.1.2.1 sk := by
    cases v <;> rfl
  unfold Tried.asked Tried.unsealed
  rw [e]
  rfl

/-! ### Another text is made only by chance -/

/-- What comes of unsealing does not depend on tags with this ephemeral key. -/
theorem idealU_off (P : Prims) (K : Finset (BytesN 32)) (sk : Key P v .Secret) (D : Derivation v) {f f' : Tags v}
    (epk : BytesN (pkeEpkLen v)) (h : ∀ x y, (∀ e, y ≠ sealTagged v epk.1 e) → f' (x, y) = f (x, y))
    (g : SealHash v) (c : CipherOf v L) (text : Bytes) :
    idealU P K sk D f' epk g c text = idealU P K sk D f epk g c text := by
  have hnil : f' ([], []) = f ([], []) := h _ _ fun e he => by
    have := congrArg List.length he
    unfold sealTagged at this
    rw [List.length_append, List.length_append, epk.2] at this
    cases v <;> simp [pkeEpkLen] at this <;> omega
  funext y
  by_cases hx : y = text
  · unfold idealU
    rw [if_pos hx, if_pos hx]
  by_cases he : HasEphemeral epk y
  · unfold idealU
    rw [if_neg hx, if_neg hx, if_pos he, if_pos he]
  rw [← way_run, ← way_run]
  unfold Way.run
  congr 1
  unfold way
  dsimp only
  cases hw : SealedKey.parse v y with
  | err e => exact hnil
  | panic => exact hnil
  | ok w =>
    dsimp only
    cases unsealSecret P sk w.ephemeralPublicKey with
    | none => exact hnil
    | some xk =>
      refine h _ _ fun e hh => he ⟨w, hw, ?_⟩
      unfold sealTagged at hh
      rw [List.append_assoc, List.append_assoc] at hh
      exact Subtype.ext (List.append_inj_left (List.append_cancel_left hh)
        (w.ephemeralPublicKey.2.trans epk.2.symm))

theorem tagLen_eq (v : Ver) : pkeTagLen v = Spec.tagLen v := by cases v <;> rfl

/-- The guess at a tag that a request makes. -/
def guess : SealAsk v → List (BytesN 32 × BytesN (Spec.tagLen v))
  | .unseal s =>
    match SealedKey.parse v s with
    | .ok w => [(w.encryptedDataKey, ⟨w.tag.1, w.tag.2.trans (tagLen_eq v)⟩)]
    | _ => []
  | _ => []

/-- The keys among these bytes. -/
def keysOf (xs : List Bytes) : List (BytesN (pkeTagLen v)) :=
  xs.flatMap fun b => if h : b.length = pkeTagLen v then [⟨b, h⟩] else []

/-- What is drawn but for the authentication key and the tags. -/
abbrev Drawn (v : Ver) (r n L : Nat) :=
  SealHash v × (Fin r → BytesN 32) × Blocks n × Derivation v × CipherOf v L × BytesN 32

/-- Authentication key and tags taken apart. -/
def regroupTags (v : Ver) (r n L : Nat) (X : Finset (Bytes × Bytes)) (R : Finset Rng) :
    R × (Drawn v r n L × BytesN (pkeTagLen v) × (X → BytesN (Spec.tagLen v))) ≃
      R × SealHash v × Tried v r n L X × BytesN 32 × BytesN (pkeTagLen v) where
  toFun y := (y.1, y.2.1.1, (y.2.1.2.1, ((y.2.1.2.2.1, y.2.1.2.2.2.1, y.2.1.2.2.2.2.1), y.2.2.2)),
    y.2.1.2.2.2.2.2, y.2.2.1)
  invFun z := (z.1, (z.2.1, z.2.2.1.1, z.2.2.1.2.1.1, z.2.2.1.2.1.2.1, z.2.2.1.2.1.2.2, z.2.2.2.1),
    z.2.2.2.2, z.2.2.1.2.2)
  left_inv _ := rfl
  right_inv _ := rfl

section

variable {n : Nat} {X : Finset (Bytes × Bytes)}

theorem forging (hK : ∀ x, x ∈ K) (d : Tags v) (sk : Key P v .Secret) (epk : BytesN (pkeEpkLen v))
    (hX : ∀ p : BytesN (pkeTagLen v) × BytesN 32, (p.1.1, sealTagged v epk.1 p.2.1) ∈ X)
    (ask : Bytes → List (Got v L) → Option (Wish v r))
    (hask : ∀ text answers i a, ask text answers = some (.attempt (.hide i a)) → a.Comparable P L)
    (k o u q m : Nat) (s : Side) :
    fractionOf (fun z : Drawn v r n L × BytesN (pkeTagLen v) × (X → BytesN (Spec.tagLen v)) =>
      TagForged (bs P K (d.on X z.2.2) z.1.2.2.2.1) epk z.1.2.2.2.2.2 z.2.1
        (idealAt P K sk ask k n o u q m s z.1.2.2.1.tape z.1.2.1 z.1.2.2.2.1 (d.on X z.2.2) epk z.1.1
          z.1.2.2.2.2.1 z.1.2.2.2.2.2 z.2.1).2) ≤
      m / Fintype.card (BytesN (pkeTagLen v)) + m / Fintype.card (BytesN (Spec.tagLen v)) := by
  have nb : ∀ m, 0 < Fintype.card (BytesN m) := fun m =>
    Fintype.card_pos_iff.2 ⟨⟨List.replicate _ 0, List.length_replicate⟩⟩
  have hf := fun (y : Drawn v r n L) (z : BytesN (Spec.tagLen v)) (φ : X → BytesN (Spec.tagLen v)) =>
    few_macs P hK y.2.2.2.2.1 (d.on X φ) y.1 epk.1
      (idealU P K sk y.2.2.2.1 (d.on X φ) epk y.1 y.2.2.2.2.1 (textOf epk y.2.2.2.2.2 z)) s
      (ask (textOf epk y.2.2.2.2.2 z)) (hask _) y.2.2.2.1 y.2.1 guess (fun _ => rfl)
      (fun x => by unfold guess; dsimp only; split <;> simp) k o u q m (List.ofFn y.2.2.1) [] []
  choose touched ht hg hsame using hf
  let ι : BytesN (pkeTagLen v) × BytesN 32 → X := fun p => ⟨(p.1.1, sealTagged v epk.1 p.2.1), hX p⟩
  have hι : Function.Injective ι := by
    rintro ⟨a, e⟩ ⟨a', e'⟩ h
    have h := congrArg Subtype.val h
    have h1 : a.1 = a'.1 := congrArg Prod.fst h
    have h2 : sealTagged v epk.1 e.1 = sealTagged v epk.1 e'.1 := congrArg Prod.snd h
    unfold sealTagged at h2
    rw [Subtype.ext h1, Subtype.ext (List.append_cancel_left h2)]
  rw [fraction_count]
  refine Plug.forged_among ι hι m (fun y => y.2.2.2.2.2) (fun y z φ => keysOf (touched y z φ)) _
    (fun y z φ => (Plug.flat_length _ (fun b => by split <;> simp) _).trans (ht y z φ)) hg _ ?_ (nb _) (nb _)
  rintro ⟨g, keys, b, D, c, edk⟩ ak φ φ' hφ hak ⟨y, hy, hne, e', he'⟩
  dsimp only at hak hy hne he' ⊢
  have hat : ∀ e : BytesN 32, (d.on X φ') (ak.1, sealTagged v epk.1 e.1) = φ' (ι (ak, e)) := fun e => by
    unfold Tags.on
    rw [dif_pos (hX (ak, e))]
  have hoff : ∀ x y, (∀ e : BytesN 32, (x, y) ≠ (ak.1, sealTagged v epk.1 e.1)) →
      (d.on X φ') (x, y) = (d.on X φ) (x, y) := by
    intro x y hxy
    unfold Tags.on
    by_cases hm : (x, y) ∈ X
    · rw [dif_pos hm, dif_pos hm]
      exact hφ _ fun e he => hxy e (congrArg Subtype.val he)
    · rw [dif_neg hm, dif_neg hm]
  have hU := idealU_off P K sk D (f := d.on X φ) (f' := d.on X φ') epk
    (fun x y h => hoff x y fun e he => h e.1 (congrArg Prod.snd he)) g c
    (textOf epk edk (φ' (ι (ak, edk))))
  rw [randomText_eq, hat] at he' hne
  have hrun := hsame (g, keys, b, D, c, edk) (φ' (ι (ak, edk))) φ (d.on X φ') fun x y h =>
    hoff x y fun e he => hak (List.mem_flatMap.2 ⟨ak.1, by
      have hx : x = ak.1 := congrArg Prod.fst he
      rw [← hx]
      exact h e.1 (congrArg Prod.snd he), by rw [dif_pos ak.2]; exact List.mem_singleton.2 rfl⟩)
  dsimp only at hrun
  rw [List.length_ofFn] at hrun
  have ea : (idealAt P K sk ask k n o u q m s b.tape keys D (d.on X φ') epk g c edk ak).2 =
      (hybrid (hp P K c (d.on X φ) D g) keys D c (d.on X φ) g
        (idealU P K sk D (d.on X φ) epk g c (textOf epk edk (φ' (ι (ak, edk))))) s
        (ask (textOf epk edk (φ' (ι (ak, edk))))) k (List.ofFn b).length o u q m
        ((List.ofFn b).map Subtype.val).flatten [] []).2 := by
    rw [List.length_ofFn, ← hrun, ← hU]
    unfold idealAt hp bs
    rw [Hybrid.seal_pr]
    have := randomText_eq P K (d.on X φ') D ak epk edk
    unfold bs at this
    rw [this, hat]
    rfl
  rw [ea] at hy
  have hpp : SealedKey.parse v y = .ok ⟨⟨(φ' (ι (ak, e'))).1, (φ' (ι (ak, e'))).2.trans (tagLen_eq v).symm⟩, epk, e'⟩ :=
    SealedKey.parse_ok_iff.2 he'
  refine ⟨(e', φ' (ι (ak, e'))), List.mem_flatMap.2 ⟨_, hy, ?_⟩, ?_, rfl⟩
  · unfold guess
    dsimp only
    rw [hpp]
    exact List.mem_singleton.2 rfl
  · intro h
    dsimp only at h
    exact hne (by rw [he', h])

/-- The tags that matter, with all these ephemeral keys. -/
theorem points {R : Finset Rng} (epk : R → BytesN (pkeEpkLen v)) : ∃ X₀ : Finset (Bytes × Bytes),
    ∀ (ρ : R) (p : BytesN (pkeTagLen v) × BytesN 32), (p.1.1, sealTagged v (epk ρ).1 p.2.1) ∈ X₀ := by
  have all : ∀ {α : Type} [Fintype α] (F : α → Bytes × Bytes), ∃ X₀ : Finset (Bytes × Bytes), ∀ a, F a ∈ X₀ :=
    fun F => ⟨Finset.univ.image F, fun a => Finset.mem_image_of_mem _ (Finset.mem_univ a)⟩
  obtain ⟨X₀, h⟩ := all fun y : R × BytesN (pkeTagLen v) × BytesN 32 => (y.2.1.1, sealTagged v (epk y.1).1 y.2.2.1)
  exact ⟨X₀, fun ρ p => h (ρ, p)⟩

/-- What breaks the game: that the secret is hashed, and little else. -/
theorem broken_le {R : Finset Rng} (hK : ∀ x, x ∈ K) (hu : K = Finset.univ) (d : Tags v) (sk : Key P v .Secret)
    (x : R → Bytes × BytesN (pkeEpkLen v)) (he : ∀ ρ : R, ephemeral P sk.publicKey ρ.1 = some ((x ρ).1, (x ρ).2))
    (hX : ∀ (ρ : R) (p : BytesN (pkeTagLen v) × BytesN 32), (p.1.1, sealTagged v (x ρ).2.1 p.2.1) ∈ X)
    (ask : Bytes → List (Got v L) → Option (Wish v r))
    (hask : ∀ text answers i a, ask text answers = some (.attempt (.hide i a)) → a.Comparable P L)
    (k o u q m : Nat) (s : Side) :
    fractionOf (fun z : R × SealHash v × Tried v r n L X × BytesN 32 × BytesN (pkeTagLen v) =>
        SecretHashed P sk.publicKey (x z.1).1 (x z.1).2 (askedOf P K d sk ask k o u q m s (fun ρ => (x ρ).2) z) ∨
          TagForged (bs P K (d.on X z.2.2.1.2.2) z.2.2.1.2.1.2.1) (x z.1).2 z.2.2.2.1 z.2.2.2.2
            (askedOf P K d sk ask k o u q m s (fun ρ => (x ρ).2) z)) ≤
      fractionOf (fun z : R × SealHash v × Tried v r n L X × BytesN 32 × BytesN (pkeTagLen v) =>
          z.2.2.1.Hashed P d sk ask k o u q m s z.1 z.2.1 z.2.2.2.1 z.2.2.2.2) +
        2 * m / 2 ^ (8 * Spec.tagLen v) := by
  refine (C98.fraction_or _ _).trans (add_le_add (fraction_mono fun z hz => ?_) ?_)
  · rw [hu] at hz
    rw [asked_ideal] at hz
    exact ⟨(x z.1).1, (x z.1).2, he z.1, hz⟩
  rw [← fraction_equiv (regroupTags v r n L X R)]
  refine Trying.fraction_prod_le _ _ (by positivity) fun ρ => ?_
  refine (forging hK d sk (x ρ).2 (hX ρ) ask hask k o u q m s).trans (le_of_eq ?_)
  rw [C75.card_bytes, C75.card_bytes, tagLen_eq, pow_mul]
  push_cast
  norm_num
  ring

end

/-- **C102**: whatever is asked for after a key in use has been sealed, and whatever is concluded from text
and answers: the conclusion is drawn (almost) as often when the left candidates are used as when the right
ones are, except for the chances that the shared secret is hashed by someone shown an unrelated text. -/
theorem advantage (hP : P.Laws) (hL : 32 ≤ L) (sk : Key P v .Secret) (j : Fin r) (R : Finset Rng)
    (hR : ∀ rng ∈ R, (ephemeral P sk.publicKey rng).isSome) (k n o u q m : Nat)
    (ask : Bytes → List (Got v L) → Option (Wish v r))
    (hhide : ∀ text answers i a, ask text answers = some (.attempt (.hide i a)) → a.Comparable P L ∧ a.Fits)
    (hlook : ∀ text answers i a, ask text answers = some (.attempt (.look i a)) → a.Fits)
    (A : Res (Bytes × List (Got v L)) → Prop) :
    ∃ X₀ : Finset (Bytes × Bytes), ∀ X, X₀ ⊆ X → ∀ d : Tags v,
      |fractionOf (fun z : R × SealHash v × Tried v r n L X =>
          A (z.2.2.sealedView P d sk j ask k o u q m .left z.1 z.2.1)) -
        fractionOf (fun z : R × SealHash v × Tried v r n L X =>
          A (z.2.2.sealedView P d sk j ask k o u q m .right z.1 z.2.1))| ≤
        fractionOf (fun z : R × SealHash v × Tried v r n L X × BytesN 32 × BytesN (pkeTagLen v) =>
          z.2.2.1.Hashed P d sk ask k o u q m .left z.1 z.2.1 z.2.2.2.1 z.2.2.2.2) +
        fractionOf (fun z : R × SealHash v × Tried v r n L X × BytesN 32 × BytesN (pkeTagLen v) =>
          z.2.2.1.Hashed P d sk ask k o u q m .right z.1 z.2.1 z.2.2.2.1 z.2.2.2.2) +
        2 * k / 2 ^ 256 + 4 * m / 2 ^ (8 * Spec.tagLen v) +
        (3 * (n * (n - 1)) / 2 ^ 256 + n * q / 2 ^ 256 + 2 * o / 2 ^ (8 * Spec.tagLen v) +
          2 * (n + o) * (m + 1) / 2 ^ 256 + 2 * r * u / 2 ^ 256 + r * (r - 1) / 2 ^ 256) := by
  obtain ⟨K, hu, hK⟩ := C101.all (T := BytesN 32)
  have hex : ∀ ρ : R, ∃ x : Bytes × BytesN (pkeEpkLen v), ephemeral P sk.publicKey ρ.1 = some (x.1, x.2) := fun ρ => by
    obtain ⟨x, hx⟩ := Option.isSome_iff_exists.1 (hR ρ.1 ρ.2)
    exact ⟨x, hx⟩
  choose x he using hex
  obtain ⟨X₀, hX⟩ := ideal_sides (n := n) hu sk ask hhide hlook k o u q m (fun ρ => (x ρ).2) A
  obtain ⟨X₁, hX₁⟩ := points fun ρ => (x ρ).2
  refine ⟨X₀ ∪ X₁, fun X hs d => ?_⟩
  have h0 := hX X (Finset.union_subset_left hs) d
  have hc := fun text answers i a ha => (hhide text answers i a ha).1
  have hl := hop_all (n := n) (X := X) hP hK hL d sk (fun ρ => (x ρ).1) (fun ρ => (x ρ).2) he j ask hc k o u q m
    .left fun _ => A
  have hr := hop_all (n := n) (X := X) hP hK hL d sk (fun ρ => (x ρ).1) (fun ρ => (x ρ).2) he j ask hc k o u q m
    .right fun _ => A
  have hbad := broken_le (n := n) hK hu d sk x he (fun ρ p => Finset.union_subset_right hs (hX₁ ρ p)) ask hc k o u q m
  simp only [view_real, ← hu]
  have e256 : ((256 ^ 32 : Nat) : ℚ) = 2 ^ 256 := by norm_num
  rw [e256] at hl hr
  have b1 := hbad .left
  have b2 := hbad .right
  unfold bound at h0
  push_cast at h0
  rw [abs_le] at h0 hl hr ⊢
  have e2 : (2 : ℚ) * k / 2 ^ 256 = k / 2 ^ 256 + k / 2 ^ 256 := by ring
  have e4 : (4 : ℚ) * m / 2 ^ (8 * Spec.tagLen v) =
      2 * m / 2 ^ (8 * Spec.tagLen v) + 2 * m / 2 ^ (8 * Spec.tagLen v) := by ring
  rw [e2, e4]
  constructor <;> linarith [h0.1, h0.2, hl.1, hl.2, hr.1, hr.2]

/-! ### Finding a key, opening a text -/

section

variable {n : Nat} {X : Finset (Bytes × Bytes)} {R : Finset Rng}

/-- One side: from the game to the other game. -/
theorem one_side (hP : P.Laws) (hK : ∀ x, x ∈ K) (hu : K = Finset.univ) (hL : 32 ≤ L) (d : Tags v) (sk : Key P v .Secret)
    (x : R → Bytes × BytesN (pkeEpkLen v)) (he : ∀ ρ : R, ephemeral P sk.publicKey ρ.1 = some ((x ρ).1, (x ρ).2))
    (hX : ∀ (ρ : R) (p : BytesN (pkeTagLen v) × BytesN 32), (p.1.1, sealTagged v (x ρ).2.1 p.2.1) ∈ X)
    (j : Fin r) (ask : Bytes → List (Got v L) → Option (Wish v r))
    (hask : ∀ text answers i a, ask text answers = some (.attempt (.hide i a)) → a.Comparable P L)
    (k o u q m : Nat) (s : Side) (A : (Fin r → BytesN 32) → Res (Bytes × List (Got v L)) → Prop) (b : ℚ)
    (hb : 0 ≤ b)
    (h : ∀ y : R × SealHash v × BytesN 32 × BytesN (pkeTagLen v), fractionOf (fun z : Tried v r n L X =>
      A z.1 (z.view P d (withTag (way P sk y.2.1 (x y.1).2) k y.2.2.2.1 (sealTagged v (x y.1).2.1 y.2.2.1.1)
          (textOf (x y.1).2 y.2.2.1) y.2.1 ask) (2 * k + 1) o u q (m + 1) s >>= fun ys =>
            .ok (seen (way P sk y.2.1 (x y.1).2) k (textOf (x y.1).2 y.2.2.1) y.2.1 ask ys))) ≤ b) :
    fractionOf (fun z : R × SealHash v × Tried v r n L X =>
        A z.2.2.1 (z.2.2.sealedView P d sk j ask k o u q m s z.1 z.2.1)) ≤
      fractionOf (fun z : R × SealHash v × Tried v r n L X × BytesN 32 × BytesN (pkeTagLen v) =>
          z.2.2.1.Hashed P d sk ask k o u q m s z.1 z.2.1 z.2.2.2.1 z.2.2.2.2) +
        k / 2 ^ 256 + 2 * m / 2 ^ (8 * Spec.tagLen v) + b := by
  have hl := hop_all (n := n) (X := X) hP hK hL d sk (fun ρ => (x ρ).1) (fun ρ => (x ρ).2) he j ask hask
    k o u q m s A
  have hbad := broken_le (n := n) hK hu d sk x he hX ask hask k o u q m s
  have hid : fractionOf (fun z : R × SealHash v × Tried v r n L X × BytesN 32 × BytesN (pkeTagLen v) =>
      A z.2.2.1.1 (idealOf P K d sk ask k o u q m s (fun ρ => (x ρ).2) z)) ≤ b := by
    rw [← fraction_equiv (regroupTried v r n L X R)]
    refine Trying.fraction_prod_le _ _ hb fun y => ?_
    have h := h y
    simp only [C101.view_eq, ← hu] at h
    have e : ∀ z : Tried v r n L X,
        idealOf P K d sk ask k o u q m s (fun ρ => (x ρ).2) (regroupTried v r n L X R (y, z)) =
          (C101.viewIn P K d (withTag (way P sk y.2.1 (x y.1).2) k y.2.2.2.1
            (sealTagged v (x y.1).2.1 y.2.2.1.1) (textOf (x y.1).2 y.2.2.1) y.2.1 ask)
            (2 * k + 1) o u q (m + 1) s z >>= fun ys =>
              .ok (seen (way P sk y.2.1 (x y.1).2) k (textOf (x y.1).2 y.2.2.1) y.2.1 ask ys)) :=
      fun z => ideal_trying P K sk ask k n o u q m s _ _ _ _ _ _ _ _ _
    simp only [e]
    exact h
  simp only [view_real, ← hu]
  have e256 : ((256 ^ 32 : Nat) : ℚ) = 2 ^ 256 := by norm_num
  rw [e256] at hl
  rw [abs_le] at hl
  linarith [hl.2]

end

/-- A key in use, the sealed one for example, is hardly ever tried by someone who does not hash the shared
secret. -/
theorem key_met (hP : P.Laws) (hL : 32 ≤ L) (sk : Key P v .Secret) (j : Fin r) (R : Finset Rng)
    (hR : ∀ rng ∈ R, (ephemeral P sk.publicKey rng).isSome) (k n o u q m : Nat)
    (ask : Bytes → List (Got v L) → Option (Wish v r))
    (hhide : ∀ text answers i a, ask text answers = some (.attempt (.hide i a)) → a.Comparable P L)
    (s : Side) : ∃ X₀ : Finset (Bytes × Bytes), ∀ X, X₀ ⊆ X → ∀ d : Tags v,
    fractionOf (fun z : R × SealHash v × Tried v r n L X => ∃ text answers,
        z.2.2.sealedView P d sk j ask k o u q m s z.1 z.2.1 = .ok (text, answers) ∧
          KeyMet z.2.2.1 (ask text) answers) ≤
      fractionOf (fun z : R × SealHash v × Tried v r n L X × BytesN 32 × BytesN (pkeTagLen v) =>
          z.2.2.1.Hashed P d sk ask k o u q m s z.1 z.2.1 z.2.2.2.1 z.2.2.2.2) +
        k / 2 ^ 256 + 2 * m / 2 ^ (8 * Spec.tagLen v) + (r * u / 2 ^ 256 + r * (r - 1) / 2 ^ 257) := by
  obtain ⟨K, hu, hK⟩ := C101.all (T := BytesN 32)
  have hex : ∀ ρ : R, ∃ x : Bytes × BytesN (pkeEpkLen v), ephemeral P sk.publicKey ρ.1 = some (x.1, x.2) := fun ρ => by
    obtain ⟨x, hx⟩ := Option.isSome_iff_exists.1 (hR ρ.1 ρ.2)
    exact ⟨x, hx⟩
  choose x he using hex
  have h2 := C101.pairs_nonneg r
  obtain ⟨X₀, hX⟩ := points fun ρ => (x ρ).2
  refine ⟨X₀, fun X hs d => ?_⟩
  refine one_side hP hK hu hL d sk x he (fun ρ p => hs (hX ρ p)) j ask hhide k o u q m s
    (fun keys res => ∃ text answers, res = .ok (text, answers) ∧ KeyMet keys (ask text) answers) _
    (by positivity) fun y => ?_
  refine (fraction_mono ?_).trans (C101.key_found P (2 * k + 1) n o u q (m + 1)
    (withTag (way P sk y.2.1 (x y.1).2) k y.2.2.2.1 (sealTagged v (x y.1).2.1 y.2.2.1.1) (textOf (x y.1).2 y.2.2.1) y.2.1 ask)
    (fun _ _ _ h => by
      obtain ⟨t, as, h⟩ := withTag_hide h
      exact hhide _ _ _ _ h) X d s)
  rintro z ⟨text, answers, h1, h2⟩
  obtain ⟨ys, h3, h4⟩ := Res.bind_eq_ok.1 h1
  refine ⟨ys, h3, ?_⟩
  have h5 := Res.ok.inj h4
  apply seen_key (W := way P sk y.2.1 (x y.1).2) (k0 := k) (text := textOf (x y.1).2 y.2.2.1) (g := y.2.1) (ask := ask)
  rw [h5]
  exact h2

/-- A text that was not issued is hardly ever opened for someone who does not hash the shared secret. -/
theorem unopened (hP : P.Laws) (hL : 32 ≤ L) (sk : Key P v .Secret) (j : Fin r) (R : Finset Rng)
    (hR : ∀ rng ∈ R, (ephemeral P sk.publicKey rng).isSome) (k n o u q m : Nat)
    (ask : Bytes → List (Got v L) → Option (Wish v r))
    (hhide : ∀ text answers i a, ask text answers = some (.attempt (.hide i a)) → a.Comparable P L ∧ a.Fits)
    (hlook : ∀ text answers i a, ask text answers = some (.attempt (.look i a)) → a.Fits) (s : Side) :
    ∃ X₀ : Finset (Bytes × Bytes), ∀ X, X₀ ⊆ X → ∀ d : Tags v,
      fractionOf (fun z : R × SealHash v × Tried v r n L X => ∃ text answers,
          z.2.2.sealedView P d sk j ask k o u q m s z.1 z.2.1 = .ok (text, answers) ∧
            Unlocked (ask text) answers) ≤
        fractionOf (fun z : R × SealHash v × Tried v r n L X × BytesN 32 × BytesN (pkeTagLen v) =>
            z.2.2.1.Hashed P d sk ask k o u q m s z.1 z.2.1 z.2.2.2.1 z.2.2.2.2) +
          k / 2 ^ 256 + 2 * m / 2 ^ (8 * Spec.tagLen v) + (n * (n - 1) / 2 ^ 257 + o / 2 ^ (8 * Spec.tagLen v) + (n + o) * (m + 1) / 2 ^ 256 +
            r * u / 2 ^ 256 + r * (r - 1) / 2 ^ 257) := by
  obtain ⟨K, hu, hK⟩ := C101.all (T := BytesN 32)
  have hex : ∀ ρ : R, ∃ x : Bytes × BytesN (pkeEpkLen v), ephemeral P sk.publicKey ρ.1 = some (x.1, x.2) := fun ρ => by
    obtain ⟨x, hx⟩ := Option.isSome_iff_exists.1 (hR ρ.1 ρ.2)
    exact ⟨x, hx⟩
  choose x he using hex
  have hone := fun y : R × SealHash v × BytesN 32 × BytesN (pkeTagLen v) =>
    C101.unopened P (2 * k + 1) n o u q (m + 1)
      (withTag (way P sk y.2.1 (x y.1).2) k y.2.2.2.1 (sealTagged v (x y.1).2.1 y.2.2.1.1) (textOf (x y.1).2 y.2.2.1) y.2.1 ask)
      (fun _ _ _ h => by
        obtain ⟨t, as, h⟩ := withTag_hide h
        exact hhide _ _ _ _ h)
      (fun _ _ _ h => by
        obtain ⟨t, as, h⟩ := withTag_look h
        exact hlook _ _ _ _ h) s
  obtain ⟨X₀, hX⟩ := common _ hone
  obtain ⟨X₁, hX₁⟩ := points fun ρ => (x ρ).2
  refine ⟨X₀ ∪ X₁, fun X hs d => ?_⟩
  have h1 := C101.pairs_nonneg n
  have h2 := C101.pairs_nonneg r
  refine one_side hP hK hu hL d sk x he (fun ρ p => Finset.union_subset_right hs (hX₁ ρ p)) j ask (fun _ _ _ _ h => (hhide _ _ _ _ h).1) k o u q m s
    (fun _ res => ∃ text answers, res = .ok (text, answers) ∧ Unlocked (ask text) answers) _
    (by positivity) fun y => ?_
  have h := hX X (Finset.union_subset_left hs) y d
  push_cast at h
  refine (fraction_mono ?_).trans h
  rintro z ⟨text, answers, h1, h2⟩
  obtain ⟨ys, h3, h4⟩ := Res.bind_eq_ok.1 h1
  refine ⟨ys, h3, ?_⟩
  have h5 := Res.ok.inj h4
  apply seen_text (W := way P sk y.2.1 (x y.1).2) (k0 := k) (text := textOf (x y.1).2 y.2.2.1) (g := y.2.1) (ask := ask)
  rw [h5]
  exact h2

/-! ### Computing the shared secret -/

/-- Whoever has nothing unsealed and succeeds computes the shared secret: it can be read off one of the at most
`q` inputs that are hashed. No secret key is used, nor the random bytes of the sealing: only the two public
keys. -/
theorem secret_computed (sk : Key P v .Secret) (R : Finset Rng) (k n o u q m : Nat)
    (ask : Bytes → List (Got v L) → Option (Wish v r))
    (hask : ∀ text answers y, ask text answers ≠ some (.unseal y)) (X : Finset (Bytes × Bytes)) (d : Tags v)
    (s : Side) :
    fractionOf (fun z : R × SealHash v × Tried v r n L X × BytesN 32 × BytesN (pkeTagLen v) =>
        z.2.2.1.Hashed P d sk ask k o u q m s z.1 z.2.1 z.2.2.2.1 z.2.2.2.2) ≤
      ∑ i ∈ Finset.range q, fractionOf (fun z : R × SealHash v × Tried v r n L X × BytesN 32 ×
          BytesN (pkeTagLen v) => ∃ xk epk, ephemeral P sk.publicKey z.1 = some (xk, epk) ∧
        z.2.2.1.solve P d ask k o u q m s epk z.2.1 z.2.2.2.1 z.2.2.2.2 i = some xk) := by
  refine C98.fraction_exists q _ _ ?_
  rintro z ⟨xk, epk, he, h⟩
  have hp := fun U => asked_unseal ((z.2.2.1.base P d).withSeal z.2.1 z.2.2.1.2.1.2.2) z.2.2.1.1 z.2.2.1.2.1.2.1
    z.2.2.1.2.1.2.2 (d.on X z.2.2.1.2.2) z.2.1 U (fun _ => none) s _
    (hask (randomText (z.2.2.1.base P d) epk z.2.2.2.1 z.2.2.2.2)) k n o u q m z.2.2.1.2.1.1.tape [] []
  have e : z.2.2.1.asked P d sk ask k o u q m s epk z.2.1 z.2.2.2.1 z.2.2.2.2 =
      z.2.2.1.passive P d ask k o u q m s epk z.2.1 z.2.2.2.1 z.2.2.2.2 := congrArg Prod.snd (hp _).1
  rw [e] at h
  obtain ⟨y, hy, e, hh⟩ := h
  · obtain ⟨i, hi, hy'⟩ := List.mem_iff_getElem.1 hy
    refine ⟨i, Nat.lt_of_lt_of_le hi (hp fun _ => none).2.1, xk, epk, he, ?_⟩
    unfold Tried.solve
    rw [List.getElem?_eq_getElem hi, hy']
    dsimp only
    rw [hh]
    have h8 : (Spec.sealHeader v).length = 8 := by cases v <;> rfl
    unfold sealKdfInput
    rw [List.append_assoc, List.append_assoc, List.drop_succ_cons, List.drop_left' h8,
      List.take_left' (C88.ephemeral_length he)]

/-- Where texts are unsealed, the shared secret is computed with the help of the recipient: it can be read off
one of the at most `q` inputs that are hashed, and the recipient is asked only about texts with other ephemeral
keys. Otherwise the secret key is not used. -/
theorem secret_computed_helped (sk : Key P v .Secret) (R : Finset Rng) (k n o u q m : Nat)
    (ask : Bytes → List (Got v L) → Option (Wish v r)) (X : Finset (Bytes × Bytes)) (d : Tags v) (s : Side) :
    fractionOf (fun z : R × SealHash v × Tried v r n L X × BytesN 32 × BytesN (pkeTagLen v) =>
        z.2.2.1.Hashed P d sk ask k o u q m s z.1 z.2.1 z.2.2.2.1 z.2.2.2.2) ≤
      ∑ i ∈ Finset.range q, fractionOf (fun z : R × SealHash v × Tried v r n L X × BytesN 32 ×
          BytesN (pkeTagLen v) => ∃ xk epk, ephemeral P sk.publicKey z.1 = some (xk, epk) ∧
        z.2.2.1.solveWith P d (z.2.2.1.unsealed P d sk z.2.1) ask k o u q m s epk z.2.1 z.2.2.2.1 z.2.2.2.2 i =
          some xk) := by
  refine C98.fraction_exists q _ _ ?_
  rintro z ⟨xk, epk, he, y, hy, e, hh⟩
  obtain ⟨i, hi, hy'⟩ := List.mem_iff_getElem.1 hy
  refine ⟨i, Nat.lt_of_lt_of_le hi (asked_length _ _ _ _ _ _ _ _ _ _ _ _ _ _ _ _ _ _), xk, epk, he, ?_⟩
  have hg : (z.2.2.1.asked P d sk ask k o u q m s epk z.2.1 z.2.2.2.1 z.2.2.2.2)[i]? = some (.hash y) := by
    rw [List.getElem?_eq_getElem hi, hy']
  unfold Tried.asked at hg
  unfold Tried.solveWith
  dsimp only at hg ⊢
  rw [hg]
  dsimp only
  rw [hh]
  have h8 : (Spec.sealHeader v).length = 8 := by cases v <;> rfl
  unfold sealKdfInput
  rw [List.append_assoc, List.append_assoc, List.drop_succ_cons, List.drop_left' h8,
    List.take_left' (C88.ephemeral_length he)]

/-- The numbers of `advantage_practical`. -/
theorem practical_bound (v : Ver) (r n o u q m : Nat) (hr : r ≤ 2 ^ 64) (hn : n ≤ 2 ^ 64)
    (ho : o ≤ 2 ^ 64) (hu : u ≤ 2 ^ 100) (hq : q ≤ 2 ^ 100) (hm : m ≤ 2 ^ 100) :
    3 * ((n : ℚ) * (n - 1)) / 2 ^ 256 + n * q / 2 ^ 256 + 2 * o / 2 ^ (8 * Spec.tagLen v) +
      2 * (n + o) * m / 2 ^ 256 + 2 * r * u / 2 ^ 256 + r * (r - 1) / 2 ^ 256 ≤ 1 / 2 ^ 89 := by
  have h1 : (n : ℚ) ≤ 2 ^ 64 := by exact_mod_cast hn
  have h2 : (o : ℚ) ≤ 2 ^ 64 := by exact_mod_cast ho
  have h3 : (q : ℚ) ≤ 2 ^ 100 := by exact_mod_cast hq
  have h4 : (m : ℚ) ≤ 2 ^ 100 := by exact_mod_cast hm
  have h5 : (r : ℚ) ≤ 2 ^ 64 := by exact_mod_cast hr
  have h6 : (u : ℚ) ≤ 2 ^ 100 := by exact_mod_cast hu
  have n0 : (0 : ℚ) ≤ n := Nat.cast_nonneg n
  have o0 : (0 : ℚ) ≤ o := Nat.cast_nonneg o
  have q0 : (0 : ℚ) ≤ q := Nat.cast_nonneg q
  have m0 : (0 : ℚ) ≤ m := Nat.cast_nonneg m
  have r0 : (0 : ℚ) ≤ r := Nat.cast_nonneg r
  have u0 : (0 : ℚ) ≤ u := Nat.cast_nonneg u
  have ht : (2 : ℚ) ^ 256 ≤ 2 ^ (8 * Spec.tagLen v) := by
    refine pow_le_pow_right₀ (by norm_num) ?_
    cases v <;> decide
  have a1 : 2 * (o : ℚ) / 2 ^ (8 * Spec.tagLen v) ≤ 2 * o / 2 ^ 256 :=
    div_le_div_of_nonneg_left (by positivity) (by positivity) ht
  have b1 : (n : ℚ) * n ≤ 2 ^ 64 * 2 ^ 64 := mul_le_mul h1 h1 n0 (by positivity)
  have b2 : (n : ℚ) * q ≤ 2 ^ 64 * 2 ^ 100 := mul_le_mul h1 h3 q0 (by positivity)
  have b3 : ((n : ℚ) + o) * m ≤ (2 ^ 64 + 2 ^ 64) * 2 ^ 100 :=
    mul_le_mul (add_le_add h1 h2) h4 m0 (by positivity)
  have b4 : (r : ℚ) * u ≤ 2 ^ 64 * 2 ^ 100 := mul_le_mul h5 h6 u0 (by positivity)
  have b5 : (r : ℚ) * r ≤ 2 ^ 64 * 2 ^ 64 := mul_le_mul h5 h5 r0 (by positivity)
  have hs : 3 * ((n : ℚ) * (n - 1)) + n * q + 2 * o + 2 * (n + o) * m + 2 * r * u + r * (r - 1) ≤ 2 ^ 167 := by
    have e : 3 * ((n : ℚ) * (n - 1)) + n * q + 2 * o + 2 * (n + o) * m + 2 * r * u + r * (r - 1) =
      3 * (n * n) - 3 * n + n * q + 2 * o + 2 * ((n + o) * m) + 2 * (r * u) + r * r - r := by ring
    rw [e]
    clear e a1 ht h3 h4 h5 h6
    norm_num at b1 b2 b3 b4 b5 h2 ⊢
    have h2 : (o : ℚ) ≤ 18446744073709551616 := by exact_mod_cast h2
    linarith
  have e : 3 * ((n : ℚ) * (n - 1)) / 2 ^ 256 + n * q / 2 ^ 256 + 2 * o / 2 ^ 256 +
      2 * (n + o) * m / 2 ^ 256 + 2 * r * u / 2 ^ 256 + r * (r - 1) / 2 ^ 256 =
      (3 * (n * (n - 1)) + n * q + 2 * o + 2 * (n + o) * m + 2 * r * u + r * (r - 1)) / 2 ^ 256 := by ring
  have h5 : 3 * ((n : ℚ) * (n - 1)) / 2 ^ 256 + n * q / 2 ^ 256 + 2 * o / 2 ^ 256 +
      2 * (n + o) * m / 2 ^ 256 + 2 * r * u / 2 ^ 256 + r * (r - 1) / 2 ^ 256 ≤ 1 / 2 ^ 89 := by
    rw [e, div_le_div_iff₀ (by positivity) (by positivity)]
    refine (mul_le_mul_of_nonneg_right hs (by positivity)).trans (le_of_eq ?_)
    rw [one_mul, ← pow_add]
  linarith

/-- With up to `2 ^ 64` keys in use, `2 ^ 64` texts and `2 ^ 64` openings, `2 ^ 100` keys, cipher keys, MAC keys,
hashes and texts to unseal tried, in all at most `2 ^ 128` requests, the chances differ by at most `2 ^ -88` but
for the chances that the shared secret is hashed. -/
theorem advantage_practical (hP : P.Laws) (hL : 32 ≤ L) (sk : Key P v .Secret) (j : Fin r) (R : Finset Rng)
    (hR : ∀ rng ∈ R, (ephemeral P sk.publicKey rng).isSome) (k n o u q m : Nat) (hk : k ≤ 2 ^ 128)
    (hr : r ≤ 2 ^ 64) (hn : n ≤ 2 ^ 64) (ho : o ≤ 2 ^ 64) (hu : u ≤ 2 ^ 100) (hq : q ≤ 2 ^ 100)
    (hm : m + 1 ≤ 2 ^ 100) (ask : Bytes → List (Got v L) → Option (Wish v r))
    (hhide : ∀ text answers i a, ask text answers = some (.attempt (.hide i a)) → a.Comparable P L ∧ a.Fits)
    (hlook : ∀ text answers i a, ask text answers = some (.attempt (.look i a)) → a.Fits)
    (A : Res (Bytes × List (Got v L)) → Prop) :
    ∃ X₀ : Finset (Bytes × Bytes), ∀ X, X₀ ⊆ X → ∀ d : Tags v,
      |fractionOf (fun z : R × SealHash v × Tried v r n L X =>
          A (z.2.2.sealedView P d sk j ask k o u q m .left z.1 z.2.1)) -
        fractionOf (fun z : R × SealHash v × Tried v r n L X =>
          A (z.2.2.sealedView P d sk j ask k o u q m .right z.1 z.2.1))| ≤
        fractionOf (fun z : R × SealHash v × Tried v r n L X × BytesN 32 × BytesN (pkeTagLen v) =>
          z.2.2.1.Hashed P d sk ask k o u q m .left z.1 z.2.1 z.2.2.2.1 z.2.2.2.2) +
        fractionOf (fun z : R × SealHash v × Tried v r n L X × BytesN 32 × BytesN (pkeTagLen v) =>
          z.2.2.1.Hashed P d sk ask k o u q m .right z.1 z.2.1 z.2.2.2.1 z.2.2.2.2) +
        1 / 2 ^ 88 := by
  obtain ⟨X₀, h⟩ := advantage hP hL sk j R hR k n o u q m ask hhide hlook A
  refine ⟨X₀, fun X hX d => (h X hX d).trans ?_⟩
  have h1 : (2 : ℚ) * k / 2 ^ 256 ≤ 1 / 2 ^ 90 := by
    have : (k : ℚ) ≤ 2 ^ 128 := by exact_mod_cast hk
    rw [div_le_div_iff₀ (by positivity) (by positivity)]
    calc (2 : ℚ) * k * 2 ^ 90 ≤ 2 * 2 ^ 128 * 2 ^ 90 := by gcongr
      _ ≤ 1 * 2 ^ 256 := by norm_num
  have h4 : (4 : ℚ) * m / 2 ^ (8 * Spec.tagLen v) ≤ 1 / 2 ^ 90 := by
    have hm : (m : ℚ) ≤ 2 ^ 100 := by exact_mod_cast Nat.le_of_succ_le hm
    have ht : (2 : ℚ) ^ 256 ≤ 2 ^ (8 * Spec.tagLen v) := by
      refine pow_le_pow_right₀ (by norm_num) ?_
      cases v <;> decide
    refine (div_le_div_of_nonneg_left (by positivity) (by positivity) ht).trans ?_
    rw [div_le_div_iff₀ (by positivity) (by positivity)]
    calc (4 : ℚ) * m * 2 ^ 90 ≤ 4 * 2 ^ 100 * 2 ^ 90 := by gcongr
      _ ≤ 1 * 2 ^ 256 := by norm_num
  have h2 := practical_bound v r n o u q (m + 1) hr hn ho hu hq hm
  push_cast at h2
  have h3 : (1 : ℚ) / 2 ^ 88 = 1 / 2 ^ 90 + 1 / 2 ^ 90 + 1 / 2 ^ 89 := by norm_num
  rw [h3]
  linarith

/-- Where nothing is unsealed, the chances differ by at most `2 ^ -88` but for the chances that the shared secret
is computed from the two public keys. -/
theorem advantage_passive (hP : P.Laws) (hL : 32 ≤ L) (sk : Key P v .Secret) (j : Fin r) (R : Finset Rng)
    (hR : ∀ rng ∈ R, (ephemeral P sk.publicKey rng).isSome) (k n o u q m : Nat) (hk : k ≤ 2 ^ 128)
    (hr : r ≤ 2 ^ 64) (hn : n ≤ 2 ^ 64) (ho : o ≤ 2 ^ 64) (hu : u ≤ 2 ^ 100) (hq : q ≤ 2 ^ 100)
    (hm : m + 1 ≤ 2 ^ 100) (ask : Bytes → List (Got v L) → Option (Wish v r))
    (hask : ∀ text answers y, ask text answers ≠ some (.unseal y))
    (hhide : ∀ text answers i a, ask text answers = some (.attempt (.hide i a)) → a.Comparable P L ∧ a.Fits)
    (hlook : ∀ text answers i a, ask text answers = some (.attempt (.look i a)) → a.Fits)
    (A : Res (Bytes × List (Got v L)) → Prop) :
    ∃ X₀ : Finset (Bytes × Bytes), ∀ X, X₀ ⊆ X → ∀ d : Tags v,
      |fractionOf (fun z : R × SealHash v × Tried v r n L X =>
          A (z.2.2.sealedView P d sk j ask k o u q m .left z.1 z.2.1)) -
        fractionOf (fun z : R × SealHash v × Tried v r n L X =>
          A (z.2.2.sealedView P d sk j ask k o u q m .right z.1 z.2.1))| ≤
        ∑ i ∈ Finset.range q, fractionOf (fun z : R × SealHash v × Tried v r n L X × BytesN 32 ×
            BytesN (pkeTagLen v) => ∃ xk epk, ephemeral P sk.publicKey z.1 = some (xk, epk) ∧
          z.2.2.1.solve P d ask k o u q m .left epk z.2.1 z.2.2.2.1 z.2.2.2.2 i = some xk) +
        ∑ i ∈ Finset.range q, fractionOf (fun z : R × SealHash v × Tried v r n L X × BytesN 32 ×
            BytesN (pkeTagLen v) => ∃ xk epk, ephemeral P sk.publicKey z.1 = some (xk, epk) ∧
          z.2.2.1.solve P d ask k o u q m .right epk z.2.1 z.2.2.2.1 z.2.2.2.2 i = some xk) +
        1 / 2 ^ 88 := by
  obtain ⟨X₀, h⟩ := advantage_practical hP hL sk j R hR k n o u q m hk hr hn ho hu hq hm ask hhide hlook A
  refine ⟨X₀, fun X hX d => (h X hX d).trans ?_⟩
  have s1 := secret_computed sk R k n o u q m ask hask X d .left
  have s2 := secret_computed sk R k n o u q m ask hask X d .right
  linarith

/-- In any case, the chances differ by at most `2 ^ -88` but for the chances that the shared secret is computed from
the two public keys, with the help of a recipient who unseals texts with other ephemeral keys. -/
theorem advantage_helped (hP : P.Laws) (hL : 32 ≤ L) (sk : Key P v .Secret) (j : Fin r) (R : Finset Rng)
    (hR : ∀ rng ∈ R, (ephemeral P sk.publicKey rng).isSome) (k n o u q m : Nat) (hk : k ≤ 2 ^ 128)
    (hr : r ≤ 2 ^ 64) (hn : n ≤ 2 ^ 64) (ho : o ≤ 2 ^ 64) (hu : u ≤ 2 ^ 100) (hq : q ≤ 2 ^ 100)
    (hm : m + 1 ≤ 2 ^ 100) (ask : Bytes → List (Got v L) → Option (Wish v r))
    (hhide : ∀ text answers i a, ask text answers = some (.attempt (.hide i a)) → a.Comparable P L ∧ a.Fits)
    (hlook : ∀ text answers i a, ask text answers = some (.attempt (.look i a)) → a.Fits)
    (A : Res (Bytes × List (Got v L)) → Prop) :
    ∃ X₀ : Finset (Bytes × Bytes), ∀ X, X₀ ⊆ X → ∀ d : Tags v,
      |fractionOf (fun z : R × SealHash v × Tried v r n L X =>
          A (z.2.2.sealedView P d sk j ask k o u q m .left z.1 z.2.1)) -
        fractionOf (fun z : R × SealHash v × Tried v r n L X =>
          A (z.2.2.sealedView P d sk j ask k o u q m .right z.1 z.2.1))| ≤
        ∑ i ∈ Finset.range q, fractionOf (fun z : R × SealHash v × Tried v r n L X × BytesN 32 ×
            BytesN (pkeTagLen v) => ∃ xk epk, ephemeral P sk.publicKey z.1 = some (xk, epk) ∧
          z.2.2.1.solveWith P d (z.2.2.1.unsealed P d sk z.2.1) ask k o u q m .left epk z.2.1 z.2.2.2.1 z.2.2.2.2 i = some xk) +
        ∑ i ∈ Finset.range q, fractionOf (fun z : R × SealHash v × Tried v r n L X × BytesN 32 ×
            BytesN (pkeTagLen v) => ∃ xk epk, ephemeral P sk.publicKey z.1 = some (xk, epk) ∧
          z.2.2.1.solveWith P d (z.2.2.1.unsealed P d sk z.2.1) ask k o u q m .right epk z.2.1 z.2.2.2.1 z.2.2.2.2 i = some xk) +
        1 / 2 ^ 88 := by
  obtain ⟨X₀, h⟩ := advantage_practical hP hL sk j R hR k n o u q m hk hr hn ho hu hq hm ask hhide hlook A
  refine ⟨X₀, fun X hX d => (h X hX d).trans ?_⟩
  have s1 := secret_computed_helped sk R k n o u q m ask X d .left
  have s2 := secret_computed_helped sk R k n o u q m ask X d .right
  linarith

/-! ### The game is played -/

/-- Nothing breaks the game off: the key is sealed, and with `k` requests and `k` of each kind allowed, there
are `k` answers unless nothing more is asked. -/
theorem runs (sk : Key P v .Secret) (j : Fin r) {rng : Rng} (hR : (ephemeral P sk.publicKey rng).isSome)
    (k n o u q m : Nat) (hn : k ≤ n) (ho : k ≤ o) (hu : k ≤ u) (hq : k ≤ q) (hm : k ≤ m)
    (ask : Bytes → List (Got v L) → Option (Wish v r))
    (hhide : ∀ text answers i a, ask text answers = some (.attempt (.hide i a)) → a.Comparable P L)
    (X : Finset (Bytes × Bytes)) (d : Tags v) (s : Side) (g : SealHash v) (x : Tried v r n L X) :
    ∃ text answers, x.sealedView P d sk j ask k o u q m s rng g = .ok (text, answers) ∧
      (answers.length = k ∨ answers.length < k ∧ ask text answers = none) := by
  obtain ⟨K, hall, hK⟩ := C101.all (T := BytesN 32)
  obtain ⟨⟨xk, epk⟩, he⟩ := Option.isSome_iff_exists.1 hR
  have he' := (ephemeral_eq (K := Finset.univ) (d.on X x.2.2) x.2.1.2.1 sk.publicKey rng).trans he
  have hl := fun b => C88.input_length (v := v) b (C88.ephemeral_length he) epk.2 (sealPub_length sk.publicKey)
  obtain ⟨text, ht⟩ : ∃ text, sealedText ((x.base P d).withSeal g x.2.1.2.2) ⟨x.1 j⟩
      ((x.secret P d sk).underSeal g x.2.1.2.2).publicKey rng = .ok text := by
    have e1 : ((x.secret P d sk).underSeal g x.2.1.2.2).publicKey =
        (pubAt Finset.univ (d.on X x.2.2) x.2.1.2.1 sk.publicKey).underSeal g x.2.1.2.2 := by cases v <;> rfl
    rw [e1]
    have h := C88.sealed (P := bs P Finset.univ (d.on X x.2.2) x.2.1.2.1) ⟨x.1 j⟩
      (pubAt Finset.univ (d.on X x.2.2) x.2.1.2.1 sk.publicKey) g x.2.1.2.2 he'
      (by rw [pub_eq]; exact hl 1) (by rw [pub_eq]; exact hl 2)
    rw [local_under] at h
    exact ⟨_, h⟩
  have h := hybrid_total P hK x.2.1.2.2 (d.on X x.2.2) g
    (fun y => if y = text then none else some (x.unsealed P d sk g y)) s (ask text) (hhide text) x.2.1.2.1 x.1
    k o u q m (List.ofFn x.2.1.1) [] [] (by rw [List.length_ofFn]; exact hn) ho hu hq hm
  rw [List.length_ofFn] at h
  obtain ⟨answers, h1, h2⟩ := h
  have h3 : (x.hybrid P d ask k o u q m s g
      (fun y => if y = text then none else some (x.unsealed P d sk g y)) text).1 = .ok answers := by
    unfold Tried.hybrid
    unfold hp at h1
    rw [← Hybrid.seal_pr, hall] at h1
    exact h1
  refine ⟨text, answers, ?_, by simpa using h2⟩
  unfold Tried.sealedView
  rw [ht, Res.ok_bind, h3]
  rfl

/-! ### The recipient has the key -/

theorem laws_base (hP : P.Laws) {n : Nat} {X : Finset (Bytes × Bytes)} (d : Tags v) (g : SealHash v)
    (x : Tried v r n L X) : ((x.base P d).withSeal g x.2.1.2.2).Laws := by
  cases v <;> exact { hP with }

/-- Sealing has a point: whoever has the secret key gets from a text the key that was sealed. So do those who
ask for it, unless it is the text that the game is about. -/
theorem unseals (hP : P.Laws) (sk : Key P v .Secret) (n : Nat) (X : Finset (Bytes × Bytes)) (d : Tags v)
    (g : SealHash v) (x : Tried v r n L X) (key : BytesN 32) (rng : Rng) {text : Bytes}
    (h : sealedText ((x.base P d).withSeal g x.2.1.2.2) ⟨key⟩
      ((x.secret P d sk).underSeal g x.2.1.2.2).publicKey rng = .ok text) :
    x.unsealed P d sk g text = .ok key.1 := by
  unfold sealedText at h
  obtain ⟨⟨w, rng'⟩, h5, h6⟩ := Res.bind_eq_ok.1 h
  have h7 := C43.seal_roundtrip_direct (laws_base hP d g x) _ _ _ _ _ h5
  unfold Tried.unsealed unsealText
  rw [(C43.seal_text_iff _ _).2 h6, Res.ok_bind, h7]
  cases v <;> rfl

/-- The recipient has the key in use. -/
theorem recipient (hP : P.Laws) (sk : Key P v .Secret) (j : Fin r) (rng : Rng) (k n o u q m : Nat)
    (ask : Bytes → List (Got v L) → Option (Wish v r)) (X : Finset (Bytes × Bytes)) (d : Tags v) (s : Side)
    (g : SealHash v) (x : Tried v r n L X) {text : Bytes} {answers : List (Got v L)}
    (h : x.sealedView P d sk j ask k o u q m s rng g = .ok (text, answers)) :
    x.unsealed P d sk g text = .ok (x.1 j).1 := by
  unfold Tried.sealedView at h
  obtain ⟨t, h1, h2⟩ := Res.bind_eq_ok.1 h
  obtain ⟨a, h3, h4⟩ := Res.bind_eq_ok.1 h2
  cases h4
  exact unseals hP sk n X d g x (x.1 j) rng h1

/-! ### A case -/

/-- After the first of two keys has been sealed: an input is hashed, or a text is unsealed. Then, left, the
first key wraps zeros; right, the second wraps ones. Then a key is guessed; with text, answers and what the guess
derives another text is made, and handed in under the first key. -/
def prober (v : Ver) (L : Nat) (first : Bytes → BytesN (sealInLen v) ⊕ Bytes) (guess : Got v L → BytesN 32)
    (make : Bytes → Told → (EncInput → Derived v) → Bytes) (text : Bytes) :
    List (Got v L) → Option (Wish v 2)
  | [] =>
    match first text with
    | .inl x => some (.hash x)
    | .inr y => some (.unseal y)
  | [_] => some (.attempt (.hide (fun | .left => 0 | .right => 1) (.wrap .Local (C83.twoKeys v))))
  | [y, .found (.told _)] => some (.attempt (.derive (guess y)))
  | [_, .found (.told t), .found (.derived e)] =>
    some (.attempt (.look 0 (.unwrap .Local (make text t e))))
  | _ => none

section

variable (first : Bytes → BytesN (sealInLen v) ⊕ Bytes) (guess : Got v L → BytesN 32)
  (make : Bytes → Told → (EncInput → Derived v) → Bytes)

theorem prober_hides (P : Prims) (hL : 32 ≤ L) (text : Bytes) (answers : List (Got v L)) (i : Side → Fin 2)
    (a : Hiding v) (h : prober v L first guess make text answers = some (.attempt (.hide i a))) :
    a.Comparable P L ∧ a.Fits := by
  unfold prober at h
  split at h
  · split at h <;> cases h
  · cases h
    refine ⟨⟨fun s => ⟨⟨C83.twoKeys v s⟩, by cases v <;> rfl⟩, ?_⟩, trivial⟩
    cases v <;> exact hL
  · cases h
  · cases h
  · cases h

theorem prober_looks (text : Bytes) (answers : List (Got v L)) (i : Fin 2) (a : Opening v)
    (h : prober v L first guess make text answers = some (.attempt (.look i a))) : a.Fits := by
  unfold prober at h
  split at h
  · split at h <;> cases h
  · cases h
  · cases h
  · cases h; trivial
  · cases h

theorem prober_passive (input : Bytes → BytesN (sealInLen v)) (text : Bytes) (answers : List (Got v L))
    (y : Bytes) : prober v L (fun t => .inl (input t)) guess make text answers ≠ some (.unseal y) := by
  intro h
  unfold prober at h
  split at h <;> cases h

end

section

variable (first : Bytes → BytesN (sealInLen v) ⊕ Bytes) (guess : Got v 32 → BytesN 32)
  (make : Bytes → Told → (EncInput → Derived v) → Bytes)

/-- Random bytes with which sealing for the sample key succeeds. -/
theorem sample_all (v : Ver) : ∀ rng ∈ ({C43.sampleRng} : Finset Rng),
    (ephemeral Toy.prims (C43.sampleSecret v).publicKey rng).isSome := fun rng h => by
  rw [Finset.mem_singleton.1 h]; exact C88.sample_some v

/-- The hypotheses of `advantage_practical` are met, -/
example (A : Res (Bytes × List (Got v 32)) → Prop) :=
  advantage_practical Toy.laws (Nat.le_refl 32) (C43.sampleSecret v) 0 {C43.sampleRng} (sample_all v) 4 1 1 1 1 1
    (by norm_num) (by norm_num) (by norm_num) (by norm_num) (by norm_num) (by norm_num) (by norm_num) _
    (prober_hides first guess make Toy.prims (Nat.le_refl 32)) (prober_looks first guess make) A

/-- … those of `advantage_passive`, -/
example (input : Bytes → BytesN (sealInLen v)) (A : Res (Bytes × List (Got v 32)) → Prop) :=
  advantage_passive Toy.laws (Nat.le_refl 32) (C43.sampleSecret v) 0 {C43.sampleRng} (sample_all v) 4 1 1 1 1 0
    (by norm_num) (by norm_num) (by norm_num) (by norm_num) (by norm_num) (by norm_num) (by norm_num) _
    (prober_passive guess make input) (prober_hides _ guess make Toy.prims (Nat.le_refl 32))
    (prober_looks _ guess make) A

/-- … those of `advantage_helped`, -/
example (A : Res (Bytes × List (Got v 32)) → Prop) :=
  advantage_helped Toy.laws (Nat.le_refl 32) (C43.sampleSecret v) 0 {C43.sampleRng} (sample_all v) 4 1 1 1 1 1
    (by norm_num) (by norm_num) (by norm_num) (by norm_num) (by norm_num) (by norm_num) (by norm_num) _
    (prober_hides first guess make Toy.prims (Nat.le_refl 32)) (prober_looks first guess make) A

/-- … those of `key_met` and `unopened`, -/
example (s : Side) :=
  key_met Toy.laws (Nat.le_refl 32) (C43.sampleSecret v) 0 {C43.sampleRng} (sample_all v) 4 1 1 1 1 1 _
    (fun text answers i a h => (prober_hides first guess make Toy.prims (Nat.le_refl 32) text answers i a h).1) s

example (s : Side) :=
  unopened Toy.laws (Nat.le_refl 32) (C43.sampleSecret v) 0 {C43.sampleRng} (sample_all v) 4 1 1 1 1 1 _
    (prober_hides first guess make Toy.prims (Nat.le_refl 32)) (prober_looks first guess make) s

/-- … and those of `runs` and `recipient`: the requests are made, and the recipient has the first key. -/
example (X : Finset (Bytes × Bytes)) (d : Tags v) (s : Side) (g : SealHash v) (x : Tried v 2 4 32 X) :
    ∃ text answers, x.sealedView Toy.prims d (C43.sampleSecret v) 0 (prober v 32 first guess make)
        4 4 4 4 4 s C43.sampleRng g = .ok (text, answers) ∧
      (answers.length = 4 ∨ answers.length < 4 ∧ prober v 32 first guess make text answers = none) ∧
      x.unsealed Toy.prims d (C43.sampleSecret v) g text = .ok (x.1 0).1 := by
  have hn := Nat.le_refl 4
  obtain ⟨text, answers, h1, h2⟩ := runs (C43.sampleSecret v) 0 (C88.sample_some v) 4 4 4 4 4 4
    hn hn hn hn hn (prober v 32 first guess make)
    (fun text answers i a h => (prober_hides first guess make Toy.prims (Nat.le_refl 32) text answers i a h).1)
    X d s g x
  exact ⟨text, answers, h1, h2, recipient Toy.laws (C43.sampleSecret v) 0 _ 4 4 4 4 4 4 _ X d s g x h1⟩

end

/-- Whoever knows the shared secret may hash it: then nothing is claimed. -/
example (v : Ver) : ∃ ask : Bytes → List (Got v 32) → Option (Wish v 2),
    ∀ (X : Finset (Bytes × Bytes)) (d : Tags v) (s : Side) (g : SealHash v) (x : Tried v 2 1 32 X) edk ak,
      x.Hashed Toy.prims d (C43.sampleSecret v) ask 1 0 0 1 0 s C43.sampleRng g edk ak := by
  obtain ⟨⟨xk, epk⟩, he⟩ := Option.isSome_iff_exists.1 (C88.sample_some v)
  have h1 := C88.input_length (v := v) 1 (C88.ephemeral_length he) epk.2
    (sealPub_length (C43.sampleSecret v).publicKey)
  exact ⟨fun _ _ => some (.hash ⟨_, h1⟩), fun X d s g x edk ak =>
    ⟨xk, epk, he, ⟨_, h1⟩, List.mem_cons_self, 1, rfl⟩⟩

/-- Whether a key in use is met is not decided beforehand. -/
example (first : Bytes → BytesN (sealInLen v) ⊕ Bytes) (guess : Got v L → BytesN 32)
    (make : Bytes → Told → (EncInput → Derived v) → Bytes) (text : Bytes) (y : Got v L) (t : Told)
    (e : EncInput → Derived v) :
    KeyMet (fun _ => guess y) (prober v L first guess make text) [y, .found (.told t), .found (.derived e)] :=
  ⟨[y, .found (.told t)], [], e, 0, rfl, rfl⟩

end Pasta.C102
