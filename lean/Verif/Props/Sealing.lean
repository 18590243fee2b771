import Mathlib.Algebra.BigOperators.Field
import Mathlib.Tactic.Positivity
import Mathlib.Tactic.NormNum
import Verif.Spec.Sealing
import Verif.Lemmas.RandomTags
import Verif.Lemmas.OneCipher
import Verif.Props.Pke
import Verif.Props.Distinguish
import Verif.Props.Birthday

/-!
# C88: telling which key was sealed is computing the shared secret

With a random key derivation hash and a random cipher.
-/

namespace Pasta.C88

open Plug (k0 stream1 outAt fixAt out_fixAt fixAt_fixAt flat_length)
open C82 (count count_eq count_prod count_prod')
open Spec (sealPub unsealSecret sealTag sealTagged sealKdfInput paserkText)

variable {P : Prims} {v : Ver} {L : Nat}

/-! ### What sealing and unsealing use of the hash and the cipher -/

theorem input_length (d : UInt8) {xk epk pk : Bytes} (h1 : xk.length = xkLen v)
    (h2 : epk.length = pkeEpkLen v) (h3 : pk.length = pkeEpkLen v) :
    (sealKdfInput v d xk epk pk).length = sealInLen v := by
  rw [← pkeKdfInput_eq]
  have e4 : (asc ".seal.").length = 6 := rfl
  cases v
  · have e6 : (Ver.paserkHeader .V3).length = 2 := rfl
    have h1 : xk.length = 48 := h1
    have h2 : epk.length = 49 := h2
    have h3 : pk.length = 49 := h3
    simp only [pkeKdfInput, List.length_append, List.length_singleton, h1, h2, h3, e4, e6]
    rfl
  · have e6 : (Ver.paserkHeader .V4).length = 2 := rfl
    have h1 : xk.length = 32 := h1
    have h2 : epk.length = 32 := h2
    have h3 : pk.length = 32 := h3
    simp only [pkeKdfInput, List.length_append, List.length_singleton, h1, h2, h3, e4, e6]
    rfl

/-- The cipher key in a value of the key derivation hash. -/
def kOf (t : BytesN (pkeTagLen v)) : BytesN 32 :=
  ⟨t.1.take 32, by rw [List.length_take, t.2]; cases v <;> rfl⟩

variable (P) in
/-- The initialisation vector. -/
def ivOf (epk pk : Bytes) : {v : Ver} → BytesN (pkeTagLen v) → BytesN (ivLen v)
  | .V3, t => (BytesN.split 32 16 rfl t).2
  | .V4, _ => P.blake2b 24 (epk ++ pk)

theorem code_stream (f : SealHash v) (c : CipherOf v L) (xk epk pk : Bytes)
    (h : (sealKdfInput v 1 xk epk pk).length = sealInLen v) :
    pkeCodeStream (P.withSeal f c) v xk epk pk =
      stream1 P (c (kOf (f ⟨_, h⟩))) (ivOf P epk pk (f ⟨_, h⟩)) := by
  cases v with
  | V3 =>
    have e : (P.withSeal f c).sha384 (sealKdfInput .V3 1 xk epk pk) = f ⟨_, h⟩ := dif_pos h
    show (P.withSeal f c).aesCtr64 (BytesN.split 32 16 rfl ((P.withSeal f c).sha384 _)).1
      (BytesN.split 32 16 rfl ((P.withSeal f c).sha384 _)).2 = _
    rw [e]
    rfl
  | V4 =>
    have e : (P.withSeal f c).blake2b 32 (sealKdfInput .V4 1 xk epk pk) = f ⟨_, h⟩ := by
      refine (dif_pos (show 32 = 32 ∧ _ from ⟨rfl, h⟩)).trans ?_
      rfl
    have e' : (P.withSeal f c).blake2b 24 (epk ++ pk) = P.blake2b 24 (epk ++ pk) := by
      simp [Prims.withSeal, Prims.withSealHash, Prims.withCiphers]
    have ek : kOf (v := .V4) (f ⟨_, h⟩) = f ⟨_, h⟩ := Subtype.ext (by
      show (f ⟨_, h⟩).1.take 32 = _
      rw [List.take_of_length_le]
      rw [(f ⟨_, h⟩).2]; exact Nat.le_refl _)
    show (P.withSeal f c).xchacha20 ((P.withSeal f c).blake2b 32 _) ((P.withSeal f c).blake2b 24 _) = _
    rw [e, e', ek]
    rfl

theorem code_tag (f : SealHash v) (c : CipherOf v L) (xk : Bytes) (epk : BytesN (pkeEpkLen v))
    (pk : Bytes) (edk : BytesN 32) (h : (sealKdfInput v 2 xk epk.1 pk).length = sealInLen v) :
    sealTag (P.withSeal f c) v xk epk.1 pk edk.1 = (sealMac P (f ⟨_, h⟩) epk edk).1 := by
  cases v with
  | V3 =>
    have e : (P.withSeal f c).sha384 (sealKdfInput .V3 2 xk epk.1 pk) = f ⟨_, h⟩ := dif_pos h
    show ((P.withSeal f c).hmacSha384 ((P.withSeal f c).sha384 _).1 _).1 = _
    rw [e]
    rfl
  | V4 =>
    have e : (P.withSeal f c).blake2b 32 (sealKdfInput .V4 2 xk epk.1 pk) = f ⟨_, h⟩ :=
      (dif_pos (show 32 = 32 ∧ _ from ⟨rfl, h⟩)).trans rfl
    show ((P.withSeal f c).blake2bMac 32 ((P.withSeal f c).blake2b 32 _).1 _).1 = _
    rw [e]
    rfl

theorem ephemeral_V3 {pk : Key P .V3 .Public} {rng : Rng} {xk : Bytes} {epk : BytesN (pkeEpkLen .V3)}
    (h : ephemeral P pk rng = some (xk, epk)) : ∃ esk rng', p384Random rng = .ok (esk, rng') ∧
      xk = (P.p384Dh esk pk.key).1 ∧ epk = P.p384Compress (P.p384Public esk) := by
  cases hr : p384Random rng with
  | ok x =>
    simp only [ephemeral, hr] at h
    cases h
    exact ⟨x.1, x.2, rfl, rfl, rfl⟩
  | err e => simp only [ephemeral, hr] at h; cases h
  | panic => simp only [ephemeral, hr] at h; cases h

theorem ephemeral_V4 {pk : Key P .V4 .Public} {rng : Rng} {xk : Bytes} {epk : BytesN (pkeEpkLen .V4)}
    (h : ephemeral P pk rng = some (xk, epk)) : ∃ b rng', fillBytes 32 rng = .ok (b, rng') ∧
      xk = (P.montMul (scalarModOrder (clampInteger b)) (P.edToMontgomery pk.key)).1 ∧
      epk = P.montMulBase (scalarModOrder (clampInteger b)) := by
  cases hr : fillBytes 32 rng with
  | ok x =>
    simp only [ephemeral, hr] at h
    cases h
    exact ⟨x.1, x.2, rfl, rfl, rfl⟩
  | err e => simp only [ephemeral, hr] at h; cases h
  | panic => simp only [ephemeral, hr] at h; cases h

theorem ephemeral_length {pk : Key P v .Public} {rng : Rng} {xk : Bytes} {epk : BytesN (pkeEpkLen v)}
    (h : ephemeral P pk rng = some (xk, epk)) : xk.length = xkLen v := by
  cases v with
  | V3 =>
    obtain ⟨esk, r, -, e⟩ := ephemeral_V3 h
    rw [e.1]; exact (P.p384Dh _ _).2
  | V4 =>
    obtain ⟨b, r, -, e⟩ := ephemeral_V4 h
    rw [e.1]; exact (P.montMul _ _).2

theorem secret_length {sk : Key P v .Secret} {epk : BytesN (pkeEpkLen v)} {xk : Bytes}
    (h : unsealSecret P sk epk = some xk) : xk.length = xkLen v := by
  cases v with
  | V3 =>
    unfold unsealSecret at h
    dsimp only at h
    cases hp : P.p384Parse epk.1 with
    | none => rw [hp] at h; cases h
    | some e => rw [hp] at h; cases h; exact (P.p384Dh _ _).2
  | V4 => cases h; exact (P.montMul _ _).2

theorem pub_under (pk : Key P v .Public) (f : SealHash v) (c : CipherOf v L) :
    sealPub (P.withSeal f c) (pk.underSeal f c) = sealPub P pk := by
  cases v <;> rfl

theorem secret_under (sk : Key P v .Secret) (f : SealHash v) (c : CipherOf v L)
    (epk : BytesN (pkeEpkLen v)) :
    unsealSecret (P.withSeal f c) (sk.underSeal f c) epk = unsealSecret P sk epk := by
  cases v <;> rfl

theorem public_under (sk : Key P v .Secret) (f : SealHash v) (c : CipherOf v L) :
    (sk.underSeal f c).publicKey = sk.publicKey.underSeal f c := by
  cases v <;> rfl

theorem draw (pk : Key P v .Public) (f : SealHash v) (c : CipherOf v L) {rng : Rng} {xk : Bytes}
    {epk : BytesN (pkeEpkLen v)} (h : ephemeral P pk rng = some (xk, epk)) :
    ∃ rng', SealDraw P pk rng xk epk.1 rng' ∧
      SealDraw (P.withSeal f c) (pk.underSeal f c) rng xk epk.1 rng' := by
  cases v with
  | V3 =>
    obtain ⟨esk, r, hr, rfl, rfl⟩ := ephemeral_V3 h
    exact ⟨r, ⟨esk, hr, rfl, rfl⟩, ⟨esk, hr, rfl, rfl⟩⟩
  | V4 =>
    obtain ⟨b, r, hr, rfl, rfl⟩ := ephemeral_V4 h
    rw [fillBytes_eq_ok] at hr
    exact ⟨r, ⟨b, hr, rfl, rfl⟩, ⟨b, hr, rfl, rfl⟩⟩

/-- The sealed key under exchanged hash and cipher. -/
theorem sealed (key : Key P v .Local) (pk : Key P v .Public) (f : SealHash v) (c : CipherOf v L)
    {rng : Rng} {xk : Bytes} {epk : BytesN (pkeEpkLen v)} (h : ephemeral P pk rng = some (xk, epk))
    (h1 : (sealKdfInput v 1 xk epk.1 (sealPub P pk)).length = sealInLen v)
    (h2 : (sealKdfInput v 2 xk epk.1 (sealPub P pk)).length = sealInLen v) :
    sealedText (P.withSeal f c) (key.underSeal f c) (pk.underSeal f c) rng =
      .ok (randomText P epk (applyKeystreamN (stream1 P (c (kOf (f ⟨_, h1⟩)))
        (ivOf P epk.1 (sealPub P pk) (f ⟨_, h1⟩))) (show BytesN 32 from key.key)) (f ⟨_, h2⟩)) := by
  obtain ⟨rng', -, hd⟩ := draw pk f c h
  have hk : (key.underSeal f c).sealKey (pk.underSeal f c) rng = .ok (⟨_, _, _⟩, rng') :=
    (Key.sealKey_ok_iff (key.underSeal f c) (pk.underSeal f c) rng rng'
      ⟨sealMac P (f ⟨_, h2⟩) epk (applyKeystreamN (stream1 P (c (kOf (f ⟨_, h1⟩)))
        (ivOf P epk.1 (sealPub P pk) (f ⟨_, h1⟩))) (show BytesN 32 from key.key)), epk,
        applyKeystreamN (stream1 P (c (kOf (f ⟨_, h1⟩)))
        (ivOf P epk.1 (sealPub P pk) (f ⟨_, h1⟩))) (show BytesN 32 from key.key)⟩).2
      ⟨xk, hd, by
        rw [pub_under, code_stream f c xk epk.1 _ h1]
        cases v <;> rfl, by
        rw [pub_under, code_tag f c xk epk _ _ h2]⟩
  unfold sealedText
  rw [hk]
  exact SealedKey.display_eq _

/-- Unsealing under exchanged hash and cipher. -/
theorem unsealed (sk : Key P v .Secret) (f : SealHash v) (c : CipherOf v L) {s : Bytes}
    {w : SealedKey v} (hw : SealedKey.parse v s = .ok w) :
    (unsealSecret P sk w.ephemeralPublicKey = none →
      unsealText (P.withSeal f c) (sk.underSeal f c) s = .panic) ∧
    ∀ xk, unsealSecret P sk w.ephemeralPublicKey = some xk →
      ∀ (h1 : (sealKdfInput v 1 xk w.ephemeralPublicKey.1 (sealPub P sk.publicKey)).length = sealInLen v)
        (h2 : (sealKdfInput v 2 xk w.ephemeralPublicKey.1 (sealPub P sk.publicKey)).length = sealInLen v),
      unsealText (P.withSeal f c) (sk.underSeal f c) s =
        if w.tag = sealMac P (f ⟨_, h2⟩) w.ephemeralPublicKey w.encryptedDataKey then
          .ok (applyKeystreamN (stream1 P (c (kOf (f ⟨_, h1⟩)))
            (ivOf P w.ephemeralPublicKey.1 (sealPub P sk.publicKey) (f ⟨_, h1⟩))) w.encryptedDataKey).1
        else .err .cryptoError := by
  have e : unsealText (P.withSeal f c) (sk.underSeal f c) s =
      w.unsealKey (P.withSeal f c) (sk.underSeal f c) >>= fun key => .ok key.toBytes.1 := by
    unfold unsealText
    rw [hw]
    rfl
  rw [e, SealedKey.unsealKey_eq, secret_under, public_under, pub_under]
  refine ⟨fun h => by rw [h]; rfl, fun xk h h1 h2 => ?_⟩
  rw [h]
  dsimp only
  rw [code_tag f c xk w.ephemeralPublicKey _ w.encryptedDataKey h2,
    code_stream f c xk w.ephemeralPublicKey.1 _ h1]
  by_cases ht : w.tag = sealMac P (f ⟨_, h2⟩) w.ephemeralPublicKey w.encryptedDataKey
  · rw [if_pos ht, if_pos (congrArg Subtype.val ht)]
    cases v <;> rfl
  · rw [if_neg ht, if_neg fun h' => ht (Subtype.ext h')]
    rfl

variable (P) in
/-- The ciphertext of a sealed key. -/
def out (epk pk : Bytes) (key : BytesN 32) (t : BytesN (pkeTagLen v)) (s : OneCipher v L) : BytesN 32 :=
  outAt P (ivOf P epk pk t) key s

variable (P) in
/-- Change the cipher so that the ciphertext is the given one. -/
def fixc (epk pk : Bytes) (key : BytesN 32) (t : BytesN (pkeTagLen v)) (s : OneCipher v L)
    (e : BytesN 32) : OneCipher v L :=
  fixAt P (ivOf P epk pk t) key s e

theorem out_fixc (hL : 32 ≤ L) (epk pk : Bytes) (key : BytesN 32) (t : BytesN (pkeTagLen v))
    (s : OneCipher v L) (e : BytesN 32) :
    out P epk pk key t (fixc P epk pk key t s e) = e :=
  out_fixAt hL (by decide) _ key s e

theorem fixc_fixc (hL : 32 ≤ L) (epk pk : Bytes) (key : BytesN 32) (t : BytesN (pkeTagLen v))
    (s : OneCipher v L) (e : BytesN 32) :
    fixc P epk pk key t (fixc P epk pk key t s e) (out P epk pk key t s) = s :=
  fixAt_fixAt hL (by decide) _ key s e

/-! ### The two games -/

theorem play_congr (ans ans' : SealAsk v → SealAnswer v L)
    (ask : List (SealAnswer v L) → Option (SealAsk v)) (n : Nat) :
    ∀ seen, (∀ a ∈ (sealPlay ans ask n seen).2, ans' a = ans a) →
      sealPlay ans' ask n seen = sealPlay ans ask n seen := by
  induction n with
  | zero => intro seen _; rfl
  | succ n ih =>
    intro seen h
    unfold sealPlay at h ⊢
    cases ha : ask seen with
    | none => rfl
    | some a =>
      simp only [ha] at h
      have h1 : ans' a = ans a := h a List.mem_cons_self
      dsimp only
      rw [h1, ih (seen ++ [ans a]) fun b hb => h b (List.mem_cons_of_mem _ hb)]

theorem play_length (ans : SealAsk v → SealAnswer v L)
    (ask : List (SealAnswer v L) → Option (SealAsk v)) (n : Nat) :
    ∀ seen, (sealPlay ans ask n seen).2.length ≤ n := by
  induction n with
  | zero => intro seen; exact Nat.le_refl _
  | succ n ih =>
    intro seen
    unfold sealPlay
    cases ha : ask seen with
    | none => exact Nat.zero_le _
    | some a => exact Nat.succ_le_succ (ih _)

/-- The cipher keys that answering uses. -/
def uses (sk : Key P v .Secret) (f : SealHash v) : SealAsk v → List (BytesN 32)
  | .hash _ => []
  | .cipher k => [k]
  | .mac .. => []
  | .unseal s =>
    match SealedKey.parse v s with
    | .ok w =>
      match unsealSecret P sk w.ephemeralPublicKey with
      | some xk =>
        if h : (sealKdfInput v 1 xk w.ephemeralPublicKey.1 (sealPub P sk.publicKey)).length = sealInLen v
        then [kOf (f ⟨_, h⟩)] else []
      | none => []
    | _ => []

theorem uses_length (sk : Key P v .Secret) (f : SealHash v) (a : SealAsk v) :
    (uses sk f a).length ≤ 1 := by
  cases a with
  | hash m => exact Nat.zero_le _
  | cipher k => exact Nat.le_refl _
  | mac => exact Nat.zero_le _
  | «unseal» s =>
    unfold uses
    dsimp only
    split
    · split
      · split
        · exact Nat.le_refl _
        · exact Nat.zero_le _
      · exact Nat.zero_le _
    · exact Nat.zero_le _

theorem input_inj {d d' : UInt8} {xk epk pk xk' epk' pk' : Bytes} (hx : xk.length = xk'.length)
    (he : epk.length = epk'.length) (h : sealKdfInput v d xk epk pk = sealKdfInput v d' xk' epk' pk') :
    d = d' ∧ epk = epk' := by
  unfold sealKdfInput at h
  rw [List.cons.injEq, List.append_assoc, List.append_assoc, List.append_assoc, List.append_assoc,
    List.append_cancel_left_eq] at h
  obtain ⟨h1, h2⟩ := h
  obtain ⟨-, h3⟩ := List.append_inj h2 hx
  exact ⟨h1, (List.append_inj h3 he).1⟩

section

variable (hP : P.Laws) (hL : 32 ≤ L) (sk : Key P v .Secret) {rng : Rng} {xk : Bytes}
  {epk : BytesN (pkeEpkLen v)} (he : ephemeral P sk.publicKey rng = some (xk, epk))
  (h1 : (sealKdfInput v 1 xk epk.1 (sealPub P sk.publicKey)).length = sealInLen v)
  (h2 : (sealKdfInput v 2 xk epk.1 (sealPub P sk.publicKey)).length = sealInLen v)

include hP he in
theorem answer_eq (f : SealHash v) (c : CipherOf v L) (e : BytesN 32) (t1 t2 : BytesN (pkeTagLen v))
    (s : OneCipher v L) (a : SealAsk v)
    (ha : ∀ m, a = .hash m → ∀ d, m.1 ≠ sealKdfInput v d xk epk.1 (sealPub P sk.publicKey))
    (hf : ∀ x, a = .unseal x → x ≠ randomText P epk e t2 → ∀ e', x ≠ randomText P epk e' t2)
    (hu : kOf t1 ∉ uses sk f a) :
    sealAnswer P sk (Function.update (Function.update f ⟨_, h1⟩ t1) ⟨_, h2⟩ t2)
        (Function.update c (kOf t1) s) (randomText P epk e t2) a =
      idealAnswer P sk epk f c (randomText P epk e t2) a := by
  have hxl := ephemeral_length he
  cases a with
  | hash m =>
    show SealAnswer.hash _ = SealAnswer.hash (f m)
    have n1 : m ≠ ⟨_, h1⟩ := fun h => ha m rfl 1 (congrArg Subtype.val h)
    have n2 : m ≠ ⟨_, h2⟩ := fun h => ha m rfl 2 (congrArg Subtype.val h)
    rw [Function.update_of_ne n2, Function.update_of_ne n1]
  | cipher k =>
    show SealAnswer.cipher _ = SealAnswer.cipher (c k)
    have n1 : k ≠ kOf t1 := fun h => hu (by rw [h]; exact List.mem_singleton.2 rfl)
    rw [Function.update_of_ne n1]
  | mac ak m => rfl
  | «unseal» x =>
    unfold idealAnswer sealAnswer
    dsimp only
    by_cases hx : x = randomText P epk e t2
    · rw [if_pos hx, if_pos hx]
    rw [if_neg hx, if_neg hx]
    cases hw : SealedKey.parse v x with
    | err er =>
      rw [if_neg (by rintro ⟨w, h, -⟩; rw [hw] at h; cases h)]
      rw [if_neg hx]
      unfold unsealText
      rw [hw]
      rfl
    | panic =>
      rw [if_neg (by rintro ⟨w, h, -⟩; rw [hw] at h; cases h)]
      rw [if_neg hx]
      unfold unsealText
      rw [hw]
      rfl
    | ok w =>
      by_cases hwe : w.ephemeralPublicKey = epk
      · rw [if_pos ⟨w, hw, hwe⟩]
        obtain ⟨rng', hd, -⟩ := draw sk.publicKey f c he
        have hs := C43.shared_secret hP sk rng rng' xk epk hd
        have hu := (unsealed sk (Function.update (Function.update f ⟨_, h1⟩ t1) ⟨_, h2⟩ t2)
          (Function.update c (kOf t1) s) hw).2 xk (by rw [hwe]; exact hs) (by rw [hwe]; exact h1)
          (by rw [hwe]; exact h2)
        rw [hu, if_neg]
        intro ht
        apply hf x rfl hx w.encryptedDataKey
        have hx2 : (⟨sealKdfInput v 2 xk w.ephemeralPublicKey.1 (sealPub P sk.publicKey),
            by rw [hwe]; exact h2⟩ : BytesN (sealInLen v)) = ⟨_, h2⟩ := Subtype.ext (by
              show sealKdfInput v 2 xk w.ephemeralPublicKey.1 _ = _
              rw [hwe])
        rw [hx2, Function.update_self] at ht
        have hp := SealedKey.parse_ok_iff.1 hw
        rw [hp]
        unfold randomText
        rw [← hwe, ← ht]
        rfl
      · rw [if_neg (by rintro ⟨w', h, h'⟩; rw [hw] at h; cases h; exact hwe h'), if_neg hx]
        congr 1
        cases hs : unsealSecret P sk w.ephemeralPublicKey with
        | none => rw [(unsealed sk _ _ hw).1 hs, (unsealed sk _ _ hw).1 hs]
        | some xk' =>
          have hl := secret_length hs
          have hp : (sealPub P sk.publicKey).length = pkeEpkLen v := sealPub_length _
          have g1 := input_length (v := v) 1 hl w.ephemeralPublicKey.2 hp
          have g2 := input_length (v := v) 2 hl w.ephemeralPublicKey.2 hp
          rw [(unsealed sk _ _ hw).2 xk' hs g1 g2, (unsealed sk _ _ hw).2 xk' hs g1 g2]
          have ne : ∀ (d d' : UInt8) (g : (sealKdfInput v d xk' w.ephemeralPublicKey.1
              (sealPub P sk.publicKey)).length = sealInLen v) (g' : (sealKdfInput v d' xk epk.1
              (sealPub P sk.publicKey)).length = sealInLen v),
              (⟨_, g⟩ : BytesN (sealInLen v)) ≠ ⟨_, g'⟩ := by
            intro d d' g g' h
            exact hwe (Subtype.ext (input_inj (by rw [hl, hxl])
              (by rw [w.ephemeralPublicKey.2, epk.2]) (congrArg Subtype.val h)).2)
          rw [Function.update_of_ne (ne _ _ g1 h2), Function.update_of_ne (ne _ _ g1 h1),
            Function.update_of_ne (ne _ _ g2 h2), Function.update_of_ne (ne _ _ g2 h1)]
          have hk : kOf (f ⟨_, g1⟩) ≠ kOf t1 := by
            intro h
            apply hu
            unfold uses
            simp only [hw, hs, dif_pos g1]
            rw [h]
            exact List.mem_singleton.2 rfl
          rw [Function.update_of_ne hk]

include hP he hL in
theorem game_eq (keys : Side → Key P v .Local)
    (ask : Bytes → List (SealAnswer v L) → Option (SealAsk v)) (n : Nat) (a : Side) (f : SealHash v)
    (c : CipherOf v L) (e : BytesN 32) (t1 t2 : BytesN (pkeTagLen v)) (s : OneCipher v L)
    (hs : ¬ SecretHashed P sk.publicKey xk epk (idealAsked P sk ask n epk f c e t2))
    (hf : ¬ TagForged P epk e t2 (idealAsked P sk ask n epk f c e t2))
    (hu : kOf t1 ∉ (idealAsked P sk ask n epk f c e t2).flatMap (uses sk f)) :
    sealGame P sk (keys a) ask n rng (Function.update (Function.update f ⟨_, h1⟩ t1) ⟨_, h2⟩ t2)
        (Function.update c (kOf t1) (fixc P epk.1 (sealPub P sk.publicKey)
          (show BytesN 32 from (keys a).key) t1 s e)) =
      .ok (randomText P epk e t2, (sealPlay (idealAnswer P sk epk f c (randomText P epk e t2))
        (ask (randomText P epk e t2)) n []).1) := by
  have ne : (⟨_, h1⟩ : BytesN (sealInLen v)) ≠ ⟨_, h2⟩ := fun h =>
    absurd (congrArg (fun l : BytesN (sealInLen v) => l.1.head?) h) (by simp [sealKdfInput])
  unfold sealGame
  rw [sealed (keys a) sk.publicKey _ _ he h1 h2, Res.ok_bind, Function.update_self,
    Function.update_of_ne ne, Function.update_self, Function.update_self]
  have ho := out_fixc (P := P) hL epk.1 (sealPub P sk.publicKey) (show BytesN 32 from (keys a).key) t1 s e
  unfold out outAt at ho
  rw [ho, Res.pure_def]
  rw [play_congr (idealAnswer P sk epk f c (randomText P epk e t2)) _ (ask (randomText P epk e t2)) n []]
  intro b hb
  refine answer_eq hP sk he h1 h2 f c e t1 t2 _ b ?_ ?_ ?_
  · rintro m rfl d hm
    exact hs ⟨m, hb, d, hm⟩
  · rintro x rfl hx e' hx'
    exact hf ⟨x, hb, hx, e', hx'⟩
  · intro h
    exact hu (List.mem_flatMap.2 ⟨b, hb, h⟩)

end

/-! ### Counting -/

theorem kOf_count (k : BytesN 32) :
    count (fun t : BytesN (pkeTagLen v) => kOf t = k) ≤ 256 ^ (pkeTagLen v - 32) := by
  classical
  rw [← C75.card_bytes]
  unfold count
  rw [← Finset.card_univ]
  refine Finset.card_le_card_of_injOn
    (fun t => (⟨t.1.drop 32, by rw [List.length_drop, t.2]⟩ : BytesN (pkeTagLen v - 32)))
    (fun _ _ => Finset.mem_coe.2 (Finset.mem_univ _)) ?_
  intro t ht t' ht' h
  have ht : kOf t = k := by simpa using ht
  have ht' : kOf t' = k := by simpa using ht'
  have e1 : t.1.take 32 = t'.1.take 32 := congrArg Subtype.val (ht.trans ht'.symm)
  have e2 : t.1.drop 32 = t'.1.drop 32 := congrArg Subtype.val h
  exact Subtype.ext (by rw [← List.take_append_drop 32 t.1, e1, e2, List.take_append_drop])

theorem split_card (v : Ver) :
    256 ^ (pkeTagLen v - 32) * 256 ^ 32 = Fintype.card (BytesN (pkeTagLen v)) := by
  rw [C75.card_bytes, ← Nat.pow_add]
  cases v <;> rfl

/-- One tape. -/
theorem one_tape (hP : P.Laws) (hL : 32 ≤ L) (sk : Key P v .Secret) {rng : Rng} {xk : Bytes}
    {epk : BytesN (pkeEpkLen v)} (he : ephemeral P sk.publicKey rng = some (xk, epk))
    (keys : Side → Key P v .Local) (ask : Bytes → List (SealAnswer v L) → Option (SealAsk v)) (n : Nat)
    (D : Res (Bytes × List (SealAnswer v L)) → Prop) :
    |(count (fun x : SealHash v × CipherOf v L => D (sealGame P sk (keys .left) ask n rng x.1 x.2)) : ℚ) /
          Fintype.card (SealHash v × CipherOf v L) -
        count (fun x : SealHash v × CipherOf v L => D (sealGame P sk (keys .right) ask n rng x.1 x.2)) /
          Fintype.card (SealHash v × CipherOf v L)| ≤
      count (fun y : SealHash v × CipherOf v L × BytesN 32 × BytesN (pkeTagLen v) =>
        SecretHashed P sk.publicKey xk epk (idealAsked P sk ask n epk y.1 y.2.1 y.2.2.1 y.2.2.2) ∨
        TagForged P epk y.2.2.1 y.2.2.2 (idealAsked P sk ask n epk y.1 y.2.1 y.2.2.1 y.2.2.2)) /
        Fintype.card (SealHash v × CipherOf v L × BytesN 32 × BytesN (pkeTagLen v)) +
      n / (256 ^ 32 : Nat) := by
  have hp : (sealPub P sk.publicKey).length = pkeEpkLen v := sealPub_length _
  have h1 := input_length (v := v) 1 (ephemeral_length he) epk.2 hp
  have h2 := input_length (v := v) 2 (ephemeral_length he) epk.2 hp
  refine Plug.close (I := BytesN (sealInLen v)) (T := BytesN (pkeTagLen v)) (K := BytesN 32)
    (S := OneCipher v L) (E := BytesN 32) ⟨_, h1⟩ ⟨_, h2⟩ kOf (256 ^ (pkeTagLen v - 32)) (256 ^ 32) n
    (fun a t s e => fixc P epk.1 (sealPub P sk.publicKey) (show BytesN 32 from (keys a).key) t s e)
    (fun a t s => out P epk.1 (sealPub P sk.publicKey) (show BytesN 32 from (keys a).key) t s)
    (fun a t s e => out_fixc hL _ _ _ t s e) (fun a t s e => fixc_fixc hL _ _ _ t s e)
    kOf_count (split_card v) (Nat.pow_pos (by decide)) (Nat.pow_pos (by decide)) Fintype.card_pos
    (Fintype.card_pos_iff.2 ⟨k0⟩)
    (fun a x => D (sealGame P sk (keys a) ask n rng x.1 x.2))
    (fun y => D (.ok (randomText P epk y.2.2.1 y.2.2.2,
      (sealPlay (idealAnswer P sk epk y.1 y.2.1 (randomText P epk y.2.2.1 y.2.2.2))
        (ask (randomText P epk y.2.2.1 y.2.2.2)) n []).1))) _
    (fun y => (idealAsked P sk ask n epk y.1 y.2.1 y.2.2.1 y.2.2.2).flatMap (uses sk y.1)) ?_ ?_
  · intro y
    exact Nat.le_trans (flat_length _ (uses_length sk y.1) _) (play_length _ _ _ _)
  · intro a f c e t2 t1 s hb ht
    have hg := game_eq hP hL sk he h1 h2 keys ask n a f c e t1 t2 s (fun h => hb (.inl h))
      (fun h => hb (.inr h)) ht
    show D (sealGame P sk (keys a) ask n rng _ _) ↔ _
    rw [← hg]
    exact Iff.rfl

theorem chance_eq {R : Finset Rng} (A : R → SealHash v → CipherOf v L → Prop) :
    sealChance A = (∑ r : R, (count (fun x : SealHash v × CipherOf v L => A r x.1 x.2) : ℚ) /
      Fintype.card (SealHash v × CipherOf v L)) / Fintype.card R := by
  unfold sealChance
  rw [count_eq, count_prod, Fintype.card_prod, ← Finset.sum_div]
  push_cast
  rw [div_div, mul_comm]

theorem ideal_eq {R : Finset Rng}
    (A : R → SealHash v → CipherOf v L → BytesN 32 → BytesN (pkeTagLen v) → Prop) :
    idealSealChance A =
      (∑ r : R, (count (fun y : SealHash v × CipherOf v L × BytesN 32 × BytesN (pkeTagLen v) =>
        A r y.1 y.2.1 y.2.2.1 y.2.2.2) : ℚ) /
      Fintype.card (SealHash v × CipherOf v L × BytesN 32 × BytesN (pkeTagLen v))) / Fintype.card R := by
  unfold idealSealChance
  rw [count_eq, count_prod, Fintype.card_prod, ← Finset.sum_div]
  push_cast
  rw [div_div, mul_comm]

/-- C88. Whoever sees a sealed key, computes hash and cipher and has other texts unsealed, in at most
`n` requests chosen as they like, learns which of two keys was sealed at most as well as they hash the
shared secret, or make another right tag for the same ephemeral key, in a game that does not involve
the keys, and otherwise by guessing a cipher key. -/
theorem which_key (hP : P.Laws) (hL : 32 ≤ L) (sk : Key P v .Secret) (keys : Side → Key P v .Local)
    (R : Finset Rng) (hR : ∀ rng ∈ R, (ephemeral P sk.publicKey rng).isSome)
    (ask : Bytes → List (SealAnswer v L) → Option (SealAsk v)) (n : Nat)
    (D : Res (Bytes × List (SealAnswer v L)) → Prop) :
    |sealChance (R := R) (fun rng f c => D (sealGame P sk (keys .left) ask n rng f c)) -
        sealChance (R := R) (fun rng f c => D (sealGame P sk (keys .right) ask n rng f c))| ≤
      idealSealChance (R := R) (fun rng f c edk ak => ∃ xk epk,
          ephemeral P sk.publicKey rng = some (xk, epk) ∧
          SecretHashed P sk.publicKey xk epk (idealAsked P sk ask n epk f c edk ak)) +
        idealSealChance (R := R) (fun rng f c edk ak => ∃ xk epk,
          ephemeral P sk.publicKey rng = some (xk, epk) ∧
          TagForged P epk edk ak (idealAsked P sk ask n epk f c edk ak)) +
        n / 2 ^ 256 := by
  have e256 : ((256 ^ 32 : Nat) : ℚ) = 2 ^ 256 := by norm_num
  rw [chance_eq, chance_eq, ideal_eq, ideal_eq, ← sub_div, ← Finset.sum_sub_distrib, abs_div, ← add_div,
    ← Finset.sum_add_distrib]
  have hc : (0 : ℚ) ≤ Fintype.card R := Nat.cast_nonneg _
  rw [abs_of_nonneg hc]
  by_cases h0 : Fintype.card R = 0
  · rw [h0]
    simp only [Nat.cast_zero, div_zero, zero_add]
    positivity
  · have hcp : (0 : ℚ) < Fintype.card R := by exact_mod_cast Nat.pos_of_ne_zero h0
    rw [div_le_iff₀ hcp, add_mul, div_mul_cancel₀ _ (ne_of_gt hcp)]
    refine le_trans (Finset.abs_sum_le_sum_abs _ _) ?_
    rw [mul_comm ((n : ℚ) / 2 ^ 256), ← nsmul_eq_mul, ← Finset.card_univ (α := R), ← Finset.sum_const,
      ← Finset.sum_add_distrib]
    refine Finset.sum_le_sum fun r _ => ?_
    obtain ⟨⟨xk, epk⟩, he⟩ := Option.isSome_iff_exists.1 (hR r.1 r.2)
    have h := one_tape hP hL sk he keys ask n D
    rw [e256] at h
    have ex : ∀ Q : Bytes → BytesN (pkeEpkLen v) → Prop,
        (∃ xk' epk', ephemeral P sk.publicKey r.1 = some (xk', epk') ∧ Q xk' epk') ↔ Q xk epk := by
      intro Q
      constructor
      · rintro ⟨xk', epk', h1, h2⟩
        rw [he] at h1
        cases h1
        exact h2
      · exact fun h => ⟨xk, epk, he, h⟩
    have hor := Plug.count_or (α := SealHash v × CipherOf v L × BytesN 32 × BytesN (pkeTagLen v))
      (fun y => SecretHashed P sk.publicKey xk epk (idealAsked P sk ask n epk y.1 y.2.1 y.2.2.1 y.2.2.2))
      (fun y => TagForged P epk y.2.2.1 y.2.2.2 (idealAsked P sk ask n epk y.1 y.2.1 y.2.2.1 y.2.2.2))
    have hor' := div_le_div_of_nonneg_right (Nat.cast_le (α := ℚ).2 hor)
      (Nat.cast_nonneg (α := ℚ) (Fintype.card (SealHash v × CipherOf v L × BytesN 32 × BytesN (pkeTagLen v))))
    rw [Nat.cast_add, add_div] at hor'
    have hfin := le_trans h (add_le_add_left hor' ((n : ℚ) / 2 ^ 256))
    simp only [ex]
    exact hfin

/-! ### Without requests to unseal -/

/-- What is needed of the random bytes: that sealing succeeds. -/
theorem ephemeral_iff (key : Key P v .Local) (pk : Key P v .Public) (rng : Rng)
    (epk : BytesN (pkeEpkLen v)) :
    (∃ xk, ephemeral P pk rng = some (xk, epk)) ↔
      ∃ w rng', key.sealKey pk rng = .ok (w, rng') ∧ w.ephemeralPublicKey = epk := by
  have hdraw : ∀ xk, ephemeral P pk rng = some (xk, epk) ↔ ∃ rng', SealDraw P pk rng xk epk.1 rng' := by
    intro xk
    constructor
    · intro h
      obtain ⟨rng', h, -⟩ := draw (L := 0) pk (fun _ => ⟨List.replicate _ 0, List.length_replicate⟩)
        (fun _ => default) h
      exact ⟨rng', h⟩
    · rintro ⟨rng', h⟩
      cases v with
      | V3 =>
        obtain ⟨esk, hr, rfl, he⟩ := h
        simp only [ephemeral, hr]
        congr 2
        exact Subtype.ext he.symm
      | V4 =>
        obtain ⟨b, hr, rfl, he⟩ := h
        rw [← fillBytes_eq_ok] at hr
        simp only [ephemeral, hr]
        congr 2
        exact Subtype.ext he.symm
  constructor
  · rintro ⟨xk, h⟩
    obtain ⟨rng', hd⟩ := (hdraw xk).1 h
    let e : BytesN 32 := applyKeystreamN (pkeCodeStream P v xk epk.1 (sealPub P pk)) key.key
    exact ⟨⟨⟨_, C43.tag_length (P := P) xk epk.1 (sealPub P pk) e.1⟩, epk, e⟩, rng',
      (Key.sealKey_ok_iff key pk rng rng' _).2 ⟨xk, hd, rfl, rfl⟩, rfl⟩
  · rintro ⟨w, rng', h, rfl⟩
    obtain ⟨xk, hd, -⟩ := (Key.sealKey_ok_iff key pk rng rng' w).1 h
    exact ⟨xk, (hdraw xk).2 ⟨rng', hd⟩⟩

/-- Whoever makes no request to unseal asks what they would ask of someone without the secret key. -/
theorem asked_passive (sk : Key P v .Secret)
    (ask : Bytes → List (SealAnswer v L) → Option (SealAsk v))
    (hask : ∀ text seen s, ask text seen ≠ some (.unseal s)) (n : Nat) (epk : BytesN (pkeEpkLen v))
    (f : SealHash v) (c : CipherOf v L) (edk : BytesN 32) (ak : BytesN (pkeTagLen v)) :
    idealAsked P sk ask n epk f c edk ak = passiveAsked P ask n epk f c edk ak ∧
      ∀ s, SealAsk.unseal s ∉ idealAsked P sk ask n epk f c edk ak := by
  have no : ∀ (ans : SealAsk v → SealAnswer v L) (text : Bytes) (s : Bytes) (n : Nat) (seen),
      SealAsk.unseal s ∉ (sealPlay ans (ask text) n seen).2 := by
    intro ans text s n
    induction n with
    | zero => intro seen h; cases h
    | succ n ih =>
      intro seen h
      unfold sealPlay at h
      cases ha : ask text seen with
      | none => rw [ha] at h; cases h
      | some a =>
        rw [ha] at h
        rcases List.mem_cons.1 h with h | h
        · exact hask text seen s (by rw [ha, h])
        · exact ih _ h
  refine ⟨?_, fun s => no _ _ s _ _⟩
  unfold idealAsked passiveAsked
  dsimp only
  rw [play_congr _ _ _ n []]
  intro a ha
  cases a with
  | hash m => rfl
  | cipher k => rfl
  | mac ak m => rfl
  | «unseal» s => exact absurd ha (no _ _ s _ _)

/-- The hash of the shared secret shows the shared secret. -/
theorem solve_spec (sk : Key P v .Secret)
    (ask : Bytes → List (SealAnswer v L) → Option (SealAsk v))
    (hask : ∀ text seen s, ask text seen ≠ some (.unseal s)) (n : Nat) (xk : Bytes)
    (hx : xk.length = xkLen v) (epk : BytesN (pkeEpkLen v)) (pk : Key P v .Public)
    (f : SealHash v) (c : CipherOf v L) (edk : BytesN 32) (ak : BytesN (pkeTagLen v))
    (h : SecretHashed P pk xk epk (idealAsked P sk ask n epk f c edk ak)) :
    ∃ i < n, solve P ask n epk f c edk ak i = some xk := by
  obtain ⟨m, hm, d, hd⟩ := h
  have hlen : (idealAsked P sk ask n epk f c edk ak).length ≤ n := play_length _ _ _ _
  rw [(asked_passive sk ask hask n epk f c edk ak).1] at hm hlen
  obtain ⟨i, hi, he⟩ := List.mem_iff_getElem.1 hm
  refine ⟨i, Nat.lt_of_lt_of_le hi hlen, ?_⟩
  unfold solve
  rw [List.getElem?_eq_getElem hi, he]
  dsimp only
  rw [hd]
  have hh : (Spec.sealHeader v).length = 8 := by cases v <;> rfl
  unfold sealKdfInput
  rw [List.append_assoc, List.append_assoc, List.drop_succ_cons, List.drop_left' hh, List.take_left' hx]

open Finset in
/-- Without requests to unseal: telling which key was sealed is computing the Diffie–Hellman secret of
the recipient's public key and a fresh ephemeral public key. The one who computes it runs the other
without the secret keys, shows them a random text and returns part of one of their `n` requests. -/
theorem which_key_diffie_hellman (hP : P.Laws) (hL : 32 ≤ L) (sk : Key P v .Secret)
    (keys : Side → Key P v .Local) (R : Finset Rng)
    (hR : ∀ rng ∈ R, (ephemeral P sk.publicKey rng).isSome)
    (ask : Bytes → List (SealAnswer v L) → Option (SealAsk v))
    (hask : ∀ text seen s, ask text seen ≠ some (.unseal s)) (n : Nat)
    (D : Res (Bytes × List (SealAnswer v L)) → Prop) :
    |sealChance (R := R) (fun rng f c => D (sealGame P sk (keys .left) ask n rng f c)) -
        sealChance (R := R) (fun rng f c => D (sealGame P sk (keys .right) ask n rng f c))| ≤
      ∑ i ∈ range n, idealSealChance (R := R) (fun rng f c edk ak => ∃ xk epk,
          ephemeral P sk.publicKey rng = some (xk, epk) ∧ solve P ask n epk f c edk ak i = some xk) +
        n / 2 ^ 256 := by
  classical
  refine le_trans (which_key hP hL sk keys R hR ask n D) ?_
  have hz : idealSealChance (R := R) (fun rng f c edk ak => ∃ xk epk,
      ephemeral P sk.publicKey rng = some (xk, epk) ∧
      TagForged P epk edk ak (idealAsked P sk ask n epk f c edk ak)) = 0 := by
    unfold idealSealChance
    rw [filter_eq_empty_iff.2, card_empty, Nat.cast_zero, zero_div]
    rintro x - ⟨xk, epk, -, s, hs, -⟩
    exact (asked_passive sk ask hask n epk _ _ _ _).2 s hs
  rw [hz, add_zero]
  refine add_le_add_left ?_ _
  unfold idealSealChance
  rw [← Finset.sum_div]
  refine div_le_div_of_nonneg_right ?_ (Nat.cast_nonneg _)
  rw [← Nat.cast_sum]
  refine Nat.cast_le.2 (le_trans (card_le_card ?_) card_biUnion_le)
  intro x hx
  obtain ⟨xk, epk, he, hs⟩ := (mem_filter.1 hx).2
  obtain ⟨i, hi, h⟩ := solve_spec sk ask hask n xk (ephemeral_length he) epk _ _ _ _ _ hs
  exact mem_biUnion.2 ⟨i, mem_range.2 hi, mem_filter.2 ⟨mem_univ _, xk, epk, he, h⟩⟩

/-! ### Random tags -/

section tags

variable {M : Nat}

theorem tag_with (T : SealMac v M) (ak : BytesN (pkeTagLen v)) (m : Bytes) (hm : m.length ≤ M) :
    authTag (P.withSealMac v T) ak m = T ak ⟨m, hm⟩ := by
  cases v with
  | V3 => exact dif_pos ⟨ak.2, hm⟩
  | V4 => exact (dif_pos (show 32 = 32 ∧ ak.1.length = 32 ∧ m.length ≤ M from ⟨rfl, ak.2, hm⟩)).trans rfl

theorem tag_congr (T T' : SealMac v M) (ak : BytesN (pkeTagLen v)) (h : T' ak = T ak) (m : Bytes) :
    authTag (P.withSealMac v T') ak m = authTag (P.withSealMac v T) ak m := by
  by_cases hm : m.length ≤ M
  · rw [tag_with _ _ _ hm, tag_with _ _ _ hm, h]
  · cases v with
    | V3 =>
      have hn : ¬ (ak.1.length = 48 ∧ m.length ≤ M) := fun h => hm h.2
      have e : ∀ T : SealMac .V3 M, authTag (P.withSealMac .V3 T) ak m = P.hmacSha384 ak.1 m :=
        fun T => dif_neg hn
      rw [e, e]
    | V4 =>
      have hn : ¬ (32 = 32 ∧ ak.1.length = 32 ∧ m.length ≤ M) := fun h => hm h.2.2
      have e : ∀ T : SealMac .V4 M, authTag (P.withSealMac .V4 T) ak m = P.blake2bMac 32 ak.1 m :=
        fun T => dif_neg hn
      rw [e, e]

theorem laws_with (hP : P.Laws) (T : SealMac v M) : (P.withSealMac v T).Laws := by
  cases v
  · exact { hP with }
  · exact { hP with }

theorem ephemeral_with (T : SealMac v M) (sk : Key P v .Secret) (rng : Rng) :
    ephemeral (P.withSealMac v T) (sk.underMac T).publicKey rng = ephemeral P sk.publicKey rng := by
  cases v <;> rfl

theorem pub_with (T : SealMac v M) (sk : Key P v .Secret) :
    sealPub (P.withSealMac v T) (sk.underMac T).publicKey = sealPub P sk.publicKey := by
  cases v <;> rfl

theorem secret_with (T : SealMac v M) (sk : Key P v .Secret) (epk : BytesN (pkeEpkLen v)) :
    unsealSecret (P.withSealMac v T) (sk.underMac T) epk = unsealSecret P sk epk := by
  cases v <;> rfl

theorem ivOf_with (T : SealMac v M) (epk pk : Bytes) (t : BytesN (pkeTagLen v)) :
    ivOf (P.withSealMac v T) epk pk t = ivOf P epk pk t := by
  cases v <;> rfl

theorem stream1_with (T : SealMac v M) (s : OneCipher v L) (iv : BytesN (ivLen v)) :
    stream1 (P.withSealMac v T) s iv = stream1 P s iv := by
  cases v <;> rfl

/-- The authentication keys that answering uses. -/
def usesAk (sk : Key P v .Secret) (f : SealHash v) : SealAsk v → List (BytesN (pkeTagLen v))
  | .hash _ => []
  | .cipher _ => []
  | .mac ak _ => [ak]
  | .unseal s =>
    match SealedKey.parse v s with
    | .ok w =>
      match unsealSecret P sk w.ephemeralPublicKey with
      | some xk =>
        if h : (sealKdfInput v 2 xk w.ephemeralPublicKey.1 (sealPub P sk.publicKey)).length = sealInLen v
        then [f ⟨_, h⟩] else []
      | none => []
    | _ => []

theorem usesAk_length (sk : Key P v .Secret) (f : SealHash v) (a : SealAsk v) :
    (usesAk sk f a).length ≤ 1 := by
  cases a with
  | hash m => exact Nat.zero_le _
  | cipher k => exact Nat.zero_le _
  | mac => exact Nat.le_refl _
  | «unseal» s =>
    unfold usesAk
    dsimp only
    split
    · split
      · split
        · exact Nat.le_refl _
        · exact Nat.zero_le _
      · exact Nat.zero_le _
    · exact Nat.zero_le _

theorem unseal_tags (T : SealMac v M) (sk : Key P v .Secret) (f : SealHash v) (c : CipherOf v L)
    (ak : BytesN (pkeTagLen v)) (row : ShortBytes M → BytesN (pkeTagLen v)) (s : Bytes)
    (ha : ak ∉ usesAk sk f (.unseal s)) :
    unsealText ((P.withSealMac v (Function.update T ak row)).withSeal f c)
        ((sk.underMac (Function.update T ak row)).underSeal f c) s =
      unsealText ((P.withSealMac v T).withSeal f c) ((sk.underMac T).underSeal f c) s := by
  cases hw : SealedKey.parse v s with
  | err er => unfold unsealText; rw [hw]; rfl
  | panic => unfold unsealText; rw [hw]; rfl
  | ok w =>
    cases hs : unsealSecret P sk w.ephemeralPublicKey with
    | none =>
      rw [(unsealed (sk.underMac _) f c hw).1 (by rw [secret_with, hs]),
        (unsealed (sk.underMac _) f c hw).1 (by rw [secret_with, hs])]
    | some xk =>
      have hl := secret_length hs
      have hp : (sealPub P sk.publicKey).length = pkeEpkLen v := sealPub_length _
      have g1 := input_length (v := v) 1 hl w.ephemeralPublicKey.2 hp
      have g2 := input_length (v := v) 2 hl w.ephemeralPublicKey.2 hp
      have key : ∀ T : SealMac v M,
          unsealText ((P.withSealMac v T).withSeal f c) ((sk.underMac T).underSeal f c) s =
          if w.tag = sealMac (P.withSealMac v T) (f ⟨_, g2⟩) w.ephemeralPublicKey w.encryptedDataKey then
            .ok (applyKeystreamN (stream1 P (c (kOf (f ⟨_, g1⟩)))
              (ivOf P w.ephemeralPublicKey.1 (sealPub P sk.publicKey) (f ⟨_, g1⟩))) w.encryptedDataKey).1
          else .err .cryptoError := by
        intro T
        have h := (unsealed (sk.underMac T) f c hw).2 xk (by rw [secret_with, hs])
          (by rw [pub_with]; exact g1) (by rw [pub_with]; exact g2)
        simp only [pub_with, ivOf_with, stream1_with] at h
        exact h
      rw [key, key]
      unfold sealMac
      rw [tag_congr T]
      refine Function.update_of_ne (fun h => ha ?_) _ _
      unfold usesAk
      simp only [hw, hs, dif_pos g2]
      exact List.mem_singleton.2 h.symm

theorem tags_congr (T : SealMac v M) (sk : Key P v .Secret) (epk : BytesN (pkeEpkLen v)) (f : SealHash v)
    (c : CipherOf v L) (text : Bytes) (ak : BytesN (pkeTagLen v))
    (row : ShortBytes M → BytesN (pkeTagLen v)) (a : SealAsk v) (ha : ak ∉ usesAk sk f a) :
    idealAnswer (P.withSealMac v (Function.update T ak row)) (sk.underMac (Function.update T ak row)) epk f c
        text a =
      idealAnswer (P.withSealMac v T) (sk.underMac T) epk f c text a := by
  cases a with
  | hash m => rfl
  | cipher key => rfl
  | mac key m =>
    show SealAnswer.mac _ = SealAnswer.mac _
    rw [tag_congr]
    exact Function.update_of_ne (fun h => ha (List.mem_singleton.2 h.symm)) _ _
  | «unseal» s =>
    have e := unseal_tags T sk f c ak row s ha
    unfold idealAnswer sealAnswer
    dsimp only
    rw [e]

theorem tagged_length (epk : BytesN (pkeEpkLen v)) (edk : BytesN 32) :
    (sealTagged v epk.1 edk.1).length ≤ 89 := by
  have e1 := epk.2
  have e2 := edk.2
  unfold sealTagged
  simp only [List.length_append, e1, e2]
  cases v <;> decide

/-- The guess at a tag that a request makes. -/
def guess (hM : 89 ≤ M) : SealAsk v → List (ShortBytes M × BytesN (pkeTagLen v))
  | .unseal s =>
    match SealedKey.parse v s with
    | .ok w => [(⟨sealTagged v w.ephemeralPublicKey.1 w.encryptedDataKey.1,
        Nat.le_trans (tagged_length _ _) hM⟩, w.tag)]
    | _ => []
  | _ => []

theorem guess_length (hM : 89 ≤ M) (a : SealAsk v) : (guess hM a).length ≤ 1 := by
  unfold guess
  split
  · split
    · exact Nat.le_refl _
    · exact Nat.zero_le _
  · exact Nat.zero_le _

/-- The requests, when the tag and all other tags are given. -/
noncomputable def askedWith (sk : Key P v .Secret) (ask : Bytes → List (SealAnswer v L) → Option (SealAsk v))
    (n : Nat) (epk : BytesN (pkeEpkLen v)) (f : SealHash v) (c : CipherOf v L) (edk : BytesN 32)
    (z : BytesN (pkeTagLen v)) (T : SealMac v M) : List (SealAsk v) :=
  let text := paserkText v (asc "seal") (z.1 ++ epk.1 ++ edk.1)
  (sealPlay (idealAnswer (P.withSealMac v T) (sk.underMac T) epk f c text) (ask text) n []).2

/-- Other tags under the same key come out right only by chance. -/
theorem forging (hM : 89 ≤ M) (sk : Key P v .Secret) (R : Finset Rng) (epkOf : R → BytesN (pkeEpkLen v))
    (ask : Bytes → List (SealAnswer v L) → Option (SealAsk v)) (n : Nat) :
    (count (fun x : (R × SealHash v × CipherOf v L × BytesN 32) × BytesN (pkeTagLen v) × SealMac v M =>
        TagForged (P.withSealMac v x.2.2) (epkOf x.1.1) x.1.2.2.2 x.2.1
          (idealAsked (P.withSealMac v x.2.2) (sk.underMac x.2.2) ask n (epkOf x.1.1) x.1.2.1 x.1.2.2.1
            x.1.2.2.2 x.2.1)) : ℚ) /
      Fintype.card ((R × SealHash v × CipherOf v L × BytesN 32) × BytesN (pkeTagLen v) × SealMac v M) ≤
    n / Fintype.card (BytesN (pkeTagLen v)) + n / Fintype.card (BytesN (pkeTagLen v)) := by
  have nb : ∀ m, 0 < Fintype.card (BytesN m) := fun m =>
    Fintype.card_pos_iff.2 ⟨⟨List.replicate _ 0, List.length_replicate⟩⟩
  have hlen : ∀ (epk : BytesN (pkeEpkLen v)) (e : BytesN 32), (sealTagged v epk.1 e.1).length ≤ M :=
    fun epk e => Nat.le_trans (tagged_length _ _) hM
  refine Plug.forged n (fun y : R × SealHash v × CipherOf v L × BytesN 32 =>
      ⟨sealTagged v (epkOf y.1).1 y.2.2.2.1, hlen _ _⟩)
    (fun y z T => (askedWith sk ask n (epkOf y.1) y.2.1 y.2.2.1 y.2.2.2 z T).flatMap (usesAk sk y.2.1))
    (fun y z T => (askedWith sk ask n (epkOf y.1) y.2.1 y.2.2.1 y.2.2.2 z T).flatMap (guess hM))
    (fun y z T => Nat.le_trans (flat_length _ (usesAk_length _ _) _) (play_length _ _ _ _))
    (fun y z T => Nat.le_trans (flat_length _ (guess_length hM) _) (play_length _ _ _ _)) _ ?_ (nb _) (nb _)
  rintro ⟨r, f, c, e⟩ ak T row hak ⟨s, hs, hne, e', he'⟩
  dsimp only at hak hs hne he' ⊢
  have et : ∀ e : BytesN 32, sealMac (P.withSealMac v (Function.update T ak row)) ak (epkOf r) e =
      row ⟨_, hlen (epkOf r) e⟩ := by
    intro e
    unfold sealMac
    rw [tag_with _ _ _ (hlen _ _), Function.update_self]
  have ew : ∀ e : BytesN 32, randomText (P.withSealMac v (Function.update T ak row)) (epkOf r) e ak =
      paserkText v (asc "seal") ((row ⟨_, hlen (epkOf r) e⟩).1 ++ (epkOf r).1 ++ e.1) := by
    intro e
    unfold randomText
    rw [et]
  have ea : idealAsked (P.withSealMac v (Function.update T ak row)) (sk.underMac (Function.update T ak row)) ask n
        (epkOf r) f c e ak =
      askedWith sk ask n (epkOf r) f c e (row ⟨_, hlen (epkOf r) e⟩) T := by
    unfold idealAsked askedWith
    dsimp only
    rw [ew, play_congr]
    intro a ha
    exact tags_congr T sk _ f c _ ak row a fun h' => hak (List.mem_flatMap.2 ⟨a, ha, h'⟩)
  rw [ea] at hs
  rw [ew] at hne he'
  have hp : SealedKey.parse v s = .ok ⟨row ⟨_, hlen (epkOf r) e'⟩, epkOf r, e'⟩ :=
    SealedKey.parse_ok_iff.2 he'
  refine ⟨(⟨sealTagged v (epkOf r).1 e'.1, hlen _ _⟩, row ⟨_, hlen (epkOf r) e'⟩),
    List.mem_flatMap.2 ⟨_, hs, ?_⟩, ?_, rfl⟩
  · unfold guess
    dsimp only
    rw [hp]
    exact List.mem_singleton.2 rfl
  · intro h
    have h' := congrArg Subtype.val h
    unfold sealTagged at h'
    have h2 : e' = e := Subtype.ext (List.append_cancel_left h')
    exact hne (by rw [he', h2])

theorem tagChance_eq {R : Finset Rng} (A : SealMac v M → R → SealHash v → CipherOf v L → Prop) :
    sealTagChance A = (∑ T, sealChance (A T)) / Fintype.card (SealMac v M) := by
  unfold sealTagChance sealChance
  rw [count_eq, count_prod (fun x : SealMac v M × R × SealHash v × CipherOf v L =>
    A x.1 x.2.1 x.2.2.1 x.2.2.2), ← Finset.sum_div, ← Nat.cast_sum, Fintype.card_prod, Nat.cast_mul,
    div_div, mul_comm (Fintype.card (SealMac v M) : ℚ)]
  simp only [count_eq]

theorem idealTagChance_eq {R : Finset Rng}
    (A : SealMac v M → R → SealHash v → CipherOf v L → BytesN 32 → BytesN (pkeTagLen v) → Prop) :
    idealSealTagChance A = (∑ T, idealSealChance (A T)) / Fintype.card (SealMac v M) := by
  unfold idealSealTagChance idealSealChance
  rw [count_eq, count_prod (fun x : SealMac v M × R × SealHash v × CipherOf v L × BytesN 32 ×
      BytesN (pkeTagLen v) => A x.1 x.2.1 x.2.2.1 x.2.2.2.1 x.2.2.2.2.1 x.2.2.2.2.2), ← Finset.sum_div,
    ← Nat.cast_sum, Fintype.card_prod, Nat.cast_mul, div_div, mul_comm (Fintype.card (SealMac v M) : ℚ)]
  simp only [count_eq]

theorem tags_final {c a s n X : ℚ} (hc : 0 < c) (hs : s / c ≤ 2 * n / X) :
    (a + s + c * (n / X)) / c ≤ a / c + 3 * n / X := by
  have e : (a + s + c * (n / X)) / c = a / c + s / c + n / X := by
    rw [add_div, add_div, mul_div_cancel_left₀ _ hc.ne']
  have e' : 3 * n / X = 2 * n / X + n / X := by
    rw [← add_div]
    congr 1
    linarith
  rw [e, e']
  linarith

/-- With a random MAC as well: whoever sees a sealed key and has other texts unsealed learns which of two
keys was sealed at most as well as they hash the shared secret. -/
theorem which_key_random_tags (hM : 89 ≤ M) (hP : P.Laws) (hL : 32 ≤ L) (sk : Key P v .Secret)
    (keys : Side → Key P v .Local) (R : Finset Rng) (hR : ∀ rng ∈ R, (ephemeral P sk.publicKey rng).isSome)
    (ask : Bytes → List (SealAnswer v L) → Option (SealAsk v)) (n : Nat)
    (D : Res (Bytes × List (SealAnswer v L)) → Prop) :
    |sealTagChance (R := R) (M := M) (fun T rng f c =>
          D (sealGame (P.withSealMac v T) (sk.underMac T) ((keys .left).underMac T) ask n rng f c)) -
        sealTagChance (R := R) (M := M) (fun T rng f c =>
          D (sealGame (P.withSealMac v T) (sk.underMac T) ((keys .right).underMac T) ask n rng f c))| ≤
      idealSealTagChance (R := R) (M := M) (fun T rng f c edk ak => ∃ xk epk,
          ephemeral P sk.publicKey rng = some (xk, epk) ∧
          SecretHashed P sk.publicKey xk epk
            (idealAsked (P.withSealMac v T) (sk.underMac T) ask n epk f c edk ak)) +
        3 * n / 2 ^ 256 := by
  classical
  have : Nonempty (SealMac v M) := ⟨fun _ _ => ⟨List.replicate _ 0, List.length_replicate⟩⟩
  have hT : (0 : ℚ) < Fintype.card (SealMac v M) := by exact_mod_cast Fintype.card_pos
  rw [tagChance_eq, tagChance_eq, idealTagChance_eq, ← sub_div, ← Finset.sum_sub_distrib, abs_div,
    abs_of_nonneg (Nat.cast_nonneg (α := ℚ) _)]
  have hsum := Finset.sum_le_sum (s := Finset.univ) fun (T : SealMac v M) (_ : T ∈ Finset.univ) =>
    which_key (laws_with hP T) hL (sk.underMac T) (fun a => (keys a).underMac T) R
      (fun rng h => by rw [ephemeral_with]; exact hR rng h) ask n D
  simp only [ephemeral_with] at hsum
  have hsec : ∀ (T : SealMac v M) xk epk asked,
      SecretHashed (P.withSealMac v T) (sk.underMac T).publicKey xk epk asked ↔
        SecretHashed P sk.publicKey xk epk asked := by
    intro T xk epk asked
    unfold SecretHashed
    rw [pub_with]
  simp only [hsec] at hsum
  rw [Finset.sum_add_distrib, Finset.sum_add_distrib, Finset.sum_const, Finset.card_univ,
    nsmul_eq_mul] at hsum
  have k1 : BytesN (pkeEpkLen v) := ⟨List.replicate _ 0, List.length_replicate⟩
  let epkOf : R → BytesN (pkeEpkLen v) := fun r => ((ephemeral P sk.publicKey r.1).map Prod.snd).getD k1
  have hf := forging (P := P) (L := L) hM sk R epkOf ask n
  have he : (∑ T : SealMac v M, idealSealChance (R := R) (fun rng f c edk ak => ∃ xk epk,
        ephemeral P sk.publicKey rng = some (xk, epk) ∧
        TagForged (P.withSealMac v T) epk edk ak
          (idealAsked (P.withSealMac v T) (sk.underMac T) ask n epk f c edk ak))) /
        Fintype.card (SealMac v M) ≤ 2 * n / 2 ^ 256 := by
    rw [← idealTagChance_eq]
    unfold idealSealTagChance
    rw [count_eq]
    let re : SealMac v M × R × SealHash v × CipherOf v L × BytesN 32 × BytesN (pkeTagLen v) ≃
        (R × SealHash v × CipherOf v L × BytesN 32) × BytesN (pkeTagLen v) × SealMac v M :=
      { toFun := fun x => ((x.2.1, x.2.2.1, x.2.2.2.1, x.2.2.2.2.1), x.2.2.2.2.2, x.1)
        invFun := fun x => (x.2.2, x.1.1, x.1.2.1, x.1.2.2.1, x.1.2.2.2, x.2.1)
        left_inv := fun _ => rfl
        right_inv := fun _ => rfl }
    rw [← Plug.count_bij re.bijective
      (A := fun x => TagForged (P.withSealMac v x.1) (epkOf x.2.1) x.2.2.2.2.1 x.2.2.2.2.2
          (idealAsked (P.withSealMac v x.1) (sk.underMac x.1) ask n (epkOf x.2.1) x.2.2.1 x.2.2.2.1
            x.2.2.2.2.1 x.2.2.2.2.2)) (fun _ => Iff.rfl), ← Fintype.card_congr re] at hf
    refine le_trans (div_le_div_of_nonneg_right (Nat.cast_le.2 (Plug.count_mono ?_)) (Nat.cast_nonneg _))
      (le_trans hf ?_)
    · rintro x ⟨xk, epk, h1, h2⟩
      have : epkOf x.2.1 = epk := by simp only [epkOf, h1]; rfl
      rw [this]
      exact h2
    have hb : ∀ m, 32 ≤ m → (n : ℚ) / Fintype.card (BytesN m) ≤ n / 2 ^ 256 := by
      intro m hm
      have e256 : ((256 ^ 32 : Nat) : ℚ) = 2 ^ 256 := by norm_num
      have hc : ((256 ^ 32 : Nat) : ℚ) ≤ Fintype.card (BytesN m) := by
        rw [C75.card_bytes]
        exact Nat.cast_le.2 (Nat.pow_le_pow_right (by decide) hm)
      rw [← e256]
      exact div_le_div_of_nonneg_left (Nat.cast_nonneg _) (Nat.cast_pos.2 (Nat.pow_pos (by decide))) hc
    rw [two_mul, add_div]
    exact add_le_add (hb _ (by cases v <;> decide)) (hb _ (by cases v <;> decide))
  refine le_trans (div_le_div_of_nonneg_right (le_trans (Finset.abs_sum_le_sum_abs _ _) hsum) hT.le) ?_
  exact tags_final hT he

end tags

/-! ### Examples -/

/-- Sealing with the sample tape has an ephemeral key. -/
theorem sample_some (v : Ver) : (ephemeral Toy.prims (C43.sampleSecret v).publicKey C43.sampleRng).isSome := by
  obtain ⟨w, r, _, h1, _⟩ := C43.seal_roundtrip Toy.laws (Toy.localKey v) (C43.sampleSecret v) C43.sampleRng
    (C43.sampleRng_enough v)
  obtain ⟨xk, h⟩ := (ephemeral_iff (Toy.localKey v) _ _ _).2 ⟨w, r, h1, rfl⟩
  rw [h]
  rfl

/-- The hypotheses of `which_key` are met, -/
example (v : Ver) (keys : Side → Key Toy.prims v .Local)
    (ask : Bytes → List (SealAnswer v 32) → Option (SealAsk v)) (n : Nat)
    (D : Res (Bytes × List (SealAnswer v 32)) → Prop) :=
  which_key Toy.laws (Nat.le_refl 32) (C43.sampleSecret v) keys {C43.sampleRng}
    (fun rng h => by rw [Finset.mem_singleton.1 h]; exact sample_some v) ask n D

/-- … and those of `which_key_random_tags`, -/
example (v : Ver) (keys : Side → Key Toy.prims v .Local) (own : List (SealAnswer v 32) → Bytes) (n : Nat)
    (D : Res (Bytes × List (SealAnswer v 32)) → Prop) :=
  which_key_random_tags (M := 89) (Nat.le_refl _) Toy.laws (Nat.le_refl 32) (C43.sampleSecret v) keys
    {C43.sampleRng} (fun rng h => by rw [Finset.mem_singleton.1 h]; exact sample_some v)
    (fun _ seen => some (.unseal (own seen))) n D

/-- … and whoever knows the shared secret may hash it: then nothing is claimed. -/
example (v : Ver) : ∃ xk epk, ephemeral Toy.prims (C43.sampleSecret v).publicKey C43.sampleRng = some (xk, epk) ∧
    ∃ ask : Bytes → List (SealAnswer v 32) → Option (SealAsk v),
      (∀ text seen s, ask text seen ≠ some (.unseal s)) ∧
      ∀ f c edk ak, SecretHashed Toy.prims (C43.sampleSecret v).publicKey xk epk
        (idealAsked Toy.prims (C43.sampleSecret v) ask 1 epk f c edk ak) ∧
        solve Toy.prims ask 1 epk f c edk ak 0 = some xk := by
  obtain ⟨⟨xk, epk⟩, he⟩ := Option.isSome_iff_exists.1 (sample_some v)
  have h1 := input_length (v := v) 1 (ephemeral_length he) epk.2
    (sealPub_length (C43.sampleSecret v).publicKey)
  have hask : ∀ (text : Bytes) (seen : List (SealAnswer v 32)) (s : Bytes),
      (some (SealAsk.hash ⟨_, h1⟩) : Option (SealAsk v)) ≠ some (.unseal s) := fun _ _ _ h => by cases h
  have hs : ∀ f c edk ak, SecretHashed Toy.prims (C43.sampleSecret v).publicKey xk epk
      (idealAsked (L := 32) Toy.prims (C43.sampleSecret v) (fun _ _ => some (.hash ⟨_, h1⟩)) 1 epk f c edk ak) :=
    fun f c edk ak => ⟨⟨_, h1⟩, List.mem_cons_self, 1, rfl⟩
  refine ⟨xk, epk, he, fun _ _ => some (.hash ⟨_, h1⟩), hask, fun f c edk ak => ⟨hs f c edk ak, ?_⟩⟩
  obtain ⟨i, hi, h⟩ := solve_spec _ _ hask 1 xk (ephemeral_length he) epk _ f c edk ak (hs f c edk ak)
  have : i = 0 := by omega
  rwa [this] at h

end Pasta.C88
