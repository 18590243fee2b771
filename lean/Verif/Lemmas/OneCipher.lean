import Verif.Spec.Sealing
import Verif.Lemmas.Plug

/-!
# A random cipher under one key

Used for C88 and C89.
-/

namespace Pasta.Plug

open C82 (shift shift_shift shift_stream)

variable {P : Prims} {v : Ver} {L : Nat}

/-- The same cipher under every key. -/
def always : {v : Ver} → OneCipher v L → CipherFam v L
  | .V3, s => fun _ => s
  | .V4, s => fun _ => s

def k0 : BytesN 32 := ⟨List.replicate 32 0, rfl⟩

variable (P) in
/-- The key stream of a cipher under one key. -/
def stream1 (s : OneCipher v L) (iv : BytesN (ivLen v)) : Nat → UInt8 :=
  stream (P.withCiphers ((always s).ciphers P)) v k0 iv

/-! ### Changing the cipher under one key -/

/-- Change the key stream. -/
def maskOne : {v : Ver} → BytesN (ivLen v) → (Nat → UInt8) → OneCipher v L → OneCipher v L
  | .V3, iv, d, s => shift (v := .V3) (L := L) (fun _ => some (iv, d)) (always s) k0
  | .V4, iv, d, s => shift (v := .V4) (L := L) (fun _ => some (iv, d)) (always s) k0

theorem always_mask (iv : BytesN (ivLen v)) (d : Nat → UInt8) (s : OneCipher v L) :
    always (maskOne iv d s) = shift (fun _ => some (iv, d)) (always s) := by
  cases v <;> rfl

theorem mask_twice (iv : BytesN (ivLen v)) (d : Nat → UInt8) (s : OneCipher v L) :
    maskOne iv d (maskOne iv d s) = s := by
  cases v with
  | V3 =>
    show shift (v := .V3) (L := L) (fun _ => some (iv, d)) (always (maskOne iv d s)) k0 = s
    rw [always_mask, shift_shift]
    rfl
  | V4 =>
    show shift (v := .V4) (L := L) (fun _ => some (iv, d)) (always (maskOne iv d s)) k0 = s
    rw [always_mask, shift_shift]
    rfl

theorem stream_mask (iv : BytesN (ivLen v)) (d : Nat → UInt8) (s : OneCipher v L)
    {i : Nat} (hi : i < L) (hi' : i < 2 ^ 64) :
    stream1 P (maskOne iv d s) iv i = stream1 P s iv i ^^^ d i := by
  unfold stream1
  rw [always_mask]
  exact shift_stream _ _ rfl hi hi'

variable {m : Nat}

variable (P) in
/-- The ciphertext. -/
def outAt (iv : BytesN (ivLen v)) (key : BytesN m) (s : OneCipher v L) : BytesN m :=
  applyKeystreamN (stream1 P s iv) key

/-- The difference of two ciphertexts. -/
def delta (a b : BytesN m) (i : Nat) : UInt8 := a.1[i]?.getD 0 ^^^ b.1[i]?.getD 0

theorem delta_comm (a b : BytesN m) : delta a b = delta b a := by
  funext i
  exact UInt8.xor_comm _ _

variable (P) in
/-- Change the cipher so that the ciphertext is the given one. -/
def fixAt (iv : BytesN (ivLen v)) (key : BytesN m) (s : OneCipher v L) (e : BytesN m) : OneCipher v L :=
  maskOne iv (delta (outAt P iv key s) e) s

theorem xor_cancel (k s e : UInt8) : k ^^^ (s ^^^ (k ^^^ s ^^^ e)) = e := by
  rw [UInt8.xor_comm k s, UInt8.xor_assoc s k e, ← UInt8.xor_assoc s s, UInt8.xor_self, UInt8.zero_xor,
    ← UInt8.xor_assoc, UInt8.xor_self, UInt8.zero_xor]

theorem out_fixAt (hL : m ≤ L) (hm : m ≤ 2 ^ 64) (iv : BytesN (ivLen v)) (key : BytesN m)
    (s : OneCipher v L) (e : BytesN m) : outAt P iv key (fixAt P iv key s e) = e := by
  apply Subtype.ext
  apply List.ext_getElem
  · rw [(outAt P iv key (fixAt P iv key s e)).2, e.2]
  · intro i h1 h2
    have hi : i < m := by rw [e.2] at h2; exact h2
    have ho : (outAt P iv key s).1[i]? = some (key.1[i]'(by rw [key.2]; exact hi) ^^^
        stream1 P s iv i) := by
      rw [List.getElem?_eq_getElem (by rw [(outAt P iv key s).2]; exact hi)]
      simp only [outAt, applyKeystreamN, applyKeystream, List.getElem_mapIdx]
    have hd : delta (outAt P iv key s) e i = key.1[i]'(by rw [key.2]; exact hi) ^^^
        stream1 P s iv i ^^^ e.1[i] := by
      unfold delta
      rw [ho, List.getElem?_eq_getElem h2]
      rfl
    have hs := stream_mask (P := P) iv (delta (outAt P iv key s) e) s (Nat.lt_of_lt_of_le hi hL)
      (Nat.lt_of_lt_of_le hi hm)
    show (applyKeystream (stream1 P (fixAt P iv key s e) iv) key.1)[i]'_ = e.1[i]
    simp only [applyKeystream, List.getElem_mapIdx]
    unfold fixAt
    rw [hs, hd, xor_cancel]

theorem fixAt_fixAt (hL : m ≤ L) (hm : m ≤ 2 ^ 64) (iv : BytesN (ivLen v)) (key : BytesN m)
    (s : OneCipher v L) (e : BytesN m) : fixAt P iv key (fixAt P iv key s e) (outAt P iv key s) = s := by
  have h := out_fixAt (P := P) hL hm iv key s e
  show maskOne _ (delta (outAt P iv key (fixAt P iv key s e)) (outAt P iv key s)) (fixAt P iv key s e) = s
  rw [h, delta_comm]
  exact mask_twice _ _ _

theorem flat_length {α β : Type} (g : α → List β) (hg : ∀ a, (g a).length ≤ 1) :
    ∀ l : List α, (l.flatMap g).length ≤ l.length
  | [] => Nat.le_refl _
  | a :: l => by
    rw [List.flatMap_cons, List.length_append, List.length_cons]
    have := hg a
    have := flat_length g hg l
    omega

instance (v : Ver) (L : Nat) : Inhabited (OneCipher v L) :=
  match v with
  | .V3 => ⟨fun b => b⟩
  | .V4 => ⟨fun _ _ => 0⟩

end Pasta.Plug
