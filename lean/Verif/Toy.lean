import Verif.Model.Pke
import Verif.Lemmas.Basic

/-!
# Toy primitives

A computable instance of `Prims` that satisfies `Prims.Laws`. It has no security whatsoever; it
only shows that the hypotheses of the theorems can be met, and lets examples be evaluated.
-/

namespace Pasta.Toy

/-- A polynomial of all bytes. -/
def poly (m : Bytes) : Nat := m.foldl (fun h b => h * 257 + b.toNat + 1) 1

def hash (n : Nat) (m : Bytes) : BytesN n := ⟨leBytes n (poly m), leBytes_length _ _⟩

def mac (n : Nat) (k m : Bytes) : BytesN n := hash n (k ++ [0x5c] ++ m)

/-- Toy public keys: 32 bytes below 128. -/
abbrev EdPt := { b : BytesN 32 // ∀ x ∈ b.1, x &&& 127 = x }

theorem and127 : ∀ x : UInt8, (x &&& 127) &&& 127 = x &&& 127 := by
  apply B64.forall_uint8; decide +kernel

def edPublic (seed : BytesN 32) : EdPt :=
  ⟨⟨seed.1.map (· &&& 127), by simp [seed.2]⟩, by
    intro x hx
    simp only [List.mem_map] at hx
    obtain ⟨y, _, rfl⟩ := hx
    exact and127 y⟩

def edSignPt (pk : EdPt) (m : Bytes) : BytesN 64 :=
  BytesN.append 64 rfl pk.1 (hash 32 m)

def le32 (n : Nat) : BytesN 32 := ⟨leBytes 32 n, leBytes_length _ _⟩

theorem leNat_append (a b : Bytes) : leNat (a ++ b) = leNat a + 256 ^ a.length * leNat b := by
  induction a with
  | nil => simp [leNat]
  | cons x xs ih => simp only [List.cons_append, leNat, ih, List.length_cons, Nat.pow_succ]; grind

/-- The second half of a toy signature: an in-range scalar depending on the digest. -/
def sigTail (d : BytesN 48) : BytesN 48 :=
  ⟨0 :: (d.1.take 46 ++ [1]), by simp [d.2]⟩

theorem sigTail_ok (d : BytesN 48) : p384ScalarOk (sigTail d) := by
  have h1 : (d.1.take 46).length = 46 := by simp [d.2]
  have h2 := leNat_lt (d.1.take 46).reverse
  simp only [List.length_reverse, h1] at h2
  unfold p384ScalarOk sigTail beNat
  simp only [List.reverse_cons, List.reverse_append, List.reverse_nil, List.nil_append,
    List.cons_append]
  simp only [leNat, leNat_append, List.length_reverse, h1]
  unfold p384Order
  constructor
  · simp; omega
  · simp; omega

def p384SignPt (sk : P384Scalar) (d : BytesN 48) : BytesN 96 :=
  BytesN.append 96 rfl sk.1 (sigTail d)

def p384Compress (pk : P384Scalar) : BytesN 49 := ⟨2 :: pk.1.1, by simp [pk.1.2]⟩

/-- Accepts the tags 2 and 5 (like the SEC1 decoder, which takes compressed and compact forms). The
uncompressed form is not read. -/
def p384Parse (b : Bytes) : Option P384Scalar :=
  match b with
  | [] => none
  | t :: xs =>
    if t = 2 ∨ t = 5 then
      if h : xs.length = 48 then
        if hs : p384ScalarOk ⟨xs, h⟩ then some ⟨⟨xs, h⟩, hs⟩ else none
      else none
    else none

def prims : Prims where
  sha384 := hash 48
  hmacSha384 := mac 48
  hkdfSha384 n k m := mac n k m
  aes256 k b := ⟨List.zipWith (fun x y => x ^^^ y) b.1 (k.1.take 16), by simp [b.2, k.2]⟩
  pbkdf2Sha384 pw salt r := mac 32 pw (salt ++ beBytes 4 r.toNat)
  blake2b := hash
  blake2bMac := mac
  xchacha20 k n i := UInt8.ofNat (poly (k.1 ++ n.1) + 31 * i)
  argon2id pw salt m t p :=
    mac 32 pw (salt ++ beBytes 4 m.toNat ++ beBytes 4 t.toNat ++ beBytes 4 p.toNat)
  EdPoint := EdPt
  edParse b := if h : ∀ x ∈ b.1, x &&& 127 = x then some ⟨b, h⟩ else none
  edBytes p := p.1
  edPublic := edPublic
  edSign seed m := edSignPt (edPublic seed) m
  edVerify pk m s := decide (s = edSignPt pk m)
  edToMontgomery p := le32 (scalarModOrder (clampInteger p.1))
  edSecretHalf seed := (edPublic seed).1
  montMulBase e := le32 (e % ed25519Order)
  montMul e x := le32 (e * leNat x.1 % ed25519Order)
  P384Point := P384Scalar
  p384Parse := p384Parse
  p384Compress := p384Compress
  p384Uncompressed pk := ⟨4 :: (pk.1.1 ++ pk.1.1), by simp [pk.1.2]⟩
  p384Public sk := sk
  p384Sign sk d := some (p384SignPt sk d)
  p384Verify pk d s := decide (s = p384SignPt pk d)
  p384Dh a b := ⟨beBytes 48 (beNat a.1.1 * beNat b.1.1), by simp [beBytes, leBytes_length]⟩
  p384ScalarOther _ := none

theorem leNat_le32 (n : Nat) : leNat (le32 (n % ed25519Order)).1 = n % ed25519Order := by
  show leNat (leBytes 32 _) = _
  rw [leNat_leBytes]
  apply Nat.mod_eq_of_lt
  have := Nat.mod_lt n (show 0 < ed25519Order by decide)
  unfold ed25519Order at *
  omega

theorem le32_mul (a b : Nat) :
    le32 (a % ed25519Order * b % ed25519Order) = le32 (a * b % ed25519Order) := by
  rw [Nat.mul_mod, Nat.mod_mod, ← Nat.mul_mod]

/-- The laws are satisfiable. -/
theorem laws : prims.Laws where
  edBytes_of_parse b k h := by
    have : ∀ k : EdPt, (if h : ∀ x ∈ b.1, x &&& 127 = x then some (⟨b, h⟩ : EdPt) else none) =
        some k → k.1 = b := by
      intro k h
      split at h
      · simp only [Option.some.injEq] at h; rw [← h]
      · simp at h
    exact this k h
  edParse_bytes k := by
    have : ∀ k : EdPt, (if h : ∀ x ∈ k.1.1, x &&& 127 = x then some (⟨k.1, h⟩ : EdPt) else none) =
        some k := fun k => dif_pos k.2
    exact this k
  edVerify_sign seed m := by simp [prims]
  x25519_comm seed e _ := by
    show le32 (e * leNat (le32 (leNat (clampInteger (edPublic seed).1).1 % ed25519Order)).1 %
      ed25519Order) = le32 (leNat (clampInteger (edPublic seed).1).1 % ed25519Order *
        leNat (le32 (e % ed25519Order)).1 % ed25519Order)
    rw [leNat_le32, leNat_le32, ← Nat.mul_mod, Nat.mul_comm e]
    congr 1
    rw [Nat.mul_mod, Nat.mod_mod, ← Nat.mul_mod]
  montMulBase_mod e := by
    show le32 (e % ed25519Order % ed25519Order) = le32 (e % ed25519Order)
    rw [Nat.mod_mod]
  montMul_mod e seed _ := le32_mul e _
  montMul_mod_base e e' _ := le32_mul e _
  p384Parse_compress k := by
    have : ∀ k : P384Scalar, p384Parse (p384Compress k).1 = some k := by
      intro k
      simp only [p384Compress, p384Parse]
      rw [if_pos (by simp), dif_pos k.1.2, dif_pos k.2]
    exact this k
  p384Compress_tag k := .inl rfl
  p384Parse_form b k hb h := by
    have key : ∀ (b : Bytes) (k : P384Scalar), p384Parse b = some k →
        (p384Compress k).1 = b ∨ (b.head? = some 5 ∧ (p384Compress k).1.tail = b.tail) := by
      intro b k h
      unfold p384Parse at h
      split at h
      · simp at h
      · rename_i t xs
        split at h
        · rename_i ht
          split at h
          · split at h
            · simp only [Option.some.injEq] at h
              subst h
              rcases ht with rfl | rfl
              · exact .inl rfl
              · exact .inr ⟨rfl, rfl⟩
            · simp at h
          · simp at h
        · simp at h
    exact key b k h
  p384SigOk_sign sk d s hs := by
    obtain rfl : p384SignPt sk d = s := Option.some.inj hs
    constructor
    · have : ((p384SignPt sk d).split 48 48 rfl).1 = sk.1 := by
        show (BytesN.split 48 48 rfl (BytesN.append 96 rfl sk.1 (sigTail d))).1 = _
        rw [BytesN.split_append]
      rw [this]; exact sk.2
    · have : ((p384SignPt sk d).split 48 48 rfl).2 = sigTail d := by
        show (BytesN.split 48 48 rfl (BytesN.append 96 rfl sk.1 (sigTail d))).2 = _
        rw [BytesN.split_append]
      rw [this]; exact sigTail_ok d
  p384Verify_sign sk d s hs := by
    obtain rfl : p384SignPt sk d = s := Option.some.inj hs
    simp [prims]
  p384Dh_comm a b := by
    apply Subtype.ext
    show beBytes 48 (beNat a.1.1 * beNat b.1.1) = beBytes 48 (beNat b.1.1 * beNat a.1.1)
    rw [Nat.mul_comm]

/-- Sample keys and randomness for examples. -/
def key32 : BytesN 32 := ⟨(List.range 32).map UInt8.ofNat, by simp⟩
def tape : Rng := (List.range 200).map (fun i => UInt8.ofNat (7 * i + 3))
theorem tape_length : tape.length = 200 := by simp [tape]
theorem tape_ok : 32 ≤ tape.length := by rw [tape_length]; decide
def localKey (v : Ver) : Key prims v .Local := ⟨key32⟩
def v4Secret : Key prims .V4 .Secret := ⟨key32⟩
def v3Scalar : P384Scalar :=
  ⟨⟨(List.range 48).map UInt8.ofNat, by simp⟩, by decide +kernel⟩
def v3Secret : Key prims .V3 .Secret := ⟨v3Scalar⟩

end Pasta.Toy
