import Verif.Real.Aes
import Verif.Real.Argon2
import Verif.Real.ChaCha
import Verif.Real.P384

/-!
# The real primitives

`Real.prims` implements every field of `Prims` with the actual algorithm (SHA-384, HMAC, HKDF,
AES-256, PBKDF2, BLAKE2b, XChaCha20, Argon2id, Ed25519, X25519, P-384 ECDSA with RFC 6979). It serves
to run the model on the repository's own test vectors (`Verif/Vectors/`), as a check that the model
and the specification are faithful, and `Verif/Curve/Laws.lean` proves `Prims.Laws` for it. The
theorems of `Verif/Props/Actual.lean` are about it; the others hold for all primitives.
-/

namespace Pasta.Real

/-- Bytes that `ed25519_dalek::VerifyingKey::from_bytes` accepts -/
def edOk (b : BytesN 32) : Bool := (Ed.decode b.1).isSome

abbrev EdKey := { b : BytesN 32 // edOk b = true }

theorem basePoint_ok : edOk ⟨leBytes 32 1, by rfl⟩ = true := by decide +kernel

/-- The identity point, an arbitrary default -/
def edDefault : EdKey := ⟨⟨leBytes 32 1, by rfl⟩, basePoint_ok⟩

def edKey (b : BytesN 32) : Option EdKey := if h : edOk b = true then some ⟨b, h⟩ else none

/-- A public key by its compressed form -/
def p384Ok (b : BytesN 49) : Bool :=
  (b.1.head? == some 2 || b.1.head? == some 3) && (P384.decode b.1).isSome

abbrev P384Key := { b : BytesN 49 // p384Ok b = true }

def p384Key (b : BytesN 49) : Option P384Key := if h : p384Ok b = true then some ⟨b, h⟩ else none

def p384G : BytesN 49 := fit 49 (P384.compressXY P384.gx P384.gy)

theorem p384G_ok : p384Ok p384G = true := by decide +kernel

/-- The base point, an arbitrary default -/
def p384Default : P384Key := ⟨p384G, p384G_ok⟩

def p384Parse (s : Bytes) : Option P384Key := do
  let (x, y) ← P384.decode s
  p384Key (fit 49 (P384.compressXY x y))

def xy (k : P384Key) : Nat × Nat := (P384.decode k.1.1).getD (0, 0)

def p384Public (sk : P384Scalar) : P384Key :=
  (p384Key (fit 49 (P384.compress (P384.base.smul (beNat sk.1.1))))).getD p384Default

def scalar? (b : Bytes) : Option P384Scalar :=
  if h : b.length = 48 then
    if hb : p384ScalarOk ⟨b, h⟩ then some ⟨⟨b, h⟩, hb⟩ else none
  else none

def prims : Prims where
  sha384 := sha384
  hmacSha384 := hmacSha384
  hkdfSha384 := hkdfSha384
  aes256 k b := fit 16 (Aes.encryptBlock k.1 b.1)
  pbkdf2Sha384 := pbkdf2Sha384
  blake2b := blake2b
  blake2bMac := blake2bMac
  xchacha20 k n := ChaCha.xchacha20 k.1 n.1
  argon2id pw salt m t p := fit 32 (Argon2.argon2id pw salt [] [] m.toNat t.toNat p.toNat 32)
  EdPoint := EdKey
  edParse := edKey
  edBytes k := k.1
  edPublic seed := (edKey (Ed.publicBytes seed)).getD edDefault
  edSign := Ed.sign
  edVerify k m s := Ed.verify k.1.1 m s.1
  edToMontgomery k := ((Ed.decode k.1.1).getD Ed.zero).toMontgomery
  edSecretHalf seed := fit 32 (sha512 seed.1).1
  montMulBase s := (Ed.base.smul s).toMontgomery
  montMul s u := Ed.ladder s u.1
  P384Point := P384Key
  p384Parse := p384Parse
  p384Compress k := k.1
  p384Uncompressed k := fit 97 (4 :: (beBytes 48 (xy k).1 ++ beBytes 48 (xy k).2))
  p384Public := p384Public
  p384Sign sk d := (P384.sign sk.1.1 d.1).map (fit 96)
  p384Verify k d s := P384.verify (xy k) d.1 s.1
  p384Dh sk k := fit 48 (P384.dh sk.1.1 (xy k))
  p384ScalarOther b := if 24 ≤ b.length ∧ b.length < 48 then
    scalar? (List.replicate (48 - b.length) 0 ++ b) else none

end Pasta.Real
