import Verif.Model.Basic

/-!
# Key files (RFC 7468, RFC 4648, X.690, RFC 5915, RFC 5480), written from the RFCs
-/

namespace Pasta.Spec.Pem

/-- RFC 4648, table 1 -/
def alphabet : Bytes := asc "ABCDEFGHIJKLMNOPQRSTUVWXYZabcdefghijklmnopqrstuvwxyz0123456789+/"

/-- The character for a six-bit number. -/
def char (n : Nat) : UInt8 := alphabet.getD n 0

/-- RFC 4648, section 4: 24-bit groups as four characters, padding with `=`. -/
def base64 : Bytes → Bytes
  | [] => []
  | [a] =>
    let n := a.toNat * 65536
    [char (n / 262144), char (n / 4096 % 64), 61, 61]
  | [a, b] =>
    let n := a.toNat * 65536 + b.toNat * 256
    [char (n / 262144), char (n / 4096 % 64), char (n / 64 % 64), 61]
  | a :: b :: c :: r =>
    let n := a.toNat * 65536 + b.toNat * 256 + c.toNat
    char (n / 262144) :: char (n / 4096 % 64) :: char (n / 64 % 64) :: char (n % 64) :: base64 r

/-- RFC 7468, section 3: the text of some bytes with a label. Lines end with LF or CRLF, those of the
encoding have 64 characters except the last one, and the last line end of the file may be missing. -/
def IsPem (label bytes text : Bytes) : Prop :=
  ∃ (nl : Bytes) (lines : List Bytes) (tail : Bytes), (nl = [10] ∨ nl = [13, 10]) ∧ (tail = [] ∨ tail = nl) ∧
    lines.flatten = base64 bytes ∧ (∀ l ∈ lines.dropLast, l.length = 64) ∧
    (∀ l ∈ lines, 0 < l.length ∧ l.length ≤ 64) ∧
    text = asc "-----BEGIN " ++ label ++ asc "-----" ++ nl ++ lines.flatMap (· ++ nl) ++
      (asc "-----END " ++ label ++ asc "-----" ++ tail)

/-- X.690: definite lengths in the shortest form (up to two bytes). -/
def length (n : Nat) : Bytes :=
  if n < 128 then [UInt8.ofNat n]
  else if n < 256 then [0x81, UInt8.ofNat n]
  else [0x82, UInt8.ofNat (n / 256), UInt8.ofNat (n % 256)]

/-- Tag, length, contents -/
def der (tag : UInt8) (contents : Bytes) : Bytes := tag :: (length contents.length ++ contents)

/-- 1.2.840.10045.2.1 -/
def idEcPublicKey : Bytes := [0x2a, 0x86, 0x48, 0xce, 0x3d, 0x02, 0x01]
/-- 1.3.132.0.34 -/
def secp384r1 : Bytes := [0x2b, 0x81, 0x04, 0x00, 0x22]

/-- RFC 5915, section 3: `ECPrivateKey`, with or without the curve and the public key -/
def ecPrivateKey (sk : Bytes) (curve pk : Option Bytes) : Bytes :=
  der 0x30 (der 0x02 [1] ++ der 0x04 sk ++ curve.elim [] (fun c => der 0xa0 (der 0x06 c)) ++
    pk.elim [] (fun k => der 0xa1 (der 0x03 (0 :: k))))

/-- RFC 5480, section 2: `SubjectPublicKeyInfo` of an elliptic curve key -/
def publicKeyInfo (algorithm curve pk : Bytes) : Bytes :=
  der 0x30 (der 0x30 (der 0x06 algorithm ++ der 0x06 curve) ++ der 0x03 (0 :: pk))

/-- FIPS 186-4: the field and the constant of P-384 -/
def p : Nat := 2 ^ 384 - 2 ^ 128 - 2 ^ 96 + 2 ^ 32 - 1
def b : Nat :=
  0xb3312fa7e23ee7e4988e056be3f82d19181d9c6efe8141120314088f5013875ac656398d8a2ed19d2a85c8edd3ec2aef

/-- The point `(x, y)` is on the curve `y² = x³ - 3x + b`. -/
def OnCurve (x y : Nat) : Prop := x < p ∧ y < p ∧ (y ^ 2 + 3 * x) % p = (x ^ 3 + b) % p

/-- The number that bytes stand for, most significant first. -/
def number (s : Bytes) : Nat := s.foldl (fun n c => n * 256 + c.toNat) 0

/-- SEC 1, section 2.3.3: the compressed form of `(x, y)`: 2 or 3 for even or odd `y`, then `x` -/
def Compressed (x y : Nat) (s : Bytes) : Prop :=
  ∃ t, s = UInt8.ofNat (2 + y % 2) :: t ∧ t.length = 48 ∧ number t = x

/-- The uncompressed form: 4, `x`, `y` -/
def Uncompressed (x y : Nat) (s : Bytes) : Prop :=
  ∃ t u, s = 4 :: (t ++ u) ∧ t.length = 48 ∧ u.length = 48 ∧ number t = x ∧ number u = y

end Pasta.Spec.Pem
