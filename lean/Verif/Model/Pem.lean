import Verif.Model.Basic

/-!
# PEM key files for P-384 (RFC 7468, RFC 5915, RFC 5480)

`from_sec1_pem` and `from_public_key_pem` (src/key/convert.rs:24-29 and 61-68) leave the reading of
key files to the crates pem-rfc7468 0.7.0, sec1 0.7.2, spki 0.7.2 and elliptic-curve 0.13.5, whose
source is not in the repository. This is their documented behaviour for files in the layout of the
RFCs. Simplified: text before the first line, other line widths and blank lines are not treated as
those crates do, and DER lengths above 255 are refused (key files are shorter). The theorems are about
files in the standard layout only.
-/

namespace Pasta.Pem

/-- Value of a character of the standard base64 alphabet. -/
def std64 (c : UInt8) : Option Nat :=
  if 65 ≤ c ∧ c ≤ 90 then some (c.toNat - 65)
  else if 97 ≤ c ∧ c ≤ 122 then some (c.toNat - 71)
  else if 48 ≤ c ∧ c ≤ 57 then some (c.toNat + 4)
  else if c = 43 then some 62
  else if c = 47 then some 63
  else none

/-- Padded standard base64 (base64ct `Base64`); the unused bits must be zero. -/
def decode64 : Bytes → Option Bytes
  | [] => some []
  | [a, b, 61, 61] => do
    let a ← std64 a
    let b ← std64 b
    if b % 16 ≠ 0 then none
    return [UInt8.ofNat ((a * 64 + b) / 16)]
  | [a, b, c, 61] => do
    let a ← std64 a
    let b ← std64 b
    let c ← std64 c
    if c % 4 ≠ 0 then none
    let n := (a * 64 + b) * 64 + c
    return [UInt8.ofNat (n / 1024), UInt8.ofNat (n / 4 % 256)]
  | a :: b :: c :: d :: rest => do
    let a ← std64 a
    let b ← std64 b
    let c ← std64 c
    let d ← std64 d
    let n := ((a * 64 + b) * 64 + c) * 64 + d
    let r ← decode64 rest
    return UInt8.ofNat (n / 65536) :: UInt8.ofNat (n / 256 % 256) :: UInt8.ofNat (n % 256) :: r
  | _ => none

/-- Drop one line end (LF, CR or CRLF) at the start (pem-rfc7468 `strip_leading_eol`). -/
def stripEol : Bytes → Option Bytes
  | 13 :: 10 :: s => some s
  | 10 :: s => some s
  | 13 :: s => some s
  | _ => none

/-- Drop a line end at the end, if there is one (pem-rfc7468 `strip_trailing_eol`). -/
def dropEol (s : Bytes) : Bytes :=
  match s.reverse with
  | 10 :: 13 :: r => r.reverse
  | 10 :: r => r.reverse
  | 13 :: r => r.reverse
  | _ => s

/-- `str::strip_suffix` -/
def stripSuffix (e s : Bytes) : Option Bytes := (stripPrefix e.reverse s.reverse).map List.reverse

/-- pem-rfc7468 `decode_vec` for a given label: the bytes between the two marker lines. -/
def body (label : Bytes) (s : Bytes) : Option Bytes := do
  let s ← stripPrefix (asc "-----BEGIN " ++ label ++ asc "-----") s
  let s ← stripEol s
  let s ← stripSuffix (asc "-----END " ++ label ++ asc "-----") (dropEol s)
  decode64 (s.filter (fun c => c != 10 && c != 13))

/-- One DER element with the given tag: its contents and the rest. -/
def der (tag : UInt8) (s : Bytes) : Option (Bytes × Bytes) :=
  match s with
  | [] => none
  | t :: s => if t ≠ tag then none else
    match s with
    | [] => none
    | l :: s =>
      if l < 128 then
        if l.toNat ≤ s.length then some (s.take l.toNat, s.drop l.toNat) else none
      else if l = 0x81 then
        match s with
        | [] => none
        | l :: s => if 128 ≤ l ∧ l.toNat ≤ s.length then some (s.take l.toNat, s.drop l.toNat) else none
      else none

/-- The object identifier of the curve, 1.3.132.0.34. -/
def oidP384 : Bytes := [0x2b, 0x81, 0x04, 0x00, 0x22]
/-- `id-ecPublicKey`, 1.2.840.10045.2.1 -/
def oidEc : Bytes := [0x2a, 0x86, 0x48, 0xce, 0x3d, 0x02, 0x01]

/-- A DER element that must be the last one. -/
def derLast (tag : UInt8) (s : Bytes) : Option Bytes := do
  let (c, rest) ← der tag s
  if rest ≠ [] then none
  return c

/-- A bit string of whole bytes. -/
def bitString (s : Bytes) : Option Bytes := do
  match ← derLast 0x03 s with
  | 0 :: b => return b
  | _ => none

/-- The optional curve identifier: it must be well formed. -/
def skipCurve (s : Bytes) : Option Bytes :=
  match s with
  | 0xa0 :: _ => do
    let (params, s) ← der 0xa0 s
    let _ ← derLast 0x06 params
    return s
  | _ => some s

/-- The optional public key, the last element. -/
def optPublic (s : Bytes) : Option (Option Bytes) :=
  match s with
  | [] => some none
  | _ => do
    let pk ← derLast 0xa1 s
    return some (← bitString pk)

/-- sec1 `EcPrivateKey` (RFC 5915): the bytes of the secret scalar and the optional public key. The
optional curve identifier is not looked at (elliptic-curve
`impl TryFrom<EcPrivateKey> for SecretKey`). -/
def sec1 (s : Bytes) : Option (Bytes × Option Bytes) := do
  let s ← derLast 0x30 s
  let (ver, s) ← der 0x02 s
  if ver ≠ [1] then none
  let (sk, s) ← der 0x04 s
  let s ← skipCurve s
  return (sk, ← optPublic s)

/-- spki `SubjectPublicKeyInfo` (RFC 5480): the SEC 1 bytes of the point. Both object identifiers are
checked. -/
def spki (s : Bytes) : Option Bytes := do
  let s ← derLast 0x30 s
  let (alg, s) ← der 0x30 s
  let (a, alg) ← der 0x06 alg
  let c ← derLast 0x06 alg
  if a ≠ oidEc ∨ c ≠ oidP384 then none
  bitString s

end Pasta.Pem
