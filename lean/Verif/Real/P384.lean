import Verif.Real.Ed25519

/-! # P-384 and ECDSA (FIPS 186-4, SEC 1, RFC 6979), executable; see `Verif.Real.Prims` -/

namespace Pasta.Real.P384

/-- `2^384 - 2^128 - 2^96 + 2^32 - 1` -/
def p : Nat :=
  0xfffffffffffffffffffffffffffffffffffffffffffffffffffffffffffffffeffffffff0000000000000000ffffffff
def n : Nat := p384Order
def b : Nat :=
  0xb3312fa7e23ee7e4988e056be3f82d19181d9c6efe8141120314088f5013875ac656398d8a2ed19d2a85c8edd3ec2aef
def gx : Nat :=
  0xaa87ca22be8b05378eb1c71ef320ad746e1d3b628ba79b9859f741e082542a385502f25dbf55296c3a545e3872760ab7
def gy : Nat :=
  0x3617de4a96262c6f5d9e98bf9292dc29f8f41dbd289a147ce9da3113b5f0b8c00a60b1ce1d7e819d7a431d7c90ea0e5f

def add (a b : Nat) : Nat := (a + b) % p
def sub (a b : Nat) : Nat := (a + (p - b)) % p
def mul (a b : Nat) : Nat := a * b % p
def inv (a : Nat) : Nat := powMod p a (p - 2)

/-- Jacobian coordinates `x = X/Z²`, `y = Y/Z³`; `Z = 0` is the identity -/
structure Pt where
  x : Nat
  y : Nat
  z : Nat

def zero : Pt := ⟨1, 1, 0⟩
def base : Pt := ⟨gx, gy, 1⟩

/-- Doubling of a point that is not its own negative -/
def Pt.dblCore (a : Pt) : Pt :=
  let yy := mul a.y a.y
  let s := mul 4 (mul a.x yy)
  let zz := mul a.z a.z
  let m := mul 3 (mul (sub a.x zz) (P384.add a.x zz))
  let x := sub (mul m m) (mul 2 s)
  let y := sub (mul m (sub s x)) (mul 8 (mul yy yy))
  ⟨x, y, mul 2 (mul a.y a.z)⟩

def Pt.dbl (a : Pt) : Pt := if a.z = 0 ∨ a.y = 0 then zero else a.dblCore

/-- Addition of points with different `x`, where `u1 = X₁ Z₂²` and so on -/
def Pt.addCore (a c : Pt) (u1 u2 s1 s2 : Nat) : Pt :=
  let h := sub u2 u1
  let r := sub s2 s1
  let hh := mul h h
  let hhh := mul h hh
  let v := mul u1 hh
  let x := sub (sub (mul r r) hhh) (mul 2 v)
  let y := sub (mul r (sub v x)) (mul s1 hhh)
  ⟨x, y, mul (mul a.z c.z) h⟩

/-- Addition of points other than the identity -/
def Pt.addBoth (a c : Pt) : Pt :=
  let z1 := mul a.z a.z
  let z2 := mul c.z c.z
  let u1 := mul a.x z2
  let u2 := mul c.x z1
  let s1 := mul a.y (mul z2 c.z)
  let s2 := mul c.y (mul z1 a.z)
  if u1 = u2 then if s1 = s2 then a.dbl else zero else a.addCore c u1 u2 s1 s2

def Pt.add (a c : Pt) : Pt :=
  if a.z = 0 then c else if c.z = 0 then a else a.addBoth c

def Pt.smul (k : Nat) (a : Pt) : Pt := Id.run do
  let mut r := zero
  let mut q := a
  let mut k := k
  for _ in [0:k.log2 + 1] do
    if k % 2 == 1 then r := r.add q
    q := q.dbl
    k := k / 2
  return r

/-- Affine coordinates; `none` for the identity -/
def Pt.affine (a : Pt) : Option (Nat × Nat) :=
  if a.z = 0 then none
  else
    let zi := inv a.z
    let zi2 := mul zi zi
    some (mul a.x zi2, mul a.y (mul zi zi2))

def rhs (x : Nat) : Nat := P384.add (sub (mul x (mul x x)) (mul 3 x)) b

/-- A square root, `p ≡ 3 (mod 4)` -/
def sqrt (a : Nat) : Option Nat :=
  let y := powMod p a ((p + 1) / 4)
  if mul y y == a % p then some y else none

def compressXY (x y : Nat) : Bytes := (if y % 2 == 1 then 3 else 2) :: beBytes 48 x

def decompress (x parity : Nat) : Option (Nat × Nat) :=
  if x ≥ p then none
  else (sqrt (rhs x)).map fun y => (x, if y % 2 == parity then y else sub 0 y)

/-- SEC 1 decoding as in the `sec1`/`elliptic-curve` crates: compressed (2, 3), uncompressed (4) and
compact (5, the smaller of the two candidates for `y`, here the even one as in `primeorder`). The
identity (0) is not a public key. -/
def decode (s : Bytes) : Option (Nat × Nat) :=
  match s with
  | tag :: rest =>
    if tag == 2 && rest.length == 48 then decompress (beNat rest) 0
    else if tag == 3 && rest.length == 48 then decompress (beNat rest) 1
    else if tag == 5 && rest.length == 48 then decompress (beNat rest) 0
    else if tag == 4 && rest.length == 96 then
      let x := beNat (rest.take 48)
      let y := beNat (rest.drop 48)
      if x < p && y < p && mul y y == rhs x then some (x, y) else none
    else none
  | [] => none

def compress (a : Pt) : Bytes := a.affine.elim [] fun q => compressXY q.1 q.2

/-- The search of RFC 6979, 3.2 step h for a number in range, at most `fuel` times (each fails with
a probability below 2^-190) -/
def nonceLoop : Nat → (K V : Bytes) → Option Nat
  | 0, _, _ => none
  | fuel + 1, K, V =>
    let V := (hmacSha384 K V).1
    let k := beNat V
    if 0 < k ∧ k < n then some k
    else
      let K := (hmacSha384 K (V ++ [0])).1
      nonceLoop fuel K (hmacSha384 K V).1

/-- `k` of RFC 6979 with HMAC-SHA384 -/
def nonce (x : Bytes) (h : Nat) : Option Nat :=
  let hb := beBytes 48 (h % n)
  let V := List.replicate 48 (1 : UInt8)
  let K := List.replicate 48 (0 : UInt8)
  let K := (hmacSha384 K (V ++ [0] ++ x ++ hb)).1
  let V := (hmacSha384 K V).1
  let K := (hmacSha384 K (V ++ [1] ++ x ++ hb)).1
  let V := (hmacSha384 K V).1
  nonceLoop 16 K V

/-- The signature with nonce `k`, where `q` is the point `k·G` -/
def signWith (d z k : Nat) (q : Nat × Nat) : Option Bytes :=
  let r := q.1 % n
  let s := powMod n k (n - 2) * ((z + r * d) % n) % n
  if r = 0 ∨ s = 0 then none else some (beBytes 48 r ++ beBytes 48 s)

/-- One nonce only, as the ecdsa crate does -/
def sign (sk : Bytes) (digest : Bytes) : Option Bytes :=
  (nonce sk (beNat digest)).bind fun k =>
    (base.smul k).affine.bind (signWith (beNat sk) (beNat digest % n) k)

/-- The check of a signature `r`, `s` in range -/
def verifyWith (pk : Nat × Nat) (z r s : Nat) : Bool :=
  let si := powMod n s (n - 2)
  let q := (base.smul (z * si % n)).add (Pt.smul (r * si % n) ⟨pk.1, pk.2, 1⟩)
  q.affine.any fun q => q.1 % n == r

def verify (pk : Nat × Nat) (digest sig : Bytes) : Bool :=
  let r := beNat (sig.take 48)
  let s := beNat (sig.drop 48)
  if r = 0 ∨ s = 0 ∨ r ≥ n ∨ s ≥ n then false
  else verifyWith pk (beNat digest % n) r s

def dh (sk : Bytes) (pk : Nat × Nat) : Bytes :=
  (Pt.smul (beNat sk) ⟨pk.1, pk.2, 1⟩).affine.elim [] fun q => beBytes 48 q.1

end Pasta.Real.P384
