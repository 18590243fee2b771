import Verif.Real.Sha2
import Verif.Model.Prims

/-! # Ed25519 (RFC 8032) and X25519 (RFC 7748), executable; see `Verif.Real.Prims`

Follows the conventions of ed25519-dalek 2: decompression reduces `y` and ignores the sign of zero,
a verifying key keeps the bytes it was read from, `verify` recomputes `R` and compares bytes, and
the scalar `s` must be canonical. -/

namespace Pasta.Real

/-- `b ^ e mod m` -/
def powMod (m b e : Nat) : Nat := Id.run do
  let mut r := 1
  let mut b := b % m
  let mut e := e
  for _ in [0:e.log2 + 1] do
    if e % 2 == 1 then r := r * b % m
    b := b * b % m
    e := e / 2
  return r

namespace Ed

def p : Nat := 2 ^ 255 - 19

def add (a b : Nat) : Nat := (a + b) % p
def sub (a b : Nat) : Nat := (a + (p - b)) % p
def mul (a b : Nat) : Nat := a * b % p
def inv (a : Nat) : Nat := powMod p a (p - 2)

def d : Nat := mul (p - 121665) (inv 121666)
def sqrtM1 : Nat := powMod p 2 ((p - 1) / 4)

/-- Extended coordinates `X, Y, Z, T` with `x = X/Z`, `y = Y/Z`, `xy = T/Z` -/
structure Pt where
  x : Nat
  y : Nat
  z : Nat
  t : Nat

def zero : Pt := ⟨0, 1, 1, 0⟩

/-- The complete addition of RFC 8032, 5.1.4 -/
def Pt.add (a b : Pt) : Pt :=
  let A := mul (sub a.y a.x) (sub b.y b.x)
  let B := mul (Ed.add a.y a.x) (Ed.add b.y b.x)
  let C := mul (mul (mul a.t 2) d) b.t
  let D := mul (mul a.z 2) b.z
  let E := sub B A
  let F := sub D C
  let G := Ed.add D C
  let H := Ed.add B A
  ⟨mul E F, mul G H, mul F G, mul E H⟩

def Pt.smul (n : Nat) (a : Pt) : Pt := Id.run do
  let mut r := zero
  let mut q := a
  let mut n := n
  for _ in [0:n.log2 + 1] do
    if n % 2 == 1 then r := r.add q
    q := q.add q
    n := n / 2
  return r

def Pt.neg (a : Pt) : Pt := ⟨sub 0 a.x, a.y, a.z, sub 0 a.t⟩

def Pt.encode (a : Pt) : BytesN 32 :=
  let zi := inv a.z
  let x := mul a.x zi
  let y := mul a.y zi
  fit 32 (leBytes 32 (y + (x % 2) * 2 ^ 255))

/-- The candidate of RFC 8032, 5.1.3 for a square root of `u / v`: `u v³ (u v⁷)^((p-5)/8)` -/
def candidate (u v : Nat) : Nat :=
  let v3 := mul (mul v v) v
  let v7 := mul (mul v3 v3) v
  mul (mul u v3) (powMod p (mul u v7) ((p - 5) / 8))

/-- A square root of `u / v`, from the candidate -/
def root (u v x : Nat) : Option Nat :=
  let vx2 := mul v (mul x x)
  if vx2 == u then some x else if vx2 == sub 0 u then some (mul x sqrtM1) else none

/-- The point with coordinate `y`, from a square root of `x²` -/
def withSign (y sign : Nat) : Option Nat → Option Pt
  | none => none
  | some x =>
    let x := if x % 2 == sign then x else sub 0 x
    some ⟨x, y, 1, mul x y⟩

/-- Recover `x` from `y` and the sign bit. -/
def decompress (y sign : Nat) : Option Pt :=
  let y2 := mul y y
  let u := sub y2 1
  let v := Ed.add (mul d y2) 1
  withSign y sign (root u v (candidate u v))

/-- Decompression: recover `x` from `y`. -/
def decode (b : Bytes) : Option Pt :=
  let n := leNat b
  decompress (n % 2 ^ 255 % p) (n / 2 ^ 255 % 2)

def base : Pt :=
  (decode (leBytes 32 (mul 4 (inv 5)))).getD zero

/-- The secret scalar and prefix of a seed -/
def expand (seed : BytesN 32) : Nat × Bytes :=
  let h := (sha512 seed.1).1
  (leNat (clampInteger (fit 32 h)).1, h.drop 32)

def publicBytes (seed : BytesN 32) : BytesN 32 := (base.smul (expand seed).1).encode

def signWith (a : Nat) (pre pk m : Bytes) : BytesN 64 :=
  let r := leNat (sha512 (pre ++ m)).1 % ed25519Order
  let R := (base.smul r).encode.1
  let k := leNat (sha512 (R ++ pk ++ m)).1 % ed25519Order
  let s := (r + k * a) % ed25519Order
  fit 64 (R ++ leBytes 32 s)

def sign (seed : BytesN 32) (m : Bytes) : BytesN 64 :=
  signWith (expand seed).1 (expand seed).2 (publicBytes seed).1 m

def verifyWith (A : Pt) (pk m sig : Bytes) : Bool :=
  let R := sig.take 32
  let s := leNat (sig.drop 32)
  if s ≥ ed25519Order then false
  else
    let k := leNat (sha512 (R ++ pk ++ m)).1 % ed25519Order
    ((base.smul s).add ((A.neg).smul k)).encode.1 == R

def verify (pk : Bytes) (m : Bytes) (sig : Bytes) : Bool :=
  (decode pk).any fun A => verifyWith A pk m sig

/-- `EdwardsPoint::to_montgomery`: `u = (1 + y) / (1 - y)` -/
def Pt.toMontgomery (a : Pt) : BytesN 32 :=
  fit 32 (leBytes 32 (mul (Ed.add a.z a.y) (inv (sub a.z a.y))))

/-- The state of the ladder: two points in projective coordinates -/
structure Lad where
  x2 : Nat
  z2 : Nat
  x3 : Nat
  z3 : Nat

def Lad.swap (s : Lad) (bit : Nat) : Lad := if bit = 1 then ⟨s.x3, s.z3, s.x2, s.z2⟩ else s

/-- Double the first point, add the second to it (their difference has coordinate `x1`). -/
def Lad.step (x1 : Nat) (s : Lad) : Lad :=
  let A := Ed.add s.x2 s.z2
  let AA := mul A A
  let B := sub s.x2 s.z2
  let BB := mul B B
  let E := sub AA BB
  let C := Ed.add s.x3 s.z3
  let D := sub s.x3 s.z3
  let DA := mul D A
  let CB := mul C B
  { x3 := mul (Ed.add DA CB) (Ed.add DA CB)
    z3 := mul x1 (mul (sub DA CB) (sub DA CB))
    x2 := mul AA BB
    z2 := mul E (Ed.add AA (mul 121665 E)) }

/-- The low `i` bits of `n`, from the top one down -/
def Lad.loop (x1 n : Nat) : Nat → Lad → Lad
  | 0, s => s
  | i + 1, s =>
    let bit := n / 2 ^ i % 2
    Lad.loop x1 n i (((s.swap bit).step x1).swap bit)

/-- The Montgomery ladder of RFC 7748 over 255 bits -/
def ladder (n : Nat) (u : Bytes) : BytesN 32 :=
  let x1 := leNat u % 2 ^ 255 % p
  let s := Lad.loop x1 n 255 ⟨1, 0, x1, 1⟩
  fit 32 (leBytes 32 (mul s.x2 (inv s.z2)))

end Ed
end Pasta.Real
