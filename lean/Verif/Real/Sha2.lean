import Verif.Model.Basic

/-! # SHA-384 and SHA-512 (FIPS 180-4), HMAC (RFC 2104), HKDF (RFC 5869), PBKDF2 (RFC 8018)

An executable implementation, used to run the model on the repository's test vectors. Most
theorems quantify over all primitives and do not mention it; Props/Passwords.lean and Props/Pbkdf2.lean
are about this PBKDF2. -/

namespace Pasta.Real

namespace Sha2

def k : Array UInt64 := #[
    0x428a2f98d728ae22, 0x7137449123ef65cd, 0xb5c0fbcfec4d3b2f, 0xe9b5dba58189dbbc,
    0x3956c25bf348b538, 0x59f111f1b605d019, 0x923f82a4af194f9b, 0xab1c5ed5da6d8118,
    0xd807aa98a3030242, 0x12835b0145706fbe, 0x243185be4ee4b28c, 0x550c7dc3d5ffb4e2,
    0x72be5d74f27b896f, 0x80deb1fe3b1696b1, 0x9bdc06a725c71235, 0xc19bf174cf692694,
    0xe49b69c19ef14ad2, 0xefbe4786384f25e3, 0x0fc19dc68b8cd5b5, 0x240ca1cc77ac9c65,
    0x2de92c6f592b0275, 0x4a7484aa6ea6e483, 0x5cb0a9dcbd41fbd4, 0x76f988da831153b5,
    0x983e5152ee66dfab, 0xa831c66d2db43210, 0xb00327c898fb213f, 0xbf597fc7beef0ee4,
    0xc6e00bf33da88fc2, 0xd5a79147930aa725, 0x06ca6351e003826f, 0x142929670a0e6e70,
    0x27b70a8546d22ffc, 0x2e1b21385c26c926, 0x4d2c6dfc5ac42aed, 0x53380d139d95b3df,
    0x650a73548baf63de, 0x766a0abb3c77b2a8, 0x81c2c92e47edaee6, 0x92722c851482353b,
    0xa2bfe8a14cf10364, 0xa81a664bbc423001, 0xc24b8b70d0f89791, 0xc76c51a30654be30,
    0xd192e819d6ef5218, 0xd69906245565a910, 0xf40e35855771202a, 0x106aa07032bbd1b8,
    0x19a4c116b8d2d0c8, 0x1e376c085141ab53, 0x2748774cdf8eeb99, 0x34b0bcb5e19b48a8,
    0x391c0cb3c5c95a63, 0x4ed8aa4ae3418acb, 0x5b9cca4f7763e373, 0x682e6ff3d6b2b8a3,
    0x748f82ee5defb2fc, 0x78a5636f43172f60, 0x84c87814a1f0ab72, 0x8cc702081a6439ec,
    0x90befffa23631e28, 0xa4506cebde82bde9, 0xbef9a3f7b2c67915, 0xc67178f2e372532b,
    0xca273eceea26619c, 0xd186b8c721c0c207, 0xeada7dd6cde0eb1e, 0xf57d4f7fee6ed178,
    0x06f067aa72176fba, 0x0a637dc5a2c898a6, 0x113f9804bef90dae, 0x1b710b35131c471b,
    0x28db77f523047d84, 0x32caab7b40c72493, 0x3c9ebe0a15c9bebc, 0x431d67c49c100d4c,
    0x4cc5d4becb3e42b6, 0x597f299cfc657e2a, 0x5fcb6fab3ad6faec, 0x6c44198c4a475817]

def iv384 : Array UInt64 := #[
    0xcbbb9d5dc1059ed8, 0x629a292a367cd507, 0x9159015a3070dd17, 0x152fecd8f70e5939,
    0x67332667ffc00b31, 0x8eb44a8768581511, 0xdb0c2e0d64f98fa7, 0x47b5481dbefa4fa4]

def iv512 : Array UInt64 := #[
    0x6a09e667f3bcc908, 0xbb67ae8584caa73b, 0x3c6ef372fe94f82b, 0xa54ff53a5f1d36f1,
    0x510e527fade682d1, 0x9b05688c2b3e6c1f, 0x1f83d9abfb41bd6b, 0x5be0cd19137e2179]

def rotr (x : UInt64) (n : UInt64) : UInt64 := (x >>> n) ||| (x <<< (64 - n))

/-- 16 big-endian words of a block -/
def words : Bytes → List UInt64
  | b0 :: b1 :: b2 :: b3 :: b4 :: b5 :: b6 :: b7 :: rest =>
    (b0.toUInt64 <<< 56 ||| b1.toUInt64 <<< 48 ||| b2.toUInt64 <<< 40 ||| b3.toUInt64 <<< 32 |||
      b4.toUInt64 <<< 24 ||| b5.toUInt64 <<< 16 ||| b6.toUInt64 <<< 8 ||| b7.toUInt64) :: words rest
  | _ => []

def schedule (w : Array UInt64) : Array UInt64 := Id.run do
  let mut w := w
  for t in [16:80] do
    let w15 := w[t - 15]!
    let w2 := w[t - 2]!
    let s0 := rotr w15 1 ^^^ rotr w15 8 ^^^ (w15 >>> 7)
    let s1 := rotr w2 19 ^^^ rotr w2 61 ^^^ (w2 >>> 6)
    w := w.push (w[t - 16]! + s0 + w[t - 7]! + s1)
  return w

def compress (h : Array UInt64) (block : Bytes) : Array UInt64 := Id.run do
  let w := schedule (words block).toArray
  let mut a := h[0]!
  let mut b := h[1]!
  let mut c := h[2]!
  let mut d := h[3]!
  let mut e := h[4]!
  let mut f := h[5]!
  let mut g := h[6]!
  let mut hh := h[7]!
  for t in [0:80] do
    let s1 := rotr e 14 ^^^ rotr e 18 ^^^ rotr e 41
    let ch := (e &&& f) ^^^ ((~~~ e) &&& g)
    let t1 := hh + s1 + ch + k[t]! + w[t]!
    let s0 := rotr a 28 ^^^ rotr a 34 ^^^ rotr a 39
    let maj := (a &&& b) ^^^ (a &&& c) ^^^ (b &&& c)
    let t2 := s0 + maj
    hh := g
    g := f
    f := e
    e := d + t1
    d := c
    c := b
    b := a
    a := t1 + t2
  return #[h[0]! + a, h[1]! + b, h[2]! + c, h[3]! + d, h[4]! + e, h[5]! + f, h[6]! + g, h[7]! + hh]

/-- Padding to a multiple of 128 bytes -/
def pad (m : Bytes) : Bytes :=
  let z := (239 - m.length % 128) % 128
  m ++ [0x80] ++ List.replicate z 0 ++ beBytes 16 (8 * m.length)

def blocks (h : Array UInt64) : Nat → Bytes → Array UInt64
  | 0, _ => h
  | n + 1, m => blocks (compress h (m.take 128)) n (m.drop 128)

def run (iv : Array UInt64) (m : Bytes) : Bytes :=
  let p := pad m
  ((blocks iv (p.length / 128) p).toList.map (fun w => beBytes 8 w.toNat)).flatten

end Sha2

/-- Force a byte string to a given length; the algorithms here always give the right length. -/
def fit (n : Nat) (b : Bytes) : BytesN n :=
  ⟨b.take n ++ List.replicate (n - b.length) 0, by simp; omega⟩

def sha512 (m : Bytes) : BytesN 64 := fit 64 (Sha2.run Sha2.iv512 m)
def sha384 (m : Bytes) : BytesN 48 := fit 48 (Sha2.run Sha2.iv384 m)

/-- HMAC-SHA384; block size 128 -/
def hmacSha384 (key msg : Bytes) : BytesN 48 :=
  let key := if key.length > 128 then (sha384 key).1 else key
  let key := key ++ List.replicate (128 - key.length) 0
  sha384 (key.map (· ^^^ 0x5c) ++ (sha384 (key.map (· ^^^ 0x36) ++ msg)).1)

/-- `T(i)`, `T(i+1)`, ... of HKDF-Expand -/
def hkdfBlocks (prk info : Bytes) : Nat → UInt8 → Bytes → Bytes
  | 0, _, _ => []
  | n + 1, i, prev =>
    let t := (hmacSha384 prk (prev ++ info ++ [i])).1
    t ++ hkdfBlocks prk info n (i + 1) t

/-- HKDF-SHA384 with an absent salt -/
def hkdfSha384 (n : Nat) (ikm info : Bytes) : BytesN n :=
  let prk := (hmacSha384 (List.replicate 48 0) ikm).1
  fit n (hkdfBlocks prk info ((n + 47) / 48) 1 [])

/-- One output block of PBKDF2-HMAC-SHA384, with the two keyed states computed once -/
def pbkdf2Sha384 (pw salt : Bytes) (rounds : UInt32) : BytesN 32 := Id.run do
  let key := if pw.length > 128 then (sha384 pw).1 else pw
  let key := key ++ List.replicate (128 - key.length) 0
  let inner := Sha2.compress Sha2.iv384 (key.map (· ^^^ 0x36))
  let outer := Sha2.compress Sha2.iv384 (key.map (· ^^^ 0x5c))
  let finish (h : Array UInt64) : Bytes :=
    (((h.toList.map (fun w => beBytes 8 w.toNat)).flatten).take 48)
  let padded (d : Bytes) : Bytes := d ++ [0x80] ++ List.replicate 63 0 ++ beBytes 16 (8 * (128 + 48))
  let mut u := (hmacSha384 key (salt ++ [0, 0, 0, 1])).1
  let mut t := u
  for _ in [1:rounds.toNat] do
    u := finish (Sha2.compress outer (padded (finish (Sha2.compress inner (padded u)))))
    t := List.zipWith (· ^^^ ·) t u
  return fit 32 t

end Pasta.Real
