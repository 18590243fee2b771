import Verif.Real.Blake2b

/-! # Argon2id version 0x13 (RFC 9106), executable; see `Verif.Real.Prims` -/

namespace Pasta.Real.Argon2

def le32 (n : Nat) : Bytes := leBytes 4 n

/-- The 32-byte pieces of the variable-length hash after the first -/
def hashTail : Nat → Nat → Bytes → Bytes
  | 0, _, _ => []
  | fuel + 1, left, v =>
    if left ≤ 64 then (blake2b left v).1
    else
      let v := (blake2b 64 v).1
      v.take 32 ++ hashTail fuel (left - 32) v

/-- `H'` -/
def hashLong (t : Nat) (x : Bytes) : Bytes :=
  if t ≤ 64 then (blake2b t (le32 t ++ x)).1
  else
    let v := (blake2b 64 (le32 t ++ x)).1
    v.take 32 ++ hashTail t (t - 32) v

def mask32 : UInt64 := 0xffffffff

def fBlaMka (a b : UInt64) : UInt64 := a + b + 2 * (a &&& mask32) * (b &&& mask32)

@[inline] def gb (v : Array UInt64) (a b c d : Nat) : Array UInt64 :=
  let va := fBlaMka v[a]! v[b]!
  let vd := Sha2.rotr (v[d]! ^^^ va) 32
  let vc := fBlaMka v[c]! vd
  let vb := Sha2.rotr (v[b]! ^^^ vc) 24
  let va := fBlaMka va vb
  let vd := Sha2.rotr (vd ^^^ va) 16
  let vc := fBlaMka vc vd
  let vb := Sha2.rotr (vb ^^^ vc) 63
  (((v.set! a va).set! b vb).set! c vc).set! d vd

/-- The permutation `P` on the 16 words at the given positions -/
def perm (v : Array UInt64) (i : Nat → Nat) : Array UInt64 :=
  let v := gb v (i 0) (i 4) (i 8) (i 12)
  let v := gb v (i 1) (i 5) (i 9) (i 13)
  let v := gb v (i 2) (i 6) (i 10) (i 14)
  let v := gb v (i 3) (i 7) (i 11) (i 15)
  let v := gb v (i 0) (i 5) (i 10) (i 15)
  let v := gb v (i 1) (i 6) (i 11) (i 12)
  let v := gb v (i 2) (i 7) (i 8) (i 13)
  gb v (i 3) (i 4) (i 9) (i 14)

/-- The compression function `G` -/
def compress (x y : Array UInt64) : Array UInt64 := Id.run do
  let r := Array.zipWith (· ^^^ ·) x y
  let mut q := r
  for i in [0:8] do
    q := perm q (fun j => 16 * i + j)
  for i in [0:8] do
    q := perm q (fun j => 2 * i + 16 * (j / 2) + j % 2)
  return Array.zipWith (· ^^^ ·) r q

def zeroBlock : Array UInt64 := Array.replicate 128 0

def blockOf (b : Bytes) : Array UInt64 := (Blake2b.words b).toArray
def blockBytes (b : Array UInt64) : Bytes := (b.toList.map (fun w => leBytes 8 w.toNat)).flatten

/-- Argon2id: password, salt, secret, associated data, memory (KiB), passes, lanes, output length -/
def argon2id (pw salt secret ad : Bytes) (m t p out : Nat) : Bytes := Id.run do
  let h0 := (blake2b 64 (le32 p ++ le32 out ++ le32 m ++ le32 t ++ le32 0x13 ++ le32 2 ++
    le32 pw.length ++ pw ++ le32 salt.length ++ salt ++ le32 secret.length ++ secret ++
    le32 ad.length ++ ad)).1
  let m' := 4 * p * (m / (4 * p))
  let q := m' / p
  let seg := q / 4
  let mut B : Array (Array UInt64) := Array.replicate m' #[]
  for l in [0:p] do
    B := B.set! (l * q) (blockOf (hashLong 1024 (h0 ++ le32 0 ++ le32 l)))
    B := B.set! (l * q + 1) (blockOf (hashLong 1024 (h0 ++ le32 1 ++ le32 l)))
  for pass in [0:t] do
    for slice in [0:4] do
      for l in [0:p] do
        let indep := pass == 0 && slice < 2
        let mut addr : Array UInt64 := zeroBlock
        let mut counter := 0
        for i in [0:seg] do
          if indep && (i % 128 == 0) then
            counter := counter + 1
            let input := #[UInt64.ofNat pass, UInt64.ofNat l, UInt64.ofNat slice, UInt64.ofNat m',
              UInt64.ofNat t, 2, UInt64.ofNat counter] ++ Array.replicate 121 (0 : UInt64)
            addr := compress zeroBlock (compress zeroBlock input)
          if pass == 0 && slice == 0 && i < 2 then continue
          let j := slice * seg + i
          let prev := if j == 0 then q - 1 else j - 1
          let pseudo := if indep then addr[i % 128]! else (B[l * q + prev]!)[0]!
          let j1 := (pseudo &&& mask32).toNat
          let j2 := (pseudo >>> 32).toNat
          let rl := if pass == 0 && slice == 0 then l else j2 % p
          let same := rl == l
          let area :=
            if pass == 0 then
              if slice == 0 then i - 1
              else if same then slice * seg + i - 1
              else slice * seg - (if i == 0 then 1 else 0)
            else
              if same then q - seg + i - 1
              else q - seg - (if i == 0 then 1 else 0)
          let x := j1 * j1 / 2 ^ 32
          let rel := area - 1 - area * x / 2 ^ 32
          let start := if pass == 0 then 0 else if slice == 3 then 0 else (slice + 1) * seg
          let ref := (start + rel) % q
          let new := compress B[l * q + prev]! B[rl * q + ref]!
          if pass == 0 then B := B.set! (l * q + j) new
          else B := B.set! (l * q + j) (Array.zipWith (· ^^^ ·) B[l * q + j]! new)
  let mut C := B[q - 1]!
  for l in [1:p] do
    C := Array.zipWith (· ^^^ ·) C B[l * q + q - 1]!
  return hashLong out (blockBytes C)

end Pasta.Real.Argon2
