import Verif.Real.Sha2

/-! # BLAKE2b (RFC 7693), executable; see `Verif.Real.Prims` -/

namespace Pasta.Real

namespace Blake2b

def iv : Array UInt64 := Sha2.iv512

def sigma : Array (Array Nat) := #[
  #[0, 1, 2, 3, 4, 5, 6, 7, 8, 9, 10, 11, 12, 13, 14, 15],
  #[14, 10, 4, 8, 9, 15, 13, 6, 1, 12, 0, 2, 11, 7, 5, 3],
  #[11, 8, 12, 0, 5, 2, 15, 13, 10, 14, 3, 6, 7, 1, 9, 4],
  #[7, 9, 3, 1, 13, 12, 11, 14, 2, 6, 5, 10, 4, 0, 15, 8],
  #[9, 0, 5, 7, 2, 4, 10, 15, 14, 1, 11, 12, 6, 8, 3, 13],
  #[2, 12, 6, 10, 0, 11, 8, 3, 4, 13, 7, 5, 15, 14, 1, 9],
  #[12, 5, 1, 15, 14, 13, 4, 10, 0, 7, 6, 3, 9, 2, 8, 11],
  #[13, 11, 7, 14, 12, 1, 3, 9, 5, 0, 15, 4, 8, 6, 2, 10],
  #[6, 15, 14, 9, 11, 3, 0, 8, 12, 2, 13, 7, 1, 4, 10, 5],
  #[10, 2, 8, 4, 7, 6, 1, 5, 15, 11, 9, 14, 3, 12, 13, 0]]

def g (v : Array UInt64) (a b c d : Nat) (x y : UInt64) : Array UInt64 :=
  let va := v[a]! + v[b]! + x
  let vd := Sha2.rotr (v[d]! ^^^ va) 32
  let vc := v[c]! + vd
  let vb := Sha2.rotr (v[b]! ^^^ vc) 24
  let va := va + vb + y
  let vd := Sha2.rotr (vd ^^^ va) 16
  let vc := vc + vd
  let vb := Sha2.rotr (vb ^^^ vc) 63
  (((v.set! a va).set! b vb).set! c vc).set! d vd

/-- 16 little-endian words of a block -/
def words : Bytes → List UInt64
  | b0 :: b1 :: b2 :: b3 :: b4 :: b5 :: b6 :: b7 :: rest =>
    (b7.toUInt64 <<< 56 ||| b6.toUInt64 <<< 48 ||| b5.toUInt64 <<< 40 ||| b4.toUInt64 <<< 32 |||
      b3.toUInt64 <<< 24 ||| b2.toUInt64 <<< 16 ||| b1.toUInt64 <<< 8 ||| b0.toUInt64) :: words rest
  | _ => []

def compress (h : Array UInt64) (block : Bytes) (t : Nat) (last : Bool) : Array UInt64 := Id.run do
  let m := (words block).toArray
  let mut v := h ++ iv
  v := v.set! 12 (v[12]! ^^^ UInt64.ofNat t)
  v := v.set! 13 (v[13]! ^^^ UInt64.ofNat (t / 2 ^ 64))
  if last then v := v.set! 14 (~~~ v[14]!)
  for r in [0:12] do
    let s := sigma[r % 10]!
    v := g v 0 4 8 12 m[s[0]!]! m[s[1]!]!
    v := g v 1 5 9 13 m[s[2]!]! m[s[3]!]!
    v := g v 2 6 10 14 m[s[4]!]! m[s[5]!]!
    v := g v 3 7 11 15 m[s[6]!]! m[s[7]!]!
    v := g v 0 5 10 15 m[s[8]!]! m[s[9]!]!
    v := g v 1 6 11 12 m[s[10]!]! m[s[11]!]!
    v := g v 2 7 8 13 m[s[12]!]! m[s[13]!]!
    v := g v 3 4 9 14 m[s[14]!]! m[s[15]!]!
  return h.mapIdx (fun i x => x ^^^ v[i]! ^^^ v[i + 8]!)

/-- All blocks but the last, then the last, zero-padded. The first argument bounds the number of
blocks. -/
def loop : Nat → Array UInt64 → Nat → Bytes → Array UInt64
  | 0, h, _, _ => h
  | n + 1, h, t, m =>
    if m.length ≤ 128 then compress h (m ++ List.replicate (128 - m.length) 0) (t + m.length) true
    else loop n (compress h (m.take 128) (t + 128) false) (t + 128) (m.drop 128)

end Blake2b

/-- BLAKE2b with a key of at most 64 bytes and 1 to 64 bytes of output -/
def blake2bMac (n : Nat) (key msg : Bytes) : BytesN n :=
  let h := Blake2b.iv.set! 0 (Blake2b.iv[0]! ^^^ (0x01010000 : UInt64) ^^^ (UInt64.ofNat key.length <<< 8) ^^^
    UInt64.ofNat n)
  let m := if key.isEmpty then msg else key ++ List.replicate (128 - key.length) 0 ++ msg
  let h := Blake2b.loop (m.length / 128 + 1) h 0 m
  fit n ((h.toList.map (fun w => leBytes 8 w.toNat)).flatten)

def blake2b (n : Nat) (msg : Bytes) : BytesN n := blake2bMac n [] msg

end Pasta.Real
