import Verif.Real.Sha2

/-! # XChaCha20 (RFC 8439, draft-irtf-cfrg-xchacha), executable; see `Verif.Real.Prims` -/

namespace Pasta.Real.ChaCha

def rotl (x : UInt32) (n : UInt32) : UInt32 := (x <<< n) ||| (x >>> (32 - n))

def quarter (v : Array UInt32) (a b c d : Nat) : Array UInt32 :=
  let va := v[a]! + v[b]!
  let vd := rotl (v[d]! ^^^ va) 16
  let vc := v[c]! + vd
  let vb := rotl (v[b]! ^^^ vc) 12
  let va := va + vb
  let vd := rotl (vd ^^^ va) 8
  let vc := vc + vd
  let vb := rotl (vb ^^^ vc) 7
  (((v.set! a va).set! b vb).set! c vc).set! d vd

def rounds (v : Array UInt32) : Array UInt32 := Id.run do
  let mut v := v
  for _ in [0:10] do
    v := quarter v 0 4 8 12
    v := quarter v 1 5 9 13
    v := quarter v 2 6 10 14
    v := quarter v 3 7 11 15
    v := quarter v 0 5 10 15
    v := quarter v 1 6 11 12
    v := quarter v 2 7 8 13
    v := quarter v 3 4 9 14
  return v

def words : Bytes → List UInt32
  | b0 :: b1 :: b2 :: b3 :: rest =>
    (b3.toUInt32 <<< 24 ||| b2.toUInt32 <<< 16 ||| b1.toUInt32 <<< 8 ||| b0.toUInt32) :: words rest
  | _ => []

def consts : List UInt32 := [0x61707865, 0x3320646e, 0x79622d32, 0x6b206574]

def bytes (l : List UInt32) : Bytes := (l.map (fun w => leBytes 4 w.toNat)).flatten

def hchacha20 (key nonce16 : Bytes) : Bytes :=
  let v := rounds (consts ++ words key ++ words nonce16).toArray
  bytes (v.toList.take 4 ++ v.toList.drop 12)

/-- One 64-byte block; `nonce12` is 12 bytes and the counter 32 bits. -/
def block (key nonce12 : Bytes) (counter : Nat) : Bytes :=
  let s := (consts ++ words key ++ [UInt32.ofNat counter] ++ words nonce12).toArray
  bytes (Array.zipWith (· + ·) s (rounds s)).toList

/-- Key stream of XChaCha20 at a byte position -/
def xchacha20 (key nonce : Bytes) (i : Nat) : UInt8 :=
  let sub := hchacha20 key (nonce.take 16)
  ((block sub ([0, 0, 0, 0] ++ nonce.drop 16) (i / 64))[i % 64]?).getD 0

end Pasta.Real.ChaCha
