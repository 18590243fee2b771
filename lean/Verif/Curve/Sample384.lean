import Verif.Curve.Laws384

/-!
# One P-384 signature, evaluated

The nonce of RFC 6979 for the secret key 1 and one digest, and that a signature comes out. Used by the
examples which show that hypotheses can be met. (The kernel evaluates one HMAC at a time.)
-/

namespace Pasta.Curve.E384

open Pasta.Real
open Pasta.Real.P384 (n)

def sampleDigest : ℕ :=
  0xb8d630211faf1134eb101de7fae292e5941f31d6eb0de7f4f6c0e21debd560cd5a8565d7715934b72c52d38799bf42c8

def sampleNonce : ℕ :=
  0x2ab4e1b86ce63ef3008c522a636b1155f9bba9aaed1b567d689892fbe1960b0e1a5e32172680e709c9dfe405c8d7a943

def sampleK1 : Bytes := beBytes 48
  0xe8454de14451d0102a5274c754f93560e46a51675a48b9aa8fc8d6ce8ad8b2888d909c15cd126c557c755bad5642a24b

def sampleV1 : Bytes := beBytes 48
  0x30f67b371805d7b4754dd7e0f3d1a44a74d49718e3af63b6dda497532369b4ae2ced44ba04c6e2a73db77fda86b9aa2f

def sampleK2 : Bytes := beBytes 48
  0x9ebaeea530c73a136e55c6a6d88e510ae15d0d41f92e9f4ffc1ec56712d6418421f05c801648f8178c316dbd18af9780

def sampleV2 : Bytes := beBytes 48
  0xc1eaa762087bb9db2680b30f1f196cd0cfb544cf31715ee4f0e4d6bb3533de1542759c528409685a9df24b800cab7e32

theorem sample_K1 : (hmacSha384 (List.replicate 48 0) (List.replicate 48 1 ++ [0] ++ beBytes 48 1 ++
    beBytes 48 (sampleDigest % n))).1 = sampleK1 := by decide +kernel

theorem sample_V1 : (hmacSha384 sampleK1 (List.replicate 48 1)).1 = sampleV1 := by decide +kernel

theorem sample_K2 : (hmacSha384 sampleK1 (sampleV1 ++ [1] ++ beBytes 48 1 ++
    beBytes 48 (sampleDigest % n))).1 = sampleK2 := by decide +kernel

theorem sample_V2 : (hmacSha384 sampleK2 sampleV1).1 = sampleV2 := by decide +kernel

theorem sample_last : (hmacSha384 sampleK2 sampleV2).1 = beBytes 48 sampleNonce := by decide +kernel

theorem sample_nonce : P384.nonce (beBytes 48 1) sampleDigest = some sampleNonce := by
  unfold P384.nonce
  simp only [sample_K1, sample_V1, sample_K2, sample_V2]
  unfold P384.nonceLoop
  simp only [sample_last]
  have h : beNat (beBytes 48 sampleNonce) = sampleNonce := by decide +kernel
  rw [h, if_pos (by decide +kernel)]

theorem sample_sign : (P384.sign (beBytes 48 1) (beBytes 48 sampleDigest)).any
    (fun s => decide (2 ^ 190 ≤ beNat (s.take 48))) = true := by
  unfold P384.sign
  have h : beNat (beBytes 48 sampleDigest) = sampleDigest := by decide +kernel
  rw [h, sample_nonce, Option.bind_some]
  decide +kernel

end Pasta.Curve.E384
