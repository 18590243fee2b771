import Verif.Model.Basic

/-!
# `base64ct::Base64UrlUnpadded` (version 1.6.0) as used by the code

The crate works on `i16` values with branch-free comparisons; here the same shifts and masks are
done on bytes and the branch-free range checks are written as conditionals.
-/

namespace Pasta.B64

/-- `Alphabet::encode_6bits` for the URL-safe alphabet `[A-Z] [a-z] [0-9] - _`. -/
def enc6 (x : UInt8) : UInt8 :=
  if x < 26 then x + 65
  else if x < 52 then x + 71
  else if x < 62 then x - 4
  else if x = 62 then 45
  else 95

/-- `Alphabet::decode_6bits`; `none` models the result `-1`. -/
def dec6 (c : UInt8) : Option UInt8 :=
  if 65 ≤ c ∧ c ≤ 90 then some (c - 65)
  else if 97 ≤ c ∧ c ≤ 122 then some (c - 71)
  else if 48 ≤ c ∧ c ≤ 57 then some (c + 4)
  else if c = 45 then some 62
  else if c = 95 then some 63
  else none

/-- `Alphabet::encode_3bytes` -/
def encode3 (b0 b1 b2 : UInt8) : Bytes :=
  [enc6 (b0 >>> 2),
   enc6 (((b0 <<< 4) ||| (b1 >>> 4)) &&& 63),
   enc6 (((b1 <<< 2) ||| (b2 >>> 6)) &&& 63),
   enc6 (b2 &&& 63)]

/-- `Alphabet::decode_3bytes`: the error bit is set iff some character is invalid. -/
def decode3 (s0 s1 s2 s3 : UInt8) : Option Bytes :=
  match dec6 s0, dec6 s1, dec6 s2, dec6 s3 with
  | some c0, some c1, some c2, some c3 =>
    some [(c0 <<< 2) ||| (c1 >>> 4), (c1 <<< 4) ||| (c2 >>> 2), (c2 <<< 6) ||| c3]
  | _, _, _, _ => none

/-- `encoded_len`: `4n/3` rounded up. -/
def encodedLen (n : Nat) : Nat := n * 4 / 3 + (if n * 4 % 3 ≠ 0 then 1 else 0)

/-- `decoded_len` -/
def decodedLen (n : Nat) : Nat := 3 * (n / 4) + 3 * (n - 4 * (n / 4)) / 4

/-- The body of `Encoding::encode`: whole 3-byte chunks, then the zero-padded remainder cut to
the remaining output length. Also `encode_string`. -/
def encode : Bytes → Bytes
  | b0 :: b1 :: b2 :: rest => encode3 b0 b1 b2 ++ encode rest
  | [b0, b1] => (encode3 b0 b1 0).take 3
  | [b0] => (encode3 b0 0 0).take 2
  | [] => []

/-- `Encoding::encode(src, dst)` into a buffer of `cap` bytes; `none` is `InvalidLengthError`. -/
def encodeInto (cap : Nat) (src : Bytes) : Option Bytes :=
  if encodedLen src.length ≤ cap then some (encode src) else none

/-- The loop of `Encoding::decode`: whole 4-character chunks, then the remainder padded with
`'A'`; a remainder of one character is an error. -/
def decodeChunks : Bytes → Option Bytes
  | s0 :: s1 :: s2 :: s3 :: rest =>
    match decode3 s0 s1 s2 s3, decodeChunks rest with
    | some d, some r => some (d ++ r)
    | _, _ => none
  | [s0, s1, s2] => (decode3 s0 s1 s2 65).map (·.take 2)
  | [s0, s1] => (decode3 s0 s1 65 65).map (·.take 1)
  | [_] => none
  | [] => some []

/-- `last_block_start` in `validate_last_block` -/
def lastBlockStart (len blockSize : Nat) : Nat := (len - 1) / blockSize * blockSize

/-- `validate_last_block`: re-encode the last decoded block and compare it, over the common
length, with the last encoded block. -/
def validateLastBlock (encoded decoded : Bytes) : Bool :=
  if encoded.isEmpty && decoded.isEmpty then true
  else
    let encBlock := encoded.drop (lastBlockStart encoded.length 4)
    let decBlock := decoded.drop (lastBlockStart decoded.length 3)
    (List.zipWith (fun a b => a ^^^ b) (encode decBlock) encBlock).foldl (fun acc d => acc ||| d) 0 == 0

/-- `Encoding::decode(src, dst)` into a buffer of `cap` bytes, and with
`cap = decodedLen src.length` also `decode_vec`. All errors are identified: the code maps every
base64 error to `Base64DecodeError`. -/
def decodeInto (cap : Nat) (src : Bytes) : Option Bytes :=
  if decodedLen src.length > cap then none
  else match decodeChunks src with
    | none => none
    | some d => if validateLastBlock src d then some d else none

/-- `Encoding::decode_vec` -/
def decodeVec (src : Bytes) : Option Bytes := decodeInto (decodedLen src.length) src

end Pasta.B64
