import Verif.Model.Basic

/-!
# Specification: PASETO pre-authentication encoding

From the PASETO specification, "Common implementation details": `LE64` writes a 64-bit
little-endian integer whose most significant bit is cleared; `PAE` writes the number of pieces and
then every piece preceded by its length.
-/

namespace Pasta.Spec

/-- `LE64(n)`: byte `i` is `n >> (8 i)`, the last one with its top bit cleared. -/
def LE64 (n : Nat) : Bytes :=
  (List.range 8).map (fun i => if i = 7 then UInt8.ofNat ((n >>> 56) % 128) else
    UInt8.ofNat ((n >>> (8 * i)) % 256))

/-- `PAE(pieces)` -/
def PAE (pieces : List Bytes) : Bytes :=
  LE64 pieces.length ++ (pieces.map (fun p => LE64 p.length ++ p)).flatten

/-- A length that exists: Rust slices and vectors hold at most `isize::MAX` bytes. -/
def Fits (b : Bytes) : Prop := b.length < 2 ^ 63

end Pasta.Spec
