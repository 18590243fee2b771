import Verif.Model.Basic

/-!
# Specification: RFC 4648 base64url without padding

Written over bit strings, following RFC 4648 section 4/5: the input is a stream of bits, most
significant first, cut into groups of six; the last group is filled with zero bits on the right;
each group selects a character of the table. No padding character is written.
-/

namespace Pasta.Spec

/-- The eight bits of a byte, most significant first. -/
def bitsOfByte (b : UInt8) : List Bool :=
  [b.toNat.testBit 7, b.toNat.testBit 6, b.toNat.testBit 5, b.toNat.testBit 4,
   b.toNat.testBit 3, b.toNat.testBit 2, b.toNat.testBit 1, b.toNat.testBit 0]

/-- The number written by bits, most significant first. -/
def bitsValue (bs : List Bool) : Nat := bs.foldl (fun n b => 2 * n + b.toNat) 0

/-- Groups of six bits, the last one filled with zeros. -/
def sextets : List Bool → List (List Bool)
  | [] => []
  | [a] => [[a, false, false, false, false, false]]
  | [a, b] => [[a, b, false, false, false, false]]
  | [a, b, c] => [[a, b, c, false, false, false]]
  | [a, b, c, d] => [[a, b, c, d, false, false]]
  | [a, b, c, d, e] => [[a, b, c, d, e, false]]
  | a :: b :: c :: d :: e :: f :: rest => [a, b, c, d, e, f] :: sextets rest

/-- Table 2 of RFC 4648. -/
def alphabet : Bytes := asc "ABCDEFGHIJKLMNOPQRSTUVWXYZabcdefghijklmnopqrstuvwxyz0123456789-_"

/-- base64url without padding. -/
def base64url (b : Bytes) : Bytes :=
  (sextets (b.flatMap bitsOfByte)).map (fun g => alphabet[bitsValue g]?.getD 0)

end Pasta.Spec
