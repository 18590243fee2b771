import Verif.Model.Basic

/-! # Pre-authentication encoding, src/pae.rs -/

namespace Pasta

/-- `WriteBytes::update`, src/pae.rs:1-25. A `Vec` is extended; a `Mac`/`Digest` is modelled by
the bytes fed to it so far, so all three are concatenation. -/
def update (out slice : Bytes) : Bytes := out ++ slice

/-- `write_piece`, src/pae.rs:35-41. (The `u64` sum cannot overflow: the slices are disjoint
objects in memory or repeated constants.) -/
def writePiece (out : Bytes) (piece : List Bytes) : Bytes :=
  let len := (piece.map List.length).sum
  piece.foldl update (update out (leBytes 8 len))

/-- `pae`, src/pae.rs:28-33 -/
def pae (pieces : List (List Bytes)) (out : Bytes) : Bytes :=
  pieces.foldl writePiece (update out (leBytes 8 pieces.length))

end Pasta
