/-!
# Basic types of the model

Byte strings, fixed-size arrays, results with panics, the RNG tape.
-/

namespace Pasta

/-- `[u8]`, `Vec<u8>` and (through its UTF-8 bytes) `str`/`String`. -/
abbrev Bytes := List UInt8

/-- `GenericArray<u8, N>` (`crate::Bytes<N>`, src/lib.rs:107) and `[u8; N]`. -/
abbrev BytesN (n : Nat) := { b : Bytes // b.length = n }

/-- The bytes of an ASCII literal of the source code. -/
def asc (s : String) : Bytes := s.toList.map (fun c => c.toNat.toUInt8)

/-- `.` as in the literals `b"."`, `"."`, `'.'`. -/
def dot : UInt8 := 46

namespace BytesN

/-- `generic_array::sequence::Split::split`: first `m` bytes and the rest. -/
def split {k : Nat} (m n : Nat) (h : k = m + n) (b : BytesN k) : BytesN m × BytesN n :=
  (⟨b.1.take m, by have := b.2; simp; omega⟩, ⟨b.1.drop m, by have := b.2; simp; omega⟩)

/-- `generic_array::sequence::Concat::concat`. -/
def append {m n : Nat} (k : Nat) (h : k = m + n) (a : BytesN m) (b : BytesN n) : BytesN k :=
  ⟨a.1 ++ b.1, by have := a.2; have := b.2; simp; omega⟩

/-- `&a[..m]` followed by an infallible conversion to an array. -/
def prefixN {k : Nat} (m : Nat) (h : m ≤ k) (b : BytesN k) : BytesN m :=
  ⟨b.1.take m, by have := b.2; simp; omega⟩

/-- An array with every byte equal to `x`. -/
def fill (n : Nat) (x : UInt8) : BytesN n := ⟨List.replicate n x, by simp⟩

/-- `TryInto<[u8; N]>` on a slice: succeeds exactly on slices of length `N`. -/
def ofBytes? (n : Nat) (b : Bytes) : Option (BytesN n) :=
  if h : b.length = n then some ⟨b, h⟩ else none

end BytesN

/-- The little-endian digits of `n` base 256, truncated to `k` bytes.
`(n as u64).to_le_bytes()` is `leBytes 8 n`. -/
def leBytes : Nat → Nat → Bytes
  | 0, _ => []
  | k + 1, n => UInt8.ofNat (n % 256) :: leBytes k (n / 256)

/-- `to_be_bytes()` of a `k`-byte unsigned integer. -/
def beBytes (k n : Nat) : Bytes := (leBytes k n).reverse

/-- Little-endian value of a byte string. -/
def leNat : Bytes → Nat
  | [] => 0
  | b :: bs => b.toNat + 256 * leNat bs

/-- Big-endian value of a byte string (`from_be_bytes`). -/
def beNat (b : Bytes) : Nat := leNat b.reverse

/-- `PasetoError`, src/lib.rs:559-573. The boxed error is modelled by its message. -/
inductive PasetoError where
  | base64DecodeError
  | invalidKey
  | invalidToken
  | cryptoError
  | payloadError (msg : String)
  deriving DecidableEq, Repr

/-- `Result<α, PasetoError>` plus the possibility of a panic (`unwrap`/`expect` of an error,
out-of-bounds slicing, arithmetic underflow). -/
inductive Res (α : Type) where
  | ok (a : α)
  | err (e : PasetoError)
  | panic
  deriving DecidableEq, Repr

namespace Res

/-- Sequencing: `?` propagates errors, panics propagate. -/
def bind {α β : Type} : Res α → (α → Res β) → Res β
  | .ok a, f => f a
  | .err e, _ => .err e
  | .panic, _ => .panic

instance : Monad Res where
  pure := Res.ok
  bind := Res.bind

@[simp] theorem pure_def {α : Type} (a : α) : (pure a : Res α) = .ok a := rfl
@[simp] theorem ok_bind {α β : Type} (a : α) (f : α → Res β) : (Res.ok a >>= f) = f a := rfl
@[simp] theorem err_bind {α β : Type} (e : PasetoError) (f : α → Res β) :
    ((Res.err e : Res α) >>= f) = .err e := rfl
@[simp] theorem panic_bind {α β : Type} (f : α → Res β) :
    ((Res.panic : Res α) >>= f) = .panic := rfl

/-- `ok_or(e)?` -/
def okOr {α : Type} (e : PasetoError) : Option α → Res α
  | some a => .ok a
  | none => .err e

@[simp] theorem okOr_some {α : Type} (e : PasetoError) (a : α) : okOr e (some a) = .ok a := rfl
@[simp] theorem okOr_none {α : Type} (e : PasetoError) : okOr e (none : Option α) = .err e := rfl

/-- `unwrap()` / `expect()` -/
def unwrap {α : Type} : Option α → Res α
  | some a => .ok a
  | none => .panic

@[simp] theorem unwrap_some {α : Type} (a : α) : unwrap (some a) = .ok a := rfl
@[simp] theorem unwrap_none {α : Type} : unwrap (none : Option α) = .panic := rfl

/-- `map_err(PasetoError::PayloadError)` on a result with a boxed error. -/
def ofExcept {α : Type} : Except String α → Res α
  | .ok a => .ok a
  | .error m => .err (.payloadError m)

@[simp] theorem ofExcept_ok {α : Type} (a : α) : ofExcept (.ok a) = .ok a := rfl
@[simp] theorem ofExcept_error {α : Type} (m : String) :
    ofExcept (.error m : Except String α) = .err (.payloadError m) := rfl

end Res

/-- A random source: the bytes it will deliver. This is the repository's own `FakeRng`
(src/lib.rs:612-657), a finite tape; `thread_rng()` and `OsRng` are tapes of unknown content. -/
abbrev Rng := Bytes

/-- `RngCore::fill_bytes` for a buffer of `n` bytes; panics when the tape is exhausted
(src/lib.rs:640-649). Returns the remaining tape. -/
def fillBytes (n : Nat) (rng : Rng) : Res (BytesN n × Rng) :=
  if h : n ≤ rng.length then
    .ok (⟨rng.take n, by simp; omega⟩, rng.drop n)
  else .panic

/-- `str::strip_prefix` -/
def stripPrefix : Bytes → Bytes → Option Bytes
  | [], s => some s
  | _ :: _, [] => none
  | p :: ps, c :: cs => if p = c then stripPrefix ps cs else none

/-- `str::split_once(c)`: split at the first occurrence of `c`. -/
def splitOnce (c : UInt8) : Bytes → Option (Bytes × Bytes)
  | [] => none
  | x :: xs =>
    if x = c then some ([], xs)
    else match splitOnce c xs with
      | some (a, b) => some (x :: a, b)
      | none => none

/-- `subtle::ConstantTimeEq::ct_eq for u8` (subtle 2.5: the result is 1 or 0, computed without a
branch) -/
def u8CtEq (a b : UInt8) : UInt8 :=
  let x := a ^^^ b
  let y := (x ||| (0 - x)) >>> 7
  y ^^^ 1

/-- `subtle::ConstantTimeEq::ct_eq for [T]`: slices of different length differ; otherwise all
positions are compared and the results accumulated -/
def ctEq (a b : Bytes) : UInt8 :=
  if a.length ≠ b.length then 0
  else (a.zip b).foldl (fun x p => x &&& u8CtEq p.1 p.2) 1

/-- `subtle::ConstantTimeEq::ct_ne` on slices: `!ct_eq`, converted to `bool` -/
def ctNe (a b : Bytes) : Bool := (1 &&& ~~~ (ctEq a b)) != 0

end Pasta
