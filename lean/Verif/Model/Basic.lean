/-
Shared vocabulary of the model: failures, strings as character lists with UTF-8 byte offsets,
little-endian integers.
-/
namespace Verif.Model

/-- `LinderaErrorKind`, `lindera-core/src/error.rs` lines 6-21 (all variants). -/
inductive ErrKind where
  | args | content | decode | deserialize | io | parse | serialize | compress
  | dictionaryNotFound | dictionaryLoadError | dictionaryBuildError | dictionaryKindError
  | dictionarySourceTypeError | modeError
  deriving DecidableEq, Repr

/-- The ways a Rust call can fail to return a value: a returned `LinderaError` (only its kind is
kept; `lindera-core/src/error.rs` lines 35-41), a panic (index out of range, slice off a character boundary,
failed `unwrap`/`assert`), or a loop that does not end. -/
inductive Fail where
  | err (k : ErrKind)
  | panic
  | diverge
  deriving DecidableEq, Repr

/-- Result of a Rust call. `LinderaResult<T>` (`lindera-core/src/lib.rs`), extended with panics. -/
abbrev R (α : Type) := Except Fail α

/-- A Rust `&str`/`String`: its characters. Byte offsets are UTF-8 offsets, see `blen`. -/
abbrev Str := List Char

/-- `str::len()`: number of UTF-8 bytes (Rust core; used throughout). -/
def blen : Str → Nat
  | [] => 0
  | c :: cs => c.utf8Size + blen cs

/-- `&s[n..]` (Rust core). `none`: `n` is out of range or not on a character boundary (panic in Rust). -/
def dropBytes : Str → Nat → Option Str
  | s, 0 => some s
  | [], _ + 1 => none
  | c :: cs, n + 1 => if c.utf8Size ≤ n + 1 then dropBytes cs (n + 1 - c.utf8Size) else none

/-- `&s[..n]` (Rust core). `none`: panic in Rust, as for `dropBytes`. -/
def takeBytes : Str → Nat → Option Str
  | _, 0 => some []
  | [], _ + 1 => none
  | c :: cs, n + 1 =>
    if c.utf8Size ≤ n + 1 then (takeBytes cs (n + 1 - c.utf8Size)).map (c :: ·) else none

/-- `&s[a..b]` (Rust core). `none`: panic in Rust (bounds crossed, out of range, off a boundary). -/
def sliceBytes (s : Str) (a b : Nat) : Option Str :=
  if a ≤ b then (dropBytes s a).bind (takeBytes · (b - a)) else none

/-- Turn the `none` of an indexing operation into a Rust panic. -/
def orPanic {α : Type} : Option α → R α
  | some a => .ok a
  | none => .error .panic

/-- UTF-8 bytes of a string (`str::as_bytes`). -/
def utf8 (s : Str) : List UInt8 := s.flatMap String.utf8EncodeChar

/-! ### `byteorder` little-endian integers -/

/-- `WriteBytesExt::write_u16::<LittleEndian>`: the two base-256 digits, least significant first. -/
def leU16 (x : UInt16) : List UInt8 := [UInt8.ofNat x.toNat, UInt8.ofNat (x.toNat / 256)]

/-- `WriteBytesExt::write_u32::<LittleEndian>`: the four base-256 digits, least significant first. -/
def leU32 (x : UInt32) : List UInt8 :=
  [UInt8.ofNat x.toNat, UInt8.ofNat (x.toNat / 256), UInt8.ofNat (x.toNat / 65536),
   UInt8.ofNat (x.toNat / 16777216)]

/-- `WriteBytesExt::write_i16::<LittleEndian>`: the two's complement bits. -/
def leI16 (x : Int16) : List UInt8 := leU16 x.toUInt16

/-- `LittleEndian::read_u16(buf)`: reads the first two bytes, panics if there are fewer. -/
def readU16 : List UInt8 → Option UInt16
  | a :: b :: _ => some (UInt16.ofNat (a.toNat + 256 * b.toNat))
  | _ => none

/-- `LittleEndian::read_u32(buf)`: reads the first four bytes, panics if there are fewer. -/
def readU32 : List UInt8 → Option UInt32
  | a :: b :: c :: d :: _ =>
    some (UInt32.ofNat (a.toNat + 256 * b.toNat + 65536 * c.toNat + 16777216 * d.toNat))
  | _ => none

/-- `LittleEndian::read_i16(buf)`. -/
def readI16 (bs : List UInt8) : Option Int16 := (readU16 bs).map Int16.ofUInt16

/-- `&data[n..]` on a byte slice: panics (`none`) if `n > data.len()`. -/
def byteDrop (bs : List UInt8) (n : Nat) : Option (List UInt8) :=
  if n ≤ bs.length then some (bs.drop n) else none

/-- `&data[a..b]` on a byte slice: panics (`none`) if `a > b` or `b > data.len()`. -/
def byteSlice (bs : List UInt8) (a b : Nat) : Option (List UInt8) :=
  if a ≤ b ∧ b ≤ bs.length then some ((bs.drop a).take (b - a)) else none

end Verif.Model
