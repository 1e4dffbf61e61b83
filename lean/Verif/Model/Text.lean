import Verif.Model.Basic
/-!
The Rust standard library functions on strings and integers that the parsers of `lindera` call. They are
external to the repository; each comment names the Rust function.
-/
namespace Verif.Model

/-- `slice::split` / `str::split(char)` (Rust core): the pieces between separators, always at least one. -/
def splitAll {α : Type} (p : α → Bool) : List α → List (List α)
  | [] => [[]]
  | x :: xs =>
    if p x then [] :: splitAll p xs
    else match splitAll p xs with
      | [] => [[x]]
      | piece :: pieces => (x :: piece) :: pieces

/-- `char::is_whitespace` (Unicode `White_Space`). -/
def isWhitespace (c : Char) : Bool :=
  let n := c.toNat
  (9 ≤ n && n ≤ 13) || n == 0x20 || n == 0x85 || n == 0xA0 || n == 0x1680 || (0x2000 ≤ n && n ≤ 0x200A) ||
    n == 0x2028 || n == 0x2029 || n == 0x202F || n == 0x205F || n == 0x3000

/-- `char::is_ascii_whitespace`: space, tab, line feed, form feed, carriage return. -/
def isAsciiWhitespace (c : Char) : Bool :=
  let n := c.toNat
  n == 0x20 || n == 9 || n == 10 || n == 12 || n == 13

/-- `str::trim`. -/
def trim (s : Str) : Str := ((s.dropWhile isWhitespace).reverse.dropWhile isWhitespace).reverse

/-- `str::split_whitespace`: the non-empty pieces between white space. -/
def splitWhitespace (s : Str) : List Str := (splitAll isWhitespace s).filter (· ≠ [])

/-- `str::split_ascii_whitespace`. -/
def splitAsciiWhitespace (s : Str) : List Str := (splitAll isAsciiWhitespace s).filter (· ≠ [])

/-- `str::split("..")`: the pieces between the matches of `..`, searched from the left without overlap. -/
def splitDots : Str → List Str
  | [] => [[]]
  | '.' :: '.' :: s => [] :: splitDots s
  | c :: s => match splitDots s with
    | [] => [[c]]
    | piece :: pieces => (c :: piece) :: pieces

/-- `str::trim_start_matches("0x")`: removes the prefix as often as it occurs. -/
def trim0x : Str → Str
  | '0' :: 'x' :: s => trim0x s
  | s => s

/-- Remove one trailing carriage return. -/
def dropCr (s : Str) : Str := if s.getLast? = some '\r' then s.dropLast else s

/-- The lines of a text given the pieces between its line feeds: all pieces but the last ended with a line
feed, the last is a line only if it is not empty. -/
def linesOf : List Str → List Str
  | [] => []
  | [p] => if p = [] then [] else [p]
  | p :: q :: ps => dropCr p :: linesOf (q :: ps)

/-- `str::lines`: lines end with `\n` or `\r\n`; a final line without line feed is kept as it is. -/
def lines (s : Str) : List Str := linesOf (splitAll (· = '\n') s)

/-- `char::to_digit(radix)` for `radix ≤ 16`. -/
def digitVal (radix : Nat) (c : Char) : Option Nat :=
  let n := c.toNat
  let v := if 48 ≤ n ∧ n ≤ 57 then n - 48 else if 97 ≤ n ∧ n ≤ 102 then n - 87
    else if 65 ≤ n ∧ n ≤ 70 then n - 55 else radix
  if v < radix then some v else none

/-- The value of a non-empty digit string. -/
def parseNat (radix : Nat) (s : Str) : Option Nat :=
  if s = [] then none else s.foldlM (fun acc c => (digitVal radix c).map (acc * radix + ·)) 0

/-- `<integer>::from_str_radix` (Rust core): an optional `+` (or `-` for the signed types), at least one digit, and
nothing else; an error if the value is outside the type's range `[lo, hi]`. Rust checks for overflow after
each digit, which accepts the same strings. -/
def parseInt (radix : Nat) (signed : Bool) (lo hi : Int) (s : Str) : Option Int :=
  let v : Option Int := match s with
    | '+' :: ds => (parseNat radix ds).map (fun n : Nat => (n : Int))
    | '-' :: ds => if signed then (parseNat radix ds).map (fun n : Nat => - (n : Int)) else none
    | ds => (parseNat radix ds).map (fun n : Nat => (n : Int))
  v.bind fun n => if lo ≤ n ∧ n ≤ hi then some n else none

/-- `i16::from_str`. -/
def parseI16 (s : Str) : Option Int16 := (parseInt 10 true (-32768) 32767 s).map Int16.ofInt
/-- `u16::from_str`. -/
def parseU16 (s : Str) : Option UInt16 := (parseInt 10 false 0 65535 s).map fun n => UInt16.ofNat n.toNat
/-- `u32::from_str`. -/
def parseU32 (s : Str) : Option UInt32 := (parseInt 10 false 0 4294967295 s).map fun n => UInt32.ofNat n.toNat
/-- `i32::from_str`. -/
def parseI32 (s : Str) : Option Int32 := (parseInt 10 true (-2147483648) 2147483647 s).map Int32.ofInt
/-- `u16::from_str_radix(_, 16)`. -/
def parseHexU16 (s : Str) : Option UInt16 := (parseInt 16 false 0 65535 s).map fun n => UInt16.ofNat n.toNat

/-- `str::from_utf8`: the string with these UTF-8 bytes, if there is one. -/
def decodeUtf8 (bs : List UInt8) : Option Str := bs.toByteArray.utf8Decode?.map Array.toList

/-- `<[u8] as Ord>::cmp` not greater: lexicographic order. Also the order of `str` and `String`, by their UTF-8 bytes. -/
def bytesLe : List UInt8 → List UInt8 → Bool
  | [], _ => true
  | _ :: _, [] => false
  | a :: as, b :: bs => a < b || (a == b && bytesLe as bs)

/-- `str` comparison `a <= b`. -/
def strLe (a b : Str) : Bool := bytesLe (utf8 a) (utf8 b)

/-- One step of a stable sort: insert before the first element that is not smaller. -/
def insertSorted {α : Type} (key : α → Str) (x : α) : List α → List α
  | [] => [x]
  | y :: ys => if strLe (key x) (key y) then x :: y :: ys else y :: insertSorted key x ys

/-- `slice::sort_by_key` (Rust alloc) with a string key: the stable sorted permutation. The algorithm (Rust: merge sort) is
not modelled; a stable sort is determined by its input and order. -/
def sortByKey {α : Type} (key : α → Str) (xs : List α) : List α := xs.foldr (insertSorted key) []

/-- Insert a number into an increasing list, keeping it if it is already there. -/
def insertNat (dup : Bool) (x : Nat) : List Nat → List Nat
  | [] => [x]
  | y :: ys => if x < y then x :: y :: ys else if x = y ∧ !dup then y :: ys else y :: insertNat dup x ys

/-- `slice::sort_unstable` on integers: the increasing permutation. The algorithm is not modelled. -/
def sortNat (xs : List Nat) : List Nat := xs.foldr (insertNat true) []

/-- The elements of a `BTreeSet` of integers in iteration order: increasing, without duplicates. -/
def sortedSet (xs : List Nat) : List Nat := xs.foldr (insertNat false) []

end Verif.Model
