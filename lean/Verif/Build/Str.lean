import Mathlib.Data.List.Basic
import Mathlib.Data.List.SplitOn
/-!
# Byte strings

The parts of Rust's `str` the build script uses (`/repo/src/build/*.rs` call them; they belong to the
Rust standard library, so they are modelled from its documentation).  A `&str` is its bytes.
Slicing panics when the position is not a character boundary; a function that can panic returns
`none` for a panic.
-/
set_option autoImplicit false
namespace Verif.Build

abbrev Byte := UInt8
abbrev Str := List Byte

/-- ASCII text. -/
def asc (cs : List Char) : Str := cs.map fun c => UInt8.ofNat c.toNat

/-- A UTF-8 continuation byte. -/
def cont (b : Byte) : Bool := 0x80 ≤ b && b < 0xC0

/-- `str::is_char_boundary`. -/
def boundary (s : Str) (i : Nat) : Bool :=
  i == 0 || i == s.length || (match s[i]? with | some b => !cont b | none => false)

/-- `&s[i..]`; `none` is a panic. -/
def sliceFrom (s : Str) (i : Nat) : Option Str := if boundary s i then some (s.drop i) else none

/-- `&s[..i]`; `none` is a panic. -/
def sliceTo (s : Str) (i : Nat) : Option Str := if boundary s i then some (s.take i) else none

/-- `str::starts_with`. -/
def startsWith (s p : Str) : Bool := p.isPrefixOf s

/-- `str::ends_with`. -/
def endsWith (s p : Str) : Bool := p.isSuffixOf s

/-- `str::lines`: split after every `\n`; remove `\n` or `\r\n` from the end of each piece. -/
def chomp (s : Str) : Str := if s.getLast? = some 13 then s.dropLast else s

def linesFrom : Str → Str → List Str
  | cur, [] => if cur = [] then [] else [cur]
  | cur, b :: r => if b = 10 then chomp cur :: linesFrom [] r else linesFrom (cur ++ [b]) r

def lines (s : Str) : List Str := linesFrom [] s

/-- Cut at the first byte satisfying `p`. -/
def cut (p : Byte → Bool) : Str → Str × Option Str
  | [] => ([], none)
  | b :: r => if p b then ([], some r) else let (x, y) := cut p r; (b :: x, y)

/-- `str::splitn(n, c)`. -/
def splitn (p : Byte → Bool) : Nat → Str → List Str
  | 0, _ => []
  | 1, s => [s]
  | n + 2, s => match cut p s with
    | (a, none) => [a]
    | (a, some r) => a :: splitn p (n + 1) r

/-- `str::split(c)`: like `splitn` without a limit. -/
def splitFrom (p : Byte → Bool) : Str → Str → List Str
  | cur, [] => [cur]
  | cur, b :: r => if p b then cur :: splitFrom p [] r else splitFrom p (cur ++ [b]) r

def split (p : Byte → Bool) (s : Str) : List Str := splitFrom p [] s

/-- A decimal digit's value. -/
def digit (b : Byte) : Option Nat := if 48 ≤ b ∧ b ≤ 57 then some (b.toNat - 48) else none

/-- The digit loop of `parse::<uN>` with `checked_mul` and `checked_add`. -/
def parseDigits (max : Nat) : Nat → Str → Option Nat
  | acc, [] => some acc
  | acc, b :: r => match digit b with
    | none => none
    | some d => if acc * 10 ≤ max then if acc * 10 + d ≤ max then parseDigits max (acc * 10 + d) r else none
        else none

/-- `str::parse::<uN>().ok()` for a type with maximum `max`: an optional `+`, then digits. -/
def parseUInt (max : Nat) : Str → Option Nat
  | [] => none
  | [b] => if b = 43 ∨ b = 45 then none else parseDigits max 0 [b]
  | b :: r => if b = 43 then parseDigits max 0 r else parseDigits max 0 (b :: r)

end Verif.Build
