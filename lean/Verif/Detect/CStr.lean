set_option autoImplicit false
/-!
# Names handed to the operating system

Models `src/utils.rs` L821-L868: `c!` appends a NUL byte to a literal and has `_const_is_c_str` look at
the result during compilation.
-/
namespace Verif.Detect.CStr

abbrev Byte := BitVec 8

/-- The loop of `_const_is_c_str` (L860-L865) with index `i`; `none`: index out of bounds, a panic. -/
def loop (bytes : List Byte) : Nat → Option Bool
  | 0 => some true
  | i + 1 => do
    let b ← bytes[i]?
    if b = 0 then return false
    loop bytes i

/-- `_const_is_c_str`, L834-L868 (`not(portable_atomic_no_track_caller)`; compilers older than Rust 1.46
only look whether there is a byte at all). -/
def isCStr (bytes : List Byte) : Option Bool := do
  if bytes.isEmpty then return false
  let i := bytes.length - 1
  let b ← bytes[i]?
  if b ≠ 0 then return false
  loop bytes i

/-- `c!`, L821-L831: `concat!($s, "\0").as_bytes()`, refused (`none`) at compile time unless
`_const_is_c_str`. -/
def c (s : List Byte) : Option (List Byte) :=
  let bytes := s ++ [0]
  if isCStr bytes = some true then some bytes else none

end Verif.Detect.CStr
