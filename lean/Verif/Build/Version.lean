import Verif.Build.Str
/-!
# The rustc version parser of the build script: `/repo/src/build/version.rs`
-/
set_option autoImplicit false
namespace Verif.Build

/-- `Date`, L126-139; the derived order is lexicographic. `year: u16`, `month: u8`, `day: u8`. -/
structure Date where
  year : Nat
  month : Nat
  day : Nat
deriving DecidableEq

/-- `Date::UNKNOWN`, L135. -/
def Date.unknown : Date := ⟨0, 0, 0⟩

/-- The derived `PartialOrd`, L126: compare the fields in order of declaration. -/
def Date.ge (a b : Date) : Bool :=
  if a.year = b.year then
    if a.month = b.month then b.day ≤ a.day
    else b.month < a.month
  else b.year < a.year

/-- `Version`, L28-33. -/
structure Version where
  minor : Nat
  nightly : Bool
  commitDate : Option Date
  llvm : Nat
deriving DecidableEq

/-- `Version::stable`, L43-45. -/
def Version.stable (minor llvm : Nat) : Version := ⟨minor, false, none, llvm⟩

/-- `Version::LATEST`, L41. -/
def Version.latest : Version := .stable 97 21

/-- `Version::probe`, L47-56. -/
def Version.probe (v : Version) (minor year month day : Nat) : Bool :=
  if v.minor ≠ minor then decide (v.minor > minor)
  else match v.commitDate with
    | some d => d.ge ⟨year, month, day⟩
    | none => true

def u32Max : Nat := 2 ^ 32 - 1
def u16Max : Nat := 2 ^ 16 - 1
def u8Max : Nat := 2 ^ 8 - 1

/-- `"release: "` L61-62, `"LLVM version: "` L89-90, `"commit-date: "` L103-104. -/
def kRelease : Str := asc ['r', 'e', 'l', 'e', 'a', 's', 'e', ':', ' ']
def kLlvm : Str := asc ['L', 'L', 'V', 'M', ' ', 'v', 'e', 'r', 's', 'i', 'o', 'n', ':', ' ']
def kDate : Str := asc ['c', 'o', 'm', 'm', 'i', 't', '-', 'd', 'a', 't', 'e', ':', ' ']
def cNightly : Str := asc ['n', 'i', 'g', 'h', 't', 'l', 'y']
def cDev : Str := asc ['d', 'e', 'v']

/-- `verbose_version.lines().find(|line| line.starts_with(k)).map(|line| &line[k.len()..])`, L59-62,
L87-90, L101-104.  Outer `none`: panic of the slice. -/
def field (text k : Str) : Option (Option Str) :=
  match (lines text).find? (fun l => startsWith l k) with
  | none => some none
  | some l => (sliceFrom l k.length).map some

def isDot (b : Byte) : Bool := b == 46
def isDash (b : Byte) : Bool := b == 45

/-- L91-95: the LLVM major version, from the text after `LLVM version: `. -/
def llvmOf (v : Str) : Option Nat := do
  let digits := splitn isDot 3 v
  let major ← parseUInt u32Max (← digits[0]?)
  let _minor ← parseUInt u32Max (← digits[1]?)
  let _patch ← parseUInt u32Max (digits[2]?.getD (asc ['0']))
  return major

/-- L105-112: the commit date. -/
def dateOf (v : Str) : Option Date := do
  let ds := splitn isDash 3 v
  let year ← parseUInt u16Max (← ds[0]?)
  let month ← parseUInt u8Max (← ds[1]?)
  let day ← parseUInt u8Max (← ds[2]?)
  if month > 12 ∨ day > 31 then none else return ⟨year, month, day⟩

/-- L63-72: minor version and channel, from the text after `release: `. -/
def releaseOf (v : Str) : Option (Nat × Str) := do
  let release := splitn isDash 2 v
  let version := release[0]?.getD []
  let channel := release[1]?.getD []
  let digits := splitn isDot 3 version
  let major ← digits[0]?
  if major ≠ asc ['1'] then none
  else
    let minor ← parseUInt u32Max (← digits[1]?)
    let _patch ← parseUInt u32Max (digits[2]?.getD (asc ['0']))
    return (minor, channel)

/-- `Version::parse`, L58-123; `boot`: the value of `RUSTC_BOOTSTRAP`.  Outer `none`: panic. -/
def Version.parse (text : Str) (boot : Option Str) : Option (Option Version) := do
  match ← field text kRelease with
  | none => return none
  | some rel =>
    match releaseOf rel with
    | none => return none
    | some (minor, channel) =>
      let referDate := channel = cNightly ∨ channel = cDev
      let nightly := if boot = some (asc ['-', '1']) then false else decide referDate
      let llvm := ((← field text kLlvm).bind llvmOf).getD 0
      if referDate then
        let date := ((← field text kDate).bind dateOf).getD Date.unknown
        return some ⟨minor, nightly, some date, llvm⟩
      else return some (.stable minor llvm)

end Verif.Build
