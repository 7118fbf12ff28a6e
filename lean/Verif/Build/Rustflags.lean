import Verif.Build.Str
/-!
# The rustflags parser of the build script: `/repo/src/build/rustflags.rs`
-/
set_option autoImplicit false
namespace Verif.Build

/-- `strip_prefix`, L178-180: `none` is a panic of the slice, `some none` is Rust's `None`. -/
def stripPrefix (s pat : Str) : Option (Option Str) :=
  if startsWith s pat then (sliceFrom s pat.length).map some else some none

/-- `strip_suffix`, L183-185. -/
def stripSuffix (s pat : Str) : Option (Option Str) :=
  if endsWith s pat then (sliceTo s (s.length - pat.length)).map some else some none

/-- `strip_flag`, L164-174: hyphenated spelling first, then the one with an underscore. -/
def stripFlag (flag a b : Str) : Option (Option Str) := do
  match ← stripPrefix flag a with
  | some f => return some f
  | none => stripPrefix flag b

/-- `Rustflags`, L9-17. -/
structure Rustflags where
  /-- `(enabled, name)` -/
  targetFeature : List (Bool × Str)
  targetCpu : Option Str
  /-- `(is_rustflags, text)` -/
  allowFeatures : Option (Bool × Str)
deriving DecidableEq

def kAllow : Str := asc ['a', 'l', 'l', 'o', 'w', '-', 'f', 'e', 'a', 't', 'u', 'r', 'e', 's', '=']
def kAllow' : Str := asc ['a', 'l', 'l', 'o', 'w', '_', 'f', 'e', 'a', 't', 'u', 'r', 'e', 's', '=']
def kFeature : Str := asc ['t', 'a', 'r', 'g', 'e', 't', '-', 'f', 'e', 'a', 't', 'u', 'r', 'e', '=']
def kFeature' : Str := asc ['t', 'a', 'r', 'g', 'e', 't', '_', 'f', 'e', 'a', 't', 'u', 'r', 'e', '=']
def kCpu : Str := asc ['t', 'a', 'r', 'g', 'e', 't', '-', 'c', 'p', 'u', '=']
def kCpu' : Str := asc ['t', 'a', 'r', 'g', 'e', 't', '_', 'c', 'p', 'u', '=']
def kCodegen : Str := asc ['c', 'o', 'd', 'e', 'g', 'e', 'n']
def kEq : Str := asc ['=']

/-- The long flags with a value listed at L110-116. -/
def longWithValue : List Str :=
  [asc ['c', 'f', 'g'], asc ['c', 'h', 'e', 'c', 'k', '-', 'c', 'f', 'g'],
   asc ['c', 'r', 'a', 't', 'e', '-', 't', 'y', 'p', 'e'], asc ['c', 'r', 'a', 't', 'e', '-', 'n', 'a', 'm', 'e'],
   asc ['e', 'd', 'i', 't', 'i', 'o', 'n'], asc ['e', 'm', 'i', 't'], asc ['p', 'r', 'i', 'n', 't'],
   asc ['o', 'u', 't', '-', 'd', 'i', 'r'], asc ['e', 'x', 'p', 'l', 'a', 'i', 'n'],
   asc ['t', 'a', 'r', 'g', 'e', 't'], asc ['a', 'l', 'l', 'o', 'w'], asc ['w', 'a', 'r', 'n'],
   asc ['f', 'o', 'r', 'c', 'e', '-', 'w', 'a', 'r', 'n'], asc ['d', 'e', 'n', 'y'],
   asc ['f', 'o', 'r', 'b', 'i', 'd'], asc ['c', 'a', 'p', '-', 'l', 'i', 'n', 't', 's'],
   asc ['e', 'x', 't', 'e', 'r', 'n'], asc ['s', 'y', 's', 'r', 'o', 'o', 't'],
   asc ['e', 'r', 'r', 'o', 'r', '-', 'f', 'o', 'r', 'm', 'a', 't'], asc ['j', 's', 'o', 'n'],
   asc ['c', 'o', 'l', 'o', 'r'], asc ['d', 'i', 'a', 'g', 'n', 'o', 's', 't', 'i', 'c', '-', 'w', 'i', 'd', 't', 'h'],
   asc ['r', 'e', 'm', 'a', 'p', '-', 'p', 'a', 't', 'h', '-', 'p', 'r', 'e', 'f', 'i', 'x'],
   asc ['r', 'e', 'm', 'a', 'p', '-', 'p', 'a', 't', 'h', '-', 's', 'c', 'o', 'p', 'e'],
   asc ['e', 'n', 'v', '-', 's', 'e', 't'], asc ['j', 'o', 'b', 's'],
   asc ['j', 'o', 'b', 's', '-', 'f', 'r', 'o', 'n', 't', 'e', 'n', 'd'],
   asc ['j', 'o', 'b', 's', '-', 'b', 'a', 'c', 'k', 'e', 'n', 'd'],
   asc ['j', 'o', 'b', 's', '-', 'l', 'i', 'n', 'k', 'e', 'r']]

/-- L45-50: skip `g`, `O`, `v` from position `i` on. -/
def skipShort (flag : Str) (i : Nat) : Nat :=
  i + ((flag.drop i).takeWhile fun b => b == 103 || b == 79 || b == 118).length

/-- The short flags with a value of L82: `L l o A W D F j`. -/
def shortWithValue (b : Byte) : Bool :=
  b == 76 || b == 108 || b == 111 || b == 65 || b == 87 || b == 68 || b == 70 || b == 106

/-- What the inspection of one flag (L35-124) decides. -/
inductive Next where
  /-- `continue` -/
  | skip
  /-- skip the flag and the next one -/
  | skipNext
  /-- the value of `-C` (`z = false`) or `-Z` (`z = true`) is this text -/
  | value (z : Bool) (v : Str)
  /-- the value is the whole next flag; `break` if there is none -/
  | valueNext (z : Bool)

/-- L59-72: after `-…C` or `-…Z` ending before position `start`. -/
def afterCZ (flag : Str) (start : Nat) (long z : Bool) : Option Next :=
  if flag.length = start then some (.valueNext z)
  else if long then
    if flag[start]? ≠ some 61 then some .skip
    else (sliceFrom flag (start + 1)).map (.value z)
  else (sliceFrom flag start).map (.value z)

/-- L93-122: an unknown flag; `flag` already starts after the two hyphens. -/
def longFlag (flag : Str) : Option Next := do
  match ← stripPrefix flag kCodegen with
  | some f =>
    match ← stripPrefix f kEq with
    | some f => return .value false f
    | none => if f = [] then return .valueNext false else return .skip
  | none =>
    if flag.contains 61 then return .skip
    else if longWithValue.contains flag then return .skipNext
    else return .skip

/-- L35-124. -/
def inspect (flag : Str) : Option Next :=
  if flag[0]? ≠ some 45 then some .skip
  else
    let long := flag[1]? == some 45
    let start := if long then 2 else skipShort flag 1
    match flag[start]? with
    | none => some .skip
    | some b =>
      if b = 67 then afterCZ flag (start + 1) long false
      else if b = 90 then afterCZ flag (start + 1) long true
      else if shortWithValue b && flag.length == start + 1 then some .skipNext
      else if !(b < 128) || !long then some .skip
      else do longFlag (← sliceFrom flag start)

/-- L127-131: one comma-separated element of `target-feature=`. -/
def featureOf : Str → Option (Bool × Str)
  | [] => none
  | b :: f => if b = 43 then some (true, f) else if b = 45 then some (false, f) else none

def isComma (b : Byte) : Bool := b == 44
def isSep (b : Byte) : Bool := b == 31

/-- Use the value of a `-C` / `-Z` option: L73-79 and L125-136. -/
def apply (st : Rustflags) (z : Bool) (v : Str) : Option Rustflags :=
  if z then do
    match ← stripFlag v kAllow kAllow' with
    | some f => return { st with allowFeatures := some (true, f) }
    | none => return st
  else do
    match ← stripFlag v kFeature kFeature' with
    | some f => return { st with targetFeature := st.targetFeature ++ (split isComma f).filterMap featureOf }
    | none =>
      match ← stripFlag v kCpu kCpu' with
      | some f => return { st with targetCpu := some f }
      | none => return st

/-- The loop, L30-137. -/
def loop : Rustflags → List Str → Option Rustflags
  | st, [] => some st
  | st, flag :: rest =>
    match inspect flag with
    | none => none
    | some .skip => loop st rest
    | some (.value z v) => match apply st z v with
      | none => none
      | some st' => loop st' rest
    | some .skipNext => match rest with
      | [] => some st
      | _ :: rest' => loop st rest'
    | some (.valueNext z) => match rest with
      | [] => some st
      | v :: rest' => match apply st z v with
        | none => none
        | some st' => loop st' rest'

/-- `Rustflags::new`, L20-139. `none` is a panic. -/
def Rustflags.new (flags : Str) (cargoAllow : Option Str) : Option Rustflags :=
  loop ⟨[], none, cargoAllow.map fun f => (false, f)⟩ (split isSep flags)

/-- `,` or white space (L155). Simplification: only ASCII white space is a separator. -/
def isCommaOrSpace (b : Byte) : Bool := b == 44 || b == 32 || (9 ≤ b && b ≤ 13)

/-- `is_allowed_feature`, L141-161; `stage`: `RUSTC_STAGE` is set. -/
def Rustflags.isAllowed (st : Rustflags) (stage : Bool) (name : Str) : Bool :=
  if stage then false
  else match st.allowFeatures with
    | some (true, f) => (split isComma f).any (· == name)
    | some (false, f) => (split isCommaOrSpace f).any (· == name)
    | none => true

end Verif.Build
