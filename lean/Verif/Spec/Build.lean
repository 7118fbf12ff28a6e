import Verif.Build.Str
/-!
# Specification: compiler flags and version texts

What a command line for `rustc` and the output of `rustc -vV` look like, and what they mean.  Nothing
in this file models the crate.
-/
set_option autoImplicit false
namespace Verif.Build.Spec

/-- Text: the UTF-8 encoding of some characters. -/
def Utf8 (s : Str) : Prop := ∃ cs : List Char, s = cs.flatMap String.utf8EncodeChar

/-! ## Command lines -/

/-- One argument of a `rustc` command line with its value. -/
inductive Arg where
  /-- `-C value`, `-Cvalue`, `-Z value`, `-Zvalue`; `bundle`: flags `g`, `O`, `v` before the letter -/
  | opt (z : Bool) (bundle : Str) (joined : Bool) (v : Str)
  /-- `--codegen value`, `--codegen=value` -/
  | codegen (joined : Bool) (v : Str)
  /-- `-L value` and the like, in two words -/
  | shortVal (bundle : Str) (b : Byte) (v : Str)
  /-- any other short flags in one word: `-g`, `-Lpath`, `-Awarnings`, `-h` -/
  | short (bundle : Str) (rest : Str)
  /-- `--cfg value` and the like, in two words -/
  | longVal (name v : Str)
  /-- `--cfg=value` and the like -/
  | longEq (name v : Str)
  /-- `--test` and the like -/
  | long (name : Str)
  /-- not an option -/
  | free (s : Str)

/-- The letters of `-g`, `-O`, `-v`. -/
def bare : List Byte := [103, 79, 118]

/-- The letters of the short options with a value other than `-C` and `-Z`: `L l o A W D F j`. -/
def valued : List Byte := [76, 108, 111, 65, 87, 68, 70, 106]

/-- The long options of rustc that take a value, except `codegen`. -/
def valuedLong : List Str :=
  [asc ['c', 'f', 'g'], asc ['c', 'h', 'e', 'c', 'k', '-', 'c', 'f', 'g'],
   asc ['c', 'r', 'a', 't', 'e', '-', 't', 'y', 'p', 'e'], asc ['c', 'r', 'a', 't', 'e', '-', 'n', 'a', 'm', 'e'],
   asc ['e', 'd', 'i', 't', 'i', 'o', 'n'], asc ['e', 'm', 'i', 't'], asc ['p', 'r', 'i', 'n', 't'],
   asc ['o', 'u', 't', '-', 'd', 'i', 'r'], asc ['e', 'x', 'p', 'l', 'a', 'i', 'n'],
   asc ['t', 'a', 'r', 'g', 'e', 't'], asc ['a', 'l', 'l', 'o', 'w'], asc ['w', 'a', 'r', 'n'],
   asc ['f', 'o', 'r', 'c', 'e', '-', 'w', 'a', 'r', 'n'], asc ['d', 'e', 'n', 'y'],
   asc ['f', 'o', 'r', 'b', 'i', 'd'], asc ['c', 'a', 'p', '-', 'l', 'i', 'n', 't', 's'],
   asc ['e', 'x', 't', 'e', 'r', 'n'], asc ['s', 'y', 's', 'r', 'o', 'o', 't'],
   asc ['e', 'r', 'r', 'o', 'r', '-', 'f', 'o', 'r', 'm', 'a', 't'], asc ['j', 's', 'o', 'n'],
   asc ['c', 'o', 'l', 'o', 'r'], asc ['d', 'i', 'a', 'g', 'n', 'o', 's', 't', 'i', 'c', '-', 'w', 'i', 'd', 't', 'h'],
   asc ['r', 'e', 'm', 'a', 'p', '-', 'p', 'a', 't', 'h', '-', 'p', 'r', 'e', 'f', 'i', 'x'],
   asc ['r', 'e', 'm', 'a', 'p', '-', 'p', 'a', 't', 'h', '-', 's', 'c', 'o', 'p', 'e'],
   asc ['e', 'n', 'v', '-', 's', 'e', 't'], asc ['j', 'o', 'b', 's'],
   asc ['j', 'o', 'b', 's', '-', 'f', 'r', 'o', 'n', 't', 'e', 'n', 'd'],
   asc ['j', 'o', 'b', 's', '-', 'b', 'a', 'c', 'k', 'e', 'n', 'd'],
   asc ['j', 'o', 'b', 's', '-', 'l', 'i', 'n', 'k', 'e', 'r']]

def codegenWord : Str := asc ['c', 'o', 'd', 'e', 'g', 'e', 'n']

/-- The name of a long option: ASCII first letter other than the letters used by short options, no `=`. -/
def LongName (n : Str) : Prop :=
  (∃ b r, n = b :: r ∧ b < 128 ∧ b ≠ 67 ∧ b ≠ 90 ∧ (r = [] → b ∉ valued)) ∧ (61 : Byte) ∉ n

/-- Well-formed arguments. -/
def Arg.Ok : Arg → Prop
  | .opt _ bundle joined v => (∀ b ∈ bundle, b ∈ bare) ∧ (joined = true → v ≠ [])
  | .codegen _ _ => True
  | .shortVal bundle b _ => (∀ b ∈ bundle, b ∈ bare) ∧ b ∈ valued
  | .short bundle rest => (∀ b ∈ bundle, b ∈ bare) ∧
      (∀ b r, rest = b :: r → b ∉ bare ∧ b ≠ 67 ∧ b ≠ 90 ∧ (b = 45 → bundle ≠ []) ∧ (b ∈ valued → r ≠ []))
  | .longVal n _ => n ∈ valuedLong
  | .longEq n _ => LongName n ∧ ¬ codegenWord <+: n
  | .long n => LongName n ∧ n ∉ valuedLong ∧ n ≠ codegenWord
  | .free s => s[0]? ≠ some 45

/-- The words of the command line. -/
def Arg.words : Arg → List Str
  | .opt z bundle true v => [45 :: bundle ++ (if z then 90 else 67) :: v]
  | .opt z bundle false v => [45 :: bundle ++ [if z then 90 else 67], v]
  | .codegen true v => [45 :: 45 :: codegenWord ++ 61 :: v]
  | .codegen false v => [45 :: 45 :: codegenWord, v]
  | .shortVal bundle b v => [45 :: bundle ++ [b], v]
  | .short bundle rest => [45 :: bundle ++ rest]
  | .longVal n v => [45 :: 45 :: n, v]
  | .longEq n v => [45 :: 45 :: n ++ 61 :: v]
  | .long n => [45 :: 45 :: n]
  | .free s => [s]

/-- Cargo's encoding of a list of words: separated by the byte `0x1f`. -/
def encode : List Str → Str
  | [] => []
  | [w] => w
  | w :: ws => w ++ 31 :: encode ws

/-- The codegen option an argument sets, if it is one. -/
def Arg.codegenValue : Arg → Option Str
  | .opt false _ _ v => some v
  | .codegen _ v => some v
  | _ => none

/-- The unstable option an argument sets, if it is one. -/
def Arg.unstableValue : Arg → Option Str
  | .opt true _ _ v => some v
  | _ => none

/-- The text after `name=` in `v`; `k`, `k'`: the two spellings of `name=`, with hyphens and underscores. -/
def setting (k k' v : Str) : Option Str :=
  if k <+: v then some (v.drop k.length) else if k' <+: v then some (v.drop k'.length) else none

def targetFeature : Str := asc ['t', 'a', 'r', 'g', 'e', 't', '-', 'f', 'e', 'a', 't', 'u', 'r', 'e', '=']
def targetFeature' : Str := asc ['t', 'a', 'r', 'g', 'e', 't', '_', 'f', 'e', 'a', 't', 'u', 'r', 'e', '=']
def targetCpu : Str := asc ['t', 'a', 'r', 'g', 'e', 't', '-', 'c', 'p', 'u', '=']
def targetCpu' : Str := asc ['t', 'a', 'r', 'g', 'e', 't', '_', 'c', 'p', 'u', '=']
def allowFeatures : Str := asc ['a', 'l', 'l', 'o', 'w', '-', 'f', 'e', 'a', 't', 'u', 'r', 'e', 's', '=']
def allowFeatures' : Str := asc ['a', 'l', 'l', 'o', 'w', '_', 'f', 'e', 'a', 't', 'u', 'r', 'e', 's', '=']

/-- Comma-separated items. -/
def commas : List Str → Str
  | [] => []
  | [w] => w
  | w :: ws => w ++ 44 :: commas ws

/-- The features a comma-separated list enables (`+name`) and disables (`-name`). -/
def features (f : Str) : List (Bool × Str) :=
  (f.splitOn 44).filterMap fun
    | 43 :: name => some (true, name)
    | 45 :: name => some (false, name)
    | _ => none

/-- The values of the codegen options of a command line, in order; of the unstable options. -/
def codegenValues (args : List Arg) : List Str := args.filterMap Arg.codegenValue
def unstableValues (args : List Arg) : List Str := args.filterMap Arg.unstableValue

/-- A feature with its sign, as written. -/
def signed : Bool × Str → Str
  | (true, f) => 43 :: f
  | (false, f) => 45 :: f

/-! ## Version texts -/

/-- Lines of text, each ended by a line feed. -/
def unlines (ls : List Str) : Str := ls.flatMap fun l => l ++ [10]

/-- A line: no line feed in it, no carriage return at its end. -/
def Line (l : Str) : Prop := (10 : Byte) ∉ l ∧ l.getLast? ≠ some 13

/-- The first line that starts with `k` continues with `v`. -/
def Field (ls : List Str) (k v : Str) : Prop :=
  ∃ pre post, ls = pre ++ (k ++ v) :: post ∧ ∀ l ∈ pre, ¬ k <+: l

/-- `s` is a decimal numeral for `n`. -/
def Numeral (s : Str) (n : Nat) : Prop :=
  s ≠ [] ∧ (∀ b ∈ s, 48 ≤ b ∧ b ≤ 57) ∧ s.foldl (fun a b => a * 10 + (b.toNat - 48)) 0 = n

/-- A numeral of at most `max`, possibly with a plus sign. -/
def Number (max : Nat) (s : Str) (n : Nat) : Prop :=
  n ≤ max ∧ (Numeral s n ∨ ∃ t, s = 43 :: t ∧ Numeral t n)

/-- `1.M`, `1.M.P`, `1.M-channel` or `1.M.P-channel`, where `M` is `minor`. -/
def ReleaseText (v : Str) (minor : Nat) (channel : Str) : Prop :=
  ∃ m patch ch, v = 49 :: 46 :: m ++ patch ++ ch ∧ Number (2 ^ 32 - 1) m minor ∧
    (patch = [] ∨ ∃ p n, patch = 46 :: p ∧ Number (2 ^ 32 - 1) p n) ∧
    (ch = [] ∧ channel = [] ∨ ch = 45 :: channel)

/-- `L.N` or `L.N.P`, where `L` is `major`. -/
def LlvmText (v : Str) (major : Nat) : Prop :=
  ∃ l n patch k, v = l ++ 46 :: n ++ patch ∧ Number (2 ^ 32 - 1) l major ∧ Number (2 ^ 32 - 1) n k ∧
    (patch = [] ∨ ∃ p k, patch = 46 :: p ∧ Number (2 ^ 32 - 1) p k)

/-- `Y-M-D` with `M` at most 12 and `D` at most 31. -/
def DateText (v : Str) (y m d : Nat) : Prop :=
  ∃ sy sm sd, v = sy ++ 45 :: sm ++ 45 :: sd ∧ Number (2 ^ 16 - 1) sy y ∧ Number (2 ^ 8 - 1) sm m ∧
    Number (2 ^ 8 - 1) sd d ∧ m ≤ 12 ∧ d ≤ 31

def releaseKey : Str := asc ['r', 'e', 'l', 'e', 'a', 's', 'e', ':', ' ']
def llvmKey : Str := asc ['L', 'L', 'V', 'M', ' ', 'v', 'e', 'r', 's', 'i', 'o', 'n', ':', ' ']
def dateKey : Str := asc ['c', 'o', 'm', 'm', 'i', 't', '-', 'd', 'a', 't', 'e', ':', ' ']

/-- The channels whose compilers accept unstable features. -/
def unstable : List Str := [asc ['n', 'i', 'g', 'h', 't', 'l', 'y'], asc ['d', 'e', 'v']]

/-- The LLVM major version of the text, 0 if it has none. -/
def Llvm (ls : List Str) (n : Nat) : Prop :=
  (∃ t, Field ls llvmKey t ∧ LlvmText t n) ∨ (n = 0 ∧ ∀ t n, Field ls llvmKey t → ¬ LlvmText t n)

/-- The commit date of the text, all zeros if it has none. -/
def CommitDate (ls : List Str) (y m d : Nat) : Prop :=
  (∃ t, Field ls dateKey t ∧ DateText t y m d) ∨
    (y = 0 ∧ m = 0 ∧ d = 0 ∧ ∀ t y m d, Field ls dateKey t → ¬ DateText t y m d)

end Verif.Build.Spec
