import Verif.Build.Script
import Verif.Spec.Build
/-!
# Specification: target features, their availability, and the names of targets

What rustc does with `-C target-feature`, since when it reports which feature to `cfg`, which features
targets and processors have by default, and what the names of Arm targets mean.  Nothing in this file
models the crate; from `Build/Script.lean` only the notation for byte literals is used, from `Build/Version.lean` the record of a version.
-/
set_option autoImplicit false
namespace Verif.Build.Spec

/-! ## rustc's treatment of `-C target-feature` -/

/-- `f` implies `g`, through any number of the direct implications of rustc's table. -/
inductive Reaches (imp : Str → Str → Prop) : Str → Str → Prop
  | refl (f : Str) : Reaches imp f f
  | step {f g h : Str} : imp f g → Reaches imp g h → Reaches imp f h

/-- `+f` enables `f` and all it implies; `-f` disables `f` and all that imply it. -/
def applyFlag (imp : Str → Str → Prop) (S : Str → Prop) : Bool × Str → Str → Prop
  | (true, f) => fun g => S g ∨ Reaches imp f g
  | (false, f) => fun g => S g ∧ ¬ Reaches imp g f

/-- The features after the flags, in order; `S`: those of the target and its processor. -/
def enabled (imp : Str → Str → Prop) (S : Str → Prop) (flags : List (Bool × Str)) : Str → Prop :=
  flags.foldl (applyFlag imp) S

/-! ## The part of rustc's table the script relies on -/

/-- The features the script may have to detect, by architecture, each with everything it implies (itself
included). -/
def implied (arch : Str) : List (Str × List Str) :=
  if arch = bs!"x86_64" then [(bs!"cmpxchg16b", [bs!"cmpxchg16b"])]
  else if arch = bs!"aarch64" ∨ arch = bs!"arm64ec" then
    [(bs!"lse", [bs!"lse"]), (bs!"lse2", [bs!"lse2"]), (bs!"lse128", [bs!"lse128", bs!"lse"]),
     (bs!"rcpc3", [bs!"rcpc3", bs!"rcpc2", bs!"rcpc"]), (bs!"lsfe", [bs!"lsfe"])]
  else if arch = bs!"arm" then
    [(bs!"v7", [bs!"v7", bs!"v6t2", bs!"v6k", bs!"v8m", bs!"v6m", bs!"thumb2", bs!"v6", bs!"v5te"]),
     (bs!"v6", [bs!"v6", bs!"v5te"]), (bs!"mclass", [bs!"mclass"])]
  else if arch = bs!"riscv32" ∨ arch = bs!"riscv64" then
    [(bs!"zacas", [bs!"zacas", bs!"zaamo"]), (bs!"zabha", [bs!"zabha", bs!"zaamo"]), (bs!"zaamo", [bs!"zaamo"])]
  else if arch = bs!"powerpc64" then [(bs!"quadword-atomics", [bs!"quadword-atomics"])]
  else if arch = bs!"s390x" then
    [(bs!"miscellaneous-extensions-3", [bs!"miscellaneous-extensions-3"]),
     (bs!"fast-serialization", [bs!"fast-serialization"]),
     (bs!"load-store-on-cond", [bs!"load-store-on-cond"]), (bs!"distinct-ops", [bs!"distinct-ops"])]
  else if arch = bs!"avr" then [(bs!"rmw", [bs!"rmw"])]
  else []

/-- Features that imply one of those. -/
def implying (arch : Str) : List (Str × Str) :=
  if arch = bs!"aarch64" ∨ arch = bs!"arm64ec" then [(bs!"lse128", bs!"lse")]
  else if arch = bs!"arm" then
    [(bs!"v8", bs!"v7"), (bs!"v8m.main", bs!"v7"), (bs!"v8.1m.main", bs!"v7"), (bs!"mve", bs!"v7"),
     (bs!"mve.fp", bs!"v7"), (bs!"v8", bs!"v6"), (bs!"v8m.main", bs!"v6"), (bs!"v8.1m.main", bs!"v6"),
     (bs!"mve", bs!"v6"), (bs!"mve.fp", bs!"v6"), (bs!"v7", bs!"v6"), (bs!"v6t2", bs!"v6"),
     (bs!"v6k", bs!"v6"), (bs!"v8m", bs!"v6"), (bs!"v6m", bs!"v6")]
  else if arch = bs!"riscv32" ∨ arch = bs!"riscv64" then
    [(bs!"zacas", bs!"zaamo"), (bs!"zabha", bs!"zaamo"), (bs!"a", bs!"zaamo"), (bs!"rva23u64", bs!"zaamo")]
  else []

/-- rustc's table of implications agrees with the two lists. -/
structure Table (arch : Str) (imp : Str → Str → Prop) : Prop where
  implied : ∀ r ∈ implied arch, ∀ g, Reaches imp r.1 g ↔ g ∈ r.2
  implying : ∀ r ∈ implying arch, Reaches imp r.1 r.2

/-- No other feature named with a plus implies `f`. -/
def NoOthers (arch : Str) (imp : Str → Str → Prop) (flags : List (Bool × Str)) (f : Str) : Prop :=
  ∀ n, (true, n) ∈ flags → Reaches imp n f → n = f ∨ (n, f) ∈ implying arch

/-! ## Since when rustc reports a feature to `cfg(target_feature)` -/

/-- The version is `1.minor` with a commit of the given date, or later. -/
def Since (v : Version) (minor y m d : Nat) : Prop :=
  minor < v.minor ∨ (v.minor = minor ∧ ∀ dt, v.commitDate = some dt →
    y < dt.year ∨ (y = dt.year ∧ (m < dt.month ∨ (m = dt.month ∧ d ≤ dt.day))))

/-- First commit from which nightly compilers report the feature (`none`: no compiler does), and the
first stable minor version (`none`: no stable compiler does). -/
structure Avail where
  nightly : Option (Nat × Nat × Nat × Nat)
  stable : Option Nat
deriving DecidableEq

def always : Option (Nat × Nat × Nat × Nat) := some (0, 0, 0, 0)

def avail : List (Str × Avail) :=
  [(bs!"cmpxchg16b", ⟨always, some 69⟩), (bs!"lse", ⟨always, some 61⟩),
   (bs!"lse2", ⟨some (82, 2024, 8, 29), none⟩), (bs!"lse128", ⟨some (82, 2024, 8, 29), none⟩),
   (bs!"rcpc3", ⟨some (82, 2024, 8, 29), none⟩), (bs!"lsfe", ⟨none, none⟩),
   (bs!"v7", ⟨always, none⟩), (bs!"v6", ⟨always, none⟩), (bs!"mclass", ⟨always, none⟩),
   (bs!"zacas", ⟨some (87, 2025, 2, 25), some 94⟩), (bs!"zabha", ⟨some (83, 2024, 10, 1), some 94⟩),
   (bs!"zaamo", ⟨some (83, 2024, 10, 1), some 94⟩),
   (bs!"quadword-atomics", ⟨some (83, 2024, 9, 27), none⟩),
   (bs!"miscellaneous-extensions-3", ⟨some (89, 2025, 6, 4), some 93⟩),
   (bs!"fast-serialization", ⟨none, none⟩), (bs!"load-store-on-cond", ⟨none, none⟩),
   (bs!"distinct-ops", ⟨none, none⟩), (bs!"rmw", ⟨some (95, 2026, 2, 7), none⟩)]

/-- Compiler `v` reports feature `f` itself. -/
def Reports (v : Version) (f : Str) : Prop :=
  ∃ a, (f, a) ∈ avail ∧
    if v.nightly = true then ∃ n y m d, a.nightly = some (n, y, m, d) ∧ Since v n y m d
    else ∃ s, a.stable = some s ∧ s ≤ v.minor

/-! ## Features targets have by default -/

structure Target where
  name : Str
  arch : Str
  os : Str
  vendor : Str
  endian : Option Str
  /-- `-C target-cpu` -/
  cpu : Option Str

/-- The name of an Arm target: `arm` or `thumb`, `eb` if big-endian, the architecture, its suffix with
the dot, and the rest from a hyphen on. -/
def ArmName (name base suffix : Str) : Prop :=
  ∃ p e rest, name = p ++ (e ++ ((base ++ suffix) ++ rest)) ∧ (p = bs!"arm" ∨ p = bs!"thumb") ∧
    (e = [] ∧ ¬ bs!"eb" <+: base ++ suffix ++ rest ∨ e = bs!"eb") ∧
    (45 : Byte) ∉ base ++ suffix ∧ (46 : Byte) ∉ base ∧
    (suffix = [] ∨ ∃ s, suffix = 46 :: s) ∧ (rest = [] ∨ ∃ r, rest = 45 :: r)

/-- Architectures of A and R profile from version 7 on. -/
def profileAR : List Str :=
  [bs!"v7", bs!"v7a", bs!"v7neon", bs!"v7s", bs!"v7k", bs!"v8", bs!"v8a", bs!"v9", bs!"v9a",
   bs!"v7r", bs!"v8r", bs!"v9r"]
/-- M profile. -/
def profileM : List Str := [bs!"v6m", bs!"v7em", bs!"v7m", bs!"v8m"]

/-- The architecture of a target: two names do not say it. -/
def ArmArch (name base suffix : Str) : Prop :=
  if name = bs!"arm-linux-androideabi" then base = bs!"v5te" ∧ suffix = []
  else if name = bs!"armeb-unknown-linux-gnueabi" then base = bs!"v8" ∧ suffix = []
  else ArmName name base suffix

/-- Armv7 instructions: all A and R profiles from v7 on, v7-M and v8-M Mainline. -/
def ArmV7 (base suffix : Str) : Prop :=
  base ∈ profileAR ∨ base = bs!"v7em" ∨ base = bs!"v7m" ∨ (base = bs!"v8m" ∧ suffix = bs!".main")

/-- Armv6 instructions: those, plain `arm`, v6, v6K, v6-M and v8-M. -/
def ArmV6 (base suffix : Str) : Prop :=
  ArmV7 base suffix ∨ base = [] ∨ base = bs!"v6" ∨ base = bs!"v6k" ∨ base = bs!"v6m" ∨ base = bs!"v8m"

/-- The architectures the list above covers. -/
def ArmKnown (base : Str) : Prop :=
  base ∈ profileAR ∨ base ∈ profileM ∨ base ∈ [[], bs!"v4t", bs!"v5te", bs!"v6", bs!"v6k"]

/-- POWER8 and later: a name of LLVM's list, or `pwrN` or `pwrNx` with `N ≥ 8`. -/
def Power8 (cpu : Str) : Prop :=
  cpu = bs!"future" ∨ cpu = bs!"ppc64le" ∨
    ∃ t n, (cpu = bs!"pwr" ++ t ∨ cpu = bs!"pwr" ++ (t ++ bs!"x")) ∧ Number (2 ^ 32 - 1) t n ∧ 8 ≤ n

/-- z196 (`arch9`) and later. -/
def Arch9 (cpu : Str) : Prop :=
  cpu ∈ [bs!"z196", bs!"zEC12", bs!"z13", bs!"z14", bs!"z15", bs!"z16", bs!"z17"] ∨
    ∃ t n, cpu = bs!"arch" ++ t ∧ Number (2 ^ 32 - 1) t n ∧ 9 ≤ n

/-- z15 (`arch13`) and later. -/
def Arch13 (cpu : Str) : Prop :=
  cpu ∈ [bs!"z15", bs!"z16", bs!"z17"] ∨ ∃ t n, cpu = bs!"arch" ++ t ∧ Number (2 ^ 32 - 1) t n ∧ 13 ≤ n

/-- The AVR devices with the instructions `xch`, `las`, `lac`, `lat`: the AU, B, C and E families of XMEGA. -/
def rmwDevices : List (Str × List Str) :=
  [(bs!"a1u", [bs!"64", bs!"128"]), (bs!"a3u", [bs!"64", bs!"128", bs!"192", bs!"256"]), (bs!"a3bu", [bs!"256"]),
   (bs!"a4u", [bs!"16", bs!"32", bs!"64", bs!"128"]),
   (bs!"b1", [bs!"64", bs!"128"]), (bs!"b3", [bs!"64", bs!"128"]),
   (bs!"c3", [bs!"32", bs!"64", bs!"128", bs!"192", bs!"256", bs!"384"]), (bs!"c4", [bs!"16", bs!"32"]),
   (bs!"e5", [bs!"8", bs!"16", bs!"32"])]

def RmwDevice (cpu : Str) : Prop := ∃ r ∈ rmwDevices, ∃ kb ∈ r.2, cpu = bs!"atxmega" ++ (kb ++ r.1)

/-- What is known about the features a target has without flags. -/
inductive ByDefault (T : Target) : Str → Prop
  | apple : T.arch = bs!"x86_64" → T.vendor = bs!"apple" → ByDefault T (bs!"cmpxchg16b")
  | lse : T.arch = bs!"aarch64" ∨ T.arch = bs!"arm64ec" → T.os = bs!"macos" → ByDefault T (bs!"lse")
  | lse2 : T.arch = bs!"aarch64" ∨ T.arch = bs!"arm64ec" → T.os = bs!"macos" → ByDefault T (bs!"lse2")
  | v7 {b s : Str} : T.arch = bs!"arm" → ArmArch T.name b s → ArmV7 b s → ByDefault T (bs!"v7")
  | v6 {b s : Str} : T.arch = bs!"arm" → ArmArch T.name b s → ArmV6 b s → ByDefault T (bs!"v6")
  | mclass {b s : Str} : T.arch = bs!"arm" → ArmArch T.name b s → b ∈ profileM → ByDefault T (bs!"mclass")
  | ppcLittle : T.arch = bs!"powerpc64" → T.cpu = none → T.endian = some (bs!"little") →
      ByDefault T (bs!"quadword-atomics")
  | ppc {c : Str} : T.arch = bs!"powerpc64" → T.cpu = some c → Power8 c → ByDefault T (bs!"quadword-atomics")
  | arch9 {c f : Str} : T.arch = bs!"s390x" → T.cpu = some c → Arch9 c →
      f = bs!"fast-serialization" ∨ f = bs!"load-store-on-cond" ∨ f = bs!"distinct-ops" → ByDefault T f
  | arch13 {c : Str} : T.arch = bs!"s390x" → T.cpu = some c → Arch13 c →
      ByDefault T (bs!"miscellaneous-extensions-3")
  | avr {c : Str} : T.arch = bs!"avr" → T.cpu = some c → RmwDevice c → ByDefault T (bs!"rmw")

/-- The names of the first `rustc-check-cfg` line (L67 of `build.rs`). -/
def declaredCfgs : List String := [
  "portable_atomic_atomic_intrinsics", "portable_atomic_disable_fiq",
  "portable_atomic_force_amo", "portable_atomic_ll_sc_rmw", "portable_atomic_no_asm",
  "portable_atomic_no_asm_maybe_uninit", "portable_atomic_no_asm_syscall",
  "portable_atomic_no_atomic_64", "portable_atomic_no_atomic_cas",
  "portable_atomic_no_atomic_load_store", "portable_atomic_no_atomic_min_max",
  "portable_atomic_no_cfg_target_has_atomic", "portable_atomic_no_cmpxchg16b_intrinsic",
  "portable_atomic_no_cmpxchg16b_target_feature", "portable_atomic_no_const_mut_refs",
  "portable_atomic_no_const_raw_ptr_deref", "portable_atomic_no_const_transmute",
  "portable_atomic_no_core_unwind_safe", "portable_atomic_no_diagnostic_namespace",
  "portable_atomic_no_strict_provenance", "portable_atomic_no_strict_provenance_atomic_ptr",
  "portable_atomic_no_stronger_failure_ordering", "portable_atomic_no_track_caller",
  "portable_atomic_no_unsafe_op_in_unsafe_fn", "portable_atomic_old_miri",
  "portable_atomic_pre_llvm_16", "portable_atomic_pre_llvm_18", "portable_atomic_pre_llvm_20",
  "portable_atomic_s_mode", "portable_atomic_sanitize_thread", "portable_atomic_target_cpu",
  "portable_atomic_target_feature", "portable_atomic_unsafe_assume_privileged",
  "portable_atomic_unsafe_assume_single_core", "portable_atomic_unstable_asm",
  "portable_atomic_unstable_asm_experimental_arch",
  "portable_atomic_unstable_cfg_target_has_atomic", "portable_atomic_unstable_isa_attribute"]

/-- The values of `portable_atomic_target_feature` (L72). -/
def declaredFeatures : List Str := [
  bs!"cmpxchg16b", bs!"distinct-ops", bs!"fast-serialization", bs!"load-store-on-cond", bs!"lse",
  bs!"lse128", bs!"lse2", bs!"lsfe", bs!"mclass", bs!"miscellaneous-extensions-3",
  bs!"quadword-atomics", bs!"rcpc3", bs!"rmw", bs!"v6", bs!"v7", bs!"zaamo", bs!"zabha",
  bs!"zacas"]

/-- The values of `portable_atomic_target_cpu` (L75). -/
def declaredCpus : List Str := [bs!"esp32", bs!"esp32s3"]

/-! ## Language features and the compiler version -/

/-- Library and language features the crate does without when they are missing: the name reported then,
and the commit from which compilers have the feature. -/
def languageSince : List (String × Nat × Nat × Nat × Nat) :=
  [("portable_atomic_no_atomic_min_max", 45, 2020, 5, 29),
   ("portable_atomic_no_track_caller", 46, 2020, 7, 1),
   ("portable_atomic_no_unsafe_op_in_unsafe_fn", 52, 2021, 3, 10),
   ("portable_atomic_no_const_transmute", 56, 2021, 7, 28),
   ("portable_atomic_no_core_unwind_safe", 56, 2021, 8, 1),
   ("portable_atomic_no_const_raw_ptr_deref", 58, 2021, 11, 14),
   ("portable_atomic_no_stronger_failure_ordering", 64, 2022, 7, 18),
   ("portable_atomic_no_asm_maybe_uninit", 74, 2023, 8, 23),
   ("portable_atomic_no_diagnostic_namespace", 78, 2024, 3, 8),
   ("portable_atomic_no_const_mut_refs", 83, 2024, 9, 15),
   ("portable_atomic_no_strict_provenance", 84, 2024, 10, 21),
   ("portable_atomic_no_strict_provenance_atomic_ptr", 91, 2025, 8, 30)]

/-- Everything reported because something is missing in the compiler, except that assembly cannot be used
for system calls. -/
def missing : List String :=
  languageSince.map (·.1) ++
  ["portable_atomic_no_asm", "portable_atomic_no_cfg_target_has_atomic", "portable_atomic_no_atomic_cas",
   "portable_atomic_no_atomic_64", "portable_atomic_no_atomic_load_store", "portable_atomic_pre_llvm_16",
   "portable_atomic_pre_llvm_18", "portable_atomic_pre_llvm_20", "portable_atomic_no_cmpxchg16b_target_feature",
   "portable_atomic_no_cmpxchg16b_intrinsic", "portable_atomic_old_miri"]

/-- `v` is not newer than `v'` and of the same channel. -/
def Older (v v' : Version) : Prop :=
  v.nightly = v'.nightly ∧ v.llvm ≤ v'.llvm ∧
  (v.minor < v'.minor ∨ (v.minor = v'.minor ∧
    ((v.commitDate = none ∧ v'.commitDate = none) ∨ ∃ d d', v.commitDate = some d ∧ v'.commitDate = some d' ∧
      (d.year < d'.year ∨ (d.year = d'.year ∧ (d.month < d'.month ∨ (d.month = d'.month ∧ d.day ≤ d'.day)))))))

/-- Assembly (`asm!`) can be used for the architecture: stable since 1.59, on Arm64EC and s390x since 1.84, on
PowerPC64 since 1.95; or with a nightly compiler on which the unstable feature for it may be enabled and works. -/
def AsmUsable (arch : Str) (v : Version) (allowed : Str → Prop) : Prop :=
  if arch = bs!"arm64ec" then
    Since v 84 2024 11 10 ∨ v.nightly = true ∧
      (Since v 59 2021 12 15 ∧ allowed (bs!"asm_experimental_arch") ∨
        (¬ Since v 59 2021 12 15 ∧ Since v 46 2020 6 20 ∧ allowed (bs!"asm")))
  else if arch = bs!"s390x" then
    Since v 84 2024 11 10 ∨ v.nightly = true ∧
      (Since v 71 2023 5 8 ∧ allowed (bs!"asm_experimental_arch") ∨
        (¬ Since v 59 2021 12 15 ∧ Since v 46 2020 6 20 ∧ allowed (bs!"asm")))
  else if arch = bs!"powerpc64" then
    Since v 95 2026 1 27 ∨ v.nightly = true ∧
      (Since v 60 2022 2 12 ∧ allowed (bs!"asm_experimental_arch") ∨
        (¬ Since v 59 2021 12 15 ∧ Since v 46 2020 6 20 ∧ allowed (bs!"asm")))
  else
    Since v 59 2021 12 15 ∨ v.nightly = true ∧ Since v 46 2020 6 20 ∧ allowed (bs!"asm") ∧
      (arch = bs!"x86" ∨ arch = bs!"x86_64" → 10 ≤ v.llvm)

/-! ## Targets -/

/-- Built-in targets, at the time of the compilers that cannot be asked, without atomic compare-and-swap: by architecture. -/
def lacksCas : List (Str × List Str) :=
  [(bs!"avr", [bs!"-unknown-gnu-atmega328"]), (bs!"bpf", [bs!"eb-unknown-none", bs!"el-unknown-none"]),
   (bs!"msp430", [bs!"-none-elf"]), (bs!"riscv32", [bs!"i-unknown-none-elf", bs!"imc-unknown-none-elf"]),
   (bs!"thumb", [bs!"v4t-none-eabi", bs!"v6m-none-eabi"])]

/-- Those without 64-bit atomics. -/
def lacks64 : List (Str × List Str) :=
  [(bs!"arm", [bs!"-linux-androideabi", bs!"ebv7r-none-eabi", bs!"ebv7r-none-eabihf", bs!"v4t-unknown-linux-gnueabi",
     bs!"v5te-unknown-linux-gnueabi", bs!"v5te-unknown-linux-musleabi", bs!"v5te-unknown-linux-uclibceabi",
     bs!"v6k-nintendo-3ds", bs!"v7r-none-eabi", bs!"v7r-none-eabihf"]),
   (bs!"thumb", [bs!"v4t-none-eabi", bs!"v6m-none-eabi", bs!"v7m-none-eabi", bs!"v7em-none-eabi", bs!"v7em-none-eabihf",
     bs!"v8m.base-none-eabi", bs!"v8m.main-none-eabi", bs!"v8m.main-none-eabihf"]),
   (bs!"avr", [bs!"-unknown-gnu-atmega328"]), (bs!"hexagon", [bs!"-unknown-linux-musl"]), (bs!"m68k", [bs!"-unknown-linux-gnu"]),
   (bs!"mips-unknown-linux-", [bs!"gnu", bs!"musl", bs!"uclibc"]),
   (bs!"mipsel", [bs!"-sony-psp", bs!"-unknown-linux-gnu", bs!"-unknown-linux-musl", bs!"-unknown-linux-uclibc", bs!"-unknown-none"]),
   (bs!"mipsisa32r6", [bs!"-unknown-linux-gnu", bs!"el-unknown-linux-gnu"]), (bs!"msp430", [bs!"-none-elf"]),
   (bs!"powerpc-unknown-", [bs!"freebsd", bs!"linux-gnu", bs!"linux-gnuspe", bs!"linux-musl", bs!"netbsd", bs!"openbsd"]),
   (bs!"powerpc-wrs-vxworks", [bs!"", bs!"-spe"]),
   (bs!"riscv32", [bs!"gc-unknown-linux-gnu", bs!"gc-unknown-linux-musl", bs!"i-unknown-none-elf", bs!"imac-unknown-none-elf",
     bs!"imc-esp-espidf", bs!"imc-unknown-none-elf"])]

/-- Built-in targets without even atomic loads and stores. -/
def lacksAll : List (Str × List Str) :=
  [(bs!"arm", [bs!"v4t-none-eabi", bs!"v5te-none-eabi"]), (bs!"thumb", [bs!"v4t-none-eabi", bs!"v5te-none-eabi"]),
   (bs!"bpf", [bs!"eb-unknown-none", bs!"el-unknown-none"]), (bs!"mipsel", [bs!"-sony-psx"])]

/-- `name` is in such a list. -/
def Listed (l : List (Str × List Str)) (name : Str) : Prop := ∃ r ∈ l, ∃ x ∈ r.2, name = r.1 ++ x

/-- How Cargo turns a character of a target's name into one of an environment variable's. -/
def EnvByte (b c : Byte) : Prop :=
  if b = 45 ∨ b = 46 then c = 95 else if 97 ≤ b ∧ b ≤ 122 then c + 32 = b ∧ 65 ≤ c ∧ c ≤ 90 else c = b

/-- The variable that holds a target's flags. -/
def TargetVar (name var : Str) : Prop :=
  ∃ u, List.Forall₂ EnvByte name u ∧ var = bs!"CARGO_TARGET_" ++ (u ++ bs!"_RUSTFLAGS")

/-- The parts of a target name, joined by dashes. -/
def dashes : List Str → Str
  | [] => []
  | [w] => w
  | w :: ws => w ++ 45 :: dashes ws

/-- The parts of the built-in target a custom Linux target is like: the vendor is `unknown`. -/
def builtin : List Str → List Str
  | arch :: vendor :: os :: rest => if os = bs!"linux" then arch :: bs!"unknown" :: os :: rest else arch :: vendor :: os :: rest
  | parts => parts

end Verif.Build.Spec
