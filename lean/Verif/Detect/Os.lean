/-
The platform probes of `src/imp/detect/*.rs`, question by question.  (Flags and code under
`#[cfg(test)]` are left out; so are the `debug_assert`s.)
-/
import Verif.Detect.Ask
import Verif.Detect.Configs

set_option autoImplicit false

namespace Verif.Detect.Os

/-! ### x86_64 -/

/-- The registers the inline assembly of `__cpuid` touches. -/
structure Regs where
  rax : BitVec 64
  rbx : BitVec 64
  rcx : BitVec 64
  rdx : BitVec 64
  r8 : BitVec 64

/-- `mov r8, rbx`: detect/x86_64.rs L40. -/
def movR8Rbx (s : Regs) : Regs := { s with r8 := s.rbx }

/-- `cpuid` (L41): writes the low halves of `rax`, `rbx`, `rcx`, `rdx` and clears the high ones. -/
def cpuidInsn (a : Cpuid) (s : Regs) : Regs :=
  { s with rax := a.eax.setWidth 64, rbx := a.ebx.setWidth 64, rcx := a.ecx.setWidth 64,
           rdx := a.edx.setWidth 64 }

/-- `xchg r8, rbx`: L42. -/
def xchgR8Rbx (s : Regs) : Regs := { s with r8 := s.rbx, rbx := s.r8 }

/-- The asm block, L39-L48: given the processor's answer function, the registers afterwards. -/
def cpuidBlock (cpu : BitVec 32 → BitVec 32 → Cpuid) (s : Regs) : Regs :=
  let s := movR8Rbx s
  let s := cpuidInsn (cpu (s.rax.setWidth 32) (s.rcx.setWidth 32)) s
  xchgR8Rbx s

/-- L39-L50: `leaf` in `eax`, 0 in `ecx` (`s` holds what the other registers had before), outputs
from `eax`, `r8`, `ecx`, `edx`. -/
def cpuidOut (cpu : BitVec 32 → BitVec 32 → Cpuid) (leaf : BitVec 32) (s : Regs) : Cpuid :=
  let s := cpuidBlock cpu { s with rax := leaf.setWidth 64, rcx := 0#64 }
  { eax := s.rax.setWidth 32, ebx := s.r8.setWidth 32, ecx := s.rcx.setWidth 32,
    edx := s.rdx.setWidth 32 }

/-- `__cpuid(leaf)`: L30-L51. -/
def cpuid (leaf : BitVec 32) : Ask Cpuid := ask (.cpuid leaf 0#32)

/-- `_detect`: detect/x86_64.rs L54-L86. -/
def x86 (sse : Bool) (info : Info) : Ask Info := do
  let r ← cpuid 1#32
  let info := check (testBit r.ecx 13) X86.cmpxchg16b info
  if sse then
    if testBit r.ecx 26 then
      if testBit r.ecx 27 then
        let xcr0 ← ask (.xgetbv 0#32)
        pure (check (xcr0 &&& 6#64 == 6#64 && testBit r.ecx 28) X86.avx info)
      else pure info
    else pure info
  else pure info

/-! ### The auxiliary vector -/

/-- How the C library function is found: linked, or looked up (auxv.rs L291-L325, L446-L475). -/
inductive Lookup
  | linked | dlsym
deriving DecidableEq

/-- Which function reads the auxiliary vector. -/
inductive AuxOs
  | linux | bsd
deriving DecidableEq

/-- `getauxval` on Linux/Android: auxv.rs L290-L331. -/
def getauxvalLinux (l : Lookup) (type : Nat) : Ask (BitVec 64) :=
  match l with
  | .linked => ask (.getauxval none type)
  | .dlsym => do
      let ptr ← ask (.dlsym "getauxval")
      if ptr == 0#64 then pure 0#64 else ask (.getauxval (some ptr) type)

/-- `getauxval` on FreeBSD/OpenBSD, around `elf_aux_info`: auxv.rs L444-L489.  The status is not
looked at. -/
def getauxvalBsd (l : Lookup) (aux : Nat) : Ask (BitVec 64) :=
  match l with
  | .linked => do
      let r ← ask (.elfAuxInfo none aux)
      pure r.2
  | .dlsym => do
      let ptr ← ask (.dlsym "elf_aux_info")
      if ptr == 0#64 then pure 0#64
      else
        let r ← ask (.elfAuxInfo (some ptr) aux)
        pure r.2

/-- `os::getauxval`. -/
def getauxval (os : AuxOs) (l : Lookup) (type : Nat) : Ask (BitVec 64) :=
  match os with
  | .linux => getauxvalLinux l type
  | .bsd => getauxvalBsd l type

/-- `AT_HWCAP`: auxv.rs L162 (Linux: 16), L351 (BSD: 25). -/
def AT_HWCAP : AuxOs → Nat
  | .linux => 16
  | .bsd => 25

/-- `AT_HWCAP2`: auxv.rs L168, L357. -/
def AT_HWCAP2 : AuxOs → Nat := fun _ => 26

/-- `b"exynos9810"`. -/
def exynosBytes : List (BitVec 8) :=
  [0x65#8, 0x78#8, 0x79#8, 0x6e#8, 0x6f#8, 0x73#8, 0x39#8, 0x38#8, 0x31#8, 0x30#8]

/-- The Exynos 9810 check: auxv.rs L594-L607; `true` if `_detect` returns at once. -/
def exynosCheck : Ask Bool := do
  let r ← ask (.systemProperty "ro.arch")
  pure (decide (0 < r.1) && exynosBytes.isPrefixOf r.2)

/-- The rest of `_detect` after the LSE part: auxv.rs L610-L631; `hwcap2` = not OpenBSD and
64-bit pointers. -/
def a64AuxvRest (os : AuxOs) (l : Lookup) (hwcap2 : Bool) (hwcap : BitVec 64) (info : Info) :
    Ask Info := do
  let info := check (hwcap &&& (1#64 <<< 25) != 0#64) A64.lse2 info
  if hwcap2 then
    let hw2 ← getauxval os l (AT_HWCAP2 os)
    let info := check (hw2 &&& (1#64 <<< 46) != 0#64) A64.rcpc3 info
    pure (check (hw2 &&& (1#64 <<< 47) != 0#64) A64.lse128 info)
  else pure info

/-- `_detect` on AArch64 with an auxiliary vector: auxv.rs L582-L633. -/
def a64Auxv (os : AuxOs) (l : Lookup) (android hwcap2 : Bool) (info : Info) : Ask Info := do
  let hwcap ← getauxval os l (AT_HWCAP os)
  if hwcap &&& (1#64 <<< 8) != 0#64 then
    if android then
      let bug ← exynosCheck
      if bug then pure info
      else a64AuxvRest os l hwcap2 hwcap (setBit info A64.lse)
    else a64AuxvRest os l hwcap2 hwcap (setBit info A64.lse)
  else a64AuxvRest os l hwcap2 hwcap info

/-- `_detect` on powerpc64 with an auxiliary vector: auxv.rs L723-L750. -/
def ppcAuxv (os : AuxOs) (l : Lookup) (info : Info) : Ask Info := do
  let hwcap ← getauxval os l (AT_HWCAP os)
  if hwcap &&& 0x8000#64 != 0#64 then pure info
  else
    let hwcap2 ← getauxval os l (AT_HWCAP2 os)
    pure (check (hwcap2 &&& (0x80000000#64 ||| 0x00800000#64 ||| 0x00040000#64) != 0#64)
      Powerpc64.quadwordAtomics info)

/-- `_detect` on 32-bit Arm: auxv.rs L657-L677 (all the flags are test-only). -/
def armAuxv (os : AuxOs) (l : Lookup) (info : Info) : Ask Info := do
  let _ ← getauxval os l (AT_HWCAP os)
  pure info

/-! ### AArch64 identification registers -/

/-- NetBSD `aa64reg`: aarch64_aa64reg.rs L248-L299. -/
def regNetbsd : Ask A64.RegReply := do
  let r ← ask (.sysctlCpuId "machdep.cpu0.cpu_id")
  if r.1 != 0 then pure { isar0 := 0#64, isar1 := 0#64, mmfr2 := 0#64 }
  else pure { isar0 := r.2.isar0, isar1 := r.2.isar1, mmfr2 := r.2.mmfr2 }

/-- OpenBSD `sysctl64(..).unwrap_or(0)`: aarch64_aa64reg.rs L352-L354, L364-L390. -/
def sysctl64Or0 (mib : List Nat) : Ask (BitVec 64) := do
  let r ← ask (.sysctl64 mib)
  if r.1 == -1 then pure 0#64 else pure r.2

/-- OpenBSD `aa64reg`: aarch64_aa64reg.rs L351-L362 (`CTL_MACHDEP` 7, L317; `CPU_ID_AA64ISAR0` 2,
`CPU_ID_AA64ISAR1` 3, `CPU_ID_AA64MMFR2` 7, L323-L329). -/
def regOpenbsd : Ask A64.RegReply := do
  let isar0 ← sysctl64Or0 [7, 2]
  let isar1 ← sysctl64Or0 [7, 3]
  let mmfr2 ← sysctl64Or0 [7, 7]
  pure { isar0, isar1, mmfr2 }

/-- `_detect` from the registers: aarch64_aa64reg.rs L54-L127. -/
def a64Reg (regs : Ask A64.RegReply) (info : Info) : Ask Info := do
  let r ← regs
  pure (A64.decodeReg r info)

/-! ### AArch64, other systems -/

/-- Apple `sysctlbyname32(name).unwrap_or(0) != 0`: aarch64_apple.rs L66-L100. -/
def appleHas (name : String) : Ask Bool := do
  let r ← ask (.sysctl32 name)
  if r.1 != 0 then pure false else pure (r.2 != 0#32)

/-- `"hw.optional.arm.FEAT_LSE" || "hw.optional.armv8_1_atomics"` (aarch64_apple.rs L110): `||` asks
the second question only if the first answer was no. -/
def appleLse : Ask Bool := do
  let a ← appleHas "hw.optional.arm.FEAT_LSE"
  if a then pure true else appleHas "hw.optional.armv8_1_atomics"

/-- `_detect` on Apple: aarch64_apple.rs L91-L117. -/
def apple (info : Info) : Ask Info := do
  let a ← appleLse
  let info := check a A64.lse info
  let b ← appleHas "hw.optional.arm.FEAT_LSE2"
  pure (check b A64.lse2 info)

/-- `_detect` on Windows: aarch64_windows.rs L47-L64 (ids 34 and 62, L28-L35). -/
def windows (info : Info) : Ask Info := do
  let a ← ask (.isProcessorFeaturePresent 34)
  let info := check (a != 0) A64.lse info
  let b ← ask (.isProcessorFeaturePresent 62)
  pure (check (b != 0) A64.lse2 info)

/-- `_detect` on Fuchsia: aarch64_fuchsia.rs L41-L64. -/
def fuchsia (info : Info) : Ask Info := do
  let r ← ask (.zxSystemGetFeatures 0)
  let features := if r.1 != 0 then 0#32 else r.2
  pure (check (features &&& (1#32 <<< 8) != 0#32) A64.lse info)

/-- `_detect` on illumos: aarch64_illumos.rs L36-L62. -/
def illumos (info : Info) : Ask Info := do
  let r ← ask (.getisax 2)
  let info := check (r.1 &&& (1#32 <<< 15) != 0#32) A64.lse info
  pure (check (r.2 &&& (1#32 <<< 2) != 0#32) A64.lse2 info)

/-! ### RISC-V and AIX -/

/-- `_detect` on RISC-V Linux: riscv_linux.rs L118-L154 (keys 3 and 4, L35-L37). -/
def riscv (info : Info) : Ask Info := do
  let r ← ask (.hwprobe 3#64 4#64)
  if r.1 == 0 && r.2.1.key != BitVec.allOnes 64 && r.2.1.value &&& 1#64 != 0#64 &&
      r.2.2.key != BitVec.allOnes 64 then
    pure (check (r.2.2.value &&& (1#64 <<< 34) != 0#64) Riscv.zacas info)
  else pure info

/-- `_detect` on AIX: powerpc64_aix.rs L41-L57. -/
def aix (info : Info) : Ask Info := do
  let impl ← ask (.getsystemcfg 2)
  if impl == BitVec.allOnes 64 then pure info
  else pure (check (impl &&& (0x10000#64 ||| 0x20000#64 ||| 0x40000#64) != 0#64)
    Powerpc64.quadwordAtomics info)

end Verif.Detect.Os
