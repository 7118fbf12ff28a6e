/-
What the answers of a processor or an operating system mean, from their documentation, and when a
question may be put at all.  Independent of the code of the probes: only the types of questions and
answers (`Detect/Ask.lean`) are shared.
-/
import Verif.Detect.Ask

set_option autoImplicit false

namespace Verif.Spec.Os
open Verif.Detect

/-- What the machine really has. -/
structure Cpu where
  /-- x86_64: `cmpxchg16b` -/
  cx16 : Prop
  /-- x86_64: the AVX instructions -/
  avx : Prop
  /-- x86_64: the operating system saves the vector registers -/
  osAvx : Prop
  /-- x86_64: the instruction `xgetbv` may be executed -/
  xgetbv : Prop
  /-- AArch64 extensions, on every core -/
  lse : Prop
  lse2 : Prop
  rcpc3 : Prop
  lse128 : Prop
  /-- AArch64: an Exynos 9810 with a kernel that announces LSE although only some cores have it -/
  exynosBug : Prop
  /-- POWER: `lqarx`, `stqcx.` and single-copy atomic `lq`, `stq` -/
  quadword : Prop
  /-- RISC-V: Zacas -/
  zacas : Prop

/-- The 4-bit field of an identification register whose lowest bit is bit `low`. -/
def idField (x : BitVec 64) (low : Nat) : Nat := x.toNat / 2 ^ low % 16

/-- Intel SDM, CPUID leaf 1: ECX bit 13 CMPXCHG16B, bit 27 OSXSAVE (XGETBV enabled), bit 28 AVX.
XGETBV 0: bits 1 and 2 of XCR0 say that the system manages the SSE and AVX state. -/
def X86Truthful (c : Cpu) : Said → Prop
  | ⟨.cpuid leaf _, r⟩ => leaf = 1#32 →
      (r.ecx.getLsbD 13 = true → c.cx16) ∧ (r.ecx.getLsbD 27 = true → c.xgetbv) ∧
      (r.ecx.getLsbD 28 = true → c.avx)
  | ⟨.xgetbv i, x⟩ => i = 0#32 → x.getLsbD 1 = true → x.getLsbD 2 = true → c.osAvx
  | _ => True

/-- HWCAP on AArch64 (Linux `Documentation/arch/arm64/elf_hwcaps.rst`): bit 8 FEAT_LSE — which the
faulty kernel sets on the Exynos 9810 —, bit 25 FEAT_LSE2. -/
def A64Hwcap (c : Cpu) (v : BitVec 64) : Prop :=
  (v.getLsbD 8 = true → c.lse ∨ c.exynosBug) ∧ (v.getLsbD 25 = true → c.lse2)

/-- HWCAP2 on AArch64: bit 46 FEAT_LRCPC3, bit 47 FEAT_LSE128. -/
def A64Hwcap2 (c : Cpu) (v : BitVec 64) : Prop :=
  (v.getLsbD 46 = true → c.rcpc3) ∧ (v.getLsbD 47 = true → c.lse128)

/-- "exynos9810" in ASCII. -/
def exynos9810 : List (BitVec 8) := "exynos9810".toList.map (fun ch => BitVec.ofNat 8 ch.toNat)

/-- Arm ARM: ID_AA64ISAR0_EL1.Atomic, bits [23:20]: 2 FEAT_LSE, 3 FEAT_LSE128 as well. -/
def Isar0 (c : Cpu) (v : BitVec 64) : Prop :=
  (2 ≤ idField v 20 → c.lse) ∧ (3 ≤ idField v 20 → c.lse128)
/-- ID_AA64ISAR1_EL1.LRCPC, bits [23:20]: 3 FEAT_LRCPC3. -/
def Isar1 (c : Cpu) (v : BitVec 64) : Prop := 3 ≤ idField v 20 → c.rcpc3
/-- ID_AA64MMFR2_EL1.AT, bits [35:32]: 1 FEAT_LSE2. -/
def Mmfr2 (c : Cpu) (v : BitVec 64) : Prop := 1 ≤ idField v 32 → c.lse2

/-- What the AArch64 systems say.  A status that means failure promises nothing about the buffer,
except where the documentation says that it is left alone (`elf_aux_info`). -/
def A64Truthful (c : Cpu) : Said → Prop
  | ⟨.getauxval _ t, v⟩ => (t = 16 → A64Hwcap c v) ∧ (t = 26 → A64Hwcap2 c v)
  | ⟨.elfAuxInfo _ t, (status, v)⟩ =>
      (status ≠ 0 → v = 0#64) ∧
      (status = 0 → (t = 25 → A64Hwcap c v) ∧ (t = 26 → A64Hwcap2 c v))
  | ⟨.systemProperty name, (len, buf)⟩ =>
      name = "ro.arch" → c.exynosBug → 0 < len ∧ ∃ rest, buf = exynos9810 ++ rest
  | ⟨.sysctlCpuId name, (status, id)⟩ =>
      name = "machdep.cpu0.cpu_id" → status = 0 →
        Isar0 c id.isar0 ∧ Isar1 c id.isar1 ∧ Mmfr2 c id.mmfr2
  | ⟨.sysctl64 mib, (status, v)⟩ => status ≠ -1 →
      (mib = [7, 2] → Isar0 c v) ∧ (mib = [7, 3] → Isar1 c v) ∧ (mib = [7, 7] → Mmfr2 c v)
  | ⟨.sysctl32 name, (status, v)⟩ => status = 0 → v ≠ 0#32 →
      (name = "hw.optional.arm.FEAT_LSE" ∨ name = "hw.optional.armv8_1_atomics" → c.lse) ∧
      (name = "hw.optional.arm.FEAT_LSE2" → c.lse2)
  | ⟨.isProcessorFeaturePresent id, b⟩ => b ≠ 0 → (id = 34 → c.lse) ∧ (id = 62 → c.lse2)
  | ⟨.zxSystemGetFeatures kind, (status, v)⟩ =>
      kind = 0 → status = 0 → v.getLsbD 8 = true → c.lse
  | ⟨.getisax _, (v1, v2)⟩ => (v1.getLsbD 15 = true → c.lse) ∧ (v2.getLsbD 2 = true → c.lse2)
  | _ => True

/-- POWER: on a processor that is not BookE (HWCAP bit 15), ISA 2.07 (HWCAP2 bit 31), 3.0 (bit 23)
or 3.1 (bit 18) include the quadword instructions.  AIX: implementation bits POWER8, 9, 10; all
ones is the error value. -/
structure PpcTruth where
  /-- embedded category -/
  bookE : Prop
  /-- Power ISA 2.07 or later -/
  isa207 : Prop

/-- On a BookE processor HWCAP is there, readable, and has the BookE bit. -/
def PpcTruthful (p : PpcTruth) : Said → Prop
  | ⟨.getauxval _ t, v⟩ => (t = 16 → p.bookE → v.getLsbD 15 = true) ∧
      (t = 26 → (v.getLsbD 31 = true ∨ v.getLsbD 23 = true ∨ v.getLsbD 18 = true) → p.isa207)
  | ⟨.elfAuxInfo _ t, (status, v)⟩ =>
      (status ≠ 0 → v = 0#64) ∧
      (t = 25 → p.bookE → v.getLsbD 15 = true) ∧
      (status = 0 → t = 26 → (v.getLsbD 31 = true ∨ v.getLsbD 23 = true ∨ v.getLsbD 18 = true) →
        p.isa207)
  | ⟨.dlsym _, ptr⟩ => p.bookE → ptr ≠ 0#64
  | ⟨.getsystemcfg name, v⟩ => name = 2 → v ≠ BitVec.allOnes 64 →
      (v.getLsbD 16 = true ∨ v.getLsbD 17 = true ∨ v.getLsbD 18 = true) → p.isa207 ∧ ¬ p.bookE
  | _ => True

/-- ISA 2.07 server processors have the quadword instructions. -/
def PpcTruth.quadword (p : PpcTruth) : Prop := p.isa207 ∧ ¬ p.bookE

/-- Linux `Documentation/arch/riscv/hwprobe.rst`: an unknown key comes back as -1; the value of key
3 has bit 0 if the base is IMA; if so, the value of key 4 has bit 34 if Zacas is supported. -/
def RiscvTruthful (zacas : Prop) : Said → Prop
  | ⟨.hwprobe k0 k1, (status, p0, p1)⟩ =>
      k0 = 3#64 → k1 = 4#64 → status = 0 → p0.key ≠ BitVec.allOnes 64 →
        p0.value.getLsbD 0 = true → p1.key ≠ BitVec.allOnes 64 → p1.value.getLsbD 34 = true → zacas
  | _ => True

/-- When a question may be put: `xgetbv` is undefined unless CPUID leaf 1 said XSAVE and OSXSAVE; a
C function may be called through a pointer only if `dlsym` returned that pointer for its name and
it is not null. -/
def Allowed (before : List Said) : Query → Prop
  | .xgetbv _ => ∃ r : Cpuid, ⟨.cpuid 1#32 0#32, r⟩ ∈ before ∧ r.ecx.getLsbD 26 = true ∧
      r.ecx.getLsbD 27 = true
  | .getauxval (some p) _ => p ≠ 0#64 ∧ ⟨.dlsym "getauxval", p⟩ ∈ before
  | .elfAuxInfo (some p) _ => p ≠ 0#64 ∧ ⟨.dlsym "elf_aux_info", p⟩ ∈ before
  | _ => True

/-- Every question of the transcript was allowed when it was put. -/
def Safe (tr : List Said) : Prop :=
  ∀ (a b : List Said) (s : Said), tr = a ++ s :: b → Allowed a s.q

end Verif.Spec.Os
