import Verif.Props.Cfg

/-!
# Configuration selection: nothing is compiled in vain, nothing is accepted by mistake (C54)
-/

set_option autoImplicit false
set_option linter.unusedSimpArgs false

namespace Verif.Cfg

set_option maxHeartbeats 1000000

/-! ## Accepted configurations -/

/-- The crate refuses exactly the configurations its documentation does not allow. -/
theorem rejected_iff (b : Build) (h : Sane b) : rejected b = false ↔ Accepted b := by
  obtain ⟨⟩ := h
  constructor
  · intro hr
    simp only [rejected, errSingleArch, errPrivArch, errPrivNoCas, noCasDef, errUnprivileged, errOutline,
      errFiqArch, errSmodeArch, errAmoArch, errFiqAlone, errSmodeAlone, errAmoAlone, errPrivNoFallback,
      errCsAndUnsafe, errRequireCas, Build.nativeCas, Build.native64] at *
    constructor <;> (try simp only [Arch.irq, Build.nativeCas]) <;> intros <;> grind
  · rintro ⟨⟩
    simp only [rejected, errSingleArch, errPrivArch, errPrivNoCas, noCasDef, errUnprivileged, errOutline,
      errFiqArch, errSmodeArch, errAmoArch, errFiqAlone, errSmodeAlone, errAmoAlone, errPrivNoFallback,
      errCsAndUnsafe, errRequireCas, Build.nativeCas, Build.native64, Arch.irq] at *
    cases ha : b.arch <;> simp only [ha] at * <;> grind

/-! ## The cascades, arm by arm -/

private theorem s64 (b : Build) :
    (selected64 b = some .armLinux64 ↔ sel64Core b = false ∧ sel64ArmLinux b = true) ∧
    (selected64 b = some .riscv32 ↔
      sel64Core b = false ∧ sel64ArmLinux b = false ∧ sel64Riscv32 b = true) ∧
    (selected64 b = some .fallback ↔ sel64Core b = false ∧ sel64ArmLinux b = false ∧
      sel64Riscv32 b = false ∧ sel64Interrupt b = false ∧ sel64Fallback b = true) ∧
    (selected64 b = some .interrupt ↔ sel64Core b = false ∧ sel64ArmLinux b = false ∧
      sel64Riscv32 b = false ∧ sel64Interrupt b = true ∧ sel64InterruptHas64 b = true) ∧
    (∀ m, selected64 b = some m → m ≠ .riscv64 ∧ m ≠ .powerpc64 ∧ m ≠ .x86_64) := by
  simp only [selected64]; refine ⟨?_, ?_, ?_, ?_, fun m hm => ?_⟩ <;> grind

private theorem s128 (b : Build) :
    (selected128 b = some .aarch64 ↔ sel128Aarch64 b = true) ∧
    (selected128 b = some .x86_64 ↔ sel128Aarch64 b = false ∧ sel128X86_64 b = true) ∧
    (selected128 b = some .riscv64 ↔ sel128Aarch64 b = false ∧ sel128X86_64 b = false ∧
      sel128Riscv64 b = true) ∧
    (selected128 b = some .powerpc64 ↔ sel128Aarch64 b = false ∧ sel128X86_64 b = false ∧
      sel128Riscv64 b = false ∧ sel128Powerpc64 b = true) ∧
    (selected128 b = some .s390x ↔ sel128Aarch64 b = false ∧ sel128X86_64 b = false ∧
      sel128Riscv64 b = false ∧ sel128Powerpc64 b = false ∧ sel128S390x b = true) ∧
    (selected128 b = some .interrupt ↔ sel128Aarch64 b = false ∧ sel128X86_64 b = false ∧
      sel128Riscv64 b = false ∧ sel128Powerpc64 b = false ∧ sel128S390x b = false ∧
      sel128Interrupt b = true ∧ sel128InterruptHas128 b = true) ∧
    (selected128 b = some .fallback ↔ sel128Aarch64 b = false ∧ sel128X86_64 b = false ∧
      sel128Riscv64 b = false ∧ sel128Powerpc64 b = false ∧ sel128S390x b = false ∧
      sel128Interrupt b = false ∧ sel128Fallback b = true) ∧
    selected128 b ≠ some .riscv32 := by
  simp only [selected128]; refine ⟨?_, ?_, ?_, ?_, ?_, ?_, ?_, ?_⟩ <;> grind

private theorem s8 (b : Build) (m : Mod) :
    selected8 b = some m ∨ selected32 b = some m ∨ selectedSize b = some m →
    m = .core ∨ m = .interrupt ∨ m = .riscv := by
  simp only [selected8, selected32, selectedSize]; grind

/-! ## Instructions that may be missing -/

/-- A double-width implementation that has no substitute for processors without its instruction is
selected only if the instruction is known at compile time to be there. -/
theorem no_substitute (b : Build) (t : Ty) (m : Mod) (hs : selected b t = some m)
    (hm : m = .riscv32 ∨ m = .riscv64 ∨ m = .powerpc64 ∨ m = .x86_64)
    (hl : usesLock b m = false) (hc : b.miri = false ∧ b.sanitizeThread = false) : b.known = true := by
  have ha : (m = .riscv32 → b.arch = .riscv32) ∧ (m = .riscv64 → b.arch = .riscv64) ∧
      (m = .powerpc64 → b.arch = .powerpc64) ∧ (m = .x86_64 → b.arch = .x86_64) := by
    have h1 := s64 b
    have h2 := s128 b
    have h3 := s8 b m
    have e1 : sel64Riscv32 b = true → b.arch = .riscv32 := by simp only [sel64Riscv32]; grind
    have e2 : sel128Riscv64 b = true → b.arch = .riscv64 := by simp only [sel128Riscv64]; grind
    have e3 : sel128Powerpc64 b = true → b.arch = .powerpc64 := by simp only [sel128Powerpc64]; grind
    have e4 : sel128X86_64 b = true → b.arch = .x86_64 := by simp only [sel128X86_64]; grind
    cases t <;> simp only [selected] at hs <;> grind
  rcases hm with hm | hm | hm | hm <;> subst hm <;>
    simp only [usesLock, riscv32OutlineCfg, riscv64OutlineCfg, powerpcOutlineCfg, x86Intrinsics,
      x86OutlineCfg] at hl <;> simp at ha <;> simp only [Build.known, ha] <;> grind

/-- The x86_64 run-time detection is compiled wherever it is consulted: for the choice between
`cmpxchg16b` and the locks, and for the choice of the instruction for loads and stores. -/
theorem x86_detection (b : Build) (hm : modX86_64 b = true)
    (hc : b.miri = false ∧ b.sanitizeThread = false)
    (hu : usesLock b .x86_64 = true ∨ x86LoadDetects b = true) : x86DetectCfg b = true := by
  simp only [modX86_64, usesLock, x86Intrinsics, x86OutlineCfg, x86LoadDetects, x86DetectCfg] at *
  grind

/-- .. and under Miri and ThreadSanitizer. -/
theorem checker_detection (b : Build) (hm : modX86_64 b = true)
    (hc : x86Intrinsics b = true) (hu : usesLock b .x86_64 = true) :
    b.tfCmpxchg16b = false ∧ intrinsicsOutlineCfg b = true := by
  simp only [modX86_64, usesLock, x86Intrinsics, intrinsicsOutlineCfg] at *
  grind

/-! ## Every compiled module is used -/

/-- The double-width modules are compiled exactly where they are selected.  (32-bit Arm has 32-bit
pointers; on riscv32 the module is unused if the compiler has 64-bit atomics itself.) -/
theorem wide_compiled_iff (b : Build) (h : Sane b) (harm : b.arch = .arm → b.width = .w32) :
    (modAtomic128 b = true ∧ modAarch64 b = true ↔ selected b .t128 = some .aarch64) ∧
    (modAtomic128 b = true ∧ modX86_64 b = true ↔ selected b .t128 = some .x86_64) ∧
    (modAtomic128 b = true ∧ modRiscv64 b = true ↔ selected b .t128 = some .riscv64) ∧
    (modAtomic128 b = true ∧ modPowerpc64 b = true ↔ selected b .t128 = some .powerpc64) ∧
    (modAtomic128 b = true ∧ modS390x b = true ↔ selected b .t128 = some .s390x) ∧
    (modAtomic64 b = true ∧ modArmLinux64 b = true ↔ selected b .t64 = some .armLinux64) ∧
    (b.native64 = false →
      (modAtomic64 b = true ∧ modRiscv32 b = true ↔ selected b .t64 = some .riscv32)) := by
  obtain ⟨⟩ := h
  obtain ⟨a1, a2, a3, a4, a5, -⟩ := s128 b
  obtain ⟨b1, b2, -⟩ := s64 b
  simp only [selected, a1, a2, a3, a4, a5, b1, b2]
  simp only [modAtomic128, modAarch64, modX86_64, modRiscv64, modPowerpc64,
    modS390x, modAtomic64, modArmLinux64, modRiscv32, sel128Aarch64, sel128X86_64, sel128Riscv64,
    sel128Powerpc64, sel128S390x, sel64Core, sel64ArmLinux, sel64Riscv32, Build.nativeCas, Build.native64] at *
  clear a1 a2 a3 a4 a5 b1 b2
  have hw : b.width = .w16 ∨ b.width = .w32 ∨ b.width = .w64 := by cases b.width <;> simp
  refine ⟨?_, ?_, ?_, ?_, ?_, ?_, ?_⟩
  · grind
  · grind
  · grind
  · grind
  · grind
  · rcases hw with hw | hw | hw <;> simp only [hw] at * <;> grind
  · rcases hw with hw | hw | hw <;> simp only [hw] at * <;> grind


/-- The lock-based fallback is compiled only where a type is taken from it or uses it as substitute. -/
theorem fallback_used (b : Build) (h : Sane b) (hm : modFallback b = true) :
    selected b .t64 = some .fallback ∨ selected b .t128 = some .fallback ∨
    ∃ m, (selected b .t64 = some m ∨ selected b .t128 = some m) ∧ usesLock b m = true := by
  obtain ⟨⟩ := h
  obtain ⟨a1, a2, a3, a4, a5, a6, a7, -⟩ := s128 b
  by_cases c1 : selected b .t128 = some .fallback
  · exact .inr (.inl c1)
  by_cases c2 : selected b .t128 = some .x86_64 ∧ usesLock b .x86_64 = true
  · exact .inr (.inr ⟨_, .inr c2.1, c2.2⟩)
  by_cases c3 : selected b .t128 = some .riscv64 ∧ usesLock b .riscv64 = true
  · exact .inr (.inr ⟨_, .inr c3.1, c3.2⟩)
  by_cases c4 : selected b .t128 = some .powerpc64 ∧ usesLock b .powerpc64 = true
  · exact .inr (.inr ⟨_, .inr c4.1, c4.2⟩)
  exfalso
  simp only [selected, a2, a3, a4, a7] at c1 c2 c3 c4
  clear a1 a2 a3 a4 a5 a6 a7
  simp only [modFallback, usesLock, riscv64OutlineCfg, powerpcOutlineCfg, x86Intrinsics, x86OutlineCfg,
    intrinsicsOutlineCfg, sel128Aarch64, sel128X86_64, sel128Riscv64,
    sel128Powerpc64, sel128S390x, sel128Interrupt, sel128Fallback, Build.nativeCas, Build.native64] at *
  cases ha : b.arch <;> simp only [ha, reduceCtorEq, beq_self_eq_true] at * <;> grind

/-- The compiler's atomics are compiled only where the pointer-sized types come from them. -/
theorem core_used (b : Build) (h : Sane b) (hm : coreAtomicCfg b = true) :
    selected b .size = some .core := by
  obtain ⟨⟩ := h
  simp only [coreAtomicCfg, selected, selectedSize, sel32Core, sel32Interrupt, sel32Riscv, sel32Bpf, Build.nativeCas] at *
  grind

/-- `riscv.rs` is compiled only on RISC-V without CAS, and used: directly, or for the loads and stores
(and AMOs) of the types that disable interrupts. -/
theorem riscv_used (b : Build) (h : Sane b) (hm : modRiscv b = true) :
    b.nativeCas = false ∧ (selected b .size = some .riscv ∨
      selected b .size = some .interrupt ∧ modInterrupt b = true ∧ interruptUsesArchAtomic b = true) := by
  obtain ⟨⟩ := h
  simp only [modRiscv, selected, selectedSize, sel32Core, sel32Interrupt, sel32Riscv, modInterrupt,
    interruptUsesArchAtomic, Build.nativeCas] at *
  grind

/-- `avr.rs` is inline assembly for AVR. -/
theorem avr_used (b : Build) (hm : modAvr b = true) :
    b.arch = .avr ∧ b.noAsm = false ∧ b.criticalSection = false := by
  simp only [modAvr] at hm; grind

/-- The overrides for x86 and pre-v6 Arm Linux are compiled exactly on those targets, and not under
Miri or ThreadSanitizer. -/
theorem overrides_iff (b : Build) :
    (modX86 b = true ↔ (b.arch = .x86 ∨ b.arch = .x86_64) ∧ b.asm = true ∧ b.miri = false ∧
      b.sanitizeThread = false) ∧
    (modArmLinux b = true ↔ b.arch = .arm ∧ (b.os = .linux ∨ b.os = .android) ∧ b.tfV6 = false ∧
      b.pfV6 = false ∧ b.miri = false ∧ b.sanitizeThread = false) := by
  simp only [modX86, modArmLinux, Build.asm]; grind

/-- `fence` is the crate's own exactly where the compiler's is missing (MSP430) or slower or broken. -/
theorem fence_iff (b : Build) :
    (selectedFence b = .msp430 ↔ b.arch = .msp430) ∧
    (selectedFence b = .x86 ↔ modX86 b = true) ∧
    (selectedFence b = .armLinux ↔ modArmLinux b = true) := by
  simp only [selectedFence, fenceMsp430, fenceX86, fenceArmLinux, modX86, modArmLinux]
  refine ⟨?_, ?_, ?_⟩ <;> grind

/-- The types that disable interrupts are compiled only where they are selected. -/
theorem interrupt_used (b : Build) (h : Sane b) (hr : rejected b = false) (t : Ty)
    (hd : true ∈ defs b .interrupt t) : selected b t = some .interrupt := by
  obtain ⟨⟩ := h
  have hw : b.width = .w16 ∨ b.width = .w32 ∨ b.width = .w64 := by cases b.width <;> simp
  cases t
  case t128 =>
    have h2 := (s128 b).2.2.2.2.2.1
    simp only [selected, h2, defs, interruptHas128, List.mem_singleton, sel128Aarch64, sel128X86_64, sel128Riscv64,
      sel128Powerpc64, sel128S390x, sel128Interrupt, sel128InterruptHas128, modInterrupt, interruptItems, rejected,
      errSingleArch, errPrivArch, errPrivNoCas, noCasDef, Build.nativeCas, Build.native64] at *
    clear h2
    grind
  case t64 =>
    have h2 := (s64 b).2.2.2.1
    simp only [selected, h2, defs, interruptHas64Cfg, interruptSmall, fastAtomic64, noFastAtomic64, sel64Core, sel64ArmLinux,
      sel64Riscv32, sel64Interrupt, sel64InterruptHas64, modInterrupt, interruptItems, rejected,
      errSingleArch, errPrivArch, errPrivNoCas, noCasDef, errUnprivileged, Build.nativeCas, Build.native64, Arch.is64] at *
    clear h2
    rcases hw with hw | hw | hw <;> simp only [hw] at * <;> grind
  all_goals
    simp only [selected, selected8, selected32, selectedSize, defs, interruptSmall, interruptWide32, sel32Core,
      sel32Interrupt, sel32InterruptHas32, modInterrupt, interruptItems, rejected,
      errSingleArch, errPrivArch, errPrivNoCas, noCasDef, errUnprivileged, Build.nativeCas, Build.native64] at *
    rcases hw with hw | hw | hw <;> simp only [hw] at * <;> grind

/-- Where the types that disable interrupts leave read-modify-write operations to AMOs, `riscv.rs` has
them. -/
theorem interrupt_amo (b : Build) (h : Sane b) (hm : modInterrupt b = true) (hs : interruptSmall b = true)
    (hu : interruptUsesArchAtomic b = true) (ha : interruptAmo b = true) :
    modRiscv b = true ∧ riscvAmo b = true ∧ (interruptZabha b = true → riscvZabha b = true) := by
  obtain ⟨⟩ := h
  simp only [modInterrupt, interruptSmall, interruptUsesArchAtomic, interruptAmo, modRiscv, riscvAmo,
    interruptZabha, riscvZabha, Build.nativeCas] at *
  grind

/-- `cfg_has_fast_atomic_64!` and `cfg_no_fast_atomic_64!`: 64-bit registers or not. -/
theorem fast64_iff (b : Build) :
    fastAtomic64 b = (b.width == .w64 || b.arch.is64) ∧ noFastAtomic64 b = !fastAtomic64 b := by
  have hw : b.width = .w16 ∨ b.width = .w32 ∨ b.width = .w64 := by cases b.width <;> simp
  simp only [fastAtomic64, noFastAtomic64, Arch.is64]
  cases ha : b.arch <;> rcases hw with hw | hw | hw <;> simp only [ha, hw] at * <;> decide

/-- The read-modify-write operations `riscv` provides are made with instructions the configuration says
the processor has: the AMOs (or the user forces them), and for 8 and 16 bits also the sub-word AMOs;
and whenever these are declared it provides them. -/
theorem riscv_amo_iff (b : Build) (t : Ty) :
    providesRmw b .riscv t = true ↔
      (b.tfZaamo = true ∨ b.pfZaamo = true ∨ b.forceAmo = true) ∧
      (t = .t8 ∨ t = .t16 → b.tfZabha = true ∨ b.pfZabha = true) := by
  cases t <;> simp [providesRmw, riscvAmo, riscvZabha] <;> grind

/-! ## Concrete configurations -/

/-- On Linux with `cmpxchg16b` in the baseline there is no substitute, and loads still ask about AVX. -/
example :
    let b := { linuxX86 with tfCmpxchg16b := true }
    usesLock b .x86_64 = false ∧ b.known = true ∧ x86LoadDetects b = true ∧ x86DetectCfg b = true ∧
    modFallback b = false ∧ usesLock linuxX86 .x86_64 = true ∧ modFallback linuxX86 = true := by decide

/-- A single-core RISC-V microcontroller with `force-amo`. -/
example :
    let b := { rv64im with assumeSingleCore := true, forceAmo := true, sMode := true }
    Sane b ∧ rejected b = false ∧ modRiscv b = true ∧ interruptAmo b = true ∧
    true ∈ defs b .interrupt .t128 ∧ selected b .t8 = some .interrupt ∧
    rejected { b with assumeSingleCore := false } = true ∧ rejected { b with os := .linux } = false ∧
    rejected { b with os := .linux, hasAtomicPtr := true } = true :=
  ⟨by constructor <;> decide, by decide, by decide, by decide, by decide, by decide, by decide, by decide,
    by decide⟩

end Verif.Cfg
