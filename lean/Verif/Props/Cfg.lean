import Verif.Cfg.Select
import Verif.Spec.Cfg

/-!
# Configuration selection (C54)

For every combination of target, compiler, Cargo features and flags: what the crate offers, which
implementation is behind it, and that the pieces fit together.  `Sane` (`Verif/Spec/Cfg.lean`) lists
the facts about targets and compilers used; `rejected b` are the configurations the crate refuses
with a `compile_error!`.
-/

set_option autoImplicit false
set_option linter.unusedSimpArgs false

namespace Verif.Cfg

set_option maxHeartbeats 1000000

/-! ## The macros -/

/-- Of the two definitions of each macro module exactly one is compiled: the `cfg_no_atomic_*!` macros
are the complement of the `cfg_has_atomic_*!` ones, for every configuration whatsoever. -/
theorem macro_one (b : Build) (t : Ty) : macroNo b t = !macroHas b t := by
  cases t <;> cases hw : b.width <;>
  simp only [macroNo, macroHas, no8def, has8def, no32def, has32def, no64def, has64def, no128def,
    has128def, hw] <;> grind

/-- The same for `cfg_has_atomic_cas!`/`cfg_no_atomic_cas!`. -/
theorem cas_one (b : Build) : noCasDef b = !hasCasDef b := by
  simp only [noCasDef, hasCasDef]; grind

/-- The same for the private `cfg_*_atomic_cas_or_amo*!` macros. -/
theorem amo_one (b : Build) :
    amo32Drop b = !amo32Keep b ∧ noAmo32Drop b = !noAmo32Keep b ∧ noAmo32Keep b = !amo32Keep b ∧ 
    amo8Drop b = !amo8Keep b ∧ noAmo8Drop b = !noAmo8Keep b ∧ noAmo8Keep b = !amo8Keep b := by
  simp only [amo32Drop, amo32Keep, noAmo32Drop, noAmo32Keep, amo8Drop, amo8Keep, noAmo8Drop, noAmo8Keep]
  grind

/-! ## Every re-exported type exists, once -/

private theorem r8 (b : Build) (h : Sane b) (hr : rejected b = false) (m : Mod) (hs : selected8 b = some m) :
    (defs b m .t8).count true = 1 ∧ (defs b m .t16).count true = 1 := by
  obtain ⟨⟩ := h
  simp only [Build.nativeCas, Build.native64] at *
  simp only [selected8] at hs
  split at hs
  · injection hs with hs; subst hs
    simp only [defs]
    simp only [sel32Core, coreAtomicCfg, coreHas8] at *
    grind
  split at hs
  · injection hs with hs; subst hs
    simp only [defs]
    simp only [sel32Core, sel32Interrupt, rejected, modInterrupt, interruptItems, interruptSmall, errSingleArch, errPrivArch, errPrivNoCas, errUnprivileged, errCsAndUnsafe, noCasDef] at *
    grind
  split at hs
  · injection hs with hs; subst hs
    simp only [defs]
    simp only [sel32Core, sel32Interrupt, sel32Riscv, rejected, modRiscv] at *
    grind
  split at hs <;> cases hs

private theorem r32 (b : Build) (h : Sane b) (hr : rejected b = false) (m : Mod) (hs : selected32 b = some m) :
    (defs b m .t32).count true = 1 := by
  obtain ⟨⟩ := h
  simp only [Build.nativeCas, Build.native64] at *
  simp only [selected32] at hs
  split at hs
  · injection hs with hs; subst hs
    simp only [defs]
    simp only [sel32Core, coreAtomicCfg, coreHas32] at *
    grind
  split at hs
  · split at hs
    · injection hs with hs; subst hs
      simp only [defs]
      simp only [sel32Core, sel32Interrupt, sel32InterruptHas32, interruptWide32, rejected, modInterrupt, interruptItems, interruptSmall, errSingleArch, errPrivArch, errPrivNoCas, errUnprivileged, errCsAndUnsafe, noCasDef] at *
      grind
    · cases hs
  split at hs
  · injection hs with hs; subst hs
    simp only [defs]
    simp only [sel32Core, sel32Interrupt, sel32Riscv, rejected, modRiscv] at *
    grind
  split at hs <;> cases hs

private theorem rsize (b : Build) (h : Sane b) (hr : rejected b = false) (m : Mod) (hs : selectedSize b = some m) :
    (defs b m .size).count true = 1 ∧ (defs b m .ptr).count true = 1 := by
  obtain ⟨⟩ := h
  simp only [Build.nativeCas, Build.native64] at *
  simp only [selectedSize] at hs
  split at hs
  · injection hs with hs; subst hs
    simp only [defs]
    simp only [sel32Core, coreAtomicCfg, coreHas32] at *
    grind
  split at hs
  · injection hs with hs; subst hs
    simp only [defs]
    simp only [sel32Core, sel32Interrupt, sel32InterruptHas32, interruptWide32, rejected, modInterrupt, interruptItems, interruptSmall, errSingleArch, errPrivArch, errPrivNoCas, errUnprivileged, errCsAndUnsafe, noCasDef] at *
    cases hw : b.width <;> grind
  split at hs
  · injection hs with hs; subst hs
    simp only [defs]
    simp only [sel32Core, sel32Interrupt, sel32Riscv, rejected, modRiscv] at *
    grind
  split at hs
  · injection hs with hs; subst hs
    simp only [defs]
    simp only [sel32Core, sel32Interrupt, sel32Bpf, coreAtomicCfg] at *
    grind
  cases hs

private theorem r64 (b : Build) (h : Sane b) (hr : rejected b = false) (m : Mod) (hs : selected64 b = some m) :
    (defs b m .t64).count true = 1 := by
  obtain ⟨⟩ := h
  simp only [Build.nativeCas, Build.native64] at *
  simp only [selected64] at hs
  split at hs
  · injection hs with hs; subst hs
    simp only [defs]
    simp only [sel64Core, coreAtomicCfg, coreHas64] at *
    cases hw : b.width <;> grind
  split at hs
  · injection hs with hs; subst hs
    simp only [defs]
    simp only [sel64Core, sel64ArmLinux, modAtomic64, modArmLinux64] at *
    cases hw : b.width <;> grind
  split at hs
  · injection hs with hs; subst hs
    simp only [defs]
    simp only [sel64Riscv32, modAtomic64, modRiscv32] at *
    cases hw : b.width <;> grind
  split at hs
  · split at hs
    · injection hs with hs; subst hs
      simp only [defs]
      simp only [sel64Core, sel64ArmLinux, sel64Riscv32, sel64Interrupt, sel64InterruptHas64, interruptHas64Cfg, fastAtomic64, noFastAtomic64, rejected, modInterrupt, interruptItems, interruptSmall, errSingleArch, errPrivArch, errPrivNoCas, errUnprivileged, errCsAndUnsafe, noCasDef, Arch.is64] at *
      cases hw : b.width <;> grind
    · cases hs
  split at hs
  · injection hs with hs; subst hs
    simp only [defs]
    simp only [sel64Core, sel64ArmLinux, sel64Riscv32, sel64Interrupt, sel64Fallback, fallbackHas64Cfg, modFallback, noFastAtomic64, Arch.is64] at *
    cases hw : b.width <;> grind
  split at hs
  · injection hs with hs; subst hs
    simp only [defs]
    simp only [sel64Core, sel64Interrupt, sel64Riscv, rejected, modRiscv] at *
    cases hw : b.width <;> grind
  split at hs
  · injection hs with hs; subst hs
    simp only [defs]
    simp only [sel64Core, sel64Interrupt, sel64Bpf, coreAtomicCfg, coreHas64] at *
    cases hw : b.width <;> grind
  cases hs

private theorem r128 (b : Build) (h : Sane b) (hr : rejected b = false)
    (hx : b.oldChecker = false)
    (m : Mod) (hs : selected128 b = some m) :
    (defs b m .t128).count true = 1 := by
  obtain ⟨⟩ := h
  simp only [Build.nativeCas, Build.native64, Build.oldChecker, Build.asm] at *
  simp only [selected128] at hs
  split at hs
  · injection hs with hs; subst hs
    simp only [defs]
    simp only [sel128Aarch64, modAtomic128, modAarch64] at *
    cases hw : b.width <;> grind
  split at hs
  · injection hs with hs; subst hs
    simp only [defs]
    simp only [sel128X86_64, modAtomic128, modX86_64] at *
    cases hw : b.width <;> grind
  split at hs
  · injection hs with hs; subst hs
    simp only [defs]
    simp only [sel128Riscv64, modAtomic128, modRiscv64] at *
    cases hw : b.width <;> grind
  split at hs
  · injection hs with hs; subst hs
    simp only [defs]
    simp only [sel128Powerpc64, modAtomic128, modPowerpc64] at *
    cases hw : b.width <;> grind
  split at hs
  · injection hs with hs; subst hs
    simp only [defs]
    simp only [sel128S390x, modAtomic128, modS390x] at *
    cases hw : b.width <;> grind
  split at hs
  · split at hs
    · injection hs with hs; subst hs
      simp only [defs]
      simp only [sel128Interrupt, sel128Riscv64, sel128InterruptHas128, interruptHas128, rejected, modInterrupt, interruptItems, errSingleArch, errPrivArch, errPrivNoCas, errUnprivileged, errCsAndUnsafe, noCasDef, Arch.is64] at *
      cases hw : b.width <;> grind
    · cases hs
  split at hs
  · injection hs with hs; subst hs
    simp only [defs]
    simp only [sel128Aarch64, sel128X86_64, sel128Riscv64, sel128Powerpc64, sel128S390x, sel128Interrupt, sel128Fallback, modFallback] at *
    cases ha : b.arch <;> simp only [ha, reduceCtorEq, beq_self_eq_true, List.count_singleton] at * <;> grind
  cases hs

/-- In every accepted configuration but those of finding 1, the type `imp` re-exports is defined in
the module it is taken from, by exactly one definition: no unresolved import, no duplicate. -/
theorem one_definition (b : Build) (h : Sane b) (hr : rejected b = false) (t : Ty) (m : Mod)
    (hx : t = .t128 → b.oldChecker = false) (hs : selected b t = some m) :
    (defs b m t).count true = 1 := by
  cases t
  · exact (r8 b h hr m hs).1
  · exact (r8 b h hr m hs).2
  · exact r32 b h hr m hs
  · exact r64 b h hr m hs
  · exact r128 b h hr (hx rfl) m hs
  · exact (rsize b h hr m hs).1
  · exact (rsize b h hr m hs).2

/-- Finding 1: in those configurations the 128-bit types are taken from the lock-based fallback, and
it is not compiled. -/
theorem old_checker_unresolved (b : Build) (h : Sane b) (hr : rejected b = false)
    (hx : b.oldChecker = true) :
    selected b .t128 = some .fallback ∧ modFallback b = false := by
  obtain ⟨⟩ := h
  simp only [Build.nativeCas, Build.native64, Build.oldChecker, Build.asm, selected, selected128,
    modFallback, sel128Aarch64, sel128X86_64, sel128Riscv64, sel128Powerpc64, sel128S390x,
    sel128Interrupt, sel128Fallback, rejected, errSingleArch] at *
  have ha : b.arch = .x86_64 := by grind
  simp only [ha] at *
  grind

/-! ## What is offered is implemented -/

/-- Every public type has an implementation behind it: `cfg_has_atomic_N!` never exposes a type that
`imp` does not re-export. -/
theorem offered_selected (b : Build) (h : Sane b) (hr : rejected b = false) (t : Ty)
    (ho : offered b t = true) : (selected b t).isSome = true := by
  obtain ⟨⟩ := h
  simp only [Build.nativeCas, Build.native64] at *
  simp only [offered] at ho
  cases t <;> simp only [selected, macroHas, selected8, selected32, selectedSize, selected64] at *
  case t8 =>
    simp only [has8def, sel32Core, sel32Interrupt, sel32Riscv, sel32Bpf] at *; grind
  case t16 =>
    simp only [has8def, sel32Core, sel32Interrupt, sel32Riscv, sel32Bpf] at *; grind
  case t32 =>
    simp only [has32def, sel32Core, sel32Interrupt, sel32InterruptHas32, sel32Riscv, sel32Bpf] at *; grind
  case t64 =>
    have hw : b.width = .w16 ∨ b.width = .w32 ∨ b.width = .w64 := by cases b.width <;> simp
    split; · rfl
    split; · rfl
    split; · rfl
    split
    · split; · rfl
      simp only [has64def, sel64Core, sel64Riscv32, sel64Interrupt, sel64InterruptHas64, rejected, errSingleArch] at *
      rcases hw with hw | hw | hw <;> grind
    split; · rfl
    split; · rfl
    split; · rfl
    simp only [has64def, sel64Core, sel64Riscv32, sel64Interrupt, sel64Fallback, sel64Riscv, sel64Bpf] at *
    rcases hw with hw | hw | hw <;> cases hc : b.noCfgTargetHasAtomic <;> cases hl : b.noAtomicLoadStore <;>
      simp only [hc, hl, hw, if_true, if_false, Bool.false_eq_true, reduceCtorEq] at * <;> grind
  case t128 =>
    cases hn : selected128 b with
    | some m => rfl
    | none =>
      simp only [selected128] at hn
      simp only [has128def] at ho
      split at hn; · cases hn
      split at hn; · cases hn
      split at hn; · cases hn
      split at hn; · cases hn
      split at hn; · cases hn
      split at hn
      · split at hn
        · cases hn
        · simp only [sel128Aarch64, sel128X86_64, sel128Riscv64, sel128Powerpc64, sel128S390x, sel128Interrupt, sel128InterruptHas128, rejected, errSingleArch] at *
          cases ha : b.arch <;> simp only [ha, reduceCtorEq, beq_self_eq_true] at * <;> grind
      split at hn; · cases hn
      simp only [sel128Aarch64, sel128X86_64, sel128Riscv64, sel128Powerpc64, sel128S390x, sel128Interrupt, sel128InterruptHas128, sel128Fallback] at *
      cases ha : b.arch <;> simp only [ha, reduceCtorEq, beq_self_eq_true] at * <;> grind
  case size => 
    simp only [has64def, has8def, has32def, sel32Core, sel32Interrupt, sel32Riscv, sel32Bpf] at *
    cases hw : b.width <;> simp only [hw] at * <;> grind
  case ptr => 
    simp only [has64def, has8def, has32def, sel32Core, sel32Interrupt, sel32Riscv, sel32Bpf] at *
    cases hw : b.width <;> simp only [hw] at * <;> grind

/-- Conversely no implementation goes unused, but for finding 2. -/
theorem selected_offered (b : Build) (h : Sane b) (hr : rejected b = false) (t : Ty)
    (hx : t = .t128 → b.noCasRv64 = true → b.fallback = false)
    (ho : (selected b t).isSome = true) : offered b t = true  := by
  obtain ⟨⟩ := h
  simp only [Build.nativeCas, Build.native64, Build.noCasRv64] at *
  simp only [offered]
  cases t <;> simp only [selected, macroHas, selected8, selected32, selectedSize, selected64] at *
  case t8 =>
    simp only [has8def, sel32Core, sel32Interrupt, sel32Riscv, sel32Bpf] at *; grind
  case t16 =>
    simp only [has8def, sel32Core, sel32Interrupt, sel32Riscv, sel32Bpf] at *; grind
  case t32 =>
    simp only [has32def, sel32Core, sel32Interrupt, sel32InterruptHas32, sel32Riscv, sel32Bpf] at *; grind
  case t64 =>
    simp only [has64def, sel64Core, sel64ArmLinux, sel64Riscv32, sel64Interrupt, sel64InterruptHas64, sel64Fallback, sel64Riscv, sel64Bpf] at *; 
    cases hw : b.width <;> grind
  case t128 =>
    simp only [selected128] at ho
    simp only [has128def, hasCasDef, sel128Aarch64, sel128X86_64, sel128Riscv64, sel128Powerpc64, sel128S390x, sel128Interrupt, sel128InterruptHas128, sel128Fallback] at *
    cases ha : b.arch <;> simp only [ha, reduceCtorEq, beq_self_eq_true] at * <;> grind
  case size => 
    simp only [has64def, has8def, has32def, sel32Core, sel32Interrupt, sel32Riscv, sel32Bpf] at *
    cases hw : b.width <;> simp only [hw] at * <;> grind
  case ptr => 
    simp only [has64def, has8def, has32def, sel32Core, sel32Interrupt, sel32Riscv, sel32Bpf] at *
    cases hw : b.width <;> simp only [hw] at * <;> grind

/-- Finding 2: on a riscv64 target without CAS but with Zacas, `AtomicI128`/`AtomicU128` are offered
without the feature `fallback` and not offered with it (although implemented). -/
theorem fallback_hides (b : Build) (hx : b.noCasRv64 = true)
    (hz : b.tfZacas = true ∨ b.pfZacas = true) (ha : b.asm = true)
    (hm : b.miri = false ∧ b.sanitizeThread = false) :
    offered { b with fallback := false } .t128 = true ∧
    offered { b with fallback := true } .t128 = false ∧
    selected { b with fallback := true } .t128 = some .riscv64 := by
  simp only [Build.nativeCas, Build.noCasRv64, Build.asm, offered, macroHas, has128def, selected,
    selected128, sel128Aarch64, sel128X86_64, sel128Riscv64] at *
  grind

/-- If the public types have `compare_exchange`, so does the implementation behind each. -/
theorem cas_provided (b : Build) (h : Sane b) (hr : rejected b = false) (hc : offersCas b = true) (t : Ty) (m : Mod)
    (hs : selected b t = some m) : providesCas b m = true := by
  obtain ⟨⟩ := h
  cases m <;> simp only [providesCas]
  case core =>
    cases t <;> simp only [selected, selected8, selected32, selectedSize, selected64, selected128] at hs <;>
      simp only [coreHasCas, offersCas, hasCasDef, sel32Core, sel64Core, sel32Interrupt, sel32InterruptHas32, sel64Interrupt, sel64InterruptHas64,
        sel32Riscv, sel32Bpf, sel64Riscv, sel64Bpf, Build.nativeCas, Build.native64] at * <;> grind
  case riscv =>
    cases t <;> simp only [selected, selected8, selected32, selectedSize, selected64, selected128] at hs <;>
      simp only [coreHasCas, offersCas, hasCasDef, sel32Core, sel64Core, sel32Interrupt, sel32InterruptHas32, sel64Interrupt, sel64InterruptHas64,
        sel32Riscv, sel32Bpf, sel64Riscv, sel64Bpf, Build.nativeCas, Build.native64] at * <;> grind

/-- If a public type has `swap`, `fetch_add`, .., so does the implementation behind it. -/
theorem rmw_provided (b : Build) (h : Sane b) (hr : rejected b = false) (t : Ty) (hc : offersRmw b t = true) (m : Mod)
    (hs : selected b t = some m) : providesRmw b m t = true := by
  obtain ⟨⟩ := h
  cases m <;> (try (simp only [providesRmw]; done))
  case core =>
    cases t <;> simp only [selected, selected8, selected32, selectedSize, selected64, selected128] at hs <;>
      simp only [providesRmw, coreHasCas, offersRmw, hasAmo32, hasAmo8, amo32Keep, amo8Keep, hasCasDef, noCasDef, sel32Core, sel64Core, sel32Interrupt, sel32InterruptHas32, sel64Interrupt, sel64InterruptHas64,
        sel32Riscv, sel32Bpf, sel64Riscv, sel64Bpf, Build.nativeCas, Build.native64] at * <;> (have hw : b.width = .w16 ∨ b.width = .w32 ∨ b.width = .w64 := by cases b.width <;> simp) <;>
    rcases hw with hw | hw | hw <;> simp only [hw] at * <;> grind
  case riscv =>
    cases t <;> simp only [selected, selected8, selected32, selectedSize, selected64, selected128] at hs <;>
      simp only [providesRmw, riscvAmo, riscvZabha, offersRmw, hasAmo32, hasAmo8, amo32Keep, amo8Keep, hasCasDef, noCasDef, coreHasCas, offersCas, hasCasDef, sel32Core, sel64Core, sel32Interrupt, sel32InterruptHas32, sel64Interrupt, sel64InterruptHas64,
        sel32Riscv, sel32Bpf, sel64Riscv, sel64Bpf, Build.nativeCas, Build.native64] at * <;> (have hw : b.width = .w16 ∨ b.width = .w32 ∨ b.width = .w64 := by cases b.width <;> simp) <;>
    rcases hw with hw | hw | hw <;> simp only [hw] at * <;> grind

/-- `require-cas` is refused exactly when the types would come without `compare_exchange`. -/
theorem require_cas (b : Build) : errRequireCas b = (b.requireCas && !offersCas b) := by
  simp only [errRequireCas, offersCas, hasCasDef]; grind

/-- Which configurations have `compare_exchange`: those whose target has CAS, and those where the user
(or the 16-bit target) allows a substitute. -/
theorem offers_cas_iff (b : Build) : offersCas b = true ↔
    b.nativeCas = true ∨ b.arch = .avr ∨ b.arch = .msp430 ∨ b.criticalSection = true ∨
      b.assumeSingleCore = true := by
  simp only [offersCas, hasCasDef, Build.nativeCas]; grind

/-! ## Which implementation -/

/-- On a target with CAS the {8,16,32}-bit and pointer-sized types are the compiler's own, whatever
features or flags are set. -/
theorem native_core (b : Build) (h : Sane b) (hc : b.nativeCas = true) (t : Ty) (ht : t ≠ .t64) (ht2 : t ≠ .t128) :
    selected b t = some .core := by
  obtain ⟨⟩ := h
  cases t <;> simp only [selected, selected8, selected32, selectedSize, sel32Core, Build.nativeCas, Build.native64] at * <;> grind

/-- The same for the 64-bit types where the compiler has 64-bit atomics. -/
theorem native_core64 (b : Build) (h : Sane b) (hc : b.nativeCas = true) (h4 : b.native64 = true) :
    selected b .t64 = some .core := by
  obtain ⟨⟩ := h
  simp only [selected, selected64, sel64Core, Build.nativeCas, Build.native64] at * <;> grind

/-- Interrupts are disabled (or `critical-section` called) only on AVR and MSP430 or where the user
opted in, and only if the target has no CAS or, on a target declared single-core, for the types wider
than its atomics. -/
theorem interrupt_only (b : Build) (h : Sane b) (hr : rejected b = false) (t : Ty)
    (hs : selected b t = some .interrupt) :
    (b.arch = .avr ∨ b.arch = .msp430 ∨ b.criticalSection = true ∨ b.assumeSingleCore = true) ∧
    (b.nativeCas = false ∨ (b.assumeSingleCore = true ∧ b.fallback = true ∧ (t = .t64 ∨ t = .t128))) := by
  obtain ⟨⟩ := h
  cases t <;> simp only [selected, selected8, selected32, selectedSize, selected64, selected128, Build.nativeCas, Build.native64] at *
  case t64 =>
    simp only [sel64Core, sel64Interrupt, sel64InterruptHas64] at *
    have hw : b.width = .w16 ∨ b.width = .w32 ∨ b.width = .w64 := by cases b.width <;> simp
    rcases hw with hw | hw | hw <;> simp only [hw, reduceCtorEq, beq_self_eq_true] at * <;> grind (splits := 40)
  case t128 =>
    simp only [sel128Interrupt, sel128InterruptHas128] at *
    grind
  all_goals
    simp only [sel32Core, sel32Interrupt, sel32InterruptHas32] at *
    grind

private theorem lock64 (b : Build) (h : Sane b) (m : Mod) (hs : selected64 b = some m)
    (hl : m = .fallback ∨ usesLock b m = true) :
    b.fallback = true ∧ b.nativeCas = true ∧ (rejected b = false → b.assumeSingleCore = false) := by
  obtain ⟨⟩ := h
  simp only [selected64, Build.nativeCas, Build.native64] at *
  split at hs
  · injection hs with hs; subst hs; simp [usesLock] at hl
  split at hs
  · injection hs with hs; subst hs; simp only [sel64ArmLinux, rejected, errUnprivileged] at *; grind
  split at hs
  · injection hs with hs; subst hs; simp only [sel64Riscv32, usesLock, riscv32OutlineCfg, rejected, errUnprivileged] at *; grind
  split at hs
  · split at hs
    · injection hs with hs; subst hs; simp [usesLock] at hl
    · cases hs
  split at hs
  · injection hs with hs; subst hs; simp only [sel64Fallback, sel64Interrupt] at *; grind
  split at hs
  · injection hs with hs; subst hs; simp [usesLock] at hl
  split at hs
  · injection hs with hs; subst hs; simp [usesLock] at hl
  cases hs

private theorem lock128 (b : Build) (h : Sane b) (m : Mod) (hs : selected128 b = some m)
    (hl : m = .fallback ∨ usesLock b m = true) :
    b.fallback = true ∧ b.nativeCas = true ∧ (rejected b = false → b.assumeSingleCore = false) := by
  obtain ⟨⟩ := h
  simp only [selected128, Build.nativeCas, Build.native64] at *
  split at hs
  · injection hs with hs; subst hs; simp [usesLock] at hl
  split at hs
  · injection hs with hs; subst hs
    simp only [sel128X86_64, usesLock, x86Intrinsics, x86OutlineCfg, intrinsicsOutlineCfg, rejected, errSingleArch] at *; grind
  split at hs
  · injection hs with hs; subst hs
    simp only [sel128Riscv64, usesLock, riscv64OutlineCfg, rejected, errUnprivileged] at *; grind
  split at hs
  · injection hs with hs; subst hs
    simp only [sel128Powerpc64, usesLock, powerpcOutlineCfg, rejected, errSingleArch] at *; grind
  split at hs
  · injection hs with hs; subst hs; simp [usesLock] at hl
  split at hs
  · split at hs
    · injection hs with hs; subst hs; simp [usesLock] at hl
    · cases hs
  split at hs
  · injection hs with hs; subst hs; simp only [sel128Fallback, sel128Interrupt] at *; grind
  cases hs

/-- The global locks back a type, or are its run-time substitute, only with the feature `fallback`, on a
target with CAS, and never on one declared single-core. -/
theorem lock_only (b : Build) (h : Sane b) (hr : rejected b = false) (t : Ty) (m : Mod)
    (hs : selected b t = some m) (hl : m = .fallback ∨ usesLock b m = true) :
    b.fallback = true ∧ b.nativeCas = true ∧ b.assumeSingleCore = false := by
  cases t
  case t64 => obtain ⟨h1, h2, h3⟩ := lock64 b h m hs hl; exact ⟨h1, h2, h3 hr⟩
  case t128 => obtain ⟨h1, h2, h3⟩ := lock128 b h m hs hl; exact ⟨h1, h2, h3 hr⟩
  all_goals
    exfalso
    simp only [selected, selected8, selected32, selectedSize] at hs
    cases m <;> simp only [usesLock] at hl <;> grind

/-! ## The modules fit together -/

private theorem lock_defined64 (b : Build) (h : Sane b) (hr : rejected b = false) (m : Mod) (hs : selected64 b = some m)
    (hl : usesLock b m = true) : (defs b .fallback .t64).count true = 1 := by
  obtain ⟨⟩ := h
  simp only [selected64, Build.nativeCas, Build.native64, defs] at *
  split at hs
  · injection hs with hs; subst hs; simp [usesLock] at hl
  split at hs
  · injection hs with hs; subst hs; simp only [sel64Core, sel64ArmLinux, modFallback, fallbackHas64Cfg, noFastAtomic64, rejected, errUnprivileged] at *
    have hw : b.width = .w16 ∨ b.width = .w32 ∨ b.width = .w64 := by cases b.width <;> simp
    rcases hw with hw | hw | hw <;> grind
  split at hs
  · injection hs with hs; subst hs; simp only [sel64Core, sel64ArmLinux, sel64Riscv32, usesLock, riscv32OutlineCfg, modFallback, fallbackHas64Cfg, noFastAtomic64, rejected, errUnprivileged] at *
    have hw : b.width = .w16 ∨ b.width = .w32 ∨ b.width = .w64 := by cases b.width <;> simp
    rcases hw with hw | hw | hw <;> grind
  split at hs
  · split at hs
    · injection hs with hs; subst hs; simp [usesLock] at hl
    · cases hs
  split at hs
  · injection hs with hs; subst hs; simp [usesLock] at hl
  split at hs
  · injection hs with hs; subst hs; simp [usesLock] at hl
  split at hs
  · injection hs with hs; subst hs; simp [usesLock] at hl
  cases hs

private theorem lock_defined128 (b : Build) (h : Sane b) (hr : rejected b = false) (m : Mod) (hs : selected128 b = some m)
    (hl : usesLock b m = true) : (defs b .fallback .t128).count true = 1 := by
  obtain ⟨⟩ := h
  simp only [selected128, Build.nativeCas, Build.native64, defs] at *
  split at hs
  · injection hs with hs; subst hs; simp [usesLock] at hl
  split at hs
  · injection hs with hs; subst hs
    simp only [sel128X86_64, usesLock, x86Intrinsics, x86OutlineCfg, intrinsicsOutlineCfg, modFallback, rejected, errSingleArch] at *
    grind
  split at hs
  · injection hs with hs; subst hs
    simp only [sel128Riscv64, usesLock, riscv64OutlineCfg, modFallback, rejected, errUnprivileged] at *; grind
  split at hs
  · injection hs with hs; subst hs
    simp only [sel128Powerpc64, usesLock, powerpcOutlineCfg, modFallback, rejected, errSingleArch] at *; grind
  split at hs
  · injection hs with hs; subst hs; simp [usesLock] at hl
  split at hs
  · split at hs
    · injection hs with hs; subst hs; simp [usesLock] at hl
    · cases hs
  split at hs
  · injection hs with hs; subst hs; simp [usesLock] at hl
  cases hs

/-- Where a double-width implementation substitutes the global locks at run time, the lock-based type
it names is compiled. -/
theorem lock_defined (b : Build) (h : Sane b) (hr : rejected b = false) (t : Ty) (m : Mod)
    (hs : selected b t = some m) (hl : usesLock b m = true) :
    (defs b .fallback t).count true = 1 := by
  cases t
  case t64 => exact lock_defined64 b h hr m hs hl
  case t128 => exact lock_defined128 b h hr m hs hl
  all_goals
    exfalso
    simp only [selected, selected8, selected32, selectedSize] at hs
    cases m <;> simp only [usesLock] at hl <;> grind

/-- Where the global locks disable interrupts, the functions that do so are compiled. -/
theorem lock_interrupt (b : Build) (h : Sane b) (hr : rejected b = false) (hm : modFallback b = true)
    (hu : fallbackUsesInterrupt b = true) : modInterrupt b = true ∧ interruptArch b = true := by
  simp only [fallbackUsesInterrupt, modInterrupt, interruptArch, rejected, errCsAndUnsafe, errPrivArch] at *
  grind

/-- Where the interrupt-disabling types use the target's plain atomics for loads and stores, those are
compiled. -/
theorem arch_atomic (b : Build) (h : Sane b) (hr : rejected b = false) (hm : modInterrupt b = true)
    (hi : interruptItems b = true) (hs : interruptSmall b = true)
    (hu : interruptUsesArchAtomic b = true) : archAtomic b = true := by
  obtain ⟨⟩ := h
  simp only [modInterrupt, interruptItems, interruptSmall, interruptUsesArchAtomic, archAtomic, interruptArch,
    archArmAtomic, archAvrAtomic, modAvr, modMsp430, archRiscvAtomic, modRiscv, archXtensaAtomic, Build.nativeCas, Build.native64] at *
  cases ha : b.arch <;> simp only [ha] at * <;> grind

/-- The overrides for x86 and for pre-v6 Arm Linux extend the compiler's atomics, which are compiled. -/
theorem overrides_core (b : Build) (h : Sane b) (hm : modX86 b = true ∨ modArmLinux b = true) :
    coreAtomicCfg b = true := by
  obtain ⟨⟩ := h
  simp only [modX86, modArmLinux, coreAtomicCfg, Build.nativeCas, Build.native64] at *
  have ha : b.arch = .x86 ∨ b.arch = .x86_64 ∨ b.arch = .arm := by grind
  rcases ha with ha | ha | ha <;> simp only [ha] at * <;> grind

/-- The module `fence` is taken from is compiled. -/
theorem fence_exists (b : Build) : 
   match selectedFence b with
   | .msp430 => modMsp430 b = true
   | .x86 => modX86 b = true
   | .armLinux => modArmLinux b = true
   | .core => True := by
  cases hf : selectedFence b <;> simp only [selectedFence, fenceMsp430, fenceX86, fenceArmLinux, modMsp430, modX86, modArmLinux] at * <;> grind

/-- No accepted configuration runs into a `compile_error!` meant for the crate's authors. -/
theorem no_internal (b : Build) (h : Sane b) (hr : rejected b = false) : internalError b = false := by
  obtain ⟨⟩ := h
  simp only [internalError, modFallback, errFallback16, modX86_64, x86Intrinsics, intrinsicsOutlineCfg, x86DetectCfg, errDetectX86, Build.nativeCas, Build.native64] at *
  grind

/-! ## Features are additive -/

/-- Enabling `fallback` never takes a type away, but for finding 2. -/
theorem fallback_adds (b : Build) (h : Sane b) (hr : rejected b = false) (t : Ty)
    (hx : t = .t128 → b.noCasRv64 = false)
    (ho : offered b t = true) : offered { b with fallback := true } t = true := by
  obtain ⟨⟩ := h
  have hw : b.width = .w16 ∨ b.width = .w32 ∨ b.width = .w64 := by cases b.width <;> simp
  cases t <;> simp only [Build.noCasRv64, offered, macroHas, has8def, has32def, has64def, has128def, hasCasDef, Build.nativeCas, Build.native64] at * <;>
  rcases hw with hw | hw | hw <;> simp only [hw] at * <;> grind

/-- Enabling `critical-section` never takes a type away. -/
theorem cs_adds (b : Build) (t : Ty)
    (ho : offered b t = true) : offered { b with criticalSection := true } t = true := by
  have hw : b.width = .w16 ∨ b.width = .w32 ∨ b.width = .w64 := by cases b.width <;> simp
  cases t <;> simp only [offered, macroHas, has8def, has32def, has64def, has128def] at * <;>
  rcases hw with hw | hw | hw <;> simp only [hw] at * <;> grind

/-- With `critical-section` every type has `compare_exchange`. -/
theorem cs_cas (b : Build) :
  offersCas { b with criticalSection := true } = true := by
  simp [offersCas, hasCasDef]

/-- .. and all the other read-modify-write operations. -/
theorem cs_rmw (b : Build) (t : Ty) : offersRmw { b with criticalSection := true } t = true := by
  cases t <;> simp [offersRmw, hasAmo32, hasAmo8, hasCasDef]
  cases b.width <;> rfl

/-- `require-cas` and `std` change nothing about what is offered. -/
theorem other_features (b : Build) (r s : Bool) (t : Ty) :
    offered { b with requireCas := r, std := s } t = offered b t ∧
    offersCas { b with requireCas := r, std := s } = offersCas b ∧ 
    offersRmw { b with requireCas := r, std := s } t = offersRmw b t := by
  refine ⟨?_, rfl, ?_⟩ <;> cases t <;> rfl

/-! ## Concrete configurations -/

/-- `x86_64-unknown-linux-gnu`, default features, recent stable compiler. -/
def linuxX86 : Build where
  arch := .x86_64
  width := .w64
  os := .linux
  env := .gnu
  littleEndian := true
  crtStatic := false
  fallback := true
  criticalSection := false
  requireCas := false
  std := false
  noCfgTargetHasAtomic := false
  hasAtomicPtr := true
  hasAtomic64 := true
  noAtomicCas := false
  noAtomicLoadStore := false
  noAtomic64 := false
  noAsm := false
  unstableAsm := false
  atomicIntrinsics := false
  noCmpxchg16bIntrinsic := false
  noOutlineAtomics := false
  outlineAtomics := false
  preLlvm20 := false
  assumeSingleCore := false
  assumePrivileged := false
  sMode := false
  forceAmo := false
  disableFiq := false
  miri := false
  sanitizeThread := false
  tfV6 := false
  pfV6 := false
  tfMclass := false
  pfMclass := false
  tfZacas := false
  pfZacas := false
  tfZaamo := false
  pfZaamo := false
  tfZabha := false
  pfZabha := false
  tfCmpxchg16b := false
  pfCmpxchg16b := false
  tfSse := true
  tfAvx := false
  tfQuadwordAtomics := false
  pfQuadwordAtomics := false

/-- `thumbv6m-none-eabi`. -/
def thumbv6m : Build :=
  { linuxX86 with arch := .arm, width := .w32, os := .none, env := .other, hasAtomicPtr := false,
                  hasAtomic64 := false, tfV6 := true, tfMclass := true, tfSse := false }

/-- `riscv64` without the A extension (as `riscv64im-unknown-none-elf`). -/
def rv64im : Build :=
  { linuxX86 with arch := .riscv64, os := .none, env := .other, hasAtomicPtr := false,
                  hasAtomic64 := false, tfSse := false }

/-- `avr-none`. -/
def avr : Build :=
  { thumbv6m with arch := .avr, width := .w16, tfV6 := false, tfMclass := false }

theorem linuxX86_sane : Sane linuxX86 := by constructor <;> decide
theorem thumbv6m_sane : Sane thumbv6m := by constructor <;> decide
theorem rv64im_sane : Sane rv64im := by constructor <;> decide
theorem avr_sane : Sane avr := by constructor <;> decide

/-- Linux: 64-bit types native, 128-bit ones with run-time detection and the locks as substitute. -/
example : rejected linuxX86 = false ∧ selected linuxX86 .t64 = some .core ∧
    selected linuxX86 .t128 = some .x86_64 ∧ usesLock linuxX86 .x86_64 = true ∧
    offersCas linuxX86 = true ∧ linuxX86.oldChecker = false ∧ linuxX86.noCasRv64 = false := by decide

/-- A microcontroller without opt-in has loads and stores only; with `critical-section`, everything. -/
example : rejected thumbv6m = false ∧ selected thumbv6m .t32 = some .core ∧
    offersCas thumbv6m = false ∧ offered thumbv6m .t64 = false ∧
    selected { thumbv6m with criticalSection := true } .t32 = some .interrupt ∧
    selected { thumbv6m with criticalSection := true } .t64 = some .interrupt ∧
    rejected { thumbv6m with criticalSection := true } = false ∧
    offered { thumbv6m with criticalSection := true } .t64 = true ∧
    rejected { thumbv6m with requireCas := true } = true := by decide

/-- RISC-V without A: plain loads and stores, AMOs with Zaamo. -/
example : rejected rv64im = false ∧ selected rv64im .t64 = some .riscv ∧
    offersCas rv64im = false ∧ offersRmw rv64im .t64 = false ∧
    offersRmw { rv64im with tfZaamo := true } .t64 = true ∧
    offersRmw { rv64im with tfZaamo := true } .t8 = false ∧
    offersRmw { rv64im with tfZaamo := true, tfZabha := true } .t8 = true := by decide

/-- AVR: everything by disabling interrupts; 32-bit types and wider need `fallback`. -/
example : rejected avr = false ∧ selected avr .t8 = some .interrupt ∧
    selected avr .t128 = some .interrupt ∧ selected { avr with fallback := false } .t32 = none ∧
    interruptUsesArchAtomic avr = true ∧ modInterrupt avr = true ∧ interruptItems avr = true ∧
    interruptSmall avr = true := by decide

/-- Finding 1 is about a configuration that exists: ThreadSanitizer on x86_64 with
`-C target-feature=+cmpxchg16b` and a nightly compiler before 1.70. -/
theorem finding1 : ∃ b, Sane b ∧ rejected b = false ∧ offered b .t128 = true ∧
    selected b .t128 = some .fallback ∧ (defs b .fallback .t128).count true = 0 :=
  ⟨{ linuxX86 with tfCmpxchg16b := true, sanitizeThread := true, noCmpxchg16bIntrinsic := true },
    by constructor <;> decide,
    by decide, by decide, by decide, by decide⟩

/-- Finding 2 likewise: `riscv64im` with `-C target-feature=+zacas`. -/
theorem finding2 : ∃ b, Sane b ∧ rejected b = false ∧
    Sane { b with fallback := false } ∧ rejected { b with fallback := false } = false ∧
    offered { b with fallback := false } .t128 = true ∧ offered b .t128 = false :=
  ⟨{ rv64im with tfZacas := true, tfZaamo := true }, by constructor <;> decide, by decide,
    by constructor <;> decide, by decide, by decide, by decide⟩

/-- The lock with interrupts disabled: an Armv6-M system with `unsafe-assume-privileged` has none (it is
refused without CAS); a Cortex-R with CAS has. -/
example :
    let b := { thumbv6m with hasAtomicPtr := true, tfMclass := false, assumePrivileged := true }
    rejected b = false ∧ modFallback b = true ∧ fallbackUsesInterrupt b = true ∧
    selected b .t64 = some .fallback ∧
    rejected { thumbv6m with assumePrivileged := true } = true := by decide

end Verif.Cfg
