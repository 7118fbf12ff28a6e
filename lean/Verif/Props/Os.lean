/-
**C53**: run-time detection, from the questions put to the processor and the operating system to
the instructions executed.
-/
import Verif.Detect.Os
import Verif.Spec.Os
import Verif.Props.Detect

set_option autoImplicit false

namespace Verif.Detect.Os
open Verif.Spec.Os Verif.Detect.Ask

/-! ### Programs -/

section
variable {α β : Type}

theorem runs_bind {p : Ask α} {f : α → Ask β} {tr : List Said} {b : β}
    (h : Runs (p >>= f) tr b) :
    ∃ tr1 a tr2, tr = tr1 ++ tr2 ∧ Runs p tr1 a ∧ Runs (f a) tr2 b := by
  induction p generalizing tr with
  | done a => exact ⟨[], a, tr, rfl, .done a, h⟩
  | ask q k ih =>
      rw [ask_bind, runs_ask] at h
      obtain ⟨r, tr', rfl, h⟩ := h
      obtain ⟨tr1, a, tr2, rfl, h1, h2⟩ := ih r h
      exact ⟨⟨q, r⟩ :: tr1, a, tr2, rfl, .ask r h1, h2⟩

theorem eval_bind (P : (q : Query) → q.Ans) (p : Ask α) (f : α → Ask β) :
    (p >>= f).eval P = (f (p.eval P)).eval P := by
  induction p with
  | done a => rfl
  | ask q k ih => rw [ask_bind]; exact ih (P q)

theorem runs_one {q : Query} {tr : List Said} {a : q.Ans} (h : Runs (Detect.ask q) tr a) :
    tr = [⟨q, a⟩] := by
  simp only [Detect.ask, runs_ask, runs_done] at h
  obtain ⟨r, tr', rfl, rfl, rfl⟩ := h
  rfl

theorem allowed_mono {a b : List Said} (h : ∀ s ∈ a, s ∈ b) {q : Query} (ha : Allowed a q) :
    Allowed b q := by
  unfold Allowed at ha ⊢
  split at ha
  · obtain ⟨r, hr, h1⟩ := ha; exact ⟨r, h _ hr, h1⟩
  · exact ⟨ha.1, h _ ha.2⟩
  · exact ⟨ha.1, h _ ha.2⟩
  · trivial

theorem safe_nil : Safe [] := by
  intro a b s h; cases a <;> simp at h

theorem safe_append {a b : List Said} (ha : Safe a) (hb : Safe b) : Safe (a ++ b) := by
  intro x y s h
  rw [List.append_eq_append_iff] at h
  rcases h with ⟨c, rfl, h2⟩ | ⟨c, h1, h2⟩
  · exact allowed_mono (fun _ hs => List.mem_append_right _ hs) (hb c y s h2)
  · cases c with
    | nil =>
        simp only [List.append_nil] at h1
        subst h1
        exact allowed_mono (by simp) (hb [] y s (by simpa using h2.symm))
    | cons d c =>
        simp only [List.cons_append, List.cons.injEq] at h2
        obtain ⟨rfl, rfl⟩ := h2
        exact ha x c s h1

theorem safe_one {s : Said} (h : Allowed [] s.q) : Safe [s] := by
  intro a b s' e
  cases a with
  | nil => simp only [List.nil_append, List.cons.injEq] at e; obtain ⟨rfl, -⟩ := e; exact h
  | cons x a => simp at e

theorem safe_two {s s' : Said} (h : Allowed [] s.q) (h' : Allowed [s] s'.q) : Safe [s, s'] := by
  intro a b s'' e
  match a, e with
  | [], e => simp only [List.nil_append, List.cons.injEq] at e; obtain ⟨rfl, -⟩ := e; exact h
  | [x], e => simp at e; obtain ⟨rfl, rfl, -⟩ := e; exact h'
  | x :: y :: a, e => simp at e
end

/-! ### `__cpuid` -/

/-- The inline assembly of `__cpuid` returns what the processor answers to `leaf`, subleaf 0, and
leaves `rbx` (which the compiler reserves) as it was — whatever was in the registers. -/
theorem cpuid_block (cpu : BitVec 32 → BitVec 32 → Cpuid) (leaf : BitVec 32) (s : Regs) :
    cpuidOut cpu leaf s = cpu leaf 0#32 ∧
    (cpuidBlock cpu { s with rax := leaf.setWidth 64, rcx := 0#64 }).rbx = s.rbx := by
  have e (x : BitVec 32) : (x.setWidth 64).setWidth 32 = x := by
    apply BitVec.eq_of_toNat_eq
    simp only [BitVec.toNat_setWidth]
    have := x.isLt
    rw [Nat.mod_eq_of_lt (a := x.toNat) (by omega), Nat.mod_eq_of_lt this]
  constructor
  · simp only [cpuidOut, cpuidBlock, xchgR8Rbx, cpuidInsn, movR8Rbx, e]
    simp
  · rfl

/-! ### Bits -/

theorem and_pow_ne32 (x : BitVec 32) {i : Nat} (hi : i < 32) :
    (x &&& (1#32 <<< i) != 0#32) = x.getLsbD i := testBit_eq x hi

/-- The flags set in a detection result, apart from `Init`, are the listed ones. -/
def Only (v : Info) (l : List (Nat × Bool)) : Prop :=
  ∀ j, v.getLsbD j = true ↔ j = 0 ∨ (j, true) ∈ l

theorem getLsbD_init (j : Nat) : initInfo.getLsbD j = decide (j = 0) := by
  by_cases hj : j < 32
  · rw [← testBit_eq _ hj, testBit_init hj]
  · rw [BitVec.getLsbD_of_ge _ _ (by omega)]
    symm; simp; omega

theorem getLsbD_setBit (x : Info) {i : Nat} (j : Nat) (hi : i < 32) :
    (setBit x i).getLsbD j = (x.getLsbD j || decide (j = i)) := by
  by_cases hj : j < 32
  · rw [← testBit_eq _ hj, testBit_setBit x hi hj, testBit_eq _ hj]
    congr 1; simp [eq_comm]
  · rw [BitVec.getLsbD_of_ge _ _ (by omega), BitVec.getLsbD_of_ge _ _ (by omega)]
    symm; simp; omega

theorem getLsbD_check (c : Bool) (x : Info) {i : Nat} (j : Nat) (hi : i < 32) :
    (check c i x).getLsbD j = (x.getLsbD j || (c && decide (j = i))) := by
  cases c with
  | false => simp [check]
  | true => simp [check, getLsbD_setBit x j hi]

/-! ### x86_64 -/

/-- On a processor with one answer per question, detection reports CMPXCHG16B exactly if CPUID
leaf 1 ECX bit 13 says so and AVX exactly if the build may use SSE registers, ECX bits 26, 27, 28
are set and bits 1 and 2 of XCR0 are; and reports nothing else. -/
theorem x86_exact (P : (q : Query) → q.Ans) (sse : Bool) :
    let ecx := (P (.cpuid 1#32 0#32)).ecx
    let xcr0 := P (.xgetbv 0#32)
    Only ((x86 sse initInfo).eval P)
      [(X86.cmpxchg16b, ecx.getLsbD 13),
       (X86.avx, sse && ecx.getLsbD 26 && ecx.getLsbD 27 && ecx.getLsbD 28 && xcr0.getLsbD 1 &&
         xcr0.getLsbD 2)] := by
  intro ecx xcr0 j
  have e : (x86 sse initInfo).eval P =
      if sse then if ecx.getLsbD 26 then if ecx.getLsbD 27 then
        check (xcr0 &&& 6#64 == 6#64 && ecx.getLsbD 28) X86.avx
          (check (ecx.getLsbD 13) X86.cmpxchg16b initInfo)
        else check (ecx.getLsbD 13) X86.cmpxchg16b initInfo
        else check (ecx.getLsbD 13) X86.cmpxchg16b initInfo
        else check (ecx.getLsbD 13) X86.cmpxchg16b initInfo := by
    simp only [x86, cpuid, ask, ask_bind, done_bind, eval,
      testBit_eq _ (show (13 : Nat) < 32 by decide), testBit_eq _ (show (26 : Nat) < 32 by decide),
      testBit_eq _ (show (27 : Nat) < 32 by decide), testBit_eq _ (show (28 : Nat) < 32 by decide)]
    split
    · split
      · split
        · rfl
        · rfl
      · rfl
    · rfl
  rw [e, X86.xcr0_six]
  cases sse <;> cases ecx.getLsbD 26 <;> cases ecx.getLsbD 27 <;> cases ecx.getLsbD 28 <;>
    cases ecx.getLsbD 13 <;> cases xcr0.getLsbD 1 <;> cases xcr0.getLsbD 2 <;>
    simp [getLsbD_check, getLsbD_init, X86.cmpxchg16b, X86.avx, or_assoc]

/-- Whatever the processor answers: nothing is reported that it does not have, if its answers are
truthful; and `xgetbv` is executed only after CPUID allowed it. -/
theorem x86_sound {sse : Bool} {tr : List Said} {v : Info} (h : Runs (x86 sse initInfo) tr v) :
    Safe tr ∧ ∀ c : Cpu, (∀ s ∈ tr, X86Truthful c s) →
      (testBit v X86.cmpxchg16b = true → c.cx16) ∧
      (testBit v X86.avx = true → sse = true ∧ c.avx ∧ c.osAvx) := by
  simp only [x86, cpuid, ask, ask_bind, done_bind, runs_ask] at h
  obtain ⟨r, tr, rfl, h⟩ := h
  simp only [testBit_eq _ (show (13 : Nat) < 32 by decide), testBit_eq _ (show (26 : Nat) < 32 by decide),
    testBit_eq _ (show (27 : Nat) < 32 by decide), testBit_eq _ (show (28 : Nat) < 32 by decide)] at h
  have key : (tr = [] ∧ v = check (r.ecx.getLsbD 13) X86.cmpxchg16b initInfo) ∨
      (sse = true ∧ r.ecx.getLsbD 26 = true ∧ r.ecx.getLsbD 27 = true ∧ ∃ x : BitVec 64,
        tr = [⟨.xgetbv 0#32, x⟩] ∧ v = check (x &&& 6#64 == 6#64 && r.ecx.getLsbD 28) X86.avx
          (check (r.ecx.getLsbD 13) X86.cmpxchg16b initInfo)) := by
    split at h
    · split at h
      · split at h
        · simp only [runs_ask] at h
          obtain ⟨x, tr', rfl, h⟩ := h
          obtain ⟨rfl, rfl⟩ := runs_done.1 h
          exact .inr ⟨by assumption, by assumption, by assumption, x, rfl, rfl⟩
        · exact .inl (runs_done.1 h)
      · exact .inl (runs_done.1 h)
    · exact .inl (runs_done.1 h)
  clear h
  rcases key with ⟨rfl, rfl⟩ | ⟨hs, h26, h27, x, rfl, rfl⟩
  · refine ⟨safe_one (by simp [Allowed]), fun c hT => ?_⟩
    have hc := (hT ⟨.cpuid 1#32 0#32, r⟩ (by simp)) rfl
    refine ⟨fun hv => hc.1 ?_, fun hv => ?_⟩
    · simpa [testBit_check, testBit_init, X86.cmpxchg16b] using hv
    · simp [testBit_check, testBit_init, X86.cmpxchg16b, X86.avx] at hv
  · refine ⟨safe_two (by simp [Allowed]) ⟨r, by simp, h26, h27⟩, fun c hT => ?_⟩
    have hc := (hT ⟨.cpuid 1#32 0#32, r⟩ (by simp)) rfl
    have hx := (hT ⟨.xgetbv 0#32, x⟩ (by simp)) rfl
    rw [X86.xcr0_six]
    refine ⟨fun hv => hc.1 ?_, fun hv => ?_⟩
    · simpa [testBit_check, testBit_init, X86.cmpxchg16b, X86.avx] using hv
    · simp [testBit_check, testBit_init, X86.cmpxchg16b, X86.avx] at hv
      exact ⟨hs, hc.2.2 hv.2, hx hv.1.1 hv.1.2⟩

/-! ### The auxiliary vector -/

theorem getauxval_safe {os : AuxOs} {l : Lookup} {t : Nat} {tr : List Said} {v : BitVec 64}
    (h : Runs (getauxval os l t) tr v) : Safe tr := by
  cases os <;> cases l <;>
    simp only [getauxval, getauxvalLinux, getauxvalBsd, ask, ask_bind, done_bind, runs_ask] at h
  · obtain ⟨r, tr', rfl, h⟩ := h
    obtain ⟨rfl, rfl⟩ := runs_done.1 h
    exact safe_one (by simp [Allowed])
  · obtain ⟨r, tr', rfl, h⟩ := h
    split at h
    · obtain ⟨rfl, rfl⟩ := runs_done.1 h
      exact safe_one (by simp [Allowed])
    · simp only [runs_ask] at h
      obtain ⟨r', tr'', rfl, h⟩ := h
      obtain ⟨rfl, rfl⟩ := runs_done.1 h
      exact safe_two (by simp [Allowed]) ⟨by simp_all, by simp⟩
  · obtain ⟨r, tr', rfl, h⟩ := h
    obtain ⟨rfl, rfl⟩ := runs_done.1 h
    exact safe_one (by simp [Allowed])
  · obtain ⟨r, tr', rfl, h⟩ := h
    split at h
    · obtain ⟨rfl, rfl⟩ := runs_done.1 h
      exact safe_one (by simp [Allowed])
    · simp only [runs_ask] at h
      obtain ⟨r', tr'', rfl, h⟩ := h
      obtain ⟨rfl, rfl⟩ := runs_done.1 h
      exact safe_two (by simp [Allowed]) ⟨by simp_all, by simp⟩

/-- The value comes from the auxiliary vector, or is 0 because the function was not found. -/
theorem getauxval_from {os : AuxOs} {l : Lookup} {t : Nat} {tr : List Said} {v : BitVec 64}
    (h : Runs (getauxval os l t) tr v) :
    (v = 0#64 ∧ ∃ n, ⟨.dlsym n, 0#64⟩ ∈ tr) ∨
    (os = .linux ∧ ∃ fn, ⟨.getauxval fn t, v⟩ ∈ tr) ∨
    (os = .bsd ∧ ∃ fn st, ⟨.elfAuxInfo fn t, (st, v)⟩ ∈ tr) := by
  cases os <;> cases l <;>
    simp only [getauxval, getauxvalLinux, getauxvalBsd, ask, ask_bind, done_bind, runs_ask] at h
  · obtain ⟨r, tr', rfl, h⟩ := h
    obtain ⟨rfl, rfl⟩ := runs_done.1 h
    exact .inr (.inl ⟨rfl, none, by simp⟩)
  · obtain ⟨r, tr', rfl, h⟩ := h
    split at h
    · obtain ⟨rfl, rfl⟩ := runs_done.1 h
      have : r = 0#64 := by simp_all
      exact .inl ⟨rfl, "getauxval", by rw [this]; simp⟩
    · simp only [runs_ask] at h
      obtain ⟨r', tr'', rfl, h⟩ := h
      obtain ⟨rfl, rfl⟩ := runs_done.1 h
      exact .inr (.inl ⟨rfl, some r, by simp⟩)
  · obtain ⟨r, tr', rfl, h⟩ := h
    obtain ⟨rfl, rfl⟩ := runs_done.1 h
    exact .inr (.inr ⟨rfl, none, r.1, by simp⟩)
  · obtain ⟨r, tr', rfl, h⟩ := h
    split at h
    · obtain ⟨rfl, rfl⟩ := runs_done.1 h
      have : r = 0#64 := by simp_all
      exact .inl ⟨rfl, "elf_aux_info", by rw [this]; simp⟩
    · simp only [runs_ask] at h
      obtain ⟨r', tr'', rfl, h⟩ := h
      obtain ⟨rfl, rfl⟩ := runs_done.1 h
      exact .inr (.inr ⟨rfl, some r, r'.1, by simp⟩)

theorem hwcap_true {os : AuxOs} {l : Lookup} {tr : List Said} {v : BitVec 64} {c : Cpu}
    (h : Runs (getauxval os l (AT_HWCAP os)) tr v) (hT : ∀ s ∈ tr, A64Truthful c s) :
    A64Hwcap c v := by
  have hz : A64Hwcap c 0#64 := by simp [A64Hwcap]
  rcases getauxval_from h with ⟨rfl, -⟩ | ⟨rfl, fn, hm⟩ | ⟨rfl, fn, st, hm⟩
  · exact hz
  · exact (hT _ hm).1 rfl
  · have := hT _ hm
    by_cases hs : st = 0
    · exact (this.2 hs).1 rfl
    · rw [this.1 hs]; exact hz

theorem hwcap2_true {os : AuxOs} {l : Lookup} {tr : List Said} {v : BitVec 64} {c : Cpu}
    (h : Runs (getauxval os l (AT_HWCAP2 os)) tr v) (hT : ∀ s ∈ tr, A64Truthful c s) :
    A64Hwcap2 c v := by
  have hz : A64Hwcap2 c 0#64 := by simp [A64Hwcap2]
  rcases getauxval_from h with ⟨rfl, -⟩ | ⟨rfl, fn, hm⟩ | ⟨rfl, fn, st, hm⟩
  · exact hz
  · exact (hT _ hm).2 rfl
  · have := hT _ hm
    by_cases hs : st = 0
    · exact (this.2 hs).2 rfl
    · rw [this.1 hs]; exact hz

/-! ### AArch64 -/

/-- The extension with flag `j` is there. -/
def HasA64 (c : Cpu) (j : Nat) : Prop :=
  (j = A64.lse ∧ c.lse) ∨ (j = A64.lse2 ∧ c.lse2) ∨ (j = A64.rcpc3 ∧ c.rcpc3) ∨
    (j = A64.lse128 ∧ c.lse128)

/-- The flags of `v` other than `Init` are extensions the machine has. -/
def A64Ok (c : Cpu) (v : Info) : Prop := ∀ j, v.getLsbD j = true → j = 0 ∨ HasA64 c j

theorem a64Ok_init (c : Cpu) : A64Ok c initInfo := by
  intro j hj; rw [getLsbD_init] at hj; exact .inl (by simpa using hj)

theorem a64Ok_set {c : Cpu} {v : Info} (h : A64Ok c v) {i : Nat} (hi : i < 32) (hc : HasA64 c i) :
    A64Ok c (setBit v i) := by
  intro j hj
  rw [getLsbD_setBit _ _ hi] at hj
  rcases Bool.or_eq_true _ _ ▸ hj with hj | hj
  · exact h j hj
  · have : j = i := by simpa using hj
    exact .inr (this ▸ hc)

theorem a64Ok_check {c : Cpu} {v : Info} (h : A64Ok c v) {i : Nat} (hi : i < 32) {b : Bool}
    (hc : b = true → HasA64 c i) : A64Ok c (check b i v) := by
  cases b with
  | false => exact h
  | true => exact a64Ok_set h hi (hc rfl)

/-- The AArch64 probes: detect/auxv.rs, aarch64_aa64reg.rs, aarch64_apple.rs, aarch64_windows.rs,
aarch64_fuchsia.rs, aarch64_illumos.rs. -/
inductive A64Os
  | auxv (os : AuxOs) (l : Lookup) (android hwcap2 : Bool)
  | netbsd | openbsd | apple | windows | fuchsia | illumos

/-- The `_detect` of the target. -/
def a64Probe : A64Os → Info → Ask Info
  | .auxv os l android hwcap2 => a64Auxv os l android hwcap2
  | .netbsd => a64Reg regNetbsd
  | .openbsd => a64Reg regOpenbsd
  | .apple => Os.apple
  | .windows => Os.windows
  | .fuchsia => Os.fuchsia
  | .illumos => Os.illumos

/-- Is the target Android (where the Exynos 9810 is looked for)? -/
def A64Os.isAndroid : A64Os → Bool
  | .auxv _ _ android _ => android
  | _ => false

theorem exynos_eq : exynosBytes = exynos9810 := by decide

theorem auxvRest_sound {os : AuxOs} {l : Lookup} {b : Bool} {hwcap : BitVec 64} {info v : Info}
    {tr : List Said} (h : Runs (a64AuxvRest os l b hwcap info) tr v) :
    Safe tr ∧ ∀ c : Cpu, (∀ s ∈ tr, A64Truthful c s) → A64Hwcap c hwcap → A64Ok c info →
      A64Ok c v := by
  simp only [a64AuxvRest] at h
  have h25 := Powerpc64.and_pow_ne hwcap (show 25 < 64 by decide)
  split at h
  · obtain ⟨tr1, hw2, tr2, rfl, h1, h2⟩ := runs_bind h
    obtain ⟨rfl, rfl⟩ := runs_done.1 h2
    refine ⟨safe_append (getauxval_safe h1) safe_nil, fun c hT hh hi => ?_⟩
    have h2 := hwcap2_true h1 (fun s hs => hT s (by simp [hs]))
    rw [Powerpc64.and_pow_ne hw2 (show 46 < 64 by decide),
      Powerpc64.and_pow_ne hw2 (show 47 < 64 by decide), h25]
    refine a64Ok_check (a64Ok_check (a64Ok_check hi (by decide) ?_) (by decide) ?_) (by decide) ?_
    · exact fun e => .inr (.inl ⟨rfl, hh.2 e⟩)
    · exact fun e => .inr (.inr (.inl ⟨rfl, h2.1 e⟩))
    · exact fun e => .inr (.inr (.inr ⟨rfl, h2.2 e⟩))
  · obtain ⟨rfl, rfl⟩ := runs_done.1 h
    refine ⟨safe_nil, fun c hT hh hi => ?_⟩
    rw [h25]
    exact a64Ok_check hi (by decide) (fun e => .inr (.inl ⟨rfl, hh.2 e⟩))

theorem auxv_sound {os : AuxOs} {l : Lookup} {android b : Bool} {v : Info} {tr : List Said}
    (h : Runs (a64Auxv os l android b initInfo) tr v) :
    Safe tr ∧ ∀ c : Cpu, (∀ s ∈ tr, A64Truthful c s) → (android = false → ¬ c.exynosBug) →
      A64Ok c v := by
  simp only [a64Auxv] at h
  obtain ⟨tr1, hwcap, tr2, rfl, h1, h2⟩ := runs_bind h
  have s1 := getauxval_safe h1
  rw [Powerpc64.and_pow_ne hwcap (show 8 < 64 by decide)] at h2
  split at h2
  · rename_i h8
    have set (c : Cpu) (hl : c.lse) : A64Ok c (setBit initInfo A64.lse) :=
      a64Ok_set (a64Ok_init c) (by decide) (.inl ⟨rfl, hl⟩)
    split at h2
    · obtain ⟨tr3, bug, tr4, rfl, h3, h4⟩ := runs_bind h2
      simp only [exynosCheck, ask, ask_bind, done_bind, runs_ask] at h3
      obtain ⟨r, tr', rfl, h3⟩ := h3
      obtain ⟨rfl, rfl⟩ := runs_done.1 h3
      have s3 : Safe [⟨.systemProperty "ro.arch", r⟩] := safe_one (by simp [Allowed])
      split at h4
      · obtain ⟨rfl, rfl⟩ := runs_done.1 h4
        exact ⟨safe_append s1 (safe_append s3 safe_nil), fun c _ _ => a64Ok_init c⟩
      · rename_i hb
        obtain ⟨s4, k⟩ := auxvRest_sound h4
        refine ⟨safe_append s1 (safe_append s3 s4), fun c hT _ => ?_⟩
        have hh := hwcap_true h1 (fun s hs => hT s (by simp [hs]))
        refine k c (fun s hs => hT s (by simp [hs])) hh (set c ?_)
        rcases hh.1 h8 with hl | hx
        · exact hl
        · exfalso
          obtain ⟨hl, rest, hr⟩ := hT ⟨.systemProperty "ro.arch", r⟩ (by simp) rfl hx
          apply hb
          rw [Bool.and_eq_true, List.isPrefixOf_iff_prefix, exynos_eq, hr]
          exact ⟨by simpa using hl, rest, rfl⟩
    · rename_i ha
      obtain ⟨s4, k⟩ := auxvRest_sound h2
      refine ⟨safe_append s1 s4, fun c hT hx => ?_⟩
      have hh := hwcap_true h1 (fun s hs => hT s (by simp [hs]))
      refine k c (fun s hs => hT s (by simp [hs])) hh (set c ?_)
      exact (hh.1 h8).resolve_right (hx (by simpa using ha))
  · obtain ⟨s4, k⟩ := auxvRest_sound h2
    refine ⟨safe_append s1 s4, fun c hT hx => ?_⟩
    have hh := hwcap_true h1 (fun s hs => hT s (by simp [hs]))
    exact k c (fun s hs => hT s (by simp [hs])) hh (a64Ok_init c)

theorem decodeReg_sound {c : Cpu} {r : A64.RegReply} (h0 : Isar0 c r.isar0) (h1 : Isar1 c r.isar1)
    (h2 : Mmfr2 c r.mmfr2) : A64Ok c (A64.decodeReg r initInfo) := by
  have le (n : Nat) (hn : n < 2 ^ 64) (x : BitVec 64) :
      (BitVec.ofNat 64 n ≤ x) ↔ n ≤ x.toNat := by
    rw [BitVec.le_def, BitVec.toNat_ofNat, Nat.mod_eq_of_lt hn]
  have f1 := A64.extract_field r.isar0 20
  have f2 := A64.extract_field r.isar1 20
  have f3 := A64.extract_field r.mmfr2 32
  simp only [A64.decodeReg, le 2 (by decide), le 3 (by decide), le 1 (by decide), f1, f2, f3]
  refine a64Ok_check (a64Ok_check ?_ (by decide) ?_) (by decide) ?_
  · split
    · rename_i h
      refine a64Ok_check (a64Ok_set (a64Ok_init c) (by decide) (.inl ⟨rfl, h0.1 h⟩)) (by decide) ?_
      intro e
      exact .inr (.inr (.inr ⟨rfl, h0.2 (of_decide_eq_true e)⟩))
    · exact a64Ok_init c
  · intro e; exact .inr (.inr (.inl ⟨rfl, h1 (of_decide_eq_true e)⟩))
  · intro e; exact .inr (.inl ⟨rfl, h2 (of_decide_eq_true e)⟩)

theorem isar_zero (c : Cpu) : Isar0 c 0#64 ∧ Isar1 c 0#64 ∧ Mmfr2 c 0#64 := by
  simp [Isar0, Isar1, Mmfr2, idField]

theorem netbsd_sound {v : Info} {tr : List Said} (h : Runs (a64Reg regNetbsd initInfo) tr v) :
    Safe tr ∧ ∀ c : Cpu, (∀ s ∈ tr, A64Truthful c s) → A64Ok c v := by
  simp only [a64Reg] at h
  obtain ⟨tr1, r, tr2, rfl, h1, h2⟩ := runs_bind h
  obtain ⟨rfl, rfl⟩ := runs_done.1 h2
  simp only [regNetbsd, ask, ask_bind, done_bind, runs_ask] at h1
  obtain ⟨a, tr', rfl, h1⟩ := h1
  split at h1
  · obtain ⟨rfl, rfl⟩ := runs_done.1 h1
    exact ⟨safe_one (by simp [Allowed]), fun c _ =>
      decodeReg_sound (isar_zero c).1 (isar_zero c).2.1 (isar_zero c).2.2⟩
  · rename_i hs
    obtain ⟨rfl, rfl⟩ := runs_done.1 h1
    refine ⟨safe_one (by simp [Allowed]), fun c hT => ?_⟩
    have := hT ⟨.sysctlCpuId "machdep.cpu0.cpu_id", a⟩ (by simp) rfl (by simpa using hs)
    exact decodeReg_sound this.1 this.2.1 this.2.2

theorem sysctl64_sound {mib : List Nat} {v : BitVec 64} {tr : List Said}
    (h : Runs (sysctl64Or0 mib) tr v) : Safe tr ∧ ∀ c : Cpu, (∀ s ∈ tr, A64Truthful c s) →
      (mib = [7, 2] → Isar0 c v) ∧ (mib = [7, 3] → Isar1 c v) ∧ (mib = [7, 7] → Mmfr2 c v) := by
  simp only [sysctl64Or0, ask, ask_bind, done_bind, runs_ask] at h
  obtain ⟨a, tr', rfl, h⟩ := h
  split at h
  · obtain ⟨rfl, rfl⟩ := runs_done.1 h
    exact ⟨safe_one (by simp [Allowed]), fun c _ =>
      ⟨fun _ => (isar_zero c).1, fun _ => (isar_zero c).2.1, fun _ => (isar_zero c).2.2⟩⟩
  · rename_i hs
    obtain ⟨rfl, rfl⟩ := runs_done.1 h
    refine ⟨safe_one (by simp [Allowed]), fun c hT => ?_⟩
    exact hT ⟨.sysctl64 mib, a⟩ (by simp) (by simpa using hs)

theorem openbsd_sound {v : Info} {tr : List Said} (h : Runs (a64Reg regOpenbsd initInfo) tr v) :
    Safe tr ∧ ∀ c : Cpu, (∀ s ∈ tr, A64Truthful c s) → A64Ok c v := by
  simp only [a64Reg, regOpenbsd] at h
  obtain ⟨tr0, r, trd, rfl, ha, hd⟩ := runs_bind h
  obtain ⟨rfl, rfl⟩ := runs_done.1 hd
  obtain ⟨tr1, i0, tr2, rfl, h1, hb⟩ := runs_bind ha
  obtain ⟨tr3, i1, tr4, rfl, h2, hc⟩ := runs_bind hb
  obtain ⟨tr5, m2, tr6, rfl, h3, he⟩ := runs_bind hc
  obtain ⟨rfl, rfl⟩ := runs_done.1 he
  obtain ⟨s1, k1⟩ := sysctl64_sound h1
  obtain ⟨s2, k2⟩ := sysctl64_sound h2
  obtain ⟨s3, k3⟩ := sysctl64_sound h3
  refine ⟨safe_append (safe_append s1 (safe_append s2 (safe_append s3 safe_nil))) safe_nil,
    fun c hT => ?_⟩
  exact decodeReg_sound ((k1 c (fun s hs => hT s (by simp [hs]))).1 rfl)
    ((k2 c (fun s hs => hT s (by simp [hs]))).2.1 rfl)
    ((k3 c (fun s hs => hT s (by simp [hs]))).2.2 rfl)

theorem appleHas_sound {name : String} {b : Bool} {tr : List Said}
    (h : Runs (appleHas name) tr b) : Safe tr ∧ ∀ c : Cpu, (∀ s ∈ tr, A64Truthful c s) → b = true →
      (name = "hw.optional.arm.FEAT_LSE" ∨ name = "hw.optional.armv8_1_atomics" → c.lse) ∧
      (name = "hw.optional.arm.FEAT_LSE2" → c.lse2) := by
  simp only [appleHas, ask, ask_bind, done_bind, runs_ask] at h
  obtain ⟨a, tr', rfl, h⟩ := h
  split at h
  · obtain ⟨rfl, rfl⟩ := runs_done.1 h
    exact ⟨safe_one (by simp [Allowed]), fun c _ hb => by simp at hb⟩
  · rename_i hs
    obtain ⟨rfl, rfl⟩ := runs_done.1 h
    refine ⟨safe_one (by simp [Allowed]), fun c hT hb => ?_⟩
    exact hT ⟨.sysctl32 name, a⟩ (by simp) (by simpa using hs) (by simpa using hb)

theorem apple_sound {v : Info} {tr : List Said} (h : Runs (Os.apple initInfo) tr v) :
    Safe tr ∧ ∀ c : Cpu, (∀ s ∈ tr, A64Truthful c s) → A64Ok c v := by
  simp only [Os.apple] at h
  obtain ⟨tr0, a', tr4, rfl, h0, h⟩ := runs_bind h
  obtain ⟨tr5, b, tr6, rfl, h3, h⟩ := runs_bind h
  obtain ⟨s3, k3⟩ := appleHas_sound h3
  obtain ⟨rfl, rfl⟩ := runs_done.1 h
  have k2 : Safe tr0 ∧ ∀ c : Cpu, (∀ s ∈ tr0, A64Truthful c s) → a' = true → c.lse := by
    simp only [appleLse] at h0
    obtain ⟨tr1, a, tr3, rfl, h1, h2⟩ := runs_bind h0
    obtain ⟨s1, k1⟩ := appleHas_sound h1
    split at h2
    · rename_i ha
      obtain ⟨rfl, rfl⟩ := runs_done.1 h2
      exact ⟨safe_append s1 safe_nil,
        fun c hT _ => (k1 c (fun s hs => hT s (by simp [hs])) ha).1 (.inl rfl)⟩
    · obtain ⟨s2, k2⟩ := appleHas_sound h2
      exact ⟨safe_append s1 s2,
        fun c hT hb => (k2 c (fun s hs => hT s (by simp [hs])) hb).1 (.inr rfl)⟩
  refine ⟨safe_append k2.1 (safe_append s3 safe_nil), fun c hT => ?_⟩
  refine a64Ok_check (a64Ok_check (a64Ok_init c) (by decide) ?_) (by decide) ?_
  · exact fun hb => .inl ⟨rfl, k2.2 c (fun s hs => hT s (by simp [hs])) hb⟩
  · exact fun hb => .inr (.inl ⟨rfl, (k3 c (fun s hs => hT s (by simp [hs])) hb).2 rfl⟩)

theorem windows_sound {v : Info} {tr : List Said} (h : Runs (Os.windows initInfo) tr v) :
    Safe tr ∧ ∀ c : Cpu, (∀ s ∈ tr, A64Truthful c s) → A64Ok c v := by
  simp only [Os.windows, ask, ask_bind, done_bind, runs_ask] at h
  obtain ⟨a, tr', rfl, b, tr'', rfl, h⟩ := h
  obtain ⟨rfl, rfl⟩ := runs_done.1 h
  refine ⟨safe_two (by simp [Allowed]) (by simp [Allowed]), fun c hT => ?_⟩
  refine a64Ok_check (a64Ok_check (a64Ok_init c) (by decide) ?_) (by decide) ?_
  · exact fun hb => .inl ⟨rfl,
      (hT ⟨.isProcessorFeaturePresent 34, a⟩ (by simp) (by simpa using hb)).1 rfl⟩
  · exact fun hb => .inr (.inl ⟨rfl,
      (hT ⟨.isProcessorFeaturePresent 62, b⟩ (by simp) (by simpa using hb)).2 rfl⟩)

theorem fuchsia_sound {v : Info} {tr : List Said} (h : Runs (Os.fuchsia initInfo) tr v) :
    Safe tr ∧ ∀ c : Cpu, (∀ s ∈ tr, A64Truthful c s) → A64Ok c v := by
  simp only [Os.fuchsia, ask, ask_bind, done_bind, runs_ask] at h
  obtain ⟨a, tr', rfl, h⟩ := h
  obtain ⟨rfl, rfl⟩ := runs_done.1 h
  refine ⟨safe_one (by simp [Allowed]), fun c hT => ?_⟩
  rw [and_pow_ne32 _ (show 8 < 32 by decide)]
  refine a64Ok_check (a64Ok_init c) (by decide) (fun hb => .inl ⟨rfl, ?_⟩)
  have ht := hT ⟨.zxSystemGetFeatures 0, a⟩ (by simp) rfl
  by_cases hs : a.1 = 0
  · exact ht hs (by simpa [hs] using hb)
  · simp [hs] at hb

theorem illumos_sound {v : Info} {tr : List Said} (h : Runs (Os.illumos initInfo) tr v) :
    Safe tr ∧ ∀ c : Cpu, (∀ s ∈ tr, A64Truthful c s) → A64Ok c v := by
  simp only [Os.illumos, ask, ask_bind, done_bind, runs_ask] at h
  obtain ⟨a, tr', rfl, h⟩ := h
  obtain ⟨rfl, rfl⟩ := runs_done.1 h
  refine ⟨safe_one (by simp [Allowed]), fun c hT => ?_⟩
  rw [and_pow_ne32 _ (show 15 < 32 by decide), and_pow_ne32 _ (show 2 < 32 by decide)]
  have ht := hT ⟨.getisax 2, a⟩ (by simp)
  exact a64Ok_check (a64Ok_check (a64Ok_init c) (by decide) (fun hb => .inl ⟨rfl, ht.1 hb⟩))
    (by decide) (fun hb => .inr (.inl ⟨rfl, ht.2 hb⟩))

/-- On every AArch64 system, whatever it answers and whichever questions fail: every question was
allowed, and — if the answers given with a success status are truthful — no extension is reported
that the machine does not have.  On Android this holds on the Exynos 9810 with the faulty kernel
too. -/
theorem a64_sound (o : A64Os) {v : Info} {tr : List Said} (h : Runs (a64Probe o initInfo) tr v) :
    Safe tr ∧ ∀ c : Cpu, (∀ s ∈ tr, A64Truthful c s) → (o.isAndroid = false → ¬ c.exynosBug) →
      A64Ok c v := by
  cases o with
  | auxv os l android b => exact auxv_sound h
  | netbsd => exact ⟨(netbsd_sound h).1, fun c hT _ => (netbsd_sound h).2 c hT⟩
  | openbsd => exact ⟨(openbsd_sound h).1, fun c hT _ => (openbsd_sound h).2 c hT⟩
  | apple => exact ⟨(apple_sound h).1, fun c hT _ => (apple_sound h).2 c hT⟩
  | windows => exact ⟨(windows_sound h).1, fun c hT _ => (windows_sound h).2 c hT⟩
  | fuchsia => exact ⟨(fuchsia_sound h).1, fun c hT _ => (fuchsia_sound h).2 c hT⟩
  | illumos => exact ⟨(illumos_sound h).1, fun c hT _ => (illumos_sound h).2 c hT⟩

/-! ### POWER, RISC-V -/

theorem isa_bits (x : BitVec 64) :
    (x &&& (0x80000000#64 ||| 0x00800000#64 ||| 0x00040000#64) != 0#64) =
      (x.getLsbD 31 || x.getLsbD 23 || x.getLsbD 18) := by
  have e2 : (0x80000000#64) = 1#64 <<< 31 := by decide
  have e3 : (0x00800000#64) = 1#64 <<< 23 := by decide
  have e4 : (0x00040000#64) = 1#64 <<< 18 := by decide
  simp only [e2, e3, e4, Powerpc64.and_or_ne, Powerpc64.and_pow_ne _ (show 31 < 64 by decide),
    Powerpc64.and_pow_ne _ (show 23 < 64 by decide), Powerpc64.and_pow_ne _ (show 18 < 64 by decide)]

theorem booke_bit (x : BitVec 64) : (x &&& 0x8000#64 != 0#64) = x.getLsbD 15 := by
  have e1 : (0x8000#64) = 1#64 <<< 15 := by decide
  rw [e1, Powerpc64.and_pow_ne _ (show 15 < 64 by decide)]

theorem aix_bits (x : BitVec 64) : (x &&& (0x10000#64 ||| 0x20000#64 ||| 0x40000#64) != 0#64) =
    (x.getLsbD 16 || x.getLsbD 17 || x.getLsbD 18) := by
  have e1 : (0x10000#64) = 1#64 <<< 16 := by decide
  have e2 : (0x20000#64) = 1#64 <<< 17 := by decide
  have e3 : (0x40000#64) = 1#64 <<< 18 := by decide
  simp only [e1, e2, e3, Powerpc64.and_or_ne, Powerpc64.and_pow_ne _ (show 16 < 64 by decide),
    Powerpc64.and_pow_ne _ (show 17 < 64 by decide), Powerpc64.and_pow_ne _ (show 18 < 64 by decide)]

/-- The powerpc64 probes. -/
inductive PpcOs
  | auxv (os : AuxOs) (l : Lookup)
  | aix

def ppcProbe : PpcOs → Info → Ask Info
  | .auxv os l => ppcAuxv os l
  | .aix => Os.aix

theorem testBit_one {b : Bool} (h : testBit (check b 1 initInfo) 1 = true) : b = true := by
  cases b
  · simp [testBit_check, testBit_init] at h
  · rfl

/-- On every powerpc64 system: every question was allowed, and the quadword instructions are
reported only if the machine has them. -/
theorem ppc_sound (o : PpcOs) {v : Info} {tr : List Said} (h : Runs (ppcProbe o initInfo) tr v) :
    Safe tr ∧ ∀ p : PpcTruth, (∀ s ∈ tr, PpcTruthful p s) →
      testBit v Powerpc64.quadwordAtomics = true → p.quadword := by
  cases o with
  | aix =>
      simp only [ppcProbe, Os.aix, ask, ask_bind, done_bind, runs_ask] at h
      obtain ⟨a, tr', rfl, h⟩ := h
      split at h
      · obtain ⟨rfl, rfl⟩ := runs_done.1 h
        exact ⟨safe_one (by simp [Allowed]), fun p _ hv => by
          simp [testBit_init, Powerpc64.quadwordAtomics] at hv⟩
      · rename_i hs
        obtain ⟨rfl, rfl⟩ := runs_done.1 h
        refine ⟨safe_one (by simp [Allowed]), fun p hT hv => ?_⟩
        rw [aix_bits] at hv
        have hb := testBit_one hv
        simp only [Bool.or_eq_true, or_assoc] at hb
        exact hT ⟨.getsystemcfg 2, a⟩ (by simp) rfl (by simpa using hs) hb
  | auxv os l =>
      simp only [ppcProbe, ppcAuxv] at h
      obtain ⟨tr1, hw, tr2, rfl, h1, h2⟩ := runs_bind h
      have s1 := getauxval_safe h1
      rw [booke_bit] at h2
      split at h2
      · obtain ⟨rfl, rfl⟩ := runs_done.1 h2
        exact ⟨safe_append s1 safe_nil, fun p _ hv => by
          simp [testBit_init, Powerpc64.quadwordAtomics] at hv⟩
      · rename_i h15
        obtain ⟨tr3, hw2, tr4, rfl, h3, h4⟩ := runs_bind h2
        obtain ⟨rfl, rfl⟩ := runs_done.1 h4
        refine ⟨safe_append s1 (safe_append (getauxval_safe h3) safe_nil), fun p hT hv => ?_⟩
        rw [isa_bits] at hv
        have hb := testBit_one hv
        constructor
        · have hb' := hb
          simp only [Bool.or_eq_true, or_assoc] at hb'
          rcases getauxval_from h3 with ⟨rfl, -⟩ | ⟨rfl, fn, hm⟩ | ⟨rfl, fn, st, hm⟩
          · simp at hb
          · exact (hT _ (List.mem_append_right tr1 (List.mem_append_left [] hm))).2 rfl hb'
          · have ht := hT _ (List.mem_append_right tr1 (List.mem_append_left [] hm))
            by_cases hs : st = 0
            · exact ht.2.2 hs rfl hb'
            · rw [ht.1 hs] at hb; simp at hb
        · intro hbk
          rcases getauxval_from h1 with ⟨-, n, hm⟩ | ⟨rfl, fn, hm⟩ | ⟨rfl, fn, st, hm⟩
          · exact (hT _ (List.mem_append_left _ hm)) hbk rfl
          · exact h15 ((hT _ (List.mem_append_left _ hm)).1 rfl hbk)
          · exact h15 ((hT _ (List.mem_append_left _ hm)).2.1 rfl hbk)

/-- RISC-V Linux and Android: the one system call is allowed, and Zacas is reported only if the
machine has it. -/
theorem riscv_sound {v : Info} {tr : List Said} (h : Runs (Os.riscv initInfo) tr v) :
    Safe tr ∧ ∀ zacas : Prop, (∀ s ∈ tr, RiscvTruthful zacas s) →
      testBit v Riscv.zacas = true → zacas := by
  simp only [Os.riscv, ask, ask_bind, done_bind, runs_ask] at h
  obtain ⟨a, tr', rfl, h⟩ := h
  split at h
  · rename_i hs
    obtain ⟨rfl, rfl⟩ := runs_done.1 h
    refine ⟨safe_one (by simp [Allowed]), fun z hT hv => ?_⟩
    rw [Powerpc64.and_pow_ne _ (show 34 < 64 by decide)] at hv
    have hb := testBit_one hv
    have e0 : (1#64) = 1#64 <<< 0 := by decide
    rw [e0, Powerpc64.and_pow_ne _ (show 0 < 64 by decide)] at hs
    simp only [Bool.and_eq_true, beq_iff_eq, bne_iff_ne, ne_eq] at hs
    obtain ⟨⟨⟨h0, h1⟩, h2⟩, h3⟩ := hs
    exact hT ⟨.hwprobe 3#64 4#64, a⟩ (by simp) rfl rfl h0 h1 h2 h3 hb
  · obtain ⟨rfl, rfl⟩ := runs_done.1 h
    exact ⟨safe_one (by simp [Allowed]), fun p _ hv => by
      simp [testBit_init, Riscv.zacas] at hv⟩

/-! ### Exactly what the platform says -/

/-- The word of the auxiliary vector that the platform gives: 0 if its access function cannot be
found. -/
def auxval (P : (q : Query) → q.Ans) : AuxOs → Lookup → Nat → BitVec 64
  | .linux, .linked, t => P (.getauxval none t)
  | .linux, .dlsym, t =>
      if P (.dlsym "getauxval") = 0#64 then 0#64
      else P (.getauxval (some (P (.dlsym "getauxval"))) t)
  | .bsd, .linked, t => (P (.elfAuxInfo none t)).2
  | .bsd, .dlsym, t =>
      if P (.dlsym "elf_aux_info") = 0#64 then 0#64
      else (P (.elfAuxInfo (some (P (.dlsym "elf_aux_info"))) t)).2

theorem getauxval_eval (P : (q : Query) → q.Ans) (os : AuxOs) (l : Lookup) (t : Nat) :
    (getauxval os l t).eval P = auxval P os l t := by
  cases os <;> cases l <;>
    simp only [getauxval, getauxvalLinux, getauxvalBsd, ask, ask_bind, done_bind, eval, auxval]
  · rw [apply_ite (eval P)]; simp only [beq_iff_eq]; rfl
  · rfl
  · rw [apply_ite (eval P)]; simp only [beq_iff_eq]; rfl

/-- Linux, Android, FreeBSD on AArch64: LSE iff HWCAP bit 8, LSE2 iff HWCAP bit 25, LRCPC3 iff
HWCAP2 bit 46, LSE128 iff HWCAP2 bit 47 (where HWCAP2 is read at all); nothing else; and nothing at
all on Android if HWCAP bit 8 is set and `ro.arch` begins with "exynos9810". -/
theorem a64_auxv_exact (P : (q : Query) → q.Ans) (os : AuxOs) (l : Lookup) (android hwcap2 : Bool) :
    let hw := auxval P os l (match os with | .linux => 16 | .bsd => 25)
    let hw2 := auxval P os l 26
    let prop := P (.systemProperty "ro.arch")
    let bug := android && hw.getLsbD 8 && decide (0 < prop.1) && exynos9810.isPrefixOf prop.2
    Only ((a64Auxv os l android hwcap2 initInfo).eval P)
      [(A64.lse, hw.getLsbD 8 && !bug), (A64.lse2, hw.getLsbD 25 && !bug),
       (A64.rcpc3, hwcap2 && hw2.getLsbD 46 && !bug), (A64.lse128, hwcap2 && hw2.getLsbD 47 && !bug)] := by
  intro hw hw2 prop bug j
  have e1 : (getauxval os l (AT_HWCAP os)).eval P = hw := by
    rw [getauxval_eval]; cases os <;> rfl
  have e2 : (getauxval os l (AT_HWCAP2 os)).eval P = hw2 := getauxval_eval ..
  have rest (info : Info) : (a64AuxvRest os l hwcap2 hw info).eval P =
      check (hwcap2 && hw2.getLsbD 47) A64.lse128 (check (hwcap2 && hw2.getLsbD 46) A64.rcpc3
        (check (hw.getLsbD 25) A64.lse2 info)) := by
    simp only [a64AuxvRest, Powerpc64.and_pow_ne _ (show 25 < 64 by decide),
      Powerpc64.and_pow_ne _ (show 46 < 64 by decide), Powerpc64.and_pow_ne _ (show 47 < 64 by decide)]
    cases hwcap2
    · rfl
    · simp only [if_true]; rw [eval_bind, e2]; rfl
  have ex : exynosCheck.eval P = (decide (0 < prop.1) && exynos9810.isPrefixOf prop.2) := by
    rw [← exynos_eq]; rfl
  have e : (a64Auxv os l android hwcap2 initInfo).eval P =
      if hw.getLsbD 8 then if android then if decide (0 < prop.1) && exynos9810.isPrefixOf prop.2
        then initInfo
        else (a64AuxvRest os l hwcap2 hw (setBit initInfo A64.lse)).eval P
        else (a64AuxvRest os l hwcap2 hw (setBit initInfo A64.lse)).eval P
        else (a64AuxvRest os l hwcap2 hw initInfo).eval P := by
    rw [a64Auxv, eval_bind, e1, Powerpc64.and_pow_ne _ (show 8 < 64 by decide), apply_ite (eval P),
      apply_ite (eval P), eval_bind, ex, apply_ite (eval P)]
    rfl
  rw [e, rest, rest]
  clear e rest ex e1 e2
  simp only [bug]
  cases hw.getLsbD 8 <;> cases android <;> cases decide (0 < prop.1) <;>
    cases exynos9810.isPrefixOf prop.2 <;> cases hwcap2 <;> cases hw.getLsbD 25 <;>
    cases hw2.getLsbD 46 <;> cases hw2.getLsbD 47 <;>
    simp [getLsbD_check, getLsbD_setBit, getLsbD_init, A64.lse, A64.lse2, A64.rcpc3, A64.lse128,
      or_assoc]

/-- NetBSD and OpenBSD on AArch64: from the fields of the identification registers, each read as 0
if the system call failed. -/
theorem a64_reg_exact (P : (q : Query) → q.Ans) (netbsd : Bool) :
    let cpu := P (.sysctlCpuId "machdep.cpu0.cpu_id")
    let nb (x : BitVec 64) : BitVec 64 := if cpu.1 = 0 then x else 0#64
    let ob (mib : List Nat) : BitVec 64 :=
      if (P (.sysctl64 mib)).1 = -1 then 0#64 else (P (.sysctl64 mib)).2
    let isar0 := if netbsd then nb cpu.2.isar0 else ob [7, 2]
    let isar1 := if netbsd then nb cpu.2.isar1 else ob [7, 3]
    let mmfr2 := if netbsd then nb cpu.2.mmfr2 else ob [7, 7]
    Only ((a64Reg (if netbsd then regNetbsd else regOpenbsd) initInfo).eval P)
      [(A64.lse, decide (2 ≤ idField isar0 20)), (A64.lse128, decide (3 ≤ idField isar0 20)),
       (A64.rcpc3, decide (3 ≤ idField isar1 20)), (A64.lse2, decide (1 ≤ idField mmfr2 32))] := by
  intro cpu nb ob isar0 isar1 mmfr2 j
  have e : (if netbsd then regNetbsd else regOpenbsd).eval P = { isar0, isar1, mmfr2 } := by
    cases netbsd
    · have o (mib : List Nat) : (sysctl64Or0 mib).eval P = ob mib := by
        simp only [sysctl64Or0, ask, ask_bind, done_bind, eval, beq_iff_eq, ob]
        split <;> rfl
      simp only [Bool.false_eq_true, if_false, regOpenbsd, eval_bind, o]
      rfl
    · simp only [if_true, regNetbsd, ask, ask_bind, done_bind, eval, bne_iff_ne, ne_eq]
      by_cases hc : cpu.1 = 0
      · rw [if_neg (by simpa [cpu] using hc)]
        simp [isar0, isar1, mmfr2, nb, hc, eval, pure_eq, cpu]
      · rw [if_pos (by simpa [cpu] using hc)]
        simp [isar0, isar1, mmfr2, nb, hc, eval, pure_eq]
  have e' : (a64Reg (if netbsd then regNetbsd else regOpenbsd) initInfo).eval P =
      A64.decodeReg { isar0, isar1, mmfr2 } initInfo := by
    rw [a64Reg, eval_bind, e]; rfl
  rw [e']
  clear e e'
  have le (n : Nat) (hn : n < 2 ^ 64) (x : BitVec 64) :
      (BitVec.ofNat 64 n ≤ x) ↔ n ≤ x.toNat := by
    rw [BitVec.le_def, BitVec.toNat_ofNat, Nat.mod_eq_of_lt hn]
  have f1 : (A64.extract isar0 23 20).toNat = idField isar0 20 := A64.extract_field isar0 20
  have f2 : (A64.extract isar1 23 20).toNat = idField isar1 20 := A64.extract_field isar1 20
  have f3 : (A64.extract mmfr2 35 32).toNat = idField mmfr2 32 := A64.extract_field mmfr2 32
  simp only [A64.decodeReg, le 2 (by decide), le 3 (by decide), le 1 (by decide), f1, f2, f3]
  generalize idField isar0 20 = a
  generalize idField isar1 20 = b
  generalize idField mmfr2 32 = c
  by_cases h2 : 2 ≤ a <;> by_cases h3 : 3 ≤ a <;> by_cases h4 : 3 ≤ b <;> by_cases h5 : 1 ≤ c <;>
    first
      | (exfalso; omega)
      | simp [h2, h3, h4, h5, getLsbD_check, getLsbD_setBit, getLsbD_init, A64.lse, A64.lse2,
          A64.rcpc3, A64.lse128, or_assoc, or_comm, or_left_comm]

/-- Apple, Windows, Fuchsia, illumos. -/
theorem a64_plain_exact (P : (q : Query) → q.Ans) :
    let mac (n : String) : Bool := (P (.sysctl32 n)).1 == 0 && (P (.sysctl32 n)).2 != 0#32
    let win (id : Nat) : Bool := P (.isProcessorFeaturePresent id) != 0
    let zx := P (.zxSystemGetFeatures 0)
    let isa := P (.getisax 2)
    Only ((Os.apple initInfo).eval P)
      [(A64.lse, mac "hw.optional.arm.FEAT_LSE" || mac "hw.optional.armv8_1_atomics"),
       (A64.lse2, mac "hw.optional.arm.FEAT_LSE2")] ∧
    Only ((Os.windows initInfo).eval P) [(A64.lse, win 34), (A64.lse2, win 62)] ∧
    Only ((Os.fuchsia initInfo).eval P) [(A64.lse, zx.1 == 0 && zx.2.getLsbD 8)] ∧
    Only ((Os.illumos initInfo).eval P) [(A64.lse, isa.1.getLsbD 15), (A64.lse2, isa.2.getLsbD 2)] := by
  intro mac win zx isa
  refine ⟨?_, ?_, ?_, ?_⟩
  · have hm (n : String) : (appleHas n).eval P = mac n := by
      simp only [appleHas, ask, ask_bind, done_bind, eval, mac]
      by_cases h : (P (.sysctl32 n)).1 = 0
      · simp [h, eval, pure_eq]
      · simp [h, eval, pure_eq]
    have hl : appleLse.eval P =
        (mac "hw.optional.arm.FEAT_LSE" || mac "hw.optional.armv8_1_atomics") := by
      rw [appleLse, eval_bind, hm]
      cases mac "hw.optional.arm.FEAT_LSE"
      · exact hm _
      · rfl
    have e : (Os.apple initInfo).eval P = check (mac "hw.optional.arm.FEAT_LSE2") A64.lse2
        (check (mac "hw.optional.arm.FEAT_LSE" || mac "hw.optional.armv8_1_atomics") A64.lse
          initInfo) := by
      rw [Os.apple, eval_bind, hl, eval_bind, hm]; rfl
    rw [e]
    intro j
    cases mac "hw.optional.arm.FEAT_LSE" <;> cases mac "hw.optional.armv8_1_atomics" <;>
      cases mac "hw.optional.arm.FEAT_LSE2" <;>
      simp [getLsbD_check, getLsbD_init, A64.lse, A64.lse2, or_assoc]
  · have e : (Os.windows initInfo).eval P =
        check (win 62) A64.lse2 (check (win 34) A64.lse initInfo) := rfl
    rw [e]
    intro j
    cases win 62 <;> cases win 34 <;> simp [getLsbD_check, getLsbD_init, A64.lse, A64.lse2, or_assoc]
  · have e : (Os.fuchsia initInfo).eval P = check
        ((if zx.1 != 0 then 0#32 else zx.2) &&& (1#32 <<< 8) != 0#32) A64.lse initInfo := rfl
    rw [e, and_pow_ne32 _ (show 8 < 32 by decide)]
    intro j
    by_cases h : zx.1 = 0
    · rw [if_neg (by simpa using h)]
      cases zx.2.getLsbD 8 <;> simp [h, getLsbD_check, getLsbD_init, A64.lse]
    · simp [h, getLsbD_check, getLsbD_init, A64.lse]
  · have e : (Os.illumos initInfo).eval P = check (isa.2 &&& (1#32 <<< 2) != 0#32) A64.lse2
        (check (isa.1 &&& (1#32 <<< 15) != 0#32) A64.lse initInfo) := rfl
    rw [e, and_pow_ne32 _ (show 2 < 32 by decide), and_pow_ne32 _ (show 15 < 32 by decide)]
    intro j
    cases isa.2.getLsbD 2 <;> cases isa.1.getLsbD 15 <;>
      simp [getLsbD_check, getLsbD_init, A64.lse, A64.lse2, or_assoc]

/-- powerpc64, RISC-V, and 32-bit Arm (where nothing is ever reported). -/
theorem other_exact (P : (q : Query) → q.Ans) (os : AuxOs) (l : Lookup) :
    let hw := auxval P os l (match os with | .linux => 16 | .bsd => 25)
    let hw2 := auxval P os l 26
    let cfg := P (.getsystemcfg 2)
    let hp := P (.hwprobe 3#64 4#64)
    Only ((ppcAuxv os l initInfo).eval P) [(Powerpc64.quadwordAtomics,
      !hw.getLsbD 15 && (hw2.getLsbD 31 || hw2.getLsbD 23 || hw2.getLsbD 18))] ∧
    Only ((Os.aix initInfo).eval P) [(Powerpc64.quadwordAtomics,
      decide (cfg ≠ BitVec.allOnes 64) && (cfg.getLsbD 16 || cfg.getLsbD 17 || cfg.getLsbD 18))] ∧
    Only ((Os.riscv initInfo).eval P) [(Riscv.zacas,
      decide (hp.1 = 0 ∧ hp.2.1.key ≠ BitVec.allOnes 64 ∧ hp.2.2.key ≠ BitVec.allOnes 64) &&
        hp.2.1.value.getLsbD 0 && hp.2.2.value.getLsbD 34)] ∧
    Only ((armAuxv os l initInfo).eval P) [] := by
  intro hw hw2 cfg hp
  have e1 : (getauxval os l (AT_HWCAP os)).eval P = hw := by
    rw [getauxval_eval]; cases os <;> rfl
  have e2 : (getauxval os l (AT_HWCAP2 os)).eval P = hw2 := getauxval_eval ..
  refine ⟨?_, ?_, ?_, ?_⟩
  · have e : (ppcAuxv os l initInfo).eval P = if hw.getLsbD 15 then initInfo else
        check (hw2.getLsbD 31 || hw2.getLsbD 23 || hw2.getLsbD 18) Powerpc64.quadwordAtomics
          initInfo := by
      rw [ppcAuxv, eval_bind, e1, booke_bit, apply_ite (eval P), eval_bind, e2, isa_bits]; rfl
    rw [e]
    intro j
    cases hw.getLsbD 15 <;> cases hw2.getLsbD 31 <;> cases hw2.getLsbD 23 <;>
      cases hw2.getLsbD 18 <;> simp [getLsbD_check, getLsbD_init, Powerpc64.quadwordAtomics]
  · have e : (Os.aix initInfo).eval P = if cfg == BitVec.allOnes 64 then initInfo else
        check (cfg.getLsbD 16 || cfg.getLsbD 17 || cfg.getLsbD 18) Powerpc64.quadwordAtomics
          initInfo := by
      rw [← aix_bits]
      simp only [Os.aix, ask, ask_bind, done_bind, eval]
      rw [apply_ite (eval P)]; rfl
    rw [e]
    intro j
    clear e
    generalize BitVec.allOnes 64 = m
    by_cases hc : cfg = m
    · simp [hc, getLsbD_init]
    · rw [if_neg (by simpa using hc)]
      cases cfg.getLsbD 16 <;> cases cfg.getLsbD 17 <;>
        cases cfg.getLsbD 18 <;> simp [hc, getLsbD_check, getLsbD_init, Powerpc64.quadwordAtomics]
  · have e0 : (1#64) = 1#64 <<< 0 := by decide
    have e : (Os.riscv initInfo).eval P =
        if hp.1 == 0 && hp.2.1.key != BitVec.allOnes 64 && hp.2.1.value.getLsbD 0 &&
          hp.2.2.key != BitVec.allOnes 64 then check (hp.2.2.value.getLsbD 34) Riscv.zacas initInfo
        else initInfo := by
      rw [← Powerpc64.and_pow_ne hp.2.1.value (show 0 < 64 by decide), ← e0,
        ← Powerpc64.and_pow_ne hp.2.2.value (show 34 < 64 by decide)]
      simp only [Os.riscv, ask, ask_bind, done_bind, eval]
      rw [apply_ite (eval P)]; rfl
    rw [e]
    intro j
    clear e
    generalize BitVec.allOnes 64 = m
    generalize hp.2.1.value.getLsbD 0 = b0
    generalize hp.2.2.value.getLsbD 34 = b34
    by_cases h0 : hp.1 = 0 <;> by_cases h1 : hp.2.1.key = m <;>
      by_cases h2 : hp.2.2.key = m <;> cases b0 <;> cases b34 <;>
      simp [h0, h1, h2, getLsbD_check, getLsbD_init, Riscv.zacas]
  · have e : (armAuxv os l initInfo).eval P = initInfo := by
      rw [armAuxv, eval_bind]; rfl
    rw [e]
    intro j
    simp [getLsbD_init]

/-! ### From the answers to the instructions executed -/

/-- The results detection may have when every answer satisfies `T`. -/
def Truthfully (p : Info → Ask Info) (T : Said → Prop) (v : Info) : Prop :=
  ∃ tr, Runs (p initInfo) tr v ∧ ∀ s ∈ tr, T s

/-- A platform that offers nothing (and says that its processor is BookE and an Exynos 9810). -/
def silent : (q : Query) → q.Ans
  | .cpuid _ _ => ⟨0, 0, 0, 0⟩
  | .xgetbv _ => 0#64
  | .dlsym _ => 1#64
  | .getauxval _ t => if t = 16 then 0x8000#64 else 0#64
  | .elfAuxInfo _ t => if t = 25 then (0, 0x8000#64) else (0, 0#64)
  | .systemProperty _ => (10, exynos9810)
  | .sysctlCpuId _ => (-1, ⟨0, 0, 0⟩)
  | .sysctl64 _ => (-1, 0#64)
  | .sysctl32 _ => (-1, 0#32)
  | .hwprobe _ _ => (-38, ⟨3, 0⟩, ⟨4, 0⟩)
  | .getsystemcfg _ => BitVec.allOnes 64
  | .isProcessorFeaturePresent _ => 0
  | .zxSystemGetFeatures _ => (-1, 0#32)
  | .getisax _ => (0#32, 0#32)

theorem truthfully_of {p : Info → Ask Info} {T : Said → Prop} (h : ∀ q, T ⟨q, silent q⟩) :
    ∃ v, Truthfully p T v := by
  obtain ⟨tr, hr, ht⟩ := runs_eval silent (p initInfo)
  refine ⟨_, tr, hr, fun s hs => ?_⟩
  have := h s.q
  rw [← ht s hs] at this
  exact this

theorem silent_x86 (c : Cpu) (q : Query) : X86Truthful c ⟨q, silent q⟩ := by
  cases q <;> simp [X86Truthful, silent]

theorem silent_a64 (c : Cpu) (q : Query) : A64Truthful c ⟨q, silent q⟩ := by
  have hz := isar_zero c
  cases q with
  | getauxval fn t =>
      by_cases h : t = 16
      · subst h; simp [A64Truthful, silent, A64Hwcap]
      · simp [A64Truthful, silent, h, A64Hwcap2]
  | elfAuxInfo fn t =>
      by_cases h : t = 25
      · subst h; simp [A64Truthful, silent, A64Hwcap]
      · simp [A64Truthful, silent, h, A64Hwcap2]
  | _ => simp [A64Truthful, silent]

theorem silent_ppc (p : PpcTruth) (q : Query) : PpcTruthful p ⟨q, silent q⟩ := by
  cases q with
  | getauxval fn t =>
      by_cases h : t = 16
      · subst h; simp [PpcTruthful, silent]
      · simp [PpcTruthful, silent, h]
  | elfAuxInfo fn t =>
      by_cases h : t = 25
      · subst h; simp [PpcTruthful, silent]
      · simp [PpcTruthful, silent, h]
  | _ => simp [PpcTruthful, silent]

theorem silent_riscv (z : Prop) (q : Query) : RiscvTruthful z ⟨q, silent q⟩ := by
  cases q <;> simp [RiscvTruthful, silent]

variable {Tid : Type} [DecidableEq Tid]

/-- **C53** on x86_64: if what the build target promises is there and the processor's answers are
truthful, then in every execution — any number of threads, racing on the first call, answers that
differ from call to call — CMPXCHG16B is executed only on a machine that has it, and 16-byte
vector moves are used only on a machine with CMPXCHG16B and AVX whose operating system saves the
vector registers. -/
theorem x86_end_to_end (f : X86.Flags) (hf : f.Valid) (c : Cpu)
    (h1 : f.cx16 = true → c.cx16) (h2 : f.avx = true → c.avx ∧ c.osAvx)
    {S : State X86.Site X86.Impl Tid} {h : List (Ev X86.Site X86.Impl Tid)}
    (x : Exec { X86.cfg f (fun _ => True) false with
      probe := Truthfully (Os.x86 f.sse) (X86Truthful c) } S h)
    {t : Tid} {s : X86.Site} {i : X86.Impl} (hu : Ev.used t s i ∈ h) :
    (i = .cmpxchg16b → c.cx16) ∧ (i = .vmovdqa → c.cx16 ∧ c.avx ∧ c.osAvx) := by
  obtain ⟨v, hv, he⟩ := each_explained _ (truthfully_of (silent_x86 c)) x _ hu
  have hi : i = _ := he
  obtain ⟨tr, hr, hT⟩ := hv
  obtain ⟨-, k⟩ := x86_sound hr
  obtain ⟨k1, k2⟩ := k c hT
  obtain ⟨hf1, hf2⟩ := hf
  have key : (i = .cmpxchg16b → f.cx16 = true ∨ testBit v X86.cmpxchg16b = true) ∧
      (i = .vmovdqa → (f.cx16 = true ∨ testBit v X86.cmpxchg16b = true) ∧
        (f.avx = true ∨ testBit v X86.avx = true)) := by
    rw [hi]
    clear k1 k2 k hT hr he hi hu x
    cases s <;> cases hc : f.cx16 <;> cases ha : f.avx <;> cases hs : f.sse <;>
      cases hn : f.noDetect <;>
      simp_all [Cfg.choice, X86.cfg, X86.direct, X86.pick] <;>
      (cases testBit v X86.cmpxchg16b <;> cases testBit v X86.avx <;> simp)
  refine ⟨fun h => (key.1 h).elim h1 k1, fun h => ⟨(key.2 h).1.elim h1 k1, ?_⟩⟩
  exact (key.2 h).2.elim h2 (fun h => (k2 h).2)

/-- **C53** on AArch64, all systems: every extension that an executed implementation needs is there
— on Android even on the Exynos 9810 with a faulty kernel. -/
theorem a64_end_to_end (f : A64.Flags) (o : A64Os) (c : Cpu)
    (hf : ∀ φ, f.has φ = true → HasA64 c φ) (hx : o.isAndroid = false → ¬ c.exynosBug)
    {S : State A64.Site A64.Impl Tid} {h : List (Ev A64.Site A64.Impl Tid)}
    (x : Exec (A64.cfg f (Truthfully (a64Probe o) (A64Truthful c))) S h)
    {t : Tid} {s : A64.Site} {i : A64.Impl} (hu : Ev.used t s i ∈ h) {φ : Nat} (hφ : φ ∈ i.needs) :
    HasA64 c φ := by
  rcases A64.a64_only_reported f _ (truthfully_of (silent_a64 c)) x hu hφ with h | ⟨v, ⟨tr, hr, hT⟩, hv⟩
  · exact hf φ h
  · have hlt : φ < 32 := by
      cases i <;> simp [A64.Impl.needs, A64.lse, A64.lse2, A64.rcpc3, A64.lse128] at hφ <;> omega
    rw [testBit_eq _ hlt] at hv
    refine ((a64_sound o hr).2 c hT hx φ hv).resolve_left ?_
    cases i <;> simp [A64.Impl.needs, A64.lse, A64.lse2, A64.rcpc3, A64.lse128] at hφ <;> omega

/-- **C53** on powerpc64 and RISC-V: the native implementation runs only on a machine that has its
instructions. -/
theorem ppc_end_to_end {Site : Type} [DecidableEq Site] (st : Bool) (o : PpcOs) (p : PpcTruth)
    (hst : st = true → p.quadword) {S : State Site TwoWay.Impl Tid}
    {h : List (Ev Site TwoWay.Impl Tid)}
    (x : Exec (TwoWay.cfg st Powerpc64.quadwordAtomics
      (Truthfully (ppcProbe o) (PpcTruthful p))) S h)
    {t : Tid} {s : Site} (hu : Ev.used t s .native ∈ h) : p.quadword := by
  rcases TwoWay.twoWay_only_reported st _ _ (truthfully_of (silent_ppc p)) x hu with
    h | ⟨v, ⟨tr, hr, hT⟩, hv⟩
  · exact hst h
  · exact (ppc_sound o hr).2 p hT hv

theorem riscv_end_to_end {Site : Type} [DecidableEq Site] (st : Bool) (zacas : Prop)
    (hst : st = true → zacas) {S : State Site TwoWay.Impl Tid}
    {h : List (Ev Site TwoWay.Impl Tid)}
    (x : Exec (TwoWay.cfg st Riscv.zacas (Truthfully Os.riscv (RiscvTruthful zacas))) S h)
    {t : Tid} {s : Site} (hu : Ev.used t s .native ∈ h) : zacas := by
  rcases TwoWay.twoWay_only_reported st _ _ (truthfully_of (silent_riscv zacas)) x hu with
    h | ⟨v, ⟨tr, hr, hT⟩, hv⟩
  · exact hst h
  · exact (riscv_sound hr).2 zacas hT hv

/-! ### Cases that meet the hypotheses -/

/-- A machine with everything. -/
def fullCpu : Cpu :=
  { cx16 := True, avx := True, osAvx := True, xgetbv := True, lse := True, lse2 := True,
    rcpc3 := True, lse128 := True, exynosBug := False, quadword := True, zacas := True }

/-- An Exynos 9810 whose kernel announces LSE. -/
def exynosCpu : Cpu :=
  { cx16 := False, avx := False, osAvx := False, xgetbv := False, lse := False, lse2 := False,
    rcpc3 := False, lse128 := False, exynosBug := True, quadword := False, zacas := False }

/-- CPUID with CMPXCHG16B, XSAVE, OSXSAVE and AVX; XCR0 = 7: everything is reported, and the second
question is put. -/
example : ∃ tr, Runs (Os.x86 true initInfo) tr 7#32 ∧ tr.length = 2 ∧
    ∀ s ∈ tr, X86Truthful fullCpu s := by
  refine ⟨[⟨.cpuid 1#32 0#32, ⟨0, 0, 0x1C002000#32, 0⟩⟩, ⟨.xgetbv 0#32, 7#64⟩],
    .ask _ (.ask _ (.done _)), rfl, ?_⟩
  simp [X86Truthful, fullCpu]

/-- The same without OSXSAVE: AVX is not reported and `xgetbv` is not executed. -/
example : ∃ tr, Runs (Os.x86 true initInfo) tr 5#32 ∧ tr.length = 1 := by
  exact ⟨[⟨.cpuid 1#32 0#32, ⟨0, 0, 0x14002000#32, 0⟩⟩], .ask _ (.done _), rfl⟩

/-- The Exynos: the kernel's answer has bit 8, nothing is reported on Android. -/
example : ∃ tr, Runs (a64Probe (.auxv .linux .linked true true) initInfo) tr initInfo ∧
    ∀ s ∈ tr, A64Truthful exynosCpu s := by
  refine ⟨[⟨.getauxval none 16, 0x100#64⟩, ⟨.systemProperty "ro.arch", (10, exynos9810)⟩],
    .ask _ (.ask _ (.done _)), ?_⟩
  simp [A64Truthful, A64Hwcap, exynosCpu]

/-- Without the look at `ro.arch` the same machine would be credited with LSE: the hypothesis about
it in `a64_sound` cannot be dropped. -/
theorem exynos_needs_check : ∃ tr v, Runs (a64Probe (.auxv .linux .linked false true) initInfo) tr v ∧
    (∀ s ∈ tr, A64Truthful exynosCpu s) ∧ ¬ A64Ok exynosCpu v := by
  refine ⟨[⟨.getauxval none 16, 0x100#64⟩, ⟨.getauxval none 26, 0#64⟩], 3#32,
    .ask _ (.ask _ (.done _)), ?_, ?_⟩
  · simp [A64Truthful, A64Hwcap, A64Hwcap2, exynosCpu]
  · intro h
    have := h 1 (by decide)
    simp [HasA64, exynosCpu] at this

/-- A failing `elf_aux_info` that scribbled on the buffer would be believed: the documented promise
that it leaves the buffer alone is needed. -/
theorem elfAuxInfo_needs_promise : ∃ tr v, Runs (a64Probe (.auxv .bsd .linked false true) initInfo) tr v ∧
    (∃ r : Int × BitVec 64, ⟨.elfAuxInfo none 25, r⟩ ∈ tr ∧ r.1 ≠ 0) ∧ v.getLsbD A64.lse = true := by
  exact ⟨[⟨.elfAuxInfo none 25, (2, 0x100#64)⟩, ⟨.elfAuxInfo none 26, (0, 0#64)⟩], 3#32,
    .ask _ (.ask _ (.done _)), ⟨(2, 0x100#64), by simp, by decide⟩, by decide⟩

/-- POWER9 behind `dlsym`: all four questions are put and the flag is set. -/
example : ∃ tr, Runs (ppcProbe (.auxv .bsd .dlsym) initInfo) tr 3#32 ∧
    ∀ s ∈ tr, PpcTruthful ⟨False, True⟩ s := by
  refine ⟨[⟨.dlsym "elf_aux_info", 5#64⟩, ⟨.elfAuxInfo (some 5#64) 25, (0, 0#64)⟩,
    ⟨.dlsym "elf_aux_info", 5#64⟩, ⟨.elfAuxInfo (some 5#64) 26, (0, 0x800000#64)⟩],
    .ask _ (.ask _ (.ask _ (.ask _ (.done _)))), ?_⟩
  simp [PpcTruthful]

example : ∃ tr, Runs (Os.riscv initInfo) tr 3#32 ∧ ∀ s ∈ tr, RiscvTruthful True s := by
  refine ⟨[⟨.hwprobe 3#64 4#64, (0, ⟨3, 1⟩, ⟨4, 1#64 <<< 34⟩)⟩], .ask _ (.done _), ?_⟩
  simp [RiscvTruthful]

/-- The whole mechanism on x86_64, for a machine with everything: a load is dispatched, the CPU is
asked, and the load is done with a vector move. -/
theorem demo_vmovdqa : ∃ S : State X86.Site X86.Impl Bool,
    Exec { X86.cfg X86.demoFlags (fun _ => True) false with
      probe := Truthfully (Os.x86 X86.demoFlags.sse) (X86Truthful fullCpu) } S
      [.used false .load .vmovdqa] := by
  have hy : Truthfully (Os.x86 X86.demoFlags.sse) (X86Truthful fullCpu) 7#32 :=
    ⟨[⟨.cpuid 1#32 0#32, ⟨0, 0, 0x1C002000#32, 0⟩⟩, ⟨.xgetbv 0#32, 7#64⟩],
      .ask _ (.ask _ (.done _)), by simp [X86Truthful, fullCpu]⟩
  have x0 : Exec (Tid := Bool) { X86.cfg X86.demoFlags (fun _ => True) false with
      probe := Truthfully (Os.x86 X86.demoFlags.sse) (X86Truthful fullCpu) } init [] := .start
  have x1 := Exec.quiet false x0 (.callIfunc .load rfl rfl)
  have x3 := Exec.quiet false x1 (.funcInit .load rfl ⟨false, by simp [init, State.goto, Cell.init]⟩)
  have x5 := Exec.quiet false x3 (.cacheMiss _ rfl (by decide)
    ⟨false, by simp [init, State.goto, Cell.init]⟩)
  have x7 := Exec.quiet false x5 (.probe _ 7#32 rfl hy)
  have x9 := Exec.quiet false x7 (.casOk _ 7#32 _ rfl rfl (.mk [] []))
  have x11 := Exec.quiet false x9 (.pick .load 7#32 rfl)
  have x13 := Exec.quiet false x11 (.setFunc .load _ rfl)
  have x14 := Exec.emit false _ x13 (.run .load .vmovdqa rfl)
  exact ⟨_, x14⟩

end Verif.Detect.Os
