/-
C23, C24, C25, C36: run-time detection gives one answer; implementations are never mixed;
`is_lock_free` tells the truth; no instruction is executed that was not reported to exist.
-/
import Verif.Detect.Sim
import Verif.Detect.Configs

set_option linter.unusedSectionVars false
namespace Verif.Detect

variable {σ ι Tid : Type} [DecidableEq σ] [DecidableEq Tid]

/-! ### The abstract statement -/

/-- What a configuration does when the detection result is `v`: the implementation of a site … -/
def Cfg.choice (C : Cfg σ ι) (v : Info) (s : σ) : ι := (C.direct s).getD (C.pick s v)
/-- … and the answer of `is_lock_free()`. -/
def Cfg.answer (C : Cfg σ ι) (v : Info) : Bool := C.lfStatic.getD (C.lfOf v)

/-- The observation is what a process sees in which detection always answers `v`. -/
def Explained (C : Cfg σ ι) (v : Info) : Ev σ ι Tid → Prop
  | .used _ s i => i = C.choice v s
  | .lockFree _ b => b = C.answer v
  | .info _ w => w = v

theorem evOk_explained {C : Cfg σ ι} {v} {e : Ev σ ι Tid}
    (h : EvOk C (· = v) e) : Explained C v e := by
  cases e with
  | used t s i =>
      simp only [EvOk, Ok] at h
      simp only [Explained, Cfg.choice]
      cases hd : C.direct s with
      | none => rw [hd] at h; obtain ⟨w, rfl, hi⟩ := h; simpa using hi
      | some j => rw [hd] at h; simpa using h
  | lockFree t b =>
      simp only [EvOk] at h
      simp only [Explained, Cfg.answer]
      cases hd : C.lfStatic with
      | none => rw [hd] at h; obtain ⟨w, rfl, hi⟩ := h; simpa using hi
      | some j => rw [hd] at h; simpa using h
  | info t w => exact h

/-- **C23** (configurations whose lock-freeness depends on detection). However many threads race
through the first detections, whatever stale values their relaxed loads return, and even if the
CPU answers differently each time it is asked: there is one probe result `v` such that everything
ever observed — every implementation used, every `is_lock_free()`, every set of flags — is what
detection always answering `v` would have given. -/
theorem one_answer (C : Cfg σ ι) (hm : C.memo = .cas) (hnz : ∀ v, C.probe v → v ≠ 0#32)
    (hne : ∃ v, C.probe v) {S : State σ ι Tid} {h} (x : Exec C S h) :
    ∃ v, C.probe v ∧ ∀ e ∈ h, Explained C v e := by
  rcases exec_one hm hnz x with ⟨-, g⟩ | ⟨v, hv, -, g⟩
  · obtain ⟨v, hv⟩ := hne
    exact ⟨v, hv, fun e he => evOk_explained ((g (· = v)).ev e he)⟩
  · exact ⟨v, hv, fun e he => evOk_explained (g.ev e he)⟩

/-- **C23** (all configurations). If the platform always gives the same answer, so does
detection. -/
theorem one_answer_of_stable (C : Cfg σ ι) (v : Info) (hs : ∀ w, C.probe w → w = v)
    {S : State σ ι Tid} {h} (x : Exec C S h) : ∀ e ∈ h, Explained C v e := by
  have g := exec_good x
  intro e he
  apply evOk_explained
  have := g.ev e he
  cases e with
  | used t s i =>
      simp only [EvOk, Ok] at this ⊢
      cases hd : C.direct s with
      | none => rw [hd] at this; obtain ⟨w, hw, hi⟩ := this; exact ⟨w, hs w hw, hi⟩
      | some j => rw [hd] at this; exact this
  | lockFree t b =>
      simp only [EvOk] at this ⊢
      cases hd : C.lfStatic with
      | none => rw [hd] at this; obtain ⟨w, hw, hi⟩ := this; exact ⟨w, hs w hw, hi⟩
      | some j => rw [hd] at this; exact this
  | info t w => exact hs w this

/-- In every configuration each single observation is one that some probe result explains. -/
theorem each_explained (C : Cfg σ ι) (hne : ∃ v, C.probe v)
    {S : State σ ι Tid} {h} (x : Exec C S h) :
    ∀ e ∈ h, ∃ v, C.probe v ∧ Explained C v e := by
  have g := exec_good x
  obtain ⟨v0, hv0⟩ := hne
  intro e he
  have := g.ev e he
  cases e with
  | used t s i =>
      simp only [EvOk, Ok] at this
      simp only [Explained, Cfg.choice]
      cases hd : C.direct s with
      | none => rw [hd] at this; obtain ⟨w, hw, hi⟩ := this; exact ⟨w, hw, by simpa using hi⟩
      | some j => rw [hd] at this; exact ⟨v0, hv0, by simpa using this⟩
  | lockFree t b =>
      simp only [EvOk] at this
      simp only [Explained, Cfg.answer]
      cases hd : C.lfStatic with
      | none => rw [hd] at this; obtain ⟨w, hw, hi⟩ := this; exact ⟨w, hw, by simpa using hi⟩
      | some j => rw [hd] at this; exact ⟨v0, hv0, by simpa using this⟩
  | info t w => exact ⟨w, this, rfl⟩

/-- Detection and dispatch are wait-free: from any reachable state a thread in the middle of a call
always can take a step, whatever the others do each of its own steps brings it nearer to the end
of the call, and the others' steps do not push it back. At most seven of its own steps are left. -/
theorem detection_waitFree (C : Cfg σ ι) (hpr : ∃ v, C.probe v) {S : State σ ι Tid} {h}
    (x : Exec C S h) (t : Tid) :
    rank (S.pc t) ≤ 7 ∧
    (rank (S.pc t) ≠ 0 → ∃ e S', Step C t S e S') ∧
    (∀ e S', Step C t S e S' → rank (S.pc t) ≠ 0 → rank (S'.pc t) < rank (S.pc t)) ∧
    (∀ u e S', u ≠ t → Step C u S e S' → S'.pc t = S.pc t) := by
  refine ⟨?_, exists_step hpr x t, fun e S' st hb => st.rank_lt hb,
    fun u e S' hu st => st.other hu.symm⟩
  cases S.pc t <;> simp [rank]

/-- The rank is zero exactly when the thread is in no call. -/
theorem rank_zero_iff (p : Pc σ ι) : rank p = 0 ↔ p = .idle := by cases p <;> simp [rank]

/-! ### Bits -/

theorem testBit_eq (x : Info) {i : Nat} (hi : i < 32) : testBit x i = x.getLsbD i := by
  unfold testBit
  cases hx : x.getLsbD i with
  | false =>
    simp only [bne_eq_false_iff_eq]
    apply BitVec.eq_of_getLsbD_eq
    intro j hj
    simp only [BitVec.getLsbD_and, BitVec.getLsbD_shiftLeft, BitVec.getLsbD_zero]
    by_cases hji : j = i
    · subst hji; simp [hx]
    · rcases Nat.lt_or_ge j i with h | h
      · simp [h]
      · have : ¬ j - i = 0 := by omega
        simp [BitVec.getLsbD_one, this]
  | true =>
    simp only [bne_iff_ne, ne_eq]
    intro e
    have := congrArg (fun y => BitVec.getLsbD y i) e
    simp only [BitVec.getLsbD_and, BitVec.getLsbD_shiftLeft, hx, hi] at this
    simp at this

theorem testBit_setBit (x : Info) {i j : Nat} (hi : i < 32) (hj : j < 32) :
    testBit (setBit x i) j = (testBit x j || decide (i = j)) := by
  rw [testBit_eq _ hj, testBit_eq _ hj]
  simp only [setBit, BitVec.getLsbD_or, BitVec.getLsbD_shiftLeft, hj, decide_true, Bool.true_and]
  by_cases h : i = j
  · subst h; simp
  · rcases Nat.lt_or_ge j i with h' | h'
    · simp [h', h]
    · have : ¬ j - i = 0 := by omega
      simp [BitVec.getLsbD_one, this, h]

theorem testBit_check (c : Bool) (x : Info) {i j : Nat} (hi : i < 32) (hj : j < 32) :
    testBit (check c i x) j = (testBit x j || (c && decide (i = j))) := by
  cases c with
  | false => simp [check]
  | true => simp [check, testBit_setBit x hi hj]

theorem testBit_init {j : Nat} (hj : j < 32) : testBit initInfo j = decide (j = 0) := by
  rw [initInfo, testBit_setBit _ (by decide) hj, testBit_eq _ hj]
  by_cases h : j = 0
  · simp [h, flagInit]
  · have : ¬ flagInit = j := fun e => h e.symm
    simp [h, this]

theorem ne_zero_of_init {v : Info} (h : testBit v 0 = true) : v ≠ 0#32 := by
  rintro rfl; simp [testBit] at h

/-! ### x86_64 -/

namespace X86

/-- The CPU reports CMPXCHG16B (CPUID.01H:ECX[13]). -/
def Reply.hasCx16 (r : Reply) : Bool := r.ecx.getLsbD 13
/-- The CPU reports AVX (ECX[28]) and the OS saves the vector state (XSAVE ECX[26], OSXSAVE
ECX[27], XCR0[2:1] = 11). -/
def Reply.hasAvx (r : Reply) : Bool :=
  r.ecx.getLsbD 26 && r.ecx.getLsbD 27 && r.ecx.getLsbD 28 && r.xcr0.getLsbD 1 && r.xcr0.getLsbD 2

theorem xcr0_six (x : BitVec 64) : (x &&& 6#64 == 6#64) = (x.getLsbD 1 && x.getLsbD 2) := by
  rw [Bool.eq_iff_iff]
  simp only [beq_iff_eq, Bool.and_eq_true]
  constructor
  · intro e
    have e1 := congrArg (fun y => y.getLsbD 1) e
    have e2 := congrArg (fun y => y.getLsbD 2) e
    simp only [BitVec.getLsbD_and] at e1 e2
    have h1 : (6#64).getLsbD 1 = true := by decide
    have h2 : (6#64).getLsbD 2 = true := by decide
    rw [h1] at e1; rw [h2] at e2
    rw [Bool.and_true] at e1 e2
    exact ⟨e1, e2⟩
  · rintro ⟨h1, h2⟩
    apply BitVec.eq_of_getLsbD_eq
    intro i hi
    simp only [BitVec.getLsbD_and]
    by_cases hb : (6#64).getLsbD i = true
    · have : i = 1 ∨ i = 2 := by
        have key : ∀ i : Fin 64, (6#64).getLsbD i = true → (i : Nat) = 1 ∨ (i : Nat) = 2 := by
          decide
        exact key ⟨i, hi⟩ hb
      rcases this with rfl | rfl
      · simp [h1]
      · simp [h2]
    · simp only [Bool.not_eq_true] at hb
      simp [hb]

/-- The flags of `_detect` are exactly what the CPU and OS report; AVX is only looked at when the
build may use SSE registers. -/
theorem decode_flags (f : Flags) (r : Reply) :
    testBit (decode f r initInfo) cmpxchg16b = r.hasCx16 ∧
    testBit (decode f r initInfo) avx = (f.sse && r.hasAvx) ∧
    testBit (decode f r initInfo) 0 = true := by
  simp only [decode, Reply.hasCx16, Reply.hasAvx, testBit_eq r.ecx (show (13 : Nat) < 32 by decide),
    testBit_eq r.ecx (show (26 : Nat) < 32 by decide),
    testBit_eq r.ecx (show (27 : Nat) < 32 by decide),
    testBit_eq r.ecx (show (28 : Nat) < 32 by decide), xcr0_six]
  cases f.sse <;> cases r.ecx.getLsbD 26 <;> cases r.ecx.getLsbD 27 <;>
    simp [testBit_check, testBit_init, cmpxchg16b, avx, Bool.and_comm, Bool.and_assoc]

theorem probe_ne_zero (f : Flags) (E) (d) (v) (h : (cfg f E d).probe v) : v ≠ 0#32 := by
  apply ne_zero_of_init
  cases d with
  | true => rw [show v = initInfo from h]; simp [testBit_init]
  | false => obtain ⟨r, -, rfl⟩ := h; exact (decode_flags f r).2.2

/-- A probe result's flags, in terms of the platform's answers. -/
theorem probe_flags (f : Flags) (E) (d) (v) (h : (cfg f E d).probe v) :
    (testBit v cmpxchg16b = true → ∃ r, E r ∧ r.hasCx16 = true ∧ testBit v avx = (f.sse && r.hasAvx)) ∧
    (testBit v avx = true → f.sse = true ∧ ∃ r, E r ∧ r.hasAvx = true) := by
  cases d with
  | true =>
      rw [show v = initInfo from h]
      simp [testBit_init, cmpxchg16b, avx]
  | false =>
      obtain ⟨r, hr, rfl⟩ := h
      obtain ⟨h1, h2, -⟩ := decode_flags f r
      refine ⟨fun hc => ⟨r, hr, by rwa [← h1], h2⟩, fun ha => ?_⟩
      rw [h2, Bool.and_eq_true] at ha
      exact ⟨ha.1, r, hr, ha.2⟩

theorem probe_nonempty (f : Flags) (E) (d) (hE : ∃ r, E r) : ∃ v, (cfg f E d).probe v := by
  cases d with
  | true => exact ⟨initInfo, rfl⟩
  | false => obtain ⟨r, hr⟩ := hE; exact ⟨_, r, hr, rfl⟩

theorem lockFree_choice (f : Flags) (hf : f.Valid) (E) (d) (v) (s : Site) :
    ((cfg f E d).choice v s).lockFree = (cfg f E d).answer v := by
  obtain ⟨hf1, hf2⟩ := hf
  cases s <;> cases hc : f.cx16 <;> cases ha : f.avx <;> cases hs : f.sse <;> cases hn : f.noDetect <;>
    simp_all [Cfg.choice, Cfg.answer, cfg, direct, pick, Impl.lockFree] <;>
    (cases testBit v cmpxchg16b <;> cases testBit v avx <;> simp)

/-- **C24/C25** on x86_64: in one process, all 128-bit operations ever performed — whatever the
operation, ordering, thread and moment — use lock-free implementations, or all use the lock-based
one, and that is what every `is_lock_free()` says; if `IS_ALWAYS_LOCK_FREE` then it is `true`.
In particular an instruction-based access never races with a lock-based one. -/
theorem x86_no_mixing (f : Flags) (hf : f.Valid) (E : Reply → Prop) (hE : ∃ r, E r) (d : Bool)
    {S : State Site Impl Tid} {h} (x : Exec (cfg f E d) S h) :
    ∃ b, (∀ t s i, Ev.used t s i ∈ h → i.lockFree = b) ∧
      (∀ t c, Ev.lockFree t c ∈ h → c = b) ∧ (isAlways f = true → b = true) := by
  cases hc : f.cx16 with
  | false =>
      obtain ⟨v, -, hv⟩ := one_answer (cfg f E d) (by simp [cfg, hc]) (probe_ne_zero f E d)
        (probe_nonempty f E d hE) x
      refine ⟨(cfg f E d).answer v, fun t s i hi => ?_, fun t c h => hv _ h, ?_⟩
      · have : i = _ := hv _ hi
        rw [this]; exact lockFree_choice f hf E d v s
      · simp [isAlways, hc]
  | true =>
      have hx := each_explained (cfg f E d) (probe_nonempty f E d hE) x
      refine ⟨true, fun t s i hi => ?_, fun t c h => ?_, fun _ => rfl⟩
      · obtain ⟨v, -, hv⟩ := hx _ hi
        rw [show i = _ from hv, lockFree_choice f hf E d v s]
        simp [Cfg.answer, cfg, hc]
      · obtain ⟨v, -, hv⟩ := hx _ h
        rw [show c = _ from hv]
        simp [Cfg.answer, cfg, hc]

/-- **C36** on x86_64: CMPXCHG16B is executed only if the build target guarantees it or the CPU
reported it; VMOVDQA is used for atomic accesses only if AVX is guaranteed, or was reported by the
CPU together with OS support for the vector state. -/
theorem x86_only_reported (f : Flags) (hf : f.Valid) (E : Reply → Prop) (hE : ∃ r, E r) (d : Bool)
    {S : State Site Impl Tid} {h} (x : Exec (cfg f E d) S h) {t s i} (hu : Ev.used t s i ∈ h) :
    (i = .cmpxchg16b → f.cx16 = true ∨ ∃ r, E r ∧ r.hasCx16 = true) ∧
    (i = .vmovdqa → (f.cx16 = true ∨ ∃ r, E r ∧ r.hasCx16 = true) ∧
      (f.avx = true ∨ f.sse = true ∧ ∃ r, E r ∧ r.hasAvx = true)) := by
  obtain ⟨v, hv, he⟩ := each_explained (cfg f E d) (probe_nonempty f E d hE) x _ hu
  have hi : i = _ := he
  obtain ⟨p1, p2⟩ := probe_flags f E d v hv
  obtain ⟨hf1, hf2⟩ := hf
  have key : (i = .cmpxchg16b → f.cx16 = true ∨ testBit v cmpxchg16b = true) ∧
      (i = .vmovdqa → (f.cx16 = true ∨ testBit v cmpxchg16b = true) ∧
        (f.avx = true ∨ testBit v avx = true)) := by
    rw [hi]
    cases s <;> cases hc : f.cx16 <;> cases ha : f.avx <;> cases hs : f.sse <;>
      cases hn : f.noDetect <;>
      simp_all [Cfg.choice, cfg, direct, pick] <;>
      (cases testBit v cmpxchg16b <;> cases testBit v avx <;> simp)
  refine ⟨fun h => (key.1 h).imp id (fun hb => ?_), fun h => ⟨(key.2 h).1.imp id (fun hb => ?_),
    (key.2 h).2.imp id p2⟩⟩ <;>
  · obtain ⟨r, hr, h2, -⟩ := p1 hb
    exact ⟨r, hr, h2⟩

/-- A race: a CPU that answers differently each time it is asked (with and without CMPXCHG16B), two
threads that both find nothing cached and probe different answers. -/
def demoFlags : Flags := { cx16 := false, avx := false, sse := true, noDetect := false }
/-- CMPXCHG16B, no AVX. -/
def demoYes : Reply := { ecx := 0x2000#32, xcr0 := 0#64 }
/-- Neither. -/
def demoNo : Reply := { ecx := 0#32, xcr0 := 0#64 }
def demoE (r : Reply) : Prop := r = demoYes ∨ r = demoNo

/-- In that race, thread 1 probed "no" but thread 0 had already published "yes": both use the
instruction, and a third query, made by thread 1, is consistent with it. The hypotheses of the
theorems above are met by this run. -/
theorem demo_race : ∃ S : State Site Impl Bool,
    Exec (cfg demoFlags demoE false) S
      [.used false .load .cmpxchg16b, .used true .cas .cmpxchg16b, .lockFree true true] := by
  have hy : (cfg demoFlags demoE false).probe 5#32 := ⟨demoYes, .inl rfl, by decide⟩
  have hn : (cfg demoFlags demoE false).probe 1#32 := ⟨demoNo, .inr rfl, by decide⟩
  have x0 : Exec (Tid := Bool) (cfg demoFlags demoE false) init [] := .start
  have x1 := Exec.quiet false x0 (.callIfunc .load rfl rfl)
  have x2 := Exec.quiet true x1 (.callIfunc .cas rfl rfl)
  have x3 := Exec.quiet false x2 (.funcInit .load rfl ⟨false, by simp [init, State.goto, Cell.init]⟩)
  have x4 := Exec.quiet true x3 (.funcInit .cas rfl ⟨false, by simp [init, State.goto, Cell.init]⟩)
  have x5 := Exec.quiet false x4 (.cacheMiss _ rfl (by decide)
    ⟨false, by simp [init, State.goto, Cell.init]⟩)
  have x6 := Exec.quiet true x5 (.cacheMiss _ rfl (by decide)
    ⟨false, by simp [init, State.goto, Cell.init]⟩)
  have x7 := Exec.quiet false x6 (.probe _ 5#32 rfl hy)
  have x8 := Exec.quiet true x7 (.probe _ 1#32 rfl hn)
  have x9 := Exec.quiet false x8 (.casOk _ 5#32 _ rfl rfl (.mk [] []))
  have x10 := Exec.quiet true x9 (.casFail _ 1#32 5#32 rfl rfl
    ⟨⟨false, by simp [State.goto]⟩, by decide⟩)
  have x11 := Exec.quiet false x10 (.pick .load 5#32 rfl)
  have x12 := Exec.quiet true x11 (.pick .cas 5#32 rfl)
  have x13 := Exec.quiet false x12 (.setFunc .load _ rfl)
  have x14 := Exec.emit false _ x13 (.run .load .cmpxchg16b rfl)
  have x15 := Exec.quiet true x14 (.setFunc .cas _ rfl)
  have x16 := Exec.emit true _ x15 (.run .cas .cmpxchg16b rfl)
  have x17 := Exec.quiet true x16 (.lfDetect rfl rfl)
  have x18 := Exec.quiet true x17 (.cacheHit _ 5#32 rfl (by decide)
    ⟨false, by simp [State.goto]⟩ (by decide))
  have x19 := Exec.emit true _ x18 (.lfRet 5#32 rfl)
  exact ⟨_, x19⟩

example : demoFlags.Valid := by simp [Flags.Valid, demoFlags]

/-- The compare-exchange matters: if the same configuration published by a plain store, two
threads could end up using different implementations of the same object at the same time. -/
theorem store_would_mix : ∃ S : State Site Impl Bool,
    Exec { cfg demoFlags demoE false with memo := .store } S
      [.used false .load .cmpxchg16b, .used true .cas .fallback] := by
  have hy : (cfg demoFlags demoE false).probe 5#32 := ⟨demoYes, .inl rfl, by decide⟩
  have hn : (cfg demoFlags demoE false).probe 1#32 := ⟨demoNo, .inr rfl, by decide⟩
  have x0 : Exec (Tid := Bool) { cfg demoFlags demoE false with memo := .store } init [] := .start
  have x1 := Exec.quiet false x0 (.callIfunc .load rfl rfl)
  have x2 := Exec.quiet true x1 (.callIfunc .cas rfl rfl)
  have x3 := Exec.quiet false x2 (.funcInit .load rfl ⟨false, by simp [init, State.goto, Cell.init]⟩)
  have x4 := Exec.quiet true x3 (.funcInit .cas rfl ⟨false, by simp [init, State.goto, Cell.init]⟩)
  have x5 := Exec.quiet false x4 (.cacheMiss _ rfl (by decide)
    ⟨false, by simp [init, State.goto, Cell.init]⟩)
  have x6 := Exec.quiet true x5 (.cacheMiss _ rfl (by decide)
    ⟨false, by simp [init, State.goto, Cell.init]⟩)
  have x7 := Exec.quiet false x6 (.probe _ 5#32 rfl hy)
  have x8 := Exec.quiet true x7 (.probe _ 1#32 rfl hn)
  have x9 := Exec.quiet false x8 (.store _ 5#32 rfl rfl)
  have x10 := Exec.quiet true x9 (.store _ 1#32 rfl rfl)
  have x11 := Exec.quiet false x10 (.pick .load 5#32 rfl)
  have x12 := Exec.quiet true x11 (.pick .cas 1#32 rfl)
  have x13 := Exec.quiet false x12 (.setFunc .load _ rfl)
  have x14 := Exec.emit false _ x13 (.run .load .cmpxchg16b rfl)
  have x15 := Exec.quiet true x14 (.setFunc .cas _ rfl)
  have x16 := Exec.emit true _ x15 (.run .cas .fallback rfl)
  exact ⟨_, x16⟩

/-- Conversely, the lock-based implementation is used only if CMPXCHG16B is neither guaranteed nor
reported by every answer of the CPU (or detection is switched off for testing). -/
theorem x86_fallback_only (f : Flags) (hf : f.Valid) (E : Reply → Prop) (hE : ∃ r, E r)
    {S : State Site Impl Tid} {h} (x : Exec (cfg f E false) S h) {t s}
    (hu : Ev.used t s .fallback ∈ h) :
    f.cx16 = false ∧ ∃ r, E r ∧ r.hasCx16 = false := by
  obtain ⟨v, hv, he⟩ := each_explained (cfg f E false) (probe_nonempty f E false hE) x _ hu
  have hi : Impl.fallback = _ := he
  have hlf := lockFree_choice f hf E false v s
  rw [← hi] at hlf
  obtain ⟨r, hr, rfl⟩ := hv
  have hd := (decode_flags f r).1
  cases hc : f.cx16 with
  | true => simp [Cfg.answer, cfg, hc, Impl.lockFree] at hlf
  | false =>
      refine ⟨rfl, r, hr, ?_⟩
      have : (cfg f E false).answer (decode f r initInfo) = testBit (decode f r initInfo) cmpxchg16b := by
        simp [Cfg.answer, cfg, hc]
      rw [this, hd] at hlf
      simpa [Impl.lockFree] using hlf.symm

end X86

/-! ### powerpc64, riscv64, riscv32, x86_64 without asm, 32-bit Arm Linux -/

namespace TwoWay

theorem lockFree_choice (st : Bool) (flag : Nat) (probe) (v) (s : σ) :
    ((cfg (Site := σ) st flag probe).choice v s).lockFree
      = (cfg (Site := σ) st flag probe).answer v := by
  cases st <;> simp [Cfg.choice, Cfg.answer, cfg, Impl.lockFree]
  cases testBit v flag <;> simp

/-- **C24/C25** for the backends with one native implementation. -/
theorem twoWay_no_mixing (st : Bool) (flag : Nat) (probe : Info → Prop)
    (hnz : ∀ v, probe v → v ≠ 0#32) (hne : ∃ v, probe v)
    {S : State σ Impl Tid} {h} (x : Exec (cfg st flag probe) S h) :
    ∃ b, (∀ t s i, Ev.used t s i ∈ h → i.lockFree = b) ∧
      (∀ t c, Ev.lockFree t c ∈ h → c = b) ∧ (isAlways st = true → b = true) := by
  cases st with
  | false =>
      obtain ⟨v, -, hv⟩ := one_answer (cfg (Site := σ) false flag probe) rfl hnz hne x
      refine ⟨(cfg (Site := σ) false flag probe).answer v, fun t s i hi => ?_,
        fun t c h => hv _ h, by simp [isAlways]⟩
      rw [show i = _ from hv _ hi]; exact lockFree_choice false flag probe v s
  | true =>
      have hx := each_explained (cfg (Site := σ) true flag probe) hne x
      refine ⟨true, fun t s i hi => ?_, fun t c h => ?_, fun _ => rfl⟩
      · obtain ⟨v, -, hv⟩ := hx _ hi
        rw [show i = _ from hv]; rfl
      · obtain ⟨v, -, hv⟩ := hx _ h
        rw [show c = _ from hv]; rfl

/-- **C36** for them: the native implementation is used only if guaranteed at compile time or some
answer of the platform had the flag. -/
theorem twoWay_only_reported (st : Bool) (flag : Nat) (probe : Info → Prop) (hne : ∃ v, probe v)
    {S : State σ Impl Tid} {h} (x : Exec (cfg st flag probe) S h) {t s}
    (hu : Ev.used t s .native ∈ h) : st = true ∨ ∃ v, probe v ∧ testBit v flag = true := by
  obtain ⟨v, hv, he⟩ := each_explained (cfg (Site := σ) st flag probe) hne x _ hu
  cases st with
  | true => exact .inl rfl
  | false =>
      refine .inr ⟨v, hv, ?_⟩
      have he : Impl.native = _ := he
      simp only [Cfg.choice, cfg] at he
      cases hb : testBit v flag <;> simp [hb] at he ⊢

end TwoWay

theorem probeOf_nonempty {R} (E : R → Prop) (dec) (d) (hE : ∃ r, E r) : ∃ v, probeOf E dec d v := by
  cases d with
  | true => exact ⟨initInfo, rfl⟩
  | false => obtain ⟨r, hr⟩ := hE; exact ⟨_, r, hr, rfl⟩

theorem probeOf_ne_zero {R} (E : R → Prop) (dec : R → Info → Info) (d)
    (h0 : ∀ r, testBit (dec r initInfo) 0 = true) (v) (h : probeOf E dec d v) : v ≠ 0#32 := by
  apply ne_zero_of_init
  cases d with
  | true => rw [show v = initInfo from h]; simp [testBit_init]
  | false => obtain ⟨r, -, rfl⟩ := h; exact h0 r

theorem probeOf_flag {R} (E : R → Prop) (dec : R → Info → Info) (d) (flag : Nat)
    (hflag : 0 < flag ∧ flag < 32) {v} (h : probeOf E dec d v) (hb : testBit v flag = true) :
    ∃ r, E r ∧ testBit (dec r initInfo) flag = true := by
  cases d with
  | true =>
      rw [show v = initInfo from h, testBit_init hflag.2] at hb
      have := hflag.1
      simp at hb; omega
  | false => obtain ⟨r, hr, rfl⟩ := h; exact ⟨r, hr, hb⟩

namespace Powerpc64

/-- The kernel reports ISA 2.07 or later on a server processor. -/
def Reply.isa207 (r : Reply) : Bool :=
  !r.hwcap.getLsbD 15 && (r.hwcap2.getLsbD 31 || r.hwcap2.getLsbD 23 || r.hwcap2.getLsbD 18)

theorem and_pow_ne (x : BitVec 64) {i : Nat} (hi : i < 64) :
    (x &&& (1#64 <<< i) != 0#64) = x.getLsbD i := by
  cases hx : x.getLsbD i with
  | false =>
    simp only [bne_eq_false_iff_eq]
    apply BitVec.eq_of_getLsbD_eq
    intro j hj
    simp only [BitVec.getLsbD_and, BitVec.getLsbD_shiftLeft, BitVec.getLsbD_zero]
    by_cases hji : j = i
    · subst hji; simp [hx]
    · rcases Nat.lt_or_ge j i with h | h
      · simp [h]
      · have : ¬ j - i = 0 := by omega
        simp [BitVec.getLsbD_one, this]
  | true =>
    simp only [bne_iff_ne, ne_eq]
    intro e
    have := congrArg (fun y => BitVec.getLsbD y i) e
    simp only [BitVec.getLsbD_and, BitVec.getLsbD_shiftLeft, hx, hi] at this
    simp at this

theorem and_or_ne (x a b : BitVec 64) :
    (x &&& (a ||| b) != 0#64) = ((x &&& a != 0#64) || (x &&& b != 0#64)) := by
  have e : x &&& (a ||| b) = (x &&& a) ||| (x &&& b) := by
    apply BitVec.eq_of_getLsbD_eq
    intro i hi
    simp only [BitVec.getLsbD_and, BitVec.getLsbD_or, Bool.and_or_distrib_left]
  rw [e, Bool.eq_iff_iff]
  simp only [bne_iff_ne, Bool.or_eq_true, ne_eq, BitVec.or_eq_zero_iff]
  constructor
  · intro h
    by_cases ha : x &&& a = 0#64
    · exact .inr (fun hb => h ⟨ha, hb⟩)
    · exact .inl ha
  · rintro (h | h) ⟨ha, hb⟩
    · exact h ha
    · exact h hb

theorem decode_flag (r : Reply) : testBit (decode r initInfo) quadwordAtomics = r.isa207 ∧
    testBit (decode r initInfo) 0 = true := by
  have e1 : (0x8000#64) = 1#64 <<< 15 := by decide
  have e2 : (0x80000000#64) = 1#64 <<< 31 := by decide
  have e3 : (0x00800000#64) = 1#64 <<< 23 := by decide
  have e4 : (0x00040000#64) = 1#64 <<< 18 := by decide
  simp only [decode, e1, e2, e3, e4, and_or_ne, and_pow_ne _ (show 15 < 64 by decide),
    and_pow_ne _ (show 31 < 64 by decide), and_pow_ne _ (show 23 < 64 by decide),
    and_pow_ne _ (show 18 < 64 by decide), Reply.isa207]
  cases r.hwcap.getLsbD 15 <;> simp [testBit_check, testBit_init, quadwordAtomics]

/-- AIX reports POWER8, 9 or 10 (and answered at all). -/
def aixPower8 (impl : BitVec 64) : Bool :=
  impl != BitVec.allOnes 64 && (impl.getLsbD 16 || impl.getLsbD 17 || impl.getLsbD 18)

theorem decodeAix_flag (impl : BitVec 64) :
    testBit (decodeAix impl initInfo) quadwordAtomics = aixPower8 impl ∧
    testBit (decodeAix impl initInfo) 0 = true := by
  have e1 : (0x10000#64) = 1#64 <<< 16 := by decide
  have e2 : (0x20000#64) = 1#64 <<< 17 := by decide
  have e3 : (0x40000#64) = 1#64 <<< 18 := by decide
  simp only [decodeAix, e1, e2, e3, and_or_ne, and_pow_ne _ (show 16 < 64 by decide),
    and_pow_ne _ (show 17 < 64 by decide), and_pow_ne _ (show 18 < 64 by decide), aixPower8]
  by_cases h : impl = BitVec.allOnes 64
  · simp [h, testBit_init, quadwordAtomics]
  · have hb : (impl == BitVec.allOnes 64) = false := by simpa using h
    have hb' : (impl != BitVec.allOnes 64) = true := by simpa using h
    simp only [hb, hb']
    simp [testBit_check, testBit_init, quadwordAtomics]

/-- **C24/C25/C36** on powerpc64. -/
theorem powerpc64_consistent (st : Bool) (E : Reply → Prop) (hE : ∃ r, E r) (d : Bool)
    {S : State σ TwoWay.Impl Tid} {h}
    (x : Exec (TwoWay.cfg st quadwordAtomics (probeOf E decode d)) S h) :
    (∃ b, (∀ t s i, Ev.used t s i ∈ h → i.lockFree = b) ∧
      (∀ t c, Ev.lockFree t c ∈ h → c = b) ∧ (TwoWay.isAlways st = true → b = true)) ∧
    (∀ t s, Ev.used t s .native ∈ h → st = true ∨ ∃ r, E r ∧ r.isa207 = true) := by
  refine ⟨TwoWay.twoWay_no_mixing st _ _ (probeOf_ne_zero E decode d (fun r => (decode_flag r).2))
    (probeOf_nonempty E decode d hE) x, fun t s hu => ?_⟩
  refine (TwoWay.twoWay_only_reported st _ _ (probeOf_nonempty E decode d hE) x hu).imp id ?_
  rintro ⟨v, hv, hb⟩
  obtain ⟨r, hr, h⟩ := probeOf_flag E decode d quadwordAtomics (by decide) hv hb
  exact ⟨r, hr, by rw [← (decode_flag r).1]; exact h⟩

/-- **C24/C25/C36** on powerpc64 AIX. -/
theorem powerpc64_aix_consistent (st : Bool) (E : BitVec 64 → Prop) (hE : ∃ r, E r) (d : Bool)
    {S : State σ TwoWay.Impl Tid} {h}
    (x : Exec (TwoWay.cfg st quadwordAtomics (probeOf E decodeAix d)) S h) :
    (∃ b, (∀ t s i, Ev.used t s i ∈ h → i.lockFree = b) ∧
      (∀ t c, Ev.lockFree t c ∈ h → c = b) ∧ (TwoWay.isAlways st = true → b = true)) ∧
    (∀ t s, Ev.used t s .native ∈ h → st = true ∨ ∃ r, E r ∧ aixPower8 r = true) := by
  refine ⟨TwoWay.twoWay_no_mixing st _ _
    (probeOf_ne_zero E decodeAix d (fun r => (decodeAix_flag r).2))
    (probeOf_nonempty E decodeAix d hE) x, fun t s hu => ?_⟩
  refine (TwoWay.twoWay_only_reported st _ _ (probeOf_nonempty E decodeAix d hE) x hu).imp id ?_
  rintro ⟨v, hv, hb⟩
  obtain ⟨r, hr, h⟩ := probeOf_flag E decodeAix d quadwordAtomics (by decide) hv hb
  exact ⟨r, hr, by rw [← (decodeAix_flag r).1]; exact h⟩

end Powerpc64

namespace Riscv

/-- The kernel knows `riscv_hwprobe`, knows both keys, and reports IMA and Zacas. -/
def Reply.hasZacas (r : Reply) : Bool :=
  r.ok && r.key0 != BitVec.allOnes 64 && r.value0.getLsbD 0 && r.key1 != BitVec.allOnes 64 &&
    r.value1.getLsbD 34

theorem decode_flag (r : Reply) : testBit (decode r initInfo) zacas = r.hasZacas ∧
    testBit (decode r initInfo) 0 = true := by
  have e1 : (r.value0 &&& 1#64 != 0#64) = r.value0.getLsbD 0 :=
    Powerpc64.and_pow_ne r.value0 (i := 0) (by decide)
  simp only [decode, e1, Powerpc64.and_pow_ne _ (show 34 < 64 by decide), Reply.hasZacas]
  cases r.ok && r.key0 != BitVec.allOnes 64 && r.value0.getLsbD 0 && r.key1 != BitVec.allOnes 64 <;>
    simp [testBit_check, testBit_init, zacas]

/-- **C24/C25/C36** on riscv64 (128-bit) and riscv32 (64-bit). -/
theorem riscv_consistent (st : Bool) (E : Reply → Prop) (hE : ∃ r, E r) (d : Bool)
    {S : State σ TwoWay.Impl Tid} {h}
    (x : Exec (TwoWay.cfg st zacas (probeOf E decode d)) S h) :
    (∃ b, (∀ t s i, Ev.used t s i ∈ h → i.lockFree = b) ∧
      (∀ t c, Ev.lockFree t c ∈ h → c = b) ∧ (TwoWay.isAlways st = true → b = true)) ∧
    (∀ t s, Ev.used t s .native ∈ h → st = true ∨ ∃ r, E r ∧ r.hasZacas = true) := by
  refine ⟨TwoWay.twoWay_no_mixing st _ _ (probeOf_ne_zero E decode d (fun r => (decode_flag r).2))
    (probeOf_nonempty E decode d hE) x, fun t s hu => ?_⟩
  refine (TwoWay.twoWay_only_reported st _ _ (probeOf_nonempty E decode d hE) x hu).imp id ?_
  rintro ⟨v, hv, hb⟩
  obtain ⟨r, hr, h⟩ := probeOf_flag E decode d zacas (by decide) hv hb
  exact ⟨r, hr, by rw [← (decode_flag r).1]; exact h⟩

end Riscv

namespace X86

/-- **C24/C25/C36** on x86_64 built without asm (intrinsics.rs). -/
theorem x86_intrinsics_consistent (f : Flags) (st : Bool) (E : Reply → Prop) (hE : ∃ r, E r)
    (d : Bool) {S : State σ TwoWay.Impl Tid} {h}
    (x : Exec (TwoWay.cfg st cmpxchg16b (probeOf E (decode f) d)) S h) :
    (∃ b, (∀ t s i, Ev.used t s i ∈ h → i.lockFree = b) ∧
      (∀ t c, Ev.lockFree t c ∈ h → c = b) ∧ (TwoWay.isAlways st = true → b = true)) ∧
    (∀ t s, Ev.used t s .native ∈ h → st = true ∨ ∃ r, E r ∧ r.hasCx16 = true) := by
  refine ⟨TwoWay.twoWay_no_mixing st _ _
    (probeOf_ne_zero E (decode f) d (fun r => (decode_flags f r).2.2))
    (probeOf_nonempty E (decode f) d hE) x, fun t s hu => ?_⟩
  refine (TwoWay.twoWay_only_reported st _ _ (probeOf_nonempty E (decode f) d hE) x hu).imp id ?_
  rintro ⟨v, hv, hb⟩
  obtain ⟨r, hr, h⟩ := probeOf_flag E (decode f) d cmpxchg16b (by decide) hv hb
  exact ⟨r, hr, by rw [← (decode_flags f r).1]; exact h⟩

end X86

namespace ArmLinux

/-- **C24/C25/C36** on 32-bit Arm Linux: with kernel helper version 5 or newer every 64-bit
operation uses the kernel's compare-exchange and `is_lock_free()` is true, otherwise every one
uses the locks and it is false. -/
theorem armLinux_consistent (version : Int) {S : State σ TwoWay.Impl Tid} {h}
    (x : Exec (cfg version false) S h) :
    (∀ t s i, Ev.used t s i ∈ h → (i = .native ↔ 5 ≤ version)) ∧
      (∀ t c, Ev.lockFree t c ∈ h → (c = true ↔ 5 ≤ version)) := by
  have hx := one_answer_of_stable (cfg (Site := σ) version false) (decode version initInfo)
    (by rintro w ⟨r, rfl, rfl⟩; rfl) x
  have hb : testBit (decode version initInfo) 1 = decide (5 ≤ version) := by
    simp [decode, testBit_check, testBit_init]
  constructor
  · intro t s i hi
    have : i = _ := hx _ hi
    rw [this]
    simp only [Cfg.choice, cfg, Option.getD_none, hb]
    by_cases h : 5 ≤ version <;> simp [h]
  · intro t c hc
    have : c = _ := hx _ hc
    rw [this]
    simp [Cfg.answer, cfg, hb]

end ArmLinux

/-! ### AArch64 -/

namespace A64

/-- The build target guarantees the extension. -/
def Flags.has (f : Flags) (φ : Nat) : Bool :=
  (f.lse && φ == A64.lse) || (f.lse2 && φ == A64.lse2) || (f.lse128 && φ == A64.lse128) ||
    (f.rcpc3 && φ == A64.rcpc3)

set_option maxHeartbeats 1000000 in
theorem needs_ok (f : Flags) (v : Info) (s : Site) (P : Nat → Prop)
    (h1 : f.lse = true → P A64.lse) (h2 : f.lse2 = true → P A64.lse2)
    (h3 : f.lse128 = true → P A64.lse128) (h4 : f.rcpc3 = true → P A64.rcpc3)
    (ht : ∀ φ, testBit v φ = true → P φ) :
    ∀ φ ∈ ((direct f s).getD (pick f s v)).needs, P φ := by
  have t1 := ht A64.lse
  have t2 := ht A64.lse2
  have t3 := ht A64.lse128
  have t4 := ht A64.rcpc3
  clear ht
  have hno : ∀ φ ∈ (loadNoLse2 f).needs, P φ := by
    unfold loadNoLse2; split <;> simp_all [Impl.needs]
  have hns : ∀ φ ∈ (storeNoLse2 f).needs, P φ := by
    unfold storeNoLse2; split <;> simp_all [Impl.needs]
  have hld : P A64.lse2 → ∀ o, ∀ φ ∈ (loadLdp f o).needs, P φ := by
    intro hp o; cases o <;> simp only [loadLdp] <;> (try split) <;> simp_all [Impl.needs]
  have hst : P A64.lse2 → ∀ o, ∀ φ ∈ (storeStp f o).needs, P φ := by
    intro hp o; cases o <;> simp only [storeStp] <;> (try split) <;> (try split) <;>
      simp_all [Impl.needs]
  have hl : ∀ o, testBit v A64.lse2 = true → ∀ φ ∈
      (if !f.rcpc3 && testBit v A64.rcpc3 then Impl.ldiapp else loadLdp f o).needs, P φ := by
    intro o hb
    split
    · simp_all [Impl.needs]
    · exact hld (t2 hb) o
  have hs1 : testBit v A64.lse2 = true → ∀ φ ∈
      (if !f.lse128 && testBit v A64.lse128 then Impl.swpp
      else if !f.lse128 && !f.rcpc3 && testBit v A64.rcpc3 then .stilp
      else storeStp f .seqCst).needs, P φ := by
    intro hb
    split
    · simp_all [Impl.needs]
    · split
      · simp_all [Impl.needs]
      · exact hst (t2 hb) _
  have hs2 : ∀ o, testBit v A64.lse2 = true → ∀ φ ∈
      (if !f.rcpc3 && testBit v A64.rcpc3 then Impl.stilp
      else if !f.rcpc3 && !f.lse128 && testBit v A64.lse128 then .swpp
      else storeStp f o).needs, P φ := by
    intro o hb
    split
    · simp_all [Impl.needs]
    · split
      · simp_all [Impl.needs]
      · exact hst (t2 hb) _
  cases s with
  | load o =>
      simp only [direct]
      split
      · rename_i h; exact hld (h2 h) o
      · split
        · cases o <;> simp only [Option.getD_none, pick] <;> split <;>
            first | exact hno | exact hld (t2 ‹_›) _ | exact hl _ ‹_›
        · exact hno
  | store o =>
      simp only [direct]
      split
      · rename_i h; exact hst (h2 h) o
      · split
        · cases o <;> simp only [Option.getD_none, pick] <;> split <;>
            first | exact hns | exact hst (t2 ‹_›) _ | exact hs1 ‹_› | exact hs2 _ ‹_›
        · exact hns
  | cas o =>
      clear hno hns hld hst hl hs1 hs2
      simp only [direct]
      split
      · simp_all [Impl.needs]
      · split
        · simp only [Option.getD_none, pick]; split <;> simp_all [Impl.needs]
        · simp [Impl.needs]
  | swap | andOr | otherRmw =>
      clear hno hns hld hst hl hs1 hs2
      simp only [direct, Option.getD_some]
      split <;> (try split) <;> simp_all [Impl.needs]

/-- **C36** on AArch64: every extension an executed implementation needs is guaranteed by the build
target or was reported by the platform. -/
theorem a64_only_reported (f : Flags) (probe : Info → Prop) (hne : ∃ v, probe v)
    {S : State Site Impl Tid} {h} (x : Exec (cfg f probe) S h) {t s i} (hu : Ev.used t s i ∈ h)
    {φ : Nat} (hφ : φ ∈ i.needs) : f.has φ = true ∨ ∃ v, probe v ∧ testBit v φ = true := by
  obtain ⟨v, hv, he⟩ := each_explained (cfg f probe) hne x _ hu
  have hi : i = _ := he
  have := needs_ok f v s (fun φ => f.has φ = true ∨ testBit v φ = true)
    (fun h => .inl (by simp [Flags.has, h])) (fun h => .inl (by simp [Flags.has, h]))
    (fun h => .inl (by simp [Flags.has, h])) (fun h => .inl (by simp [Flags.has, h]))
    (fun φ h => .inr h) φ (by rw [hi] at hφ; exact hφ)
  exact this.imp id (fun h => ⟨v, hv, h⟩)

/-- **C25** on AArch64: `is_lock_free()` is always true. (There is no lock-based implementation to
mix with: `Impl` has none.) -/
theorem a64_lockFree (f : Flags) (probe : Info → Prop) (hne : ∃ v, probe v)
    {S : State Site Impl Tid} {h} (x : Exec (cfg f probe) S h) {t b} (hu : Ev.lockFree t b ∈ h) :
    b = true := by
  obtain ⟨v, -, he⟩ := each_explained (cfg f probe) hne x _ hu
  exact he

theorem decodeAuxv_flags (android : Bool) (r : AuxvReply) :
    let v := decodeAuxv android r initInfo
    let buggy := android && r.exynos9810 && r.hwcap.getLsbD 8
    testBit v lse = (r.hwcap.getLsbD 8 && !buggy) ∧ testBit v lse2 = (r.hwcap.getLsbD 25 && !buggy) ∧
    testBit v rcpc3 = (r.hwcap2.getLsbD 46 && !buggy) ∧
    testBit v lse128 = (r.hwcap2.getLsbD 47 && !buggy) ∧ testBit v 0 = true := by
  simp only [decodeAuxv, Powerpc64.and_pow_ne _ (show 8 < 64 by decide),
    Powerpc64.and_pow_ne _ (show 25 < 64 by decide),
    Powerpc64.and_pow_ne _ (show 46 < 64 by decide),
    Powerpc64.and_pow_ne _ (show 47 < 64 by decide)]
  cases android <;> cases r.exynos9810 <;> cases r.hwcap.getLsbD 8 <;>
    simp [testBit_check, testBit_setBit, testBit_init, lse, lse2, rcpc3, lse128]

/-- The value of the 4-bit ID register field whose lowest bit is bit `low`. -/
def field (x : BitVec 64) (low : Nat) : Nat := x.toNat / 2 ^ low % 16

theorem extract_field (x : BitVec 64) (low : Nat) :
    (extract x (low + 3) low).toNat = field x low := by
  have e : low + 3 - low + 1 = 4 := by omega
  have e15 : (1#64 <<< 4) - 1#64 = 15#64 := by decide
  simp only [extract, e, e15, field, BitVec.toNat_and, BitVec.toNat_ushiftRight,
    Nat.shiftRight_eq_div_pow]
  have : (15#64).toNat = 2 ^ 4 - 1 := by decide
  rw [this, Nat.and_two_pow_sub_one_eq_mod]

theorem decodeReg_flags (r : RegReply) :
    let v := decodeReg r initInfo
    testBit v lse = decide (2 ≤ field r.isar0 20) ∧ testBit v lse128 = decide (3 ≤ field r.isar0 20) ∧
    testBit v rcpc3 = decide (3 ≤ field r.isar1 20) ∧ testBit v lse2 = decide (1 ≤ field r.mmfr2 32) ∧
    testBit v 0 = true := by
  have le (n : Nat) (hn : n < 2 ^ 64) (x : BitVec 64) :
      (BitVec.ofNat 64 n ≤ x) ↔ n ≤ x.toNat := by
    rw [BitVec.le_def, BitVec.toNat_ofNat, Nat.mod_eq_of_lt hn]
  have f1 := extract_field r.isar0 20
  have f2 := extract_field r.isar1 20
  have f3 := extract_field r.mmfr2 32
  simp only [decodeReg, le 2 (by decide), le 3 (by decide), le 1 (by decide), f1, f2, f3]
  by_cases h2 : 2 ≤ field r.isar0 20
  · simp [h2, testBit_check, testBit_setBit, testBit_init, lse, lse2, rcpc3, lse128]
  · have h3 : ¬ 3 ≤ field r.isar0 20 := by omega
    simp [h2, h3, testBit_check, testBit_init, lse, lse2, rcpc3, lse128]

theorem decodePlain_flags (r : Bool × Bool) :
    let v := decodePlain r initInfo
    testBit v lse = r.1 ∧ testBit v lse2 = r.2 ∧ testBit v rcpc3 = false ∧ testBit v lse128 = false ∧
    testBit v 0 = true := by
  simp [decodePlain, testBit_check, testBit_init, lse, lse2, rcpc3, lse128]

end A64
end Verif.Detect
