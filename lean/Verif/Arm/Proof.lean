import Verif.Arm.Sim
import Verif.Arm.Select
/-!
# Every call of the AArch64 back end is correct at its accesses (C37): proof
-/
set_option autoImplicit false
namespace Verif.Arm
open Verif.Object Verif.Lf Verif.Asm Verif.Wide
open Verif.X86 (fn3 fn2)

theorem fn3_sem (o : Op3) (v x : BitVec 128) : (WOp.rmw3 o v).Sem x (fn3 o v x) (.val x) := by
  have h := X86.fn3_sem o v x
  cases o <;> exact h

theorem fn2_sem (o : Op2) (x : BitVec 128) : (WOp.rmw2 o).Sem x (fn2 o x) (.val x) := by
  have h := X86.fn2_sem o x
  cases o <;> exact h

variable {E : Env} {order : Call → Nat → Bool} {c : Call}

theorem entry_of {b : Block} {op : WOp} (hb : c.block E = b) (hop : c.op = op) :
    c.entry E = (b.ins E.endian op).foldr (fun p s => s.set p.1 p.2) (c.st.set (b.base c.al) c.addr) := by
  subst hb hop; rfl

theorem prog_of {b : Block} (hb : c.block E = b) :
    (blocks E order).prog c = b.code E.endian c.al := by
  subst hb; rfl

/-- What `Call.result` makes of the value found. -/
def resOf : WOp → BitVec 128 → Res (BitVec 128)
  | .store _, _ => .unit
  | .cas old _, x | .casWeak old _, x => if x = old then .ok x else .err x
  | _, x => .val x

theorem result_of {b : Block} {op : WOp} (hb : c.block E = b) (hop : c.op = op) (s : St) :
    c.result E s = resOf op (join E.endian (s.get b.resRegs.1) (s.get b.resRegs.2)) := by
  subst hb hop; unfold Call.result resOf; cases c.op <;> rfl

/-- Entry values of registers. -/
macro "entry" hb:term:max hop:term:max : tactic =>
  `(tactic| (rw [entry_of $hb $hop]; simp [Block.ins, Block.base, get_set, WOp.arg, WOp.old]))

theorem sem_load {x x' : BitVec 128} {o : MemOrd} (ho : o ≠ .release ∧ o ≠ .acqRel) {r : Res (BitVec 128)}
    (h : (Acc.op (.load o)).sem x x' r) : x' = x ∧ r = .val x := by
  cases o <;> simp_all [Acc.sem, Op.onCell, Op.ordOk]

theorem sem_store {x x' v : BitVec 128} {o : MemOrd} (ho : o ≠ .acquire ∧ o ≠ .acqRel) {r : Res (BitVec 128)}
    (h : (Acc.op (.store v o)).sem x x' r) : x' = v ∧ r = .unit := by
  cases o <;> simp_all [Acc.sem, Op.onCell, Op.ordOk]

theorem sem_rmw {x x' : BitVec 128} {f : BitVec 128 → BitVec 128} {o : MemOrd} {r : Res (BitVec 128)}
    (h : (Acc.op (.rmw f o)).sem x x' r) : x' = f x ∧ r = .val x := by
  cases o <;> simpa [Acc.sem, Op.onCell, Op.ordOk] using h

theorem sem_cas {x x' old new : BitVec 128} {r : Res (BitVec 128)}
    (h : (Acc.op (.cas old new .relaxed .relaxed)).sem x x' r) :
    (x = old ∧ x' = new ∧ r = .ok x) ∨ (x ≠ old ∧ x' = x ∧ r = .err x) := by
  simp only [Acc.sem, Op.onCell, Op.ordOk] at h
  by_cases hx : x = old
  · simp [hx] at h; exact Or.inl ⟨hx, h.1, by rw [h.2, hx]⟩
  · simp [hx] at h; exact Or.inr ⟨hx, h⟩

theorem get_xzr (s : St) : s.get .xzr = 0 := rfl

/-! ## Loops around `ldxp`/`stxp` -/

theorem pt_rmw3Lx {p : Op3} {v : BitVec 128} {m : Mode} (hop : c.op = .rmw3 p v)
    (hb : c.block E = .rmw3Lx p m) : Nonempty (Correct (blocks E order) (spec E) c) := by
  refine ⟨llscPoints m.acq m.rel m.fence .prevLo .prevHi .newLo .newHi .r .dst (bodyLx3 E.endian p)
    (fun w0 w1 s => s.get .prevLo = w0 ∧ s.get .prevHi = w1 ∧
      join E.endian (s.get .newLo) (s.get .newHi) = fn3 p v (join E.endian w0 w1))
    (prog_of hb) ?_ ?_ ?_ ?_ ?_ ?_ ?_ ?_ ?_⟩
  · rw [hb]; simp [Block.outs]
  · entry hb hop
  · rw [hb]; simp [Block.outs]
  · decide
  · decide
  · decide
  · decide
  · intro s w0 w1 hs
    obtain ⟨s', h1, h2, h3, h4⟩ := bodyLx3_run E.endian p ((s.set .prevLo w0).set .prevHi w1)
    have ho : ∀ q, q ∈ (c.block E).outs c.al ↔ q ∈ [Reg.prevLo, .prevHi, .newLo, .newHi, .r] := by
      intro q; rw [hb]; rfl
    have hv1 : s.get .valLo = word E.endian v false :=
      (hs.1 _ (by rw [ho]; decide)).trans (by entry hb hop)
    have hv2 : s.get .valHi = word E.endian v true :=
      (hs.1 _ (by rw [ho]; decide)).trans (by entry hb hop)
    refine ⟨s', h1, ?_, ?_, ?_, ?_⟩
    · refine ((hs.set (q := .prevLo) (x := w0) (by rw [ho]; decide)).set
        (q := .prevHi) (x := w1) (by rw [ho]; decide)).frame (fun q hq => h3 q ?_ ?_) (fun hp => h4 ?_)
      · rintro rfl; exact hq ((ho _).2 (by decide))
      · rintro rfl; exact hq ((ho _).2 (by decide))
      · rw [hb] at hp; cases p <;> first | rfl | simp [Block.preservesFlags] at hp
    · rw [h3 _ (by decide) (by decide)]; simp [get_set]
    · rw [h3 _ (by decide) (by decide)]; simp [get_set]
    · rw [h2]
      simp only [get_set, reduceCtorEq, if_false, if_true, hv1, hv2, word_join]
  · rintro s x hs ⟨h1, h2, h3⟩
    rw [h3, word_join, hop, result_of hb hop]
    have : join E.endian ((s.set Reg.r 0).get .prevLo) ((s.set Reg.r 0).get .prevHi) = x := by
      simp only [get_set, reduceCtorEq, if_false, h1, h2, word_join]
    simp only [Block.resRegs, this]
    exact fn3_sem p v x

theorem pt_rmw2Lx {p : Op2} {m : Mode} (hop : c.op = .rmw2 p)
    (hb : c.block E = .rmw2Lx p m) : Nonempty (Correct (blocks E order) (spec E) c) := by
  refine ⟨llscPoints m.acq m.rel m.fence .prevLo .prevHi .newLo .newHi .r .dst (bodyLx2 E.endian p)
    (fun w0 w1 s => s.get .prevLo = w0 ∧ s.get .prevHi = w1 ∧
      join E.endian (s.get .newLo) (s.get .newHi) = fn2 p (join E.endian w0 w1))
    (prog_of hb) ?_ ?_ ?_ ?_ ?_ ?_ ?_ ?_ ?_⟩
  · rw [hb]; simp [Block.outs]
  · entry hb hop
  · rw [hb]; simp [Block.outs]
  · decide
  · decide
  · decide
  · decide
  · intro s w0 w1 hs
    obtain ⟨s', h1, h2, h3, h4⟩ := bodyLx2_run E.endian p ((s.set .prevLo w0).set .prevHi w1)
    have ho : ∀ q, q ∈ (c.block E).outs c.al ↔ q ∈ [Reg.prevLo, .prevHi, .newLo, .newHi, .r] := by
      intro q; rw [hb]; rfl
    refine ⟨s', h1, ?_, ?_, ?_, ?_⟩
    · refine ((hs.set (q := .prevLo) (x := w0) (by rw [ho]; decide)).set
        (q := .prevHi) (x := w1) (by rw [ho]; decide)).frame (fun q hq => h3 q ?_ ?_) (fun hp => h4 ?_)
      · rintro rfl; exact hq ((ho _).2 (by decide))
      · rintro rfl; exact hq ((ho _).2 (by decide))
      · rw [hb] at hp; cases p <;> first | rfl | simp [Block.preservesFlags] at hp
    · rw [h3 _ (by decide) (by decide)]; simp [get_set]
    · rw [h3 _ (by decide) (by decide)]; simp [get_set]
    · rw [h2]
      simp only [get_set, reduceCtorEq, if_false, if_true]
  · rintro s x hs ⟨h1, h2, h3⟩
    rw [h3, word_join, hop, result_of hb hop]
    have : join E.endian ((s.set Reg.r 0).get .prevLo) ((s.set Reg.r 0).get .prevHi) = x := by
      simp only [get_set, reduceCtorEq, if_false, h1, h2, word_join]
    simp only [Block.resRegs, this]
    exact fn2_sem p x

theorem pt_swapLx {v : BitVec 128} {m : Mode} (hop : c.op = .swap v)
    (hb : c.block E = .swapLx m) : Nonempty (Correct (blocks E order) (spec E) c) := by
  refine ⟨llscPoints m.acq m.rel m.fence .prevLo .prevHi .valLo .valHi .r .dst []
    (fun w0 w1 s => s.get .prevLo = w0 ∧ s.get .prevHi = w1)
    (prog_of hb) ?_ ?_ ?_ ?_ ?_ ?_ ?_ ?_ ?_⟩
  · rw [hb]; simp [Block.outs]
  · entry hb hop
  · rw [hb]; simp [Block.outs]
  · decide
  · decide
  · decide
  · decide
  · intro s w0 w1 hs
    refine ⟨_, rfl, (hs.set ?_).set ?_, ?_, ?_⟩
    · rw [hb]; simp [Block.outs]
    · rw [hb]; simp [Block.outs]
    · simp [get_set]
    · simp [get_set]
  · rintro s x hs ⟨h1, h2⟩
    have hv1 : s.get .valLo = word E.endian v false :=
      (hs.1 _ (by rw [hb]; simp [Block.outs])).trans (by entry hb hop)
    have hv2 : s.get .valHi = word E.endian v true :=
      (hs.1 _ (by rw [hb]; simp [Block.outs])).trans (by entry hb hop)
    rw [hv1, hv2, word_join, hop, result_of hb hop]
    have : join E.endian ((s.set Reg.r 0).get .prevLo) ((s.set Reg.r 0).get .prevHi) = x := by
      simp only [get_set, reduceCtorEq, if_false, h1, h2, word_join]
    simp only [Block.resRegs, this]
    exact ⟨rfl, rfl⟩

theorem pt_loadLx {a l : Bool} (hop : c.op = .load)
    (hb : c.block E = .loadLx a l) : Nonempty (Correct (blocks E order) (spec E) c) := by
  refine ⟨llscPoints a l false .outLo .outHi .outLo .outHi .r .dst []
    (fun w0 w1 s => s.get .outLo = w0 ∧ s.get .outHi = w1)
    (prog_of hb) ?_ ?_ ?_ ?_ ?_ ?_ ?_ ?_ ?_⟩
  · rw [hb]; simp [Block.outs]
  · entry hb hop
  · rw [hb]; simp [Block.outs]
  · decide
  · decide
  · decide
  · decide
  · intro s w0 w1 hs
    refine ⟨_, rfl, (hs.set ?_).set ?_, ?_, ?_⟩
    · rw [hb]; simp [Block.outs]
    · rw [hb]; simp [Block.outs]
    · simp [get_set]
    · simp [get_set]
  · rintro s x hs ⟨h1, h2⟩
    rw [h1, h2, word_join, hop, result_of hb hop]
    have : join E.endian ((s.set Reg.r 0).get .outLo) ((s.set Reg.r 0).get .outHi) = x := by
      simp only [get_set, reduceCtorEq, if_false, h1, h2, word_join]
    simp only [Block.resRegs, this]
    exact ⟨rfl, rfl⟩

theorem pt_storeLx {v : BitVec 128} {m : Mode} (hop : c.op = .store v)
    (hb : c.block E = .storeLx m) : Nonempty (Correct (blocks E order) (spec E) c) := by
  refine ⟨llscPoints m.acq m.rel m.fence .xzr .tmp .valLo .valHi .tmp .dst []
    (fun _ _ _ => True)
    (prog_of hb) ?_ ?_ ?_ ?_ ?_ ?_ ?_ ?_ ?_⟩
  · rw [hb]; simp [Block.outs]
  · entry hb hop
  · rw [hb]; simp [Block.outs]
  · decide
  · decide
  · decide
  · decide
  · intro s w0 w1 hs
    have h1 : Preserved E c (s.set .xzr w0) := by
      refine hs.frame (fun q _ => ?_) (fun _ => ⟨rfl, rfl, rfl, rfl⟩)
      rw [get_set]; by_cases hq : q = .xzr <;> simp [hq, St.get]
    exact ⟨_, rfl, h1.set (by rw [hb]; simp [Block.outs]), trivial⟩
  · rintro s x hs -
    have hv1 : s.get .valLo = word E.endian v false :=
      (hs.1 _ (by rw [hb]; simp [Block.outs])).trans (by entry hb hop)
    have hv2 : s.get .valHi = word E.endian v true :=
      (hs.1 _ (by rw [hb]; simp [Block.outs])).trans (by entry hb hop)
    rw [hv1, hv2, word_join, hop, result_of hb hop]
    exact ⟨rfl, rfl⟩

/-- A compare-exchange that says what it found is right for both versions. -/
theorem cas_sem {x old new : BitVec 128} {op : WOp} (hop : op = .cas old new ∨ op = .casWeak old new) :
    op.Sem x (if x = old then new else x) (if x = old then .ok x else .err x) := by
  rcases hop with rfl | rfl <;> by_cases h : x = old <;> simp [WOp.Sem, h]

theorem result_cas {b : Block} {old new : BitVec 128} (hb : c.block E = b)
    (hop : c.op = .cas old new ∨ c.op = .casWeak old new) {s : St} {x : BitVec 128}
    (h : join E.endian (s.get b.resRegs.1) (s.get b.resRegs.2) = x) :
    c.result E s = if x = old then .ok x else .err x := by
  rcases hop with hop | hop <;> rw [result_of hb hop] <;> simp only [h] <;> rfl

theorem entry_cas {b : Block} {old new : BitVec 128} (hb : c.block E = b)
    (hop : c.op = .cas old new ∨ c.op = .casWeak old new) :
    c.entry E = (b.ins E.endian (.cas old new)).foldr (fun p s => s.set p.1 p.2)
      (c.st.set (b.base c.al) c.addr) := by
  rcases hop with hop | hop <;> rw [entry_of hb hop] <;> cases b <;> rfl

theorem pt_casLx {old new : BitVec 128} {m : Mode} (hop : c.op = .cas old new ∨ c.op = .casWeak old new)
    (hb : c.block E = .casLx m) : Nonempty (Correct (blocks E order) (spec E) c) := by
  have hent := entry_cas hb hop
  have hget : ∀ q, (c.entry E).get q = if q = .dst then c.addr else if q = .oldLo then word E.endian old false
      else if q = .oldHi then word E.endian old true else if q = .newLo then word E.endian new false
      else if q = .newHi then word E.endian new true else c.st.get q := by
    intro q
    rw [hent]
    cases q <;> simp [Block.ins, Block.base, get_set, WOp.arg, WOp.old, get_xzr]
  have ho : ∀ q, q ∈ (c.block E).outs c.al ↔ q ∈ [Reg.prevLo, .prevHi, .r, .tmpLo, .tmpHi] := by
    intro q; rw [hb]; rfl
  have hpf : (c.block E).preservesFlags = false := by rw [hb]; rfl
  refine ⟨llscPoints m.acq m.rel m.fence .prevLo .prevHi .tmpLo .tmpHi .r .dst
    [.cmp .prevLo .oldLo, .ccmp .prevHi .oldHi .eq,
      .csel .tmpLo .newLo .prevLo .eq, .csel .tmpHi .newHi .prevHi .eq]
    (fun w0 w1 s => s.get .prevLo = w0 ∧ s.get .prevHi = w1 ∧
      join E.endian (s.get .tmpLo) (s.get .tmpHi) =
        if join E.endian w0 w1 = old then new else join E.endian w0 w1)
    (prog_of hb) ?_ ?_ ?_ ?_ ?_ ?_ ?_ ?_ ?_⟩
  · rw [ho]; decide
  · rw [hget]; rfl
  · rw [ho]; decide
  · decide
  · decide
  · decide
  · decide
  · intro s w0 w1 hs
    obtain ⟨s1, h1, h2, h3⟩ := cmp_ccmp .prevLo .oldLo .prevHi .oldHi ((s.set .prevLo w0).set .prevHi w1)
    have hrun : execs [.csel .tmpLo .newLo .prevLo .eq, .csel .tmpHi .newHi .prevHi .eq] s1 =
        some ((s1.set .tmpLo (if s1.z then s1.get .newLo else s1.get .prevLo)).set .tmpHi
          (if s1.z then s1.get .newHi else s1.get .prevHi)) := by
      rfl
    refine ⟨_, execs_append h1 hrun, ?_, ?_, ?_, ?_⟩
    · have hP1 : Preserved E c s1 := ((hs.set (q := .prevLo) (x := w0) (by rw [ho]; decide)).set
        (q := .prevHi) (x := w1) (by rw [ho]; decide)).frame (fun q _ => h2 q) (fun h => by simp [hpf] at h)
      exact (hP1.set (by rw [ho]; decide)).set (by rw [ho]; decide)
    · simp [get_set, h2]
    · simp [get_set, h2]
    · have hz : s1.z = decide (join E.endian w0 w1 = old) := by
        rw [h3]
        apply decide_eq_decide.2
        simp only [get_set, reduceCtorEq, if_false, if_true,
          hs.1 .oldLo (by rw [ho]; decide), hs.1 .oldHi (by rw [ho]; decide), hget]
        constructor
        · rintro ⟨rfl, rfl⟩; exact word_join _ _
        · rintro rfl; exact ⟨(word_false _ _ _).symm, (word_true _ _ _).symm⟩
      simp only [get_set, reduceCtorEq, if_false, if_true, h2,
        hs.1 .newLo (by rw [ho]; decide), hs.1 .newHi (by rw [ho]; decide), hget]
      rw [join_ite, word_join, hz]
      simp
  · rintro s x hs ⟨h1, h2, h3⟩
    rw [h3, word_join]
    rw [result_cas (x := x) hb hop (by
      simp only [Block.resRegs, get_set, reduceCtorEq, if_false, h1, h2, word_join])]
    exact cas_sem hop

/-! ## `casp` loops -/

theorem pt_rmw3Cas (p : Op3) {v : BitVec 128} {m : Mode} (hf : E.cpu.lse = true) (hop : c.op = .rmw3 p v)
    (hb : c.block E = .rmw3Cas p m) : Nonempty (Correct (blocks E order) (spec E) c) := by
  have ho : ∀ q, q ∈ (c.block E).outs c.al ↔ q ∈ [Reg.tmpLo, .tmpHi, .x6, .x7, .x4, .x5] := by
    intro q; rw [hb]; rfl
  have hpf : (c.block E).preservesFlags = false := by rw [hb]; rfl
  refine ⟨CaspLoop.correct (q := m.acq) (q' := m.rel) (s1 := .x6) (s2 := .x7) (n1 := .x4) (n2 := .x5)
    (base := .dst) (body := bodyCas3 E.endian p)
    (M := fun s => join E.endian (s.get .x4) (s.get .x5) = fn3 p v (join E.endian (s.get .x6) (s.get .x7)))
    ⟨hf, hpf, by rw [prog_of hb]; simp [Block.code, loopCas], by rw [ho]; decide, (by entry hb hop),
      by rw [ho]; decide, by rw [ho]; decide, rfl, rfl,
      by decide, by decide, by decide, by decide, by decide, by decide, by decide, ?_, ?_⟩⟩
  · intro s hs
    have hv1 : s.get .valLo = word E.endian v false :=
      (hs.1 _ (by rw [ho]; decide)).trans (by entry hb hop)
    have hv2 : s.get .valHi = word E.endian v true :=
      (hs.1 _ (by rw [ho]; decide)).trans (by entry hb hop)
    obtain ⟨s', h1, h2, h3⟩ := bodyCas3_run E.endian p ((s.set .tmpLo (s.get .x6)).set .tmpHi (s.get .x7))
    refine ⟨s', execs_append (s1 := (s.set .tmpLo (s.get .x6)).set .tmpHi (s.get .x7)) ?_ h1, ?_, ?_, ?_, ?_, ?_, ?_⟩
    · simp [execs, Ins.exec, get_set]
    · refine ((hs.set (q := .tmpLo) (by rw [ho]; decide)).set
        (q := .tmpHi) (by rw [ho]; decide)).frame (fun q hq => h3 q ?_ ?_) (fun h => by simp [hpf] at h)
      · rintro rfl; exact hq ((ho _).2 (by decide))
      · rintro rfl; exact hq ((ho _).2 (by decide))
    · rw [h3 _ (by decide) (by decide), h3 _ (by decide) (by decide)]; simp [get_set]
    · rw [h3 _ (by decide) (by decide), h3 _ (by decide) (by decide)]; simp [get_set]
    · rw [h3 _ (by decide) (by decide)]; simp [get_set]
    · rw [h3 _ (by decide) (by decide)]; simp [get_set]
    · rw [h2, h3 .x6 (by decide) (by decide), h3 .x7 (by decide) (by decide)]
      simp only [get_set, reduceCtorEq, if_false, hv1, hv2, word_join]
  · intro s s' hs hm h1 h2
    rw [hm, hop, result_of hb hop]
    simp only [Block.resRegs, h1, h2]
    exact fn3_sem p v _

theorem pt_rmw2Cas (p : Op2) {m : Mode} (hf : E.cpu.lse = true) (hop : c.op = .rmw2 p)
    (hb : c.block E = .rmw2Cas p m) : Nonempty (Correct (blocks E order) (spec E) c) := by
  have ho : ∀ q, q ∈ (c.block E).outs c.al ↔ q ∈ [Reg.tmpLo, .tmpHi, .x6, .x7, .x4, .x5] := by
    intro q; rw [hb]; rfl
  have hpf : (c.block E).preservesFlags = false := by rw [hb]; rfl
  refine ⟨CaspLoop.correct (q := m.acq) (q' := m.rel) (s1 := .x6) (s2 := .x7) (n1 := .x4) (n2 := .x5)
    (base := .dst) (body := bodyCas2 E.endian p)
    (M := fun s => join E.endian (s.get .x4) (s.get .x5) = fn2 p (join E.endian (s.get .x6) (s.get .x7)))
    ⟨hf, hpf, by rw [prog_of hb]; simp [Block.code, loopCas], by rw [ho]; decide, (by entry hb hop),
      by rw [ho]; decide, by rw [ho]; decide, rfl, rfl,
      by decide, by decide, by decide, by decide, by decide, by decide, by decide, ?_, ?_⟩⟩
  · intro s hs
    obtain ⟨s', h1, h2, h3⟩ := bodyCas2_run E.endian p ((s.set .tmpLo (s.get .x6)).set .tmpHi (s.get .x7))
    refine ⟨s', execs_append (s1 := (s.set .tmpLo (s.get .x6)).set .tmpHi (s.get .x7)) ?_ h1, ?_, ?_, ?_, ?_, ?_, ?_⟩
    · simp [execs, Ins.exec, get_set]
    · refine ((hs.set (q := .tmpLo) (by rw [ho]; decide)).set
        (q := .tmpHi) (by rw [ho]; decide)).frame (fun q hq => h3 q ?_ ?_) (fun h => by simp [hpf] at h)
      · rintro rfl; exact hq ((ho _).2 (by decide))
      · rintro rfl; exact hq ((ho _).2 (by decide))
    · rw [h3 _ (by decide) (by decide), h3 _ (by decide) (by decide)]; simp [get_set]
    · rw [h3 _ (by decide) (by decide), h3 _ (by decide) (by decide)]; simp [get_set]
    · rw [h3 _ (by decide) (by decide)]; simp [get_set]
    · rw [h3 _ (by decide) (by decide)]; simp [get_set]
    · rw [h2, h3 .x6 (by decide) (by decide), h3 .x7 (by decide) (by decide)]
  · intro s s' hs hm h1 h2
    rw [hm, hop, result_of hb hop]
    simp only [Block.resRegs, h1, h2]
    exact fn2_sem p _

theorem pt_swapCasp {v : BitVec 128} {m : Mode} (hf : E.cpu.lse = true)
    (hop : c.op = .swap v ∨ c.op = .store v)
    (hb : c.block E = .swapCasp m) : Nonempty (Correct (blocks E order) (spec E) c) := by
  have ho : ∀ q, q ∈ (c.block E).outs c.al ↔ q ∈ [Reg.tmpLo, .tmpHi, .x4, .x5] := by
    intro q; rw [hb]; rfl
  have hpf : (c.block E).preservesFlags = false := by rw [hb]; rfl
  have hent : ∀ q, (c.entry E).get q = if q = .dst then c.addr else if q = .x2 then word E.endian v false
      else if q = .x3 then word E.endian v true else c.st.get q := by
    intro q
    rcases hop with hop | hop <;> rw [entry_of hb hop] <;> cases q <;>
      simp [Block.ins, Block.base, get_set, WOp.arg, WOp.old, get_xzr]
  refine ⟨CaspLoop.correct (q := m.acq) (q' := m.rel) (s1 := .x4) (s2 := .x5) (n1 := .x2) (n2 := .x3)
    (base := .dst) (body := []) (M := fun _ => True)
    ⟨hf, hpf, by rw [prog_of hb]; simp [Block.code], by rw [ho]; decide, (by rw [hent]; rfl),
      by rw [ho]; decide, by rw [ho]; decide, rfl, rfl,
      by decide, by decide, by decide, by decide, by decide, by decide, by decide, ?_, ?_⟩⟩
  · intro s hs
    refine ⟨(s.set .tmpLo (s.get .x4)).set .tmpHi (s.get .x5), ?_, ?_, ?_, ?_, ?_, ?_, trivial⟩
    · simp [execs, Ins.exec, get_set]
    · exact (hs.set (q := .tmpLo) (by rw [ho]; decide)).set (q := .tmpHi) (by rw [ho]; decide)
    · simp [get_set]
    · simp [get_set]
    · simp [get_set]
    · simp [get_set]
  · intro s s' hs hm h1 h2
    have hv1 : s.get .x2 = word E.endian v false :=
      (hs.1 _ (by rw [ho]; decide)).trans (by rw [hent]; rfl)
    have hv2 : s.get .x3 = word E.endian v true :=
      (hs.1 _ (by rw [ho]; decide)).trans (by rw [hent]; rfl)
    rw [hv1, hv2, word_join]
    rcases hop with hop | hop <;> rw [hop, result_of hb hop]
    · simp only [Block.resRegs, h1, h2]
      exact ⟨rfl, rfl⟩
    · exact ⟨rfl, rfl⟩

/-! ## Single accesses -/

theorem preserved_post {s : St} (h : Preserved E c s) (f : Bool) :
    execs (fenceIf f) s = some s ∧ Preserved E c s := by
  refine ⟨?_, h⟩
  cases f <;> rfl

theorem pt_casCasp {old new : BitVec 128} {m : Mode} (hf : E.cpu.lse = true)
    (hop : c.op = .cas old new ∨ c.op = .casWeak old new)
    (hb : c.block E = .casCasp m) : Nonempty (Correct (blocks E order) (spec E) c) := by
  have hent := entry_cas hb hop
  have ho : ∀ q, q ∈ (c.block E).outs c.al ↔ q ∈ [Reg.x6, .x7] := by
    intro q; rw [hb]; rfl
  have hget : ∀ q, (c.entry E).get q = if q = .dst then c.addr else if q = .x6 then word E.endian old false
      else if q = .x7 then word E.endian old true else if q = .x4 then word E.endian new false
      else if q = .x5 then word E.endian new true else c.st.get q := by
    intro q
    rw [hent]
    cases q <;> simp [Block.ins, Block.base, get_set, WOp.arg, WOp.old, get_xzr]
  refine ⟨onePoints [] (.casp m.acq m.rel .x6 .x7 .x4 .x5 .dst) []
    (prog_of hb) _ _ rfl
    (sem_casp E.cpu _ _ _ (q := m.acq) (q' := m.rel) (by rw [hget]; rfl) hf rfl rfl) ?_⟩
  intro x x' r hr
  simp only [hget, reduceCtorEq, if_false, if_true, word_join] at hr
  have hx' : x' = if x = old then new else x := by
    rcases sem_cas hr with ⟨h1, h2, _⟩ | ⟨h1, h2, _⟩ <;> simp [h1, h2]
  have hg : (c.entry E).got E.endian .x6 .x7 r =
      ((c.entry E).set .x6 (word E.endian x false)).set .x7 (word E.endian x true) := by
    rcases sem_cas hr with ⟨_, _, rfl⟩ | ⟨_, _, rfl⟩ <;> rfl
  refine ⟨_, rfl, ?_, preserved_entry.got (by rw [ho]; decide) (by rw [ho]; decide)⟩
  rw [hx', result_cas (x := x) hb hop]
  · exact cas_sem hop
  · rw [hg]
    simp only [Block.resRegs, get_set, reduceCtorEq, if_false, if_true, word_join]

theorem pt_loadCasp {a l : Bool} (hf : E.cpu.lse = true) (hop : c.op = .load)
    (hb : c.block E = .loadCasp a l) : Nonempty (Correct (blocks E order) (spec E) c) := by
  have ho : ∀ q, q ∈ (c.block E).outs c.al ↔ q ∈ [Reg.x2, .x3] := by
    intro q; rw [hb]; rfl
  have hget : ∀ q, (c.entry E).get q = if q = .dst then c.addr else if q = .x2 then 0
      else if q = .x3 then 0 else c.st.get q := by
    intro q
    rw [entry_of hb hop]
    cases q <;> simp [Block.ins, Block.base, get_set, WOp.arg, WOp.old, get_xzr]
  refine ⟨onePoints [] (.casp a l .x2 .x3 .x2 .x3 .dst) []
    (prog_of hb) _ _ rfl
    (sem_casp E.cpu _ _ _ (q := a) (q' := l) (by rw [hget]; rfl) hf rfl rfl) ?_⟩
  intro x x' r hr
  have hx' : x' = x := by
    rcases sem_cas hr with ⟨h1, h2, _⟩ | ⟨h1, h2, _⟩ <;> simp [h1, h2]
  have hg : (c.entry E).got E.endian .x2 .x3 r =
      ((c.entry E).set .x2 (word E.endian x false)).set .x3 (word E.endian x true) := by
    rcases sem_cas hr with ⟨_, _, rfl⟩ | ⟨_, _, rfl⟩ <;> rfl
  refine ⟨_, rfl, ?_, preserved_entry.got (by rw [ho]; decide) (by rw [ho]; decide)⟩
  rw [hx', hop, result_of hb hop, hg]
  simp only [Block.resRegs, get_set, reduceCtorEq, if_false, if_true, word_join]
  exact ⟨rfl, rfl⟩


section
variable (f : Feat) (e : Endian) (addr : BitVec 64) (s : St)

theorem eff_ldiapp {a b base : Reg} (h : s.get base = addr) (hab : a ≠ b) (h2 : f.lse2 = true)
    (h3 : f.rcpc3 = true) :
    Ins.eff f e addr (.ldiapp a b base) s = .acc (.op (.load .acquire)) (s.got e a b) :=
  if_pos (c := s.get base = addr ∧ a ≠ b ∧ f.lse2 ∧ f.rcpc3) ⟨h, hab, h2, h3⟩

theorem eff_stp {a b base : Reg} (h : s.get base = addr) (h2 : f.lse2 = true) :
    Ins.eff f e addr (.stp a b base) s =
      .acc (.op (.store (join e (s.get a) (s.get b)) .relaxed)) fun _ => s :=
  if_pos (c := s.get base = addr ∧ f.lse2) ⟨h, h2⟩

theorem eff_stilp {a b base : Reg} (h : s.get base = addr) (h2 : f.lse2 = true) (h3 : f.rcpc3 = true) :
    Ins.eff f e addr (.stilp a b base) s =
      .acc (.op (.store (join e (s.get a) (s.get b)) .release)) fun _ => s :=
  if_pos (c := s.get base = addr ∧ f.lse2 ∧ f.rcpc3) ⟨h, h2, h3⟩

theorem eff_pair {k : Pair128} {q q' : Bool} {a b base : Reg} (h : s.get base = addr)
    (h2 : f.lse128 = true) (hab : a ≠ b) (ha : a ≠ .xzr) (hb : b ≠ .xzr) :
    Ins.eff f e addr (.pair k q q' a b base) s =
      .acc (.op (.rmw (k.fn (join e (s.get a) (s.get b))) .relaxed)) (s.got e a b) :=
  if_pos (c := s.get base = addr ∧ f.lse128 ∧ a ≠ b ∧ a ≠ .xzr ∧ b ≠ .xzr) ⟨h, h2, hab, ha, hb⟩

theorem sem_inst {w : BitVec 32} {j : Ins} (h : decode w = some j) :
    Ins.sem f e addr (.inst w) s = j.eff f e addr s := by
  show (match decode w with | some j => j.eff f e addr s | none => .fault) = _
  rw [h]

theorem sem_ldp_whole {a b base : Reg} (h : s.get base = addr) (hab : a ≠ b) (h2 : f.lse2 = true) :
    Ins.sem f e addr (.ldp a b base) s = .acc (.op (.load .relaxed)) (s.got e a b) := by
  rw [sem_ldp f e addr s h hab, h2]; rfl

end

/-- The words of `aarch64.rs` L1620-L1635, L2034-L2047, L2110-L2123 are the instructions in their
comments. -/
theorem decode_pair (k : Pair128) (o : MemOrd) :
    decode (pairWord k (instDigit o)) = some (.pair k (rmwMode false o o).acq (rmwMode false o o).rel
      (if k = .ldclrp then .x8 else .x2) .x1 .x0) := by
  cases k <;> cases o <;> decide

theorem decode_ldiapp : decode 0xd9411800#32 = some (.ldiapp .x0 .x1 .x0) := by decide

theorem decode_stilp : decode 0xd9031802#32 = some (.stilp .x2 .x3 .x0) := by decide

/-- The result of a load into registers `a`, `b`. -/
theorem load_ok {b : Block} (hop : c.op = .load) (hb : c.block E = b) {s : St} (hs : Preserved E c s)
    (h1 : b.resRegs.1 ∈ b.outs c.al) (h2 : b.resRegs.2 ∈ b.outs c.al) (h12 : b.resRegs.1 ≠ b.resRegs.2)
    (z1 : b.resRegs.1 ≠ .xzr) (z2 : b.resRegs.2 ≠ .xzr) {post : List Ins}
    (hpost : ∀ s, execs post s = some s) {o : MemOrd} (ho : o ≠ .release ∧ o ≠ .acqRel)
    {x x' : BitVec 128} {r : Res (BitVec 128)} (hr : (Acc.op (.load o)).sem x x' r) :
    ∃ s', execs post (s.got E.endian b.resRegs.1 b.resRegs.2 r) = some s' ∧
      c.op.Sem x x' (c.result E s') ∧ Preserved E c s' := by
  obtain ⟨rfl, rfl⟩ := sem_load ho hr
  refine ⟨_, hpost _, ?_, hs.got (by rw [hb]; exact h1) (by rw [hb]; exact h2)⟩
  rw [hop, result_of hb hop]
  simp only [St.got]
  rw [get_set_self _ _ z2, get_set_ne _ _ h12, get_set_self _ _ z1, word_join]
  exact ⟨rfl, rfl⟩

theorem base_entry {b : Block} (hb : c.block E = b) (hins : b.ins E.endian c.op = [])
    (hz : b.base c.al ≠ .xzr) : (c.entry E).get (b.base c.al) = c.addr := by
  rw [entry_of hb rfl, hins]
  exact get_set_self _ _ hz

theorem base_tmp {b : Block} (hb : c.block E = b) (hins : b.ins E.endian c.op = [])
    (hz : b.base c.al ≠ .xzr) (ht : b.base c.al ≠ .tmp) (v : BitVec 64) :
    ((c.entry E).set .tmp v).get (b.base c.al) = c.addr := by
  rw [get_set_ne _ _ ht]
  exact base_entry hb hins hz

theorem alias_base (al : Alias) : al.base ≠ .xzr ∧ al.base ≠ .tmp := by cases al <;> decide

theorem pt_ldp {o : MemOrd} (hf : E.cpu.lse2 = true) (ho : o = .relaxed ∨ o = .acquire ∨ o = .seqCst)
    (hop : c.op = .load) (hb : c.block E = .ldp o) : Nonempty (Correct (blocks E order) (spec E) c) := by
  have hz := alias_base c.al
  rcases ho with rfl | rfl | rfl
  · refine ⟨onePoints [] (.ldp .outLo .outHi c.al.base) [] (prog_of hb) _ _ rfl
      (sem_ldp_whole E.cpu _ _ _ (base_entry hb rfl hz.1) (by decide) hf) fun x x' r hr => ?_⟩
    exact load_ok hop hb preserved_entry (by simp [Block.resRegs, Block.outs])
      (by simp [Block.resRegs, Block.outs]) (by decide) (by decide) (by decide) (fun _ => rfl) (by decide) hr
  · refine ⟨onePoints [] (.ldp .outLo .outHi c.al.base) [.dmb .ishld] (prog_of hb) _ _ rfl
      (sem_ldp_whole E.cpu _ _ _ (base_entry hb rfl hz.1) (by decide) hf) fun x x' r hr => ?_⟩
    exact load_ok hop hb preserved_entry (by simp [Block.resRegs, Block.outs])
      (by simp [Block.resRegs, Block.outs]) (by decide) (by decide) (by decide) (fun _ => rfl) (by decide) hr
  · refine ⟨ldarPoints c.al.base (.ldp .outLo .outHi c.al.base) [.dmb .ishld] (prog_of hb)
      (base_entry hb rfl hz.1) _ (fun s r => s.got E.endian .outLo .outHi r) (fun v =>
      sem_ldp_whole E.cpu _ _ _ (base_tmp hb rfl hz.1 hz.2 v) (by decide) hf) fun v x x' r hr => ?_⟩
    exact load_ok hop hb (preserved_entry.set (by rw [hb]; simp [Block.outs]))
      (by simp [Block.resRegs, Block.outs])
      (by simp [Block.resRegs, Block.outs]) (by decide) (by decide) (by decide) (fun _ => rfl) (by decide) hr

theorem pt_ldiapp {i : Bool} {o : MemOrd} (hf : E.cpu.lse2 = true) (hf' : E.cpu.rcpc3 = true)
    (ho : o = .acquire ∨ o = .seqCst)
    (hop : c.op = .load) (hb : c.block E = .ldiapp i o) : Nonempty (Correct (blocks E order) (spec E) c) := by
  have hz := alias_base c.al
  cases i with
  | false =>
    rcases ho with rfl | rfl
    · refine ⟨onePoints [] (.ldiapp .outLo .outHi c.al.base) [] (prog_of hb) _ _ rfl
        (eff_ldiapp E.cpu _ _ _ (base_entry hb rfl hz.1) (by decide) hf hf') fun x x' r hr => ?_⟩
      exact load_ok hop hb preserved_entry (by simp [Block.resRegs, Block.outs])
        (by simp [Block.resRegs, Block.outs]) (by decide) (by decide) (by decide) (fun _ => rfl) (by decide) hr
    · refine ⟨ldarPoints c.al.base (.ldiapp .outLo .outHi c.al.base) [] (prog_of hb)
        (base_entry hb rfl hz.1) _ (fun s r => s.got E.endian .outLo .outHi r) (fun v =>
        eff_ldiapp E.cpu _ _ _ (base_tmp hb rfl hz.1 hz.2 v) (by decide) hf hf') fun v x x' r hr => ?_⟩
      exact load_ok hop hb (preserved_entry.set (by rw [hb]; simp [Block.outs]))
        (by simp [Block.resRegs, Block.outs])
        (by simp [Block.resRegs, Block.outs]) (by decide) (by decide) (by decide) (fun _ => rfl) (by decide) hr
  | true =>
    have hx := base_entry (E := E) (c := c) hb rfl (by simp [Block.base])
    rcases ho with rfl | rfl
    · refine ⟨onePoints [] (.inst 0xd9411800#32) [] (prog_of hb) _ _ rfl
        ((sem_inst E.cpu _ _ _ decode_ldiapp).trans
          (eff_ldiapp E.cpu _ _ _ hx (by decide) hf hf')) fun x x' r hr => ?_⟩
      exact load_ok hop hb preserved_entry (by simp [Block.resRegs, Block.outs])
        (by simp [Block.resRegs, Block.outs]) (by decide) (by decide) (by decide) (fun _ => rfl) (by decide) hr
    · refine ⟨ldarPoints .x0 (.inst 0xd9411800#32) [] (prog_of hb)
        hx _ (fun s r => s.got E.endian .x0 .x1 r) (fun v =>
        (sem_inst E.cpu _ _ _ decode_ldiapp).trans
          (eff_ldiapp E.cpu _ _ _ (base_tmp hb rfl (by simp [Block.base]) (by simp [Block.base]) v)
            (by decide) hf hf')) fun v x x' r hr => ?_⟩
      exact load_ok hop hb (preserved_entry.set (by rw [hb]; simp [Block.outs]))
        (by simp [Block.resRegs, Block.outs])
        (by simp [Block.resRegs, Block.outs]) (by decide) (by decide) (by decide) (fun _ => rfl) (by decide) hr

theorem execs_fence (f : Bool) (s : St) : execs (fenceIf f) s = some s := by cases f <;> rfl

theorem pt_stp {v : BitVec 128} {b a : Bool} (hf : E.cpu.lse2 = true) (hop : c.op = .store v)
    (hb : c.block E = .stp b a) : Nonempty (Correct (blocks E order) (spec E) c) := by
  have hx : (c.entry E).get .dst = c.addr := by entry hb hop
  have h1 : (c.entry E).get .valLo = word E.endian v false := by entry hb hop
  have h2 : (c.entry E).get .valHi = word E.endian v true := by entry hb hop
  refine ⟨onePoints (fenceIf b) (.stp .valLo .valHi .dst) (fenceIf a) (prog_of hb) _ _ (execs_fence _ _)
    (eff_stp E.cpu _ _ _ hx hf) fun x x' r hr => ?_⟩
  rw [h1, h2, word_join] at hr
  obtain ⟨rfl, -⟩ := sem_store (by decide) hr
  refine ⟨_, execs_fence _ _, ?_, preserved_entry⟩
  rw [hop, result_of hb hop]
  exact ⟨rfl, rfl⟩

theorem pt_stilp {v : BitVec 128} {i a : Bool} (hf : E.cpu.lse2 = true) (hf' : E.cpu.rcpc3 = true)
    (hop : c.op = .store v)
    (hb : c.block E = .stilp i a) : Nonempty (Correct (blocks E order) (spec E) c) := by
  cases i with
  | false =>
    have hx : (c.entry E).get .dst = c.addr := by entry hb hop
    have h1 : (c.entry E).get .valLo = word E.endian v false := by entry hb hop
    have h2 : (c.entry E).get .valHi = word E.endian v true := by entry hb hop
    refine ⟨onePoints [] (.stilp .valLo .valHi .dst) (fenceIf a) (prog_of hb) _ _ rfl
      (eff_stilp E.cpu _ _ _ hx hf hf') fun x x' r hr => ?_⟩
    rw [h1, h2, word_join] at hr
    obtain ⟨rfl, -⟩ := sem_store (by decide) hr
    refine ⟨_, execs_fence _ _, ?_, preserved_entry⟩
    rw [hop, result_of hb hop]
    exact ⟨rfl, rfl⟩
  | true =>
    have hx : (c.entry E).get .x0 = c.addr := by entry hb hop
    have h1 : (c.entry E).get .x2 = word E.endian v false := by entry hb hop
    have h2 : (c.entry E).get .x3 = word E.endian v true := by entry hb hop
    refine ⟨onePoints [] (.inst 0xd9031802#32) (fenceIf a) (prog_of hb) _ _ rfl
      ((sem_inst E.cpu _ _ _ decode_stilp).trans (eff_stilp E.cpu _ _ _ hx hf hf')) fun x x' r hr => ?_⟩
    rw [h1, h2, word_join] at hr
    obtain ⟨rfl, -⟩ := sem_store (by decide) hr
    refine ⟨_, execs_fence _ _, ?_, preserved_entry⟩
    rw [hop, result_of hb hop]
    exact ⟨rfl, rfl⟩

/-- What an FEAT_LSE128 instruction is used for. -/
inductive PairFor : Pair128 → WOp → Prop where
  | store (v) : PairFor .swpp (.store v)
  | swap (v) : PairFor .swpp (.swap v)
  | and (v) : PairFor .ldclrp (.rmw3 .and v)
  | or (v) : PairFor .ldsetp (.rmw3 .or v)

/-- The operand of the instruction. -/
def pairArg (k : Pair128) (op : WOp) : BitVec 128 := if k = .ldclrp then ~~~op.arg else op.arg

theorem pair_sem {k : Pair128} {op : WOp} (h : PairFor k op) (x : BitVec 128) :
    op.Sem x (k.fn (pairArg k op) x) (resOf op x) := by
  cases h with
  | store v => exact ⟨rfl, rfl⟩
  | swap v => exact ⟨rfl, rfl⟩
  | and v =>
    have h := fn3_sem .and v x
    have e : fn3 .and v x = Pair128.fn .ldclrp (pairArg .ldclrp (.rmw3 .and v)) x := by
      show x &&& v = x &&& ~~~(~~~v)
      rw [BitVec.not_not]
    rw [← e]; exact h
  | or v => exact fn3_sem .or v x

theorem pair_ok {b : Block} {k : Pair128} {q q' : Bool} {base : Reg} {i : Ins} (hk : PairFor k c.op)
    (hf : E.cpu.lse128 = true) (hb : c.block E = b) (hprog : b.code E.endian c.al = [i])
    (hi : ∀ s, i.sem E.cpu E.endian c.addr s =
      (Ins.pair k q q' b.resRegs.1 b.resRegs.2 base).eff E.cpu E.endian c.addr s)
    (hx : (c.entry E).get base = c.addr)
    (h1 : (c.entry E).get b.resRegs.1 = word E.endian (pairArg k c.op) false)
    (h2 : (c.entry E).get b.resRegs.2 = word E.endian (pairArg k c.op) true)
    (o1 : b.resRegs.1 ∈ b.outs c.al) (o2 : b.resRegs.2 ∈ b.outs c.al) (h12 : b.resRegs.1 ≠ b.resRegs.2)
    (z1 : b.resRegs.1 ≠ .xzr) (z2 : b.resRegs.2 ≠ .xzr) :
    Nonempty (Correct (blocks E order) (spec E) c) := by
  refine ⟨onePoints [] i [] ((prog_of hb).trans hprog) _ _ rfl
    ((hi _).trans (eff_pair E.cpu _ _ _ hx hf h12 z1 z2)) fun x x' r hr => ?_⟩
  rw [h1, h2, word_join] at hr
  obtain ⟨rfl, rfl⟩ := sem_rmw hr
  refine ⟨_, rfl, ?_, preserved_entry.got (by rw [hb]; exact o1) (by rw [hb]; exact o2)⟩
  rw [result_of hb rfl]
  simp only [St.got]
  rw [get_set_self _ _ z2, get_set_ne _ _ h12, get_set_self _ _ z1, word_join]
  exact pair_sem hk x

theorem pt_pair {k : Pair128} {m : Mode} (hk : PairFor k c.op) (hf : E.cpu.lse128 = true)
    (hb : c.block E = .pair k m) : Nonempty (Correct (blocks E order) (spec E) c) := by
  refine pair_ok (b := .pair k m) (q := m.acq) (q' := m.rel) (base := .dst) hk hf hb rfl (fun _ => rfl)
    ?_ ?_ ?_ ?_ ?_ ?_ ?_ ?_
  · rw [entry_of hb rfl]; cases k <;> simp [Block.ins, Block.base, get_set]
  · rw [entry_of hb rfl]; cases k <;> simp [Block.ins, Block.base, get_set, Block.resRegs, pairArg]
  · rw [entry_of hb rfl]; cases k <;> simp [Block.ins, Block.base, get_set, Block.resRegs, pairArg]
  all_goals simp [Block.outs, Block.resRegs]

theorem pt_pairInst {k : Pair128} {o : MemOrd} (hk : PairFor k c.op) (hf : E.cpu.lse128 = true)
    (hb : c.block E = .pairInst k (instDigit o)) : Nonempty (Correct (blocks E order) (spec E) c) := by
  refine pair_ok (b := .pairInst k (instDigit o)) (q := (rmwMode false o o).acq)
    (q' := (rmwMode false o o).rel) (base := .x0) hk hf hb rfl (fun s => ?_) ?_ ?_ ?_ ?_ ?_ ?_ ?_ ?_
  · rw [sem_inst _ _ _ _ (decode_pair k o)]
    cases k <;> rfl
  · rw [entry_of hb rfl]; cases k <;> simp [Block.ins, Block.base, get_set]
  · rw [entry_of hb rfl]; cases k <;> simp [Block.ins, Block.base, get_set, Block.resRegs, pairArg]
  · rw [entry_of hb rfl]; cases k <;> simp [Block.ins, Block.base, get_set, Block.resRegs, pairArg]
  all_goals cases k <;> simp [Block.outs, Block.resRegs]

/-- **Every call is correct at each of its accesses.** -/
theorem correct_exist (hE : E.Ok) (order : Call → Nat → Bool) (c : Call) :
    Nonempty (Correct (blocks E order) (spec E) c) := by
  have hg : Good E.cpu c.op (c.block E) := select_good hE c.valid
  generalize hop : c.op = op at hg
  generalize hb : c.block E = b at hg
  cases hg with
  | ldp o h ho => exact pt_ldp h ho hop hb
  | ldiapp i o h h' ho => exact pt_ldiapp h h' ho hop hb
  | loadCasp a l h => exact pt_loadCasp h hop hb
  | loadLx a l => exact pt_loadLx hop hb
  | stp v b a h => exact pt_stp h hop hb
  | stilp v i a h h' => exact pt_stilp h h' hop hb
  | storePair v m h => exact pt_pair (by rw [hop]; exact .store v) h hb
  | storeInst v o h => exact pt_pairInst (by rw [hop]; exact .store v) h hb
  | storeCasp v m h => exact pt_swapCasp h (Or.inr hop) hb
  | storeLx v m => exact pt_storeLx hop hb
  | casCasp x y m h => exact pt_casCasp h (Or.inl hop) hb
  | casLx x y m => exact pt_casLx (Or.inl hop) hb
  | weakCasp x y m h => exact pt_casCasp h (Or.inr hop) hb
  | weakLx x y m => exact pt_casLx (Or.inr hop) hb
  | swapPair v m h => exact pt_pair (by rw [hop]; exact .swap v) h hb
  | swapInst v o h => exact pt_pairInst (by rw [hop]; exact .swap v) h hb
  | swapCasp v m h => exact pt_swapCasp h (Or.inl hop) hb
  | swapLx v m => exact pt_swapLx hop hb
  | rmw3Lx p v m => exact pt_rmw3Lx hop hb
  | rmw3Cas p v m h => exact pt_rmw3Cas p h hop hb
  | rmw2Lx p m => exact pt_rmw2Lx hop hb
  | rmw2Cas p m h => exact pt_rmw2Cas p h hop hb
  | andPair v m h => exact pt_pair (by rw [hop]; exact .and v) h hb
  | andInst v o h => exact pt_pairInst (by rw [hop]; exact .and v) h hb
  | orPair v m h => exact pt_pair (by rw [hop]; exact .or v) h hb
  | orInst v o h => exact pt_pairInst (by rw [hop]; exact .or v) h hb

end Verif.Arm
