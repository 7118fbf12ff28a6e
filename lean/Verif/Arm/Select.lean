import Verif.Arm.Arith
/-!
# Which block an operation runs (C37)

Every choice of the back end is a block for the requested operation whose instructions the processor
has.
-/
set_option autoImplicit false
namespace Verif.Arm
open Verif.Wide

/-- Blocks that may run for an operation on a processor with features `f`. -/
inductive Good (f : Feat) : WOp → Block → Prop where
  | ldp (o) (h : f.lse2 = true) (ho : o = .relaxed ∨ o = .acquire ∨ o = .seqCst) : Good f .load (.ldp o)
  | ldiapp (i o) (h : f.lse2 = true) (h' : f.rcpc3 = true) (ho : o = .acquire ∨ o = .seqCst) :
      Good f .load (.ldiapp i o)
  | loadCasp (a l) (h : f.lse = true) : Good f .load (.loadCasp a l)
  | loadLx (a l) : Good f .load (.loadLx a l)
  | stp (v b a) (h : f.lse2 = true) : Good f (.store v) (.stp b a)
  | stilp (v i a) (h : f.lse2 = true) (h' : f.rcpc3 = true) : Good f (.store v) (.stilp i a)
  | storePair (v m) (h : f.lse128 = true) : Good f (.store v) (.pair .swpp m)
  | storeInst (v o) (h : f.lse128 = true) : Good f (.store v) (.pairInst .swpp (instDigit o))
  | storeCasp (v m) (h : f.lse = true) : Good f (.store v) (.swapCasp m)
  | storeLx (v m) : Good f (.store v) (.storeLx m)
  | casCasp (x y m) (h : f.lse = true) : Good f (.cas x y) (.casCasp m)
  | casLx (x y m) : Good f (.cas x y) (.casLx m)
  | weakCasp (x y m) (h : f.lse = true) : Good f (.casWeak x y) (.casCasp m)
  | weakLx (x y m) : Good f (.casWeak x y) (.casLx m)
  | swapPair (v m) (h : f.lse128 = true) : Good f (.swap v) (.pair .swpp m)
  | swapInst (v o) (h : f.lse128 = true) : Good f (.swap v) (.pairInst .swpp (instDigit o))
  | swapCasp (v m) (h : f.lse = true) : Good f (.swap v) (.swapCasp m)
  | swapLx (v m) : Good f (.swap v) (.swapLx m)
  | rmw3Lx (p v m) : Good f (.rmw3 p v) (.rmw3Lx p m)
  | rmw3Cas (p v m) (h : f.lse = true) : Good f (.rmw3 p v) (.rmw3Cas p m)
  | rmw2Lx (p m) : Good f (.rmw2 p) (.rmw2Lx p m)
  | rmw2Cas (p m) (h : f.lse = true) : Good f (.rmw2 p) (.rmw2Cas p m)
  | andPair (v m) (h : f.lse128 = true) : Good f (.rmw3 .and v) (.pair .ldclrp m)
  | andInst (v o) (h : f.lse128 = true) : Good f (.rmw3 .and v) (.pairInst .ldclrp (instDigit o))
  | orPair (v m) (h : f.lse128 = true) : Good f (.rmw3 .or v) (.pair .ldsetp m)
  | orInst (v o) (h : f.lse128 = true) : Good f (.rmw3 .or v) (.pairInst .ldsetp (instDigit o))

variable {E : Env} (hE : E.Ok)
include hE

theorem ldpBlock_good {o : MemOrd} (h : E.cpu.lse2 = true)
    (ho : o = .relaxed ∨ o = .acquire ∨ o = .seqCst) : Good E.cpu .load (ldpBlock E.cfg o) := by
  rcases ho with rfl | rfl | rfl <;> simp only [ldpBlock]
  · exact .ldp _ h (by simp)
  all_goals
    split
    · exact .ldiapp _ _ h (hE.built.rcpc3 ‹_›) (by simp)
    · exact .ldp _ h (by simp)

theorem loadNoLse2_good {o : MemOrd} (ho : o = .relaxed ∨ o = .acquire ∨ o = .seqCst) :
    Good E.cpu .load (loadNoLse2 E.cfg o) := by
  rcases ho with rfl | rfl | rfl <;> simp only [loadNoLse2, loadMode] <;> split <;>
    first | exact .loadCasp _ _ (hE.built.lse ‹_›) | exact .loadLx _ _

theorem loadBlock_good {o : MemOrd} (ho : o = .relaxed ∨ o = .acquire ∨ o = .seqCst) :
    Good E.cpu .load (loadBlock E.cfg E.det o) := by
  simp only [loadBlock]
  split
  · exact ldpBlock_good hE (hE.built.lse2 ‹_›) ho
  · split
    · rcases ho with rfl | rfl | rfl <;> simp only
      · split
        · exact ldpBlock_good hE (hE.detected.lse2 ‹_›) (by simp)
        · exact loadNoLse2_good hE (by simp)
      all_goals
        split
        · split
          · rename_i h1 h2
            simp only [Bool.and_eq_true] at h2
            exact .ldiapp _ _ (hE.detected.lse2 h1) (hE.detected.rcpc3 h2.2) (by simp)
          · exact ldpBlock_good hE (hE.detected.lse2 ‹_›) (by simp)
        · exact loadNoLse2_good hE (by simp)
    · exact loadNoLse2_good hE ho

omit hE in
theorem store_pairBlock_good {v : BitVec 128} {o : MemOrd} (h : E.cpu.lse128 = true) :
    Good E.cpu (.store v) (pairBlock E.cfg .swpp o) := by
  simp only [pairBlock]
  split
  · exact .storeInst _ _ h
  · exact .storePair _ _ h

omit hE in
theorem stilpBlock_good {v : BitVec 128} {o : MemOrd} (h : E.cpu.lse2 = true)
    (h' : E.cpu.rcpc3 = true) (ho : o = .release ∨ o = .seqCst) :
    Good E.cpu (.store v) (stilpBlock E.cfg o) := by
  rcases ho with rfl | rfl <;> exact .stilp _ _ _ h h'

theorem stpBlock_good {v : BitVec 128} {o : MemOrd} (h : E.cpu.lse2 = true)
    (ho : o = .relaxed ∨ o = .release ∨ o = .seqCst) : Good E.cpu (.store v) (stpBlock E.cfg o) := by
  rcases ho with rfl | rfl | rfl <;> simp only [stpBlock]
  · exact .stp _ _ _ h
  · split
    · exact stilpBlock_good h (hE.built.rcpc3 ‹_›) (by simp)
    · split
      · exact store_pairBlock_good (hE.built.lse128 ‹_›)
      · exact .stp _ _ _ h
  · split
    · exact store_pairBlock_good (hE.built.lse128 ‹_›)
    · split
      · exact stilpBlock_good h (hE.built.rcpc3 ‹_›) (by simp)
      · exact .stp _ _ _ h

theorem storeNoLse2_good {v : BitVec 128} {o : MemOrd} :
    Good E.cpu (.store v) (storeNoLse2 E.cfg o) := by
  simp only [storeNoLse2]
  split
  · rename_i h
    simp only [Bool.and_eq_true] at h
    exact .storeCasp _ _ (hE.built.lse h.1)
  · exact .storeLx _ _

theorem storeBlock_good {v : BitVec 128} {o : MemOrd} (ho : o = .relaxed ∨ o = .release ∨ o = .seqCst) :
    Good E.cpu (.store v) (storeBlock E.cfg E.det o) := by
  simp only [storeBlock]
  split
  · exact stpBlock_good hE (hE.built.lse2 ‹_›) ho
  · split
    · rcases ho with rfl | rfl | rfl <;> simp only
      · split
        · exact stpBlock_good hE (hE.detected.lse2 ‹_›) (by simp)
        · exact storeNoLse2_good hE
      · split
        · rename_i h1
          have h1 := hE.detected.lse2 h1
          split
          · rename_i h2
            simp only [Bool.and_eq_true] at h2
            exact stilpBlock_good h1 (hE.detected.rcpc3 h2.2) (by simp)
          · split
            · rename_i h2
              simp only [Bool.and_eq_true] at h2
              exact store_pairBlock_good (hE.detected.lse128 h2.2)
            · exact stpBlock_good hE h1 (by simp)
        · exact storeNoLse2_good hE
      · split
        · rename_i h1
          have h1 := hE.detected.lse2 h1
          split
          · rename_i h2
            simp only [Bool.and_eq_true] at h2
            exact store_pairBlock_good (hE.detected.lse128 h2.2)
          · split
            · rename_i h2
              simp only [Bool.and_eq_true] at h2
              exact stilpBlock_good h1 (hE.detected.rcpc3 h2.2) (by simp)
            · exact stpBlock_good hE h1 (by simp)
        · exact storeNoLse2_good hE
    · exact storeNoLse2_good hE

theorem casBlock_cases (s f : MemOrd) :
    (∃ m, casBlock E.cfg E.det s f = .casCasp m ∧ E.cpu.lse = true) ∨
      ∃ m, casBlock E.cfg E.det s f = .casLx m := by
  have hb := hE.built.lse
  have hd := hE.detected.lse
  simp only [casBlock, casCaspBlock, casLxBlock]
  split
  · exact Or.inl ⟨_, rfl, hb ‹_›⟩
  · split
    · split <;> repeat' split
      all_goals first | exact Or.inl ⟨_, rfl, hd ‹_›⟩ | exact Or.inr ⟨_, rfl⟩
    · exact Or.inr ⟨_, rfl⟩

/-- **Every choice is good.** -/
theorem select_good {op : WOp} {o f : MemOrd} (h : op.OrdOk o f) :
    Good E.cpu op (select E.cfg E.det op o f) := by
  cases op with
  | load =>
    refine loadBlock_good hE ?_
    cases o <;> simp_all [WOp.OrdOk]
  | store v =>
    refine storeBlock_good hE ?_
    cases o <;> simp_all [WOp.OrdOk]
  | swap v =>
    simp only [select, swapBlock]
    split
    · rename_i h1
      simp only [pairBlock]
      split
      · exact .swapInst _ _ (hE.built.lse128 h1)
      · exact .swapPair _ _ (hE.built.lse128 h1)
    · split
      · rename_i h2
        simp only [Bool.and_eq_true] at h2
        exact .swapCasp _ _ (hE.built.lse h2.1)
      · exact .swapLx _ _
  | cas x y =>
    rcases casBlock_cases hE o f with ⟨m, h1, h2⟩ | ⟨m, h1⟩ <;> simp only [select, h1]
    · exact .casCasp _ _ _ h2
    · exact .casLx _ _ _
  | casWeak x y =>
    rcases casBlock_cases hE o f with ⟨m, h1, h2⟩ | ⟨m, h1⟩ <;> simp only [select, h1]
    · exact .weakCasp _ _ _ h2
    · exact .weakLx _ _ _
  | rmw3 p v =>
    have hpl : Good E.cpu (.rmw3 p v) (if E.cfg.feat.lse && !E.cfg.llScRmw then
        Block.rmw3Cas p (rmwMode E.cfg.msvc o o) else .rmw3Lx p (rmwMode E.cfg.msvc o o)) := by
      split
      · rename_i h2
        simp only [Bool.and_eq_true] at h2
        exact .rmw3Cas _ _ _ (hE.built.lse h2.1)
      · exact .rmw3Lx _ _ _
    cases p <;> simp only [select, rmw3Block] <;> try exact hpl
    all_goals
      split
      · rename_i h1
        simp only [pairBlock]
        split
        · first | exact .andInst _ _ (hE.built.lse128 h1) | exact .orInst _ _ (hE.built.lse128 h1)
        · first | exact .andPair _ _ (hE.built.lse128 h1) | exact .orPair _ _ (hE.built.lse128 h1)
      · exact hpl
  | rmw2 p =>
    simp only [select, rmw2Block]
    split
    · rename_i h2
      simp only [Bool.and_eq_true] at h2
      exact .rmw2Cas _ _ (hE.built.lse h2.1)
    · exact .rmw2Lx _ _

end Verif.Arm
