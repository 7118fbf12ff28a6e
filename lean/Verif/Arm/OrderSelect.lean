import Verif.Arm.OrderProof
/-!
# The chosen block has the requested ordering (C38)
-/
set_option autoImplicit false
namespace Verif.Arm
open Verif.Lf Verif.Asm Verif.Wide

theorem rmwMode_acq {ms : Bool} {o w : MemOrd} (h : Acquiring o) : (rmwMode ms o w).acq = true := by
  rcases h with rfl | rfl | rfl <;> simp only [rmwMode]
  split <;> rfl
theorem rmwMode_rel {ms : Bool} {o w : MemOrd} (h : Releasing o) : (rmwMode ms o w).rel = true := by
  rcases h with rfl | rfl | rfl <;> simp only [rmwMode]
  split <;> rfl
theorem rmwMode_sc {ms : Bool} {o w : MemOrd} (h : o = .acqRel ∨ o = .seqCst) :
    (rmwMode ms o w).acq = true ∧ (rmwMode ms o w).rel = true := by
  rcases h with rfl | rfl
  · exact ⟨rfl, rfl⟩
  · exact ⟨rmwMode_acq (Or.inr (Or.inr rfl)), rmwMode_rel (Or.inr (Or.inr rfl))⟩

theorem acqB_of {o : MemOrd} (h : Acquiring o) : MemOrd.acqB o = true := by
  rcases h with rfl | rfl | rfl <;> rfl
theorem relB_of {o : MemOrd} (h : Releasing o) : MemOrd.relB o = true := by
  rcases h with rfl | rfl | rfl <;> rfl

theorem pairBlock_acq {c : Cfg} {k : Pair128} {o : MemOrd} (h : Acquiring o) : (pairBlock c k o).acqOk := by
  simp only [pairBlock]; split
  · exact ⟨o, rfl, acqB_of h⟩
  · exact rmwMode_acq h
theorem pairBlock_rel {c : Cfg} {k : Pair128} {o : MemOrd} (h : Releasing o) : (pairBlock c k o).relOk := by
  simp only [pairBlock]; split
  · exact ⟨o, rfl, relB_of h⟩
  · exact rmwMode_rel h
theorem pairBlock_sc {c : Cfg} {k : Pair128} : (pairBlock c k .seqCst).scOk := by
  simp only [pairBlock]; split
  · exact ⟨.seqCst, rfl, rfl, rfl⟩
  · exact rmwMode_sc (Or.inr rfl)

/-! ## Loads -/

theorem ldpBlock_acq {c : Cfg} {o : MemOrd} (h : o = .acquire ∨ o = .seqCst) : (ldpBlock c o).acqOk := by
  rcases h with rfl | rfl <;> simp only [ldpBlock, ldiappBlock] <;> split <;>
    first | exact trivial | exact fun h => nomatch h
theorem ldpBlock_sc {c : Cfg} : (ldpBlock c .seqCst).scOk := by
  simp only [ldpBlock, ldiappBlock]; split <;> rfl
theorem loadNoLse2_acq {c : Cfg} {o : MemOrd} (h : o = .acquire ∨ o = .seqCst) : (loadNoLse2 c o).acqOk := by
  rcases h with rfl | rfl <;> simp only [loadNoLse2, loadMode] <;> split <;> rfl
theorem loadNoLse2_sc {c : Cfg} : (loadNoLse2 c .seqCst).scOk := by
  simp only [loadNoLse2, loadMode]; split <;> exact ⟨rfl, rfl⟩

theorem loadBlock_acq {c : Cfg} {d : Feat} {o : MemOrd} (h : o = .acquire ∨ o = .seqCst) :
    (loadBlock c d o).acqOk := by
  simp only [loadBlock]
  split
  · exact ldpBlock_acq h
  · split
    · rcases h with rfl | rfl <;> simp only <;> split
      all_goals first
        | exact loadNoLse2_acq (by simp)
        | (split
           · exact trivial
           · exact ldpBlock_acq (by simp))
    · exact loadNoLse2_acq h

theorem loadBlock_sc {c : Cfg} {d : Feat} : (loadBlock c d .seqCst).scOk := by
  simp only [loadBlock]
  split
  · exact ldpBlock_sc
  · split
    · split
      · split
        · rfl
        · exact ldpBlock_sc
      · exact loadNoLse2_sc
    · exact loadNoLse2_sc

/-! ## Stores -/

theorem stilpBlock_rel {c : Cfg} {o : MemOrd} (h : o = .release ∨ o = .seqCst) : (stilpBlock c o).relOk := by
  rcases h with rfl | rfl <;> exact trivial

theorem stpBlock_rel {c : Cfg} {o : MemOrd} (h : o = .release ∨ o = .seqCst) : (stpBlock c o).relOk := by
  rcases h with rfl | rfl <;> simp only [stpBlock] <;> repeat' split
  all_goals first
    | exact stilpBlock_rel (by simp)
    | exact pairBlock_rel (by simp [Releasing])
    | rfl

theorem stpBlock_sc {c : Cfg} : (stpBlock c .seqCst).scOk := by
  simp only [stpBlock]; repeat' split
  · exact pairBlock_sc
  · rfl
  · exact ⟨rfl, rfl⟩

theorem storeNoLse2_rel {c : Cfg} {o : MemOrd} (h : Releasing o) : (storeNoLse2 c o).relOk := by
  simp only [storeNoLse2, swapCaspBlock]; split <;> exact rmwMode_rel h
theorem storeNoLse2_sc {c : Cfg} : (storeNoLse2 c .seqCst).scOk := by
  simp only [storeNoLse2, swapCaspBlock]; split <;> exact rmwMode_sc (Or.inr rfl)

theorem storeBlock_rel {c : Cfg} {d : Feat} {o : MemOrd} (h : o = .release ∨ o = .seqCst) :
    (storeBlock c d o).relOk := by
  have hr : Releasing o := by rcases h with rfl | rfl <;> simp [Releasing]
  simp only [storeBlock]
  split
  · exact stpBlock_rel h
  · split
    · rcases h with rfl | rfl <;> simp only <;> repeat' split
      all_goals first
        | exact stilpBlock_rel (by simp)
        | exact pairBlock_rel (by simp [Releasing])
        | exact stpBlock_rel (by simp)
        | exact storeNoLse2_rel (by simp [Releasing])
    · exact storeNoLse2_rel hr

theorem storeBlock_sc {c : Cfg} {d : Feat} : (storeBlock c d .seqCst).scOk := by
  simp only [storeBlock]; repeat' split
  all_goals first
    | exact pairBlock_sc
    | exact stpBlock_sc
    | exact storeNoLse2_sc
    | rfl

/-! ## Compare-exchange -/

theorem upgrade_acq {o f : MemOrd} (hf : f ≠ .release ∧ f ≠ .acqRel) (h : Acquiring o ∨ Acquiring f) :
    Acquiring (o.upgradeSuccess f) := by
  cases o <;> cases f <;> simp_all [Acquiring, MemOrd.upgradeSuccess]
theorem upgrade_rel {o f : MemOrd} (hf : f ≠ .release ∧ f ≠ .acqRel) (h : Releasing o) :
    Releasing (o.upgradeSuccess f) := by
  cases o <;> cases f <;> simp_all [Releasing, MemOrd.upgradeSuccess]
theorem upgrade_sc {o f : MemOrd} (h : o = .seqCst ∨ f = .seqCst) : o.upgradeSuccess f = .seqCst := by
  cases o <;> cases f <;> simp_all [MemOrd.upgradeSuccess]

theorem casBlock_acq {c : Cfg} {d : Feat} {o f : MemOrd} (h : Acquiring (o.upgradeSuccess f)) :
    (casBlock c d o f).acqOk := by
  simp only [casBlock, casCaspBlock, casLxBlock]
  split
  · exact rmwMode_acq h
  · split
    · generalize o.upgradeSuccess f = u at h ⊢
      rcases h with rfl | rfl | rfl <;> simp only <;> repeat' split
      all_goals exact rmwMode_acq (by simp [Acquiring, MemOrd.upgradeSuccess])
    · exact rmwMode_acq h

theorem casBlock_rel {c : Cfg} {d : Feat} {o f : MemOrd} (h : Releasing (o.upgradeSuccess f)) :
    (casBlock c d o f).relOk := by
  simp only [casBlock, casCaspBlock, casLxBlock]
  split
  · exact rmwMode_rel h
  · split
    · generalize o.upgradeSuccess f = u at h ⊢
      rcases h with rfl | rfl | rfl <;> simp only <;> repeat' split
      all_goals exact rmwMode_rel (by simp [Releasing, MemOrd.upgradeSuccess])
    · exact rmwMode_rel h

theorem casBlock_sc {c : Cfg} {d : Feat} {o f : MemOrd} (h : o.upgradeSuccess f = .seqCst) :
    (casBlock c d o f).scOk := by
  simp only [casBlock, casCaspBlock, casLxBlock, h]
  repeat' split
  all_goals exact rmwMode_sc (by simp [MemOrd.upgradeSuccess])

/-! ## All operations -/

theorem select_acq {c : Cfg} {d : Feat} {op : WOp} {o f : MemOrd} (hv : op.OrdOk o f)
    (h : AsksAcquire op o f) : (select c d op o f).acqOk := by
  cases op with
  | load =>
    simp only [AsksAcquire] at h
    refine loadBlock_acq ?_
    rcases h with rfl | rfl | rfl
    · exact Or.inl rfl
    · exact absurd rfl hv.2
    · exact Or.inr rfl
  | store v => exact h.elim
  | swap v =>
    simp only [AsksAcquire] at h
    simp only [select, swapBlock, swapCaspBlock]; repeat' split
    · exact pairBlock_acq h
    · exact rmwMode_acq h
    · exact rmwMode_acq h
  | cas x y => exact casBlock_acq (upgrade_acq hv h)
  | casWeak x y => exact casBlock_acq (upgrade_acq hv h)
  | rmw3 p v =>
    simp only [AsksAcquire] at h
    have hp : (if c.feat.lse && !c.llScRmw then Block.rmw3Cas p (rmwMode c.msvc o o)
      else .rmw3Lx p (rmwMode c.msvc o o)).acqOk := by split <;> exact rmwMode_acq h
    cases p <;> simp only [select, rmw3Block] <;> first
      | exact hp
      | (split
         · exact pairBlock_acq h
         · exact hp)
  | rmw2 p =>
    simp only [AsksAcquire] at h
    simp only [select, rmw2Block]; split <;> exact rmwMode_acq h

theorem select_rel {c : Cfg} {d : Feat} {op : WOp} {o f : MemOrd} (hv : op.OrdOk o f)
    (h : AsksRelease op o) : (select c d op o f).relOk := by
  cases op with
  | load => exact h.elim
  | store v =>
    simp only [AsksRelease] at h
    refine storeBlock_rel ?_
    rcases h with rfl | rfl | rfl
    · exact Or.inl rfl
    · exact absurd rfl hv.2
    · exact Or.inr rfl
  | swap v =>
    simp only [AsksRelease] at h
    simp only [select, swapBlock, swapCaspBlock]; repeat' split
    · exact pairBlock_rel h
    · exact rmwMode_rel h
    · exact rmwMode_rel h
  | cas x y => exact casBlock_rel (upgrade_rel hv h)
  | casWeak x y => exact casBlock_rel (upgrade_rel hv h)
  | rmw3 p v =>
    simp only [AsksRelease] at h
    have hp : (if c.feat.lse && !c.llScRmw then Block.rmw3Cas p (rmwMode c.msvc o o)
      else .rmw3Lx p (rmwMode c.msvc o o)).relOk := by split <;> exact rmwMode_rel h
    cases p <;> simp only [select, rmw3Block] <;> first
      | exact hp
      | (split
         · exact pairBlock_rel h
         · exact hp)
  | rmw2 p =>
    simp only [AsksRelease] at h
    simp only [select, rmw2Block]; split <;> exact rmwMode_rel h

theorem select_sc {c : Cfg} {d : Feat} {op : WOp} {o f : MemOrd} (h : AsksSeqCst op o f) :
    (select c d op o f).scOk := by
  cases op with
  | load => simp only [AsksSeqCst] at h; subst h; exact loadBlock_sc
  | store v => simp only [AsksSeqCst] at h; subst h; exact storeBlock_sc
  | swap v =>
    simp only [AsksSeqCst] at h; subst h
    simp only [select, swapBlock, swapCaspBlock]; repeat' split
    · exact pairBlock_sc
    · exact rmwMode_sc (Or.inr rfl)
    · exact rmwMode_sc (Or.inr rfl)
  | cas x y => exact casBlock_sc (upgrade_sc h)
  | casWeak x y => exact casBlock_sc (upgrade_sc h)
  | rmw3 p v =>
    simp only [AsksSeqCst] at h; subst h
    have hp : (if c.feat.lse && !c.llScRmw then Block.rmw3Cas p (rmwMode c.msvc .seqCst .seqCst)
      else .rmw3Lx p (rmwMode c.msvc .seqCst .seqCst)).scOk := by split <;> exact rmwMode_sc (Or.inr rfl)
    cases p <;> simp only [select, rmw3Block] <;> first
      | exact hp
      | (split
         · exact pairBlock_sc
         · exact hp)
  | rmw2 p =>
    simp only [AsksSeqCst] at h; subst h
    simp only [select, rmw2Block]; split <;> exact rmwMode_sc (Or.inr rfl)

/-! ## Sequentially consistent read-modify-writes of MSVC builds -/

/-- Blocks that store with store-exclusive instructions. -/
def Block.exclusive : Block → Bool
  | .storeLx _ | .casLx _ | .swapLx _ | .rmw3Lx _ _ | .rmw2Lx _ _ => true
  | _ => false

/-- The operations that write. -/
theorem select_fence {c : Cfg} {d : Feat} {op : WOp} {f : MemOrd} (hm : c.msvc = true)
    (hx : (select c d op .seqCst f).exclusive = true) {t : List Ev}
    (hs : Shape (select c d op .seqCst f) t) :
    ∃ a l, Tries a l false [.full] t := by
  have hmode : rmwMode c.msvc .seqCst .seqCst = ⟨true, true, true⟩ := by simp [rmwMode, hm]
  have key : ∀ b : Block, b.exclusive = true → Shape b t → (b = select c d op .seqCst f) →
      (∀ m, (b = .storeLx m ∨ b = .casLx m ∨ b = .swapLx m ∨ (∃ p, b = .rmw3Lx p m) ∨ ∃ p, b = .rmw2Lx p m) →
        m.fence = true) → ∃ a l, Tries a l false [.full] t := by
    intro b hb hs _ hf
    cases b with
    | storeLx m => have := hf m (by simp); simp only [Shape, this] at hs; exact ⟨_, _, hs⟩
    | casLx m => have := hf m (by simp); simp only [Shape, this] at hs; exact ⟨_, _, hs⟩
    | swapLx m => have := hf m (by simp); simp only [Shape, this] at hs; exact ⟨_, _, hs⟩
    | rmw3Lx p m => have := hf m (by simp); simp only [Shape, this] at hs; exact ⟨_, _, hs⟩
    | rmw2Lx p m => have := hf m (by simp); simp only [Shape, this] at hs; exact ⟨_, _, hs⟩
    | _ => simp [Block.exclusive] at hb
  refine key _ hx hs rfl fun m hm' => ?_
  have hcas : ∀ o, MemOrd.upgradeSuccess .seqCst o = .seqCst := by intro o; cases o <;> rfl
  cases op with
  | load =>
    exfalso
    simp only [select, loadBlock, ldpBlock, ldiappBlock, loadNoLse2, loadMode] at hx
    (repeat' split at hx) <;> simp [Block.exclusive] at hx
  | store v =>
    revert hx hm'
    simp only [select, storeBlock, stpBlock, stilpBlock, pairBlock, storeNoLse2, swapCaspBlock, hmode]
    (repeat' split) <;> intro hx hm' <;> simp [Block.exclusive] at hx
    all_goals (rcases hm' with h | h | h | ⟨p, h⟩ | ⟨p, h⟩ <;> cases h; rfl)
  | swap v =>
    revert hx hm'
    simp only [select, swapBlock, pairBlock, swapCaspBlock, hmode]
    (repeat' split) <;> intro hx hm' <;> simp [Block.exclusive] at hx
    all_goals (rcases hm' with h | h | h | ⟨p, h⟩ | ⟨p, h⟩ <;> cases h; rfl)
  | cas x y =>
    revert hx hm'
    simp only [select, casBlock, casCaspBlock, casLxBlock, hmode, hcas, hm, if_true]
    (repeat' split) <;> intro hx hm' <;> simp [Block.exclusive] at hx
    all_goals (rcases hm' with h | h | h | ⟨p, h⟩ | ⟨p, h⟩ <;> cases h; rfl)
  | casWeak x y =>
    revert hx hm'
    simp only [select, casBlock, casCaspBlock, casLxBlock, hmode, hcas, hm, if_true]
    (repeat' split) <;> intro hx hm' <;> simp [Block.exclusive] at hx
    all_goals (rcases hm' with h | h | h | ⟨p, h⟩ | ⟨p, h⟩ <;> cases h; rfl)
  | rmw3 p v =>
    revert hx hm'
    cases p <;> simp only [select, rmw3Block, pairBlock, hmode] <;>
    (repeat' split) <;> intro hx hm' <;> simp [Block.exclusive] at hx
    all_goals (rcases hm' with h | h | h | ⟨p, h⟩ | ⟨p, h⟩ <;> cases h; rfl)
  | rmw2 p =>
    revert hx hm'
    simp only [select, rmw2Block, hmode]
    (repeat' split) <;> intro hx hm' <;> simp [Block.exclusive] at hx
    all_goals (rcases hm' with h | h | h | ⟨p, h⟩ | ⟨p, h⟩ <;> cases h; rfl)

theorem Tries.ends_full {a : Acq} {l m : Bool} {t : List Ev} (h : Tries a l m [.full] t) :
    ∃ t', t = t' ++ [.full] := by
  induction h with
  | last w => exact ⟨_, rfl⟩
  | more w h ih => obtain ⟨t', rfl⟩ := ih; exact ⟨_, (List.append_assoc ..).symm⟩

theorem Tries.no_plain_wr {a : Acq} {l : Bool} {t : List Ev} (h : Tries a l true [] t) {i : Nat} {r : Bool}
    (hi : t[i]? = some (.wr r false)) : False := by
  have := (h.wr (Or.inl rfl) hi).2; simp at this

theorem casp_no_plain_wr {a : Acq} {l : Bool} {t : List Ev}
    (h : ∃ t', t = Ev.rd .plain false :: t' ∧ Tries a l true [] t') {i : Nat} {r : Bool}
    (hi : t[i]? = some (.wr r false)) : False := by
  obtain ⟨t', rfl, h⟩ := h
  cases i with
  | zero => simp at hi
  | succ i => exact h.no_plain_wr (i := i) (by simpa using hi)

theorem fence_after {f : Feat} {c : Cfg} {d : Feat} {op : WOp} {fo : MemOrd} (hm : c.msvc = true)
    (hop : op ≠ .load) (hg : Good f op (select c d op .seqCst fo)) {t : List Ev}
    (hs : Shape (select c d op .seqCst fo) t) {i : Nat} {r : Bool} (hi : t[i]? = some (.wr r false)) :
    ∃ k, i < k ∧ t[k]? = some .full := by
  by_cases hx : (select c d op .seqCst fo).exclusive = true
  · obtain ⟨a, l, h⟩ := select_fence hm hx hs
    obtain ⟨t', rfl⟩ := h.ends_full
    refine ⟨t'.length, ?_, by simp⟩
    by_contra hh
    rcases Nat.lt_or_ge t'.length i with h1 | h1
    · rw [List.getElem?_eq_none (by simp; omega)] at hi; simp at hi
    · obtain rfl : i = t'.length := by omega
      simp at hi
  · have hsc : (select c d op .seqCst fo).scOk := by
      refine select_sc ?_
      cases op <;> simp [AsksSeqCst]
    generalize select c d op .seqCst fo = b at *
    have hpair : ∀ k o, b = .pairInst k (instDigit o) → False := by
      rintro k o rfl
      have hs := hs o rfl
      subst hs
      exact pair_tries.no_plain_wr hi
    cases hg with
    | ldp | ldiapp | loadCasp | loadLx => exact absurd rfl hop
    | storeLx | swapLx | casLx | weakLx | rmw3Lx | rmw2Lx => exact absurd rfl hx
    | stp v b a =>
      obtain ⟨rfl, rfl⟩ := hsc
      simp only [Shape, fenceEv, if_true, List.cons_append, List.nil_append] at hs
      subst hs
      match i, hi with
      | 0, h => simp at h
      | 1, h => exact ⟨2, by omega, rfl⟩
      | 2, h => simp at h
      | (n + 3), h => simp at h
    | stilp v q a =>
      obtain rfl : a = true := hsc
      simp only [Shape, fenceEv, if_true, List.cons_append, List.nil_append] at hs
      subst hs
      match i, hi with
      | 0, h => exact ⟨1, by omega, rfl⟩
      | 1, h => simp at h
      | (n + 2), h => simp at h
    | storePair | swapPair | andPair | orPair =>
      simp only [Shape] at hs; subst hs; exact (pair_tries.no_plain_wr hi).elim
    | storeInst | swapInst | andInst | orInst => exact (hpair _ _ rfl).elim
    | casCasp | weakCasp => exact (Tries.no_plain_wr hs hi).elim
    | storeCasp | swapCasp | rmw3Cas | rmw2Cas => exact (casp_no_plain_wr hs hi).elim

end Verif.Arm
