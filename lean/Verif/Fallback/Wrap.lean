import Verif.Fallback.Facts
/-!
# Validation and version wrap-around (proof internals)
-/
namespace Verif
namespace Fallback
set_option linter.unusedSectionVars false
variable {V : Type} [DecidableEq V]

namespace Cfg
variable {c : Cfg V}

/-- Program points of the same optimistic load after its stamp `(h, l)` was taken, or later ones. -/
def AfterStamp (k : Call V) (h l : BitVec c.W) : Pc V c.W → Prop
  | .scPre _ => False
  | .optHi _ => False
  | .optLo _ _ => False
  | .optChunk k' h' l' _ _ => k' = k ∧ h' = h ∧ l' = l
  | .valFence k' h' l' _ => k' = k ∧ h' = h ∧ l' = l
  | .valLo k' h' l' _ => k' = k ∧ h' = h ∧ l' = l
  | .valHi k' h' l' _ _ => k' = k ∧ h' = h ∧ l' = l
  | .idle => False
  | _ => True

theorem afterStamp_finish (k : Call V) (h l : BitVec c.W) (k' : Call V) (r : Res V) :
    AfterStamp k h l (c.finish k' r) := by
  unfold finish; split <;> trivial

theorem afterStamp_next (k : Call V) (h l : BitVec c.W) (pc : Pc V c.W) (x : BitVec c.W)
    (hp : AfterStamp k h l pc) : AfterStamp k h l (c.next pc x) := by
  cases pc with
  | scPre k => exact hp.elim
  | optHi k => exact hp.elim
  | optLo k y => exact hp.elim
  | idle => exact hp.elim
  | optChunk k y l i acc => simp only [next]; split <;> exact hp
  | valFence k y l acc => exact hp
  | valLo k y l acc =>
    simp only [next]; split
    · exact hp
    · split
      · exact afterStamp_finish _ _ _ _ _
      · trivial
  | valHi k y l acc l' =>
    simp only [next]; split
    · exact afterStamp_finish _ _ _ _ _
    · trivial
  | swapLock k => simp only [next]; split <;> trivial
  | spin k => simp only [next]; split <;> trivial
  | relFence k p => simp only [next, locked]; split <;> trivial
  | naRead k p i acc =>
    simp only [next]; split
    · trivial
    · simp only [decideOp]; split <;> (try split) <;> trivial
  | wrChunk k p i new r =>
    simp only [next]; split
    · trivial
    · simp only [dropGuard]; split <;> trivial
  | dropStore k p r => exact afterStamp_finish _ _ _ _ _
  | abortStore k p r => exact afterStamp_finish _ _ _ _ _
  | _ => trivial

/-- Waiting at the reload of the high half, or later. -/
def AtHi (k : Call V) (h l : BitVec c.W) (m : BitVec c.W) : Pc V c.W → Prop
  | .scPre _ => False
  | .optHi _ => False
  | .optLo _ _ => False
  | .optChunk .. => False
  | .valFence .. => False
  | .valLo .. => False
  | .valHi k' h' l' _ m' => k' = k ∧ h' = h ∧ l' = l ∧ m' = m
  | .idle => False
  | _ => True

theorem atHi_finish (k : Call V) (h l m : BitVec c.W) (k' : Call V) (r : Res V) :
    AtHi k h l m (c.finish k' r) := by
  unfold finish; split <;> trivial

theorem atHi_next (k : Call V) (h l m : BitVec c.W) (pc : Pc V c.W) (x : BitVec c.W)
    (hp : AtHi k h l m pc) : AtHi k h l m (c.next pc x) := by
  cases pc with
  | scPre k => exact hp.elim
  | optHi k => exact hp.elim
  | optLo k y => exact hp.elim
  | idle => exact hp.elim
  | optChunk k y l i acc => exact hp.elim
  | valFence k y l acc => exact hp.elim
  | valLo k y l acc => exact hp.elim
  | valHi k y l acc l' =>
    simp only [next]; split
    · exact atHi_finish _ _ _ _ _ _
    · trivial
  | swapLock k => simp only [next]; split <;> trivial
  | spin k => simp only [next]; split <;> trivial
  | relFence k p => simp only [next, locked]; split <;> trivial
  | naRead k p i acc =>
    simp only [next]; split
    · trivial
    · simp only [decideOp]; split <;> (try split) <;> trivial
  | wrChunk k p i new r =>
    simp only [next]; split
    · trivial
    · simp only [dropGuard]; split <;> trivial
  | dropStore k p r => exact atHi_finish _ _ _ _ _ _
  | abortStore k p r => exact atHi_finish _ _ _ _ _ _
  | _ => trivial

/-- A program-point property closed under `next` holds along a segment in which the thread neither
calls nor returns; its start version does not change and versions only grow. -/
theorem segment {P : Pc V c.W → Prop} (hP : ∀ pc x, P pc → P (c.next pc x)) {t : Tid}
    {s s' : State V c.W} {h : List (Ev V)} (x : Exec c.StepB s h s') (hno : ∀ e ∈ h, ¬ Ev.by t e)
    (h0 : P (s.pc t)) :
    P (s'.pc t) ∧ s'.start t = s.start t ∧ ∀ l, s.ver l ≤ s'.ver l := by
  induction x with
  | refl => exact ⟨h0, rfl, fun _ => le_refl _⟩
  | tau x st ih =>
    obtain ⟨i1, i2, i3⟩ := ih hno
    have hm := fun l => (i3 l).trans (ver_mono st.1 l)
    obtain ⟨st, -⟩ := st
    cases st with
    | act u b hb =>
      refine ⟨?_, i2, hm⟩
      by_cases e : t = u
      · subst e; simp only [doAct, Function.update_self]; exact hP _ _ i1
      · simp only [doAct, Function.update_of_ne e]; exact i1
  | ev x st ih =>
    obtain ⟨i1, i2, i3⟩ := ih (fun e' he => hno e' (by simp [he]))
    have hm := fun l => (i3 l).trans (ver_mono st.1 l)
    obtain ⟨st, -⟩ := st
    cases st with
    | inv u o op hu =>
      have : u ≠ t := fun e => hno (.inv u o op) (by simp) e
      refine ⟨?_, ?_, hm⟩
      · simp only [Function.update_of_ne this.symm]; exact i1
      · simp only [Function.update_of_ne this.symm]; exact i2
    | ret u r hu =>
      have : u ≠ t := fun e => hno (.ret u r) (by simp) e
      refine ⟨?_, i2, hm⟩
      simp only [Function.update_of_ne this.symm]; exact i1

theorem maxOverlap_wide_eq (ok : c.Sound) (hwide : c.wide = true) :
    c.maxOverlap = 2 * c.B * c.B - c.B := by
  have hW := ok.hW
  simp only [maxOverlap, hwide, if_true, B]
  congr 1
  rw [← pow_succ', ← pow_add]; congr 1; omega

end Cfg
end Fallback
end Verif
