import Mathlib.Data.Finset.Card
import Verif.Fallback.LockInv
/-!
# Short histories stay below the wrap-around bound (proof internals)
-/
namespace Verif
namespace Fallback
set_option linter.unusedSectionVars false
variable {V : Type} [DecidableEq V]

/-- Number of calls in a history. -/
def calls (h : List (Ev V)) : Nat := (h.filter fun | .inv .. => true | .ret .. => false).length

theorem calls_append_inv (h : List (Ev V)) (t o op) : calls (h ++ [Ev.inv t o op]) = calls h + 1 := by
  simp [calls, List.filter_append]

theorem calls_append_ret (h : List (Ev V)) (t r) : calls (h ++ [Ev.ret t r]) = calls h := by
  simp [calls, List.filter_append]

namespace Cfg
variable {c : Cfg V}

/-- Inside an operation, before its release of the lock (if any). -/
def active : Pc V c.W → Bool
  | .idle => false
  | .scPost .. => false
  | .ret .. => false
  | _ => true

/-- The object of a load that may still be (or become) optimistic. -/
def preObj : Pc V c.W → Option Obj
  | .scPre k => some k.obj
  | pc => c.optObj pc

theorem active_finish (k : Call V) (r : Res V) : active (c.finish k r) = false := by
  unfold finish; split <;> rfl

theorem active_next (pc : Pc V c.W) (x : BitVec c.W) (h : active (c.next pc x) = true) :
    active pc = true ∧ ∀ k p r, pc ≠ .dropStore k p r := by
  cases pc with
  | idle => simp [next, active] at h
  | scPost => simp [next, active] at h
  | ret => simp [next, active] at h
  | dropStore k p r => simp [next, active_finish] at h
  | _ => exact ⟨rfl, by intros; simp⟩

theorem preObj_enter (k : Call V) (o : Obj) (h : preObj (c.enter k) = some o) : k.obj = o := by
  unfold enter at h
  split at h
  · split at h <;> simpa [preObj, optObj] using h
  · simp [preObj, optObj] at h

theorem preObj_start (k : Call V) (o : Obj) (h : preObj (c.start k) = some o) : k.obj = o := by
  unfold start at h
  split at h
  · simp [preObj, optObj] at h
  · split at h
    · simpa [preObj] using h
    · exact preObj_enter k o h

theorem preObj_finish (k : Call V) (r : Res V) : preObj (c.finish k r) = none := by
  unfold finish; split <;> rfl

theorem preObj_next (pc : Pc V c.W) (x : BitVec c.W) (o : Obj)
    (h : preObj (c.next pc x) = some o) : preObj pc = some o := by
  cases pc with
  | scPre k => simp only [next] at h; rw [← preObj_enter k o h]; rfl
  | optHi k => exact h
  | optLo k y => simp only [next] at h; split at h <;> simpa [preObj, optObj] using h
  | optChunk k y l i acc => simp only [next] at h; split at h <;> simpa [preObj, optObj] using h
  | valFence k y l acc => exact h
  | valLo k y l acc =>
    simp only [next] at h; split at h
    · exact h
    · split at h
      · rw [preObj_finish] at h; cases h
      · simp [preObj, optObj] at h
  | valHi k y l acc l' =>
    simp only [next] at h; split at h
    · rw [preObj_finish] at h; cases h
    · simp [preObj, optObj] at h
  | swapLock k => simp only [next] at h; split at h <;> simp [preObj, optObj] at h
  | spin k => simp only [next] at h; split at h <;> simp [preObj, optObj] at h
  | relFence k p => simp only [next, locked] at h; split at h <;> simp [preObj, optObj, startWrite] at h
  | naRead k p i acc =>
    simp only [next] at h; split at h
    · simp [preObj, optObj] at h
    · simp only [decideOp] at h
      split at h <;> (try split at h) <;> simp [preObj, optObj, startWrite] at h
  | wrChunk k p i new r =>
    simp only [next] at h; split at h
    · simp [preObj, optObj] at h
    · simp only [dropGuard] at h; split at h <;> simp [preObj, optObj] at h
  | dropStore k p r => simp only [next, preObj_finish] at h; cases h
  | abortStore k p r => simp only [next, preObj_finish] at h; cases h
  | _ => simp [next, preObj, optObj] at h

/-- Counting invariant. -/
structure CI (c : Cfg V) (v0 : Nat → Nat) (h : List (Ev V)) (s : State V c.W) (T : Finset Tid) :
    Prop where
  idle : ∀ t, t ∉ T → s.pc t = .idle
  count : ∀ l, s.ver l + (T.filter fun t => active (s.pc t)).card ≤ v0 l + calls h
  mono : ∀ l, v0 l ≤ s.ver l
  start : ∀ t o, preObj (s.pc t) = some o → v0 (c.lockOf o) ≤ s.start t

variable {v0 : Nat → Nat} {h : List (Ev V)} {s : State V c.W} {T : Finset Tid}

theorem CI.step (R : CI c v0 h s T) {e : Option (Ev V)} {s' : State V c.W} (st : c.Step s e s') :
    ∃ T', CI c v0 (h ++ e.toList) s' T' := by
  cases st with
  | act t b hact =>
    have htT : t ∈ T := by
      by_contra hc
      rw [R.idle t hc] at hact; simp [act] at hact
    have hsub : (T.filter fun u => active ((c.doAct s t b).pc u)) ⊆
        (T.filter fun u => active (s.pc u)) := by
      intro u hu
      rw [Finset.mem_filter] at hu ⊢
      refine ⟨hu.1, ?_⟩
      have h2 := hu.2
      simp only [doAct] at h2
      by_cases e : u = t
      · subst e; rw [Function.update_self] at h2; exact (active_next _ _ h2).1
      · rw [Function.update_of_ne e] at h2; exact h2
    refine ⟨T, ?_, ?_, ?_, ?_⟩
    · intro u hu
      have : u ≠ t := fun e => hu (by rw [e]; exact htT)
      simp only [doAct, Function.update_of_ne this]; exact R.idle u hu
    · intro l
      simp only [Option.toList, List.append_nil]
      by_cases hd : ∃ k p r, s.pc t = .dropStore k p r
      · obtain ⟨k, p, r, hpc⟩ := hd
        have hss : (T.filter fun u => active ((c.doAct s t b).pc u)) ⊂
            (T.filter fun u => active (s.pc u)) := by
          refine Finset.ssubset_iff_subset_ne.2 ⟨hsub, fun e => ?_⟩
          have h1 : t ∈ (T.filter fun u => active (s.pc u)) := by
            simp only [Finset.mem_filter]; exact ⟨htT, by rw [hpc]; rfl⟩
          rw [← e] at h1
          have h2 := (Finset.mem_filter.1 h1).2
          simp only [doAct, Function.update_self] at h2
          exact (active_next _ _ h2).2 k p r hpc
        have hlt := Finset.card_lt_card hss
        have hc := R.count l
        have hv : (c.doAct s t b).ver l ≤ s.ver l + 1 := by
          simp only [doAct, hpc, bump]
          by_cases e : l = c.lockOf k.obj
          · subst e; simp
          · rw [Function.update_of_ne e]; omega
        omega
      · have hv : (c.doAct s t b).ver l = s.ver l := by
          have : c.bump (s.pc t) s.ver = s.ver := by
            unfold bump; split
            · rename_i k p r hpc; exact absurd ⟨k, p, r, hpc⟩ hd
            · rfl
          simp only [doAct, this]
        have := Finset.card_le_card hsub
        have hc := R.count l
        omega
    · intro l
      refine le_trans (R.mono l) ?_
      simp only [doAct]
      cases hpc : s.pc t with
      | dropStore k p r =>
        simp only [bump]
        by_cases e : l = c.lockOf k.obj
        · subst e; simp
        · rw [Function.update_of_ne e]
      | _ => exact le_refl _
    · intro u o hu
      by_cases e : u = t
      · subst e
        simp only [doAct, Function.update_self] at hu
        exact R.start u o (preObj_next _ _ _ hu)
      · simp only [doAct, Function.update_of_ne e] at hu; exact R.start u o hu
  | inv t o op hpc =>
    refine ⟨insert t T, ?_, ?_, R.mono, ?_⟩
    · intro u hu
      rw [Finset.mem_insert, not_or] at hu
      simp only [Function.update_of_ne hu.1]; exact R.idle u hu.2
    · intro l
      simp only [Option.toList, calls_append_inv]
      have hsub : ((insert t T).filter fun u =>
          active (Function.update s.pc t (c.start ⟨o, op⟩) u)) ⊆
          insert t (T.filter fun u => active (s.pc u)) := by
        intro u hu
        simp only [Finset.mem_filter, Finset.mem_insert] at hu ⊢
        by_cases e : u = t
        · exact Or.inl e
        · rw [Function.update_of_ne e] at hu
          exact Or.inr ⟨hu.1.resolve_left e, hu.2⟩
      have h1 := Finset.card_le_card hsub
      have h2 := Finset.card_insert_le t (T.filter fun u => active (s.pc u))
      have h3 := R.count l
      omega
    · intro u o' hu
      by_cases e : u = t
      · subst e
        simp only [Function.update_self] at hu ⊢
        rw [← preObj_start _ _ hu]
        exact R.mono _
      · simp only [Function.update_of_ne e] at hu ⊢; exact R.start u o' hu
  | ret t r hpc =>
    refine ⟨T, ?_, ?_, R.mono, ?_⟩
    · intro u hu
      by_cases e : u = t
      · subst e; simp
      · simp only [Function.update_of_ne e]; exact R.idle u hu
    · intro l
      simp only [Option.toList, calls_append_ret]
      refine le_trans ?_ (R.count l)
      have : (T.filter fun u => active (Function.update s.pc t .idle u)) ⊆
          (T.filter fun u => active (s.pc u)) := by
        intro u hu
        simp only [Finset.mem_filter] at hu ⊢
        by_cases e : u = t
        · subst e; simp [active] at hu
        · rw [Function.update_of_ne e] at hu; exact hu
      have := Finset.card_le_card this
      exact Nat.add_le_add_left this _
    · intro u o hu
      by_cases e : u = t
      · subst e; simp [preObj, optObj] at hu
      · simp only [Function.update_of_ne e] at hu; exact R.start u o hu

theorem CI.noWrap (R : CI c v0 h s T) (hb : calls h < c.maxOverlap) : c.NoWrap s := by
  intro t o ho
  have h1 := R.count (c.lockOf o)
  have h2 : v0 (c.lockOf o) ≤ s.start t := R.start t o (by
    unfold preObj; split
    · rename_i k hk; rw [hk] at ho; simp [optObj] at ho
    · exact ho)
  omega

theorem calls_le_append (h : List (Ev V)) (e : Ev V) : calls h ≤ calls (h ++ [e]) := by
  cases e
  · rw [calls_append_inv]; omega
  · rw [calls_append_ret]

theorem ci_exec {cells : Obj → V} {v0 : Nat → Nat} {ext : Nat → BitVec c.W}
    {h : List (Ev V)} {s : State V c.W} (x : Exec c.Step (c.init cells v0 ext) h s) :
    ∃ T, CI c v0 h s T := by
  generalize hi : c.init cells v0 ext = i at x
  induction x with
  | refl =>
    subst hi
    exact ⟨∅, fun t _ => rfl, fun l => by simp [calls]; exact le_refl _,
      fun l => le_refl _, fun t o h => by simp [init, preObj, optObj] at h⟩
  | tau _ st ih =>
    obtain ⟨T, h2⟩ := ih
    obtain ⟨T', h3⟩ := h2.step st
    exact ⟨T', by simpa using h3⟩
  | ev _ st ih =>
    obtain ⟨T, h2⟩ := ih
    obtain ⟨T', h3⟩ := h2.step st
    exact ⟨T', by simpa using h3⟩

/-- Executions with few calls are bounded executions. -/
theorem exec_bounded {cells : Obj → V} {v0 : Nat → Nat} {ext : Nat → BitVec c.W}
    {h : List (Ev V)} {s : State V c.W} (x : Exec c.Step (c.init cells v0 ext) h s)
    (hb : calls h < c.maxOverlap) : Exec c.StepB (c.init cells v0 ext) h s := by
  generalize hi : c.init cells v0 ext = i at x
  induction x with
  | refl => exact .refl _
  | tau x st ih =>
    subst hi
    obtain ⟨T, h2⟩ := ci_exec x
    exact .tau (ih hb) ⟨st, h2.noWrap hb⟩
  | ev x st ih =>
    subst hi
    have hb' := lt_of_le_of_lt (calls_le_append _ _) hb
    obtain ⟨T, h2⟩ := ci_exec x
    exact .ev (ih hb') ⟨st, h2.noWrap hb'⟩

end Cfg
end Fallback
end Verif
