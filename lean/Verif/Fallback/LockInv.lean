import Verif.Fallback.Lin
/-!
# Lock ownership, without any bound on the run (proof internals)
-/
namespace Verif
namespace Fallback
set_option linter.unusedSectionVars false
variable {V : Type} [DecidableEq V]

namespace Cfg
variable {c : Cfg V}

/-- The lock part of the invariant; holds in every reachable state, with no bound on versions. -/
structure LockInv (c : Cfg V) (s : State V c.W) (owner : Nat → Option Tid) : Prop where
  own : ∀ t l, c.owns (s.pc t) = some l ↔ owner l = some t
  free : ∀ l, owner l = none → s.mem (.lo l) = c.stamp (s.ver l)
  held : ∀ l t, owner l = some t → s.mem (.lo l) = 1
  prev : ∀ t k p, c.holds (s.pc t) = some (k, p) → p = c.stamp (s.ver (c.lockOf k.obj))

variable {s : State V c.W} {owner : Nat → Option Tid}

theorem LockInv.keep (R : LockInv c s owner) (t : Tid) (pc' : Pc V c.W) (mem' : Loc → BitVec c.W)
    (start' : Tid → Nat)
    (hh : c.holds pc' = c.holds (s.pc t)) (hlo : ∀ l, mem' (.lo l) = s.mem (.lo l)) :
    LockInv c { mem := mem', pc := Function.update s.pc t pc', ver := s.ver, start := start' }
      owner := by
  refine ⟨owns_update R.own (by unfold owns; rw [hh]), ?_, ?_, ?_⟩
  · intro l hl; simp only [hlo]; exact R.free l hl
  · intro l u hl; simp only [hlo]; exact R.held l u hl
  · intro u k p hu
    by_cases h : u = t
    · subst h; simp only [Function.update_self] at hu; rw [hh] at hu; exact R.prev _ _ _ hu
    · simp only [Function.update_of_ne h] at hu; exact R.prev _ _ _ hu

theorem LockInv.acquire (R : LockInv c s owner) (t : Tid) (k : Call V)
    (hn : c.holds (s.pc t) = none) (hon : owner (c.lockOf k.obj) = none) :
    LockInv c
      { s with
        mem := Function.update s.mem (.lo (c.lockOf k.obj)) 1
        pc := Function.update s.pc t (.relFence k (s.mem (.lo (c.lockOf k.obj)))) }
      (Function.update owner (c.lockOf k.obj) (some t)) := by
  have hnot : ∀ l, owner l ≠ some t := by
    intro l e; have := (R.own t l).2 e; simp [owns, hn] at this
  refine ⟨?_, ?_, ?_, ?_⟩
  · intro u l
    by_cases hu : u = t
    · subst hu
      simp only [Function.update_self]
      constructor
      · intro e
        have : c.lockOf k.obj = l := by simpa [owns, holds] using e
        subst this; simp
      · intro e
        by_cases hl : l = c.lockOf k.obj
        · subst hl; simp [owns, holds]
        · rw [Function.update_of_ne hl] at e; exact absurd e (hnot l)
    · simp only [Function.update_of_ne hu]
      rw [R.own u l]
      by_cases hl : l = c.lockOf k.obj
      · subst hl; rw [hon]; simp; exact fun e => hu e.symm
      · rw [Function.update_of_ne hl]
  · intro l hl
    by_cases h : l = c.lockOf k.obj
    · subst h; simp at hl
    · rw [Function.update_of_ne h] at hl
      simp only
      rw [Function.update_of_ne (by simpa using h)]
      exact R.free l hl
  · intro l u hl
    by_cases h : l = c.lockOf k.obj
    · subst h; simp
    · rw [Function.update_of_ne h] at hl
      simp only
      rw [Function.update_of_ne (by simpa using h)]
      exact R.held l u hl
  · intro u k' p hu
    by_cases h : u = t
    · subst h
      simp only [Function.update_self, holds, Option.some.injEq, Prod.mk.injEq] at hu
      obtain ⟨rfl, rfl⟩ := hu
      exact R.free _ hon
    · simp only [Function.update_of_ne h] at hu; exact R.prev _ _ _ hu

theorem LockInv.release (R : LockInv c s owner) (t : Tid) (k : Call V) (p : BitVec c.W) (r : Res V)
    (ver' : Nat → Nat) (hh : c.holds (s.pc t) = some (k, p))
    (hver : ∀ l, l ≠ c.lockOf k.obj → ver' l = s.ver l) :
    LockInv c
      { mem := Function.update s.mem (.lo (c.lockOf k.obj)) (c.stamp (ver' (c.lockOf k.obj)))
        pc := Function.update s.pc t (c.finish k r)
        ver := ver'
        start := s.start }
      (Function.update owner (c.lockOf k.obj) none) := by
  have hown : owner (c.lockOf k.obj) = some t := (R.own t _).1 (by simp [owns, hh])
  have hnot : ∀ l, l ≠ c.lockOf k.obj → owner l ≠ some t := by
    intro l hl e
    have := (R.own t l).2 e
    simp [owns, hh] at this
    exact hl (by rw [← this])
  refine ⟨?_, ?_, ?_, ?_⟩
  · intro u l
    by_cases hu : u = t
    · subst hu
      simp only [Function.update_self]
      constructor
      · intro e; simp [owns, holds_finish] at e
      · intro e
        by_cases hl : l = c.lockOf k.obj
        · subst hl; simp at e
        · rw [Function.update_of_ne hl] at e; exact absurd e (hnot l hl)
    · simp only [Function.update_of_ne hu]
      rw [R.own u l]
      by_cases hl : l = c.lockOf k.obj
      · subst hl; rw [hown]; simp; exact fun e => hu e.symm
      · rw [Function.update_of_ne hl]
  · intro l hl
    by_cases h : l = c.lockOf k.obj
    · subst h; simp
    · rw [Function.update_of_ne h] at hl
      simp only
      rw [Function.update_of_ne (by simpa using h), hver l h]
      exact R.free l hl
  · intro l u hl
    by_cases h : l = c.lockOf k.obj
    · subst h; simp at hl
    · rw [Function.update_of_ne h] at hl
      simp only
      rw [Function.update_of_ne (by simpa using h)]
      exact R.held l u hl
  · intro u k' p' hu
    by_cases h : u = t
    · subst h
      simp only [Function.update_self, holds_finish] at hu
      cases hu
    · simp only [Function.update_of_ne h] at hu
      have hne : c.lockOf k'.obj ≠ c.lockOf k.obj := by
        intro e
        have h1 := (R.own u (c.lockOf k'.obj)).1 (by simp [owns, hu])
        rw [e, hown] at h1
        exact h (Option.some.inj h1).symm
      simp only; rw [hver _ hne]
      exact R.prev _ _ _ hu

/-- An action that neither takes nor releases a lock keeps `holds`. -/
theorem holds_next (pc : Pc V c.W) (x : BitVec c.W)
    (h1 : ∀ k, pc ≠ .swapLock k) (h2 : ∀ k p r, pc ≠ .dropStore k p r)
    (h3 : ∀ k p r, pc ≠ .abortStore k p r) : c.holds (c.next pc x) = c.holds pc := by
  cases pc with
  | swapLock k => exact absurd rfl (h1 k)
  | dropStore k p r => exact absurd rfl (h2 k p r)
  | abortStore k p r => exact absurd rfl (h3 k p r)
  | scPre k => exact holds_enter k
  | optLo k y => simp only [next]; split <;> rfl
  | optChunk k y l i acc => simp only [next]; split <;> rfl
  | valLo k y l acc =>
    simp only [next]; split
    · rfl
    · split
      · exact holds_finish _ _
      · rfl
  | valHi k y l acc l' =>
    simp only [next]; split
    · exact holds_finish _ _
    · rfl
  | spin k => simp only [next]; split <;> rfl
  | relFence k p => simp only [next, locked]; split <;> rfl
  | naRead k p i acc =>
    simp only [next]; split
    · rfl
    · simp only [decideOp]; split <;> (try split) <;> rfl
  | wrChunk k p i new r =>
    simp only [next]; split
    · rfl
    · simp only [dropGuard]; split <;> rfl
  | _ => rfl

theorem lockInv_act (ok : c.Sound) (R : LockInv c s owner) {t : Tid} {b : Act c.W}
    (h : c.act (s.pc t) = some b) : ∃ owner', LockInv c (c.doAct s t b) owner' := by
  by_cases h1 : ∃ k, s.pc t = .swapLock k
  · obtain ⟨k, hpc⟩ := h1
    rw [hpc] at h; simp only [act, Option.some.injEq] at h; subst h
    have hb : c.bump (s.pc t) s.ver = s.ver := by rw [hpc]; rfl
    unfold doAct; rw [hb]; simp only [execSC]
    by_cases hm : s.mem (.lo (c.lockOf k.obj)) = 1
    · have hnext : c.next (s.pc t) (s.mem (.lo (c.lockOf k.obj))) = .spin k := by
        rw [hpc]; simp only [next]; rw [if_pos hm]
      rw [hnext]
      exact ⟨owner, R.keep t _ _ _ (by rw [hpc]; rfl) (by
        intro l
        by_cases e : l = c.lockOf k.obj
        · subst e; rw [Function.update_self, hm]
        · rw [Function.update_of_ne (by simpa using e)])⟩
    · have hnext : c.next (s.pc t) (s.mem (.lo (c.lockOf k.obj)))
          = .relFence k (s.mem (.lo (c.lockOf k.obj))) := by
        rw [hpc]; simp only [next]; rw [if_neg hm]
      rw [hnext]
      have hon : owner (c.lockOf k.obj) = none := by
        cases ho : owner (c.lockOf k.obj) with
        | none => rfl
        | some u => exact absurd (R.held _ u ho) hm
      exact ⟨_, R.acquire t k (by rw [hpc]; rfl) hon⟩
  · by_cases h2 : ∃ k p r, s.pc t = .dropStore k p r
    · obtain ⟨k, p, r, hpc⟩ := h2
      rw [hpc] at h; simp only [act, Option.some.injEq] at h; subst h
      have hh : c.holds (s.pc t) = some (k, p) := by rw [hpc]; rfl
      have := R.release t k p r
        (Function.update s.ver (c.lockOf k.obj) (s.ver (c.lockOf k.obj) + 1)) hh
        (fun l hl => Function.update_of_ne hl _ _)
      rw [Function.update_self, ← stamp_add, ← R.prev _ _ _ hh] at this
      unfold doAct; rw [hpc]
      exact ⟨_, this⟩
    · by_cases h3 : ∃ k p r, s.pc t = .abortStore k p r
      · obtain ⟨k, p, r, hpc⟩ := h3
        rw [hpc] at h; simp only [act, Option.some.injEq] at h; subst h
        have hh : c.holds (s.pc t) = some (k, p) := by rw [hpc]; rfl
        have := R.release t k p r s.ver hh (fun l hl => rfl)
        rw [← R.prev _ _ _ hh] at this
        unfold doAct; rw [hpc]
        exact ⟨_, this⟩
      · have hb : c.bump (s.pc t) s.ver = s.ver := by
          unfold bump; split
          · rename_i k p r hpc; exact absurd ⟨k, p, r, hpc⟩ h2
          · rfl
        unfold doAct; rw [hb]
        refine ⟨owner, R.keep t _ _ _ (holds_next _ _ (fun k e => h1 ⟨k, e⟩)
          (fun k p r e => h2 ⟨k, p, r, e⟩) (fun k p r e => h3 ⟨k, p, r, e⟩)) ?_⟩
        intro l
        cases hpc : s.pc t <;> rw [hpc] at h <;> simp only [act, Option.some.injEq, reduceCtorEq] at h
        all_goals first
          | (subst h; rfl)
          | (subst h; simp [execSC])
          | skip
        · exact absurd ⟨_, hpc⟩ h1
        · exact absurd ⟨_, _, _, hpc⟩ h2
        · exact absurd ⟨_, _, _, hpc⟩ h3

theorem lockInv_step (ok : c.Sound) (R : LockInv c s owner) {e : Option (Ev V)} {s' : State V c.W}
    (st : c.Step s e s') : ∃ owner', LockInv c s' owner' := by
  cases st with
  | act t b h => exact lockInv_act ok R h
  | inv t o op h hf =>
    exact ⟨owner, R.keep t _ s.mem _ (by rw [h, holds_start]; rfl) (fun _ => rfl)⟩
  | ret t r h =>
    exact ⟨owner, R.keep t _ s.mem _ (by rw [h]; rfl) (fun _ => rfl)⟩

theorem lockInv_exec (ok : c.Sound) {cells : Obj → V} {v0 : Nat → Nat} {ext : Nat → BitVec c.W}
    {h : List (Ev V)} {s : State V c.W} (x : Exec c.Step (c.init cells v0 ext) h s) :
    ∃ owner, LockInv c s owner := by
  refine Exec.inv_of (P := fun s => ∃ owner, LockInv c s owner) ?_ x ?_
  · rintro s e s' ⟨owner, R⟩ st; exact lockInv_step ok R st
  · refine ⟨fun _ => none, ?_, ?_, ?_, ?_⟩
    · intro t l; simp [init, owns, holds]
    · intro l _; rfl
    · intro l t h; cases h
    · intro t k p h; simp [init, holds] at h

end Cfg
end Fallback
end Verif
