import Verif.Fallback.Count
/-!
# Progress (proof internals)
-/
namespace Verif
namespace Fallback
set_option linter.unusedSectionVars false
variable {V : Type} [DecidableEq V]

namespace Cfg
variable {c : Cfg V}

/-- The object of the call in progress, until its body is left. -/
def callObj : Pc V c.W → Option Obj
  | .idle => none
  | .scPre k => some k.obj
  | .optHi k => some k.obj
  | .optLo k _ => some k.obj
  | .optChunk k _ _ _ _ => some k.obj
  | .valFence k _ _ _ => some k.obj
  | .valLo k _ _ _ => some k.obj
  | .valHi k _ _ _ _ => some k.obj
  | .swapLock k => some k.obj
  | .spin k => some k.obj
  | .relFence k _ => some k.obj
  | .naRead k _ _ _ => some k.obj
  | .wrChunk k _ _ _ _ => some k.obj
  | .hiLoad k _ _ => some k.obj
  | .hiStore k _ _ _ => some k.obj
  | .dropStore k _ _ => some k.obj
  | .abortStore k _ _ => some k.obj
  | .scPost _ _ => none
  | .ret _ => none

/-- Remaining steps when running alone. -/
def rank (c : Cfg V) : Pc V c.W → Nat
  | .idle => 0
  | .ret _ => 1
  | .scPost _ _ => 2
  | .abortStore .. => 3
  | .dropStore .. => 3
  | .hiStore .. => 4
  | .hiLoad .. => 5
  | .wrChunk k _ i _ _ => 6 + (c.n k.obj - i)
  | .naRead k _ i _ => 7 + c.n k.obj + (c.n k.obj - i)
  | .relFence k _ => 8 + 2 * c.n k.obj
  | .swapLock k => 9 + 2 * c.n k.obj
  | .spin k => 10 + 2 * c.n k.obj
  | .valHi k _ _ _ _ => 11 + 2 * c.n k.obj
  | .valLo k _ _ _ => 12 + 2 * c.n k.obj
  | .valFence k _ _ _ => 13 + 2 * c.n k.obj
  | .optChunk k _ _ i _ => 14 + 2 * c.n k.obj + (c.n k.obj - i)
  | .optLo k _ => 15 + 3 * c.n k.obj
  | .optHi k => 16 + 3 * c.n k.obj
  | .scPre k => 17 + 3 * c.n k.obj

theorem rank_finish (k : Call V) (r : Res V) : c.rank (c.finish k r) ≤ 2 := by
  unfold finish; split <;> simp [rank]

theorem rank_enter (k : Call V) : c.rank (c.enter k) ≤ 16 + 3 * c.n k.obj := by
  unfold enter; split
  · split <;> simp [rank]
  · simp [rank]; omega

theorem callObj_enter (k : Call V) : callObj (c.enter k) = some k.obj := by
  unfold enter; split
  · split <;> rfl
  · rfl

theorem callObj_start (k : Call V) (o : Obj) (h : callObj (c.start k) = some o) : k.obj = o := by
  unfold start at h
  split at h
  · simp [callObj] at h
  · split at h
    · simpa [callObj] using h
    · rw [callObj_enter] at h; exact Option.some.inj h

theorem callObj_finish (k : Call V) (r : Res V) : callObj (c.finish k r) = none := by
  unfold finish; split <;> rfl

theorem callObj_next (pc : Pc V c.W) (x : BitVec c.W) (o : Obj)
    (h : callObj (c.next pc x) = some o) : callObj pc = some o := by
  cases pc with
  | scPre k => simp only [next, callObj_enter] at h; exact h
  | optLo k y => simp only [next] at h; split at h <;> simpa [callObj] using h
  | optChunk k y l i acc => simp only [next] at h; split at h <;> simpa [callObj] using h
  | valLo k y l acc =>
    simp only [next] at h; split at h
    · exact h
    · split at h
      · rw [callObj_finish] at h; cases h
      · exact h
  | valHi k y l acc l' =>
    simp only [next] at h; split at h
    · rw [callObj_finish] at h; cases h
    · exact h
  | swapLock k => simp only [next] at h; split at h <;> simpa [callObj] using h
  | spin k => simp only [next] at h; split at h <;> simpa [callObj] using h
  | relFence k p => simp only [next, locked] at h; split at h <;> simpa [callObj, startWrite] using h
  | naRead k p i acc =>
    simp only [next] at h; split at h
    · simpa [callObj] using h
    · simp only [decideOp] at h
      split at h <;> (try split at h) <;> simpa [callObj, startWrite] using h
  | wrChunk k p i new r =>
    simp only [next] at h; split at h
    · simpa [callObj] using h
    · simp only [dropGuard] at h; split at h <;> simpa [callObj] using h
  | dropStore k p r => simp only [next, callObj_finish] at h; cases h
  | abortStore k p r => simp only [next, callObj_finish] at h; cases h
  | _ => simpa [next, callObj] using h

theorem owns_callObj {pc : Pc V c.W} {l : Nat} (h : c.owns pc = some l) :
    ∃ o, callObj pc = some o ∧ c.lockOf o = l := by
  cases pc <;> simp [owns, holds] at h <;> exact ⟨_, rfl, h⟩

variable {s : State V c.W} {owner : Nat → Option Tid}

/-- Nobody else holds the lock that thread `t` needs. -/
def Unblocked (c : Cfg V) (s : State V c.W) (t : Tid) : Prop :=
  ∀ u, u ≠ t → ∀ o, callObj (s.pc t) = some o → c.owns (s.pc u) ≠ some (c.lockOf o)

theorem rank_next (ok : c.Sound) (R : LockInv c s owner) {t : Tid} {b : Act c.W}
    (hb : c.act (s.pc t) = some b) (hu : Unblocked c s t) :
    c.rank (c.next (s.pc t) (execSC s.mem b).2) < c.rank (s.pc t) := by
  have hn := ok.hn
  -- the lock word does not look taken while we wait for it
  have hlo : ∀ k, (s.pc t = .swapLock k ∨ s.pc t = .spin k) →
      s.mem (.lo (c.lockOf k.obj)) ≠ 1 := by
    intro k hk
    have hc : callObj (s.pc t) = some k.obj := by rcases hk with h | h <;> rw [h] <;> rfl
    have hnone : owner (c.lockOf k.obj) = none := by
      cases ho : owner (c.lockOf k.obj) with
      | none => rfl
      | some u =>
        have h1 := (R.own u _).2 ho
        by_cases e : u = t
        · subst e; rcases hk with h | h <;> rw [h] at h1 <;> simp [owns, holds] at h1
        · exact absurd h1 (hu u e _ hc)
    rw [R.free _ hnone]; exact stamp_ne_one ok _
  cases hpc : s.pc t with
  | idle => rw [hpc] at hb; simp [act] at hb
  | ret r => rw [hpc] at hb; simp [act] at hb
  | scPre k => show c.rank (c.enter k) < 17 + 3 * c.n k.obj; have := rank_enter (c := c) k; omega
  | optHi k => simp only [next, rank]; omega
  | optLo k y => simp only [next]; split <;> simp only [rank] <;> omega
  | optChunk k y l i acc => simp only [next]; split <;> simp only [rank] <;> omega
  | valFence k y l acc => simp only [next, rank]; omega
  | valLo k y l acc =>
    simp only [next]; split
    · simp only [rank]; omega
    · split
      · have := rank_finish (c := c) k (.val (c.join k.obj acc))
        show _ < 12 + 2 * c.n k.obj; omega
      · simp only [rank]; omega
  | valHi k y l acc l' =>
    simp only [next]; split
    · have := rank_finish (c := c) k (.val (c.join k.obj acc))
      show _ < 11 + 2 * c.n k.obj; omega
    · simp only [rank]; omega
  | swapLock k =>
    have h1 := hlo k (Or.inl hpc)
    rw [hpc] at hb; simp only [act, Option.some.injEq] at hb; subst hb
    have e : c.next (.swapLock k) (s.mem (.lo (c.lockOf k.obj)))
        = .relFence k (s.mem (.lo (c.lockOf k.obj))) := if_neg h1
    simp only [execSC]; rw [e]; simp only [rank]; omega
  | spin k =>
    have h1 := hlo k (Or.inr hpc)
    rw [hpc] at hb; simp only [act, Option.some.injEq] at hb; subst hb
    have e : c.next (.spin k) (s.mem (.lo (c.lockOf k.obj))) = .swapLock k := if_neg h1
    simp only [execSC]; rw [e]; simp only [rank]; omega
  | relFence k p => simp only [next, locked]; split <;> simp only [rank, startWrite] <;> omega
  | naRead k p i acc =>
    simp only [next]; split
    · simp only [rank]; omega
    · simp only [decideOp]; split <;> (try split) <;> simp only [rank, startWrite] <;> omega
  | wrChunk k p i new r =>
    simp only [next]; split
    · simp only [rank]; omega
    · simp only [dropGuard]; split <;> simp only [rank] <;> omega
  | hiLoad k p r => simp only [next, rank]; omega
  | hiStore k p y r => simp only [next, rank]; omega
  | dropStore k p r => show c.rank (c.finish k r) < 3; have := rank_finish (c := c) k r; omega
  | abortStore k p r => show c.rank (c.finish k r) < 3; have := rank_finish (c := c) k r; omega
  | scPost k r => simp only [next, rank]; omega

/-- Running one unblocked thread alone completes its call. -/
theorem solo (ok : c.Sound) (t : Tid) :
    ∀ (m : Nat) (s : State V c.W) (owner : Nat → Option Tid), c.rank (s.pc t) ≤ m →
      LockInv c s owner → Unblocked c s t →
      ∃ h s' owner', Exec c.Step s h s' ∧ s'.pc = Function.update s.pc t .idle ∧
        LockInv c s' owner' ∧ (∀ e ∈ h, ∃ r, e = .ret t r) := by
  intro m
  induction m with
  | zero =>
    intro s owner hm R _
    have hi : s.pc t = .idle := by
      cases hpc : s.pc t <;> rw [hpc] at hm <;> simp [rank] at hm
    exact ⟨[], s, owner, .refl _, by rw [← hi]; simp, R, by simp⟩
  | succ m ih =>
    intro s owner hm R hu
    cases hb : c.act (s.pc t) with
    | none =>
      cases hpc : s.pc t <;> rw [hpc] at hb <;> simp [act] at hb
      · exact ⟨[], s, owner, .refl _, by rw [← hpc]; simp, R, by simp⟩
      · rename_i r
        have st := Step.ret (c := c) s t r hpc
        obtain ⟨owner', R'⟩ := lockInv_step ok R st
        exact ⟨[] ++ [.ret t r], _, owner', .ev (.refl _) st, rfl, R', by simp⟩
    | some b =>
      have st := Step.act (c := c) s t b hb
      obtain ⟨owner', R'⟩ := lockInv_step ok R st
      have hr := rank_next ok R hb hu
      have hpc' : (c.doAct s t b).pc = Function.update s.pc t
          (c.next (s.pc t) (execSC s.mem b).2) := rfl
      have hu' : Unblocked c (c.doAct s t b) t := by
        intro u hne o ho
        rw [hpc', Function.update_self] at ho
        rw [hpc', Function.update_of_ne hne]
        exact hu u hne o (callObj_next _ _ _ ho)
      obtain ⟨h, s', owner'', x, hs', R'', he⟩ := ih (c.doAct s t b) owner'
        (by rw [hpc', Function.update_self]; omega) R' hu'
      refine ⟨h, s', owner'', ?_, ?_, R'', he⟩
      · have := (Exec.one_tau st).trans x; simpa using this
      · rw [hs', hpc', Function.update_idem]

theorem quiesce (ok : c.Sound) :
    ∀ (m : Nat) (T : Finset Tid), T.card ≤ m → ∀ (s : State V c.W) (owner : Nat → Option Tid),
      LockInv c s owner → (∀ t, t ∉ T → s.pc t = .idle) →
      ∃ h s', Exec c.Step s h s' ∧ (∀ t, s'.pc t = .idle) ∧ (∀ e ∈ h, ∃ t r, e = .ret t r) := by
  intro m
  induction m with
  | zero =>
    intro T hT s owner R hidle
    have : T = ∅ := Finset.card_eq_zero.1 (Nat.le_zero.1 hT)
    subst this
    exact ⟨[], s, .refl _, fun t => hidle t (by simp), by simp⟩
  | succ m ih =>
    intro T hT s owner R hidle
    by_cases hemp : T = ∅
    · subst hemp
      exact ⟨[], s, .refl _, fun t => hidle t (by simp), by simp⟩
    · -- pick a lock owner if there is one, else anybody
      have hpick : ∃ t ∈ T, Unblocked c s t := by
        by_cases ho : ∃ t l, c.owns (s.pc t) = some l
        · obtain ⟨t, l, hl⟩ := ho
          have htT : t ∈ T := by
            by_contra hc
            rw [hidle t hc] at hl; simp [owns, holds] at hl
          refine ⟨t, htT, ?_⟩
          intro u hne o hco hou
          obtain ⟨o', h1, h2⟩ := owns_callObj hl
          rw [h1] at hco
          obtain rfl := Option.some.inj hco
          rw [h2] at hou
          have e1 := (R.own t l).1 hl
          have e2 := (R.own u l).1 hou
          rw [e1] at e2
          exact hne (Option.some.inj e2).symm
        · obtain ⟨t, ht⟩ := Finset.nonempty_iff_ne_empty.2 hemp
          refine ⟨t, ht, ?_⟩
          intro u _ o _ hou
          exact ho ⟨u, _, hou⟩
      obtain ⟨t, ht, hu⟩ := hpick
      obtain ⟨h1, s1, owner1, x1, hs1, R1, he1⟩ := solo ok t _ s owner (le_refl _) R hu
      have hcard : (T.erase t).card ≤ m := by
        rw [Finset.card_erase_of_mem ht]; omega
      obtain ⟨h2, s2, x2, hid, he2⟩ := ih (T.erase t) hcard s1 owner1 R1 (by
        intro u hu'
        rw [hs1]
        by_cases e : u = t
        · subst e; simp
        · rw [Function.update_of_ne e]
          exact hidle u (fun h => hu' (Finset.mem_erase.2 ⟨e, h⟩)))
      refine ⟨h1 ++ h2, s2, x1.trans x2, hid, ?_⟩
      intro e he
      rcases List.mem_append.1 he with h | h
      · obtain ⟨r, rfl⟩ := he1 e h; exact ⟨t, r, rfl⟩
      · exact he2 e h

end Cfg
end Fallback
end Verif
