import Verif.Fallback.Facts
import Verif.Spec.Ordering
/-!
# Properties of memory orderings (C15, C16)
-/
namespace Verif

/-! ## C15 -/

/-- **C15a.** `load` panics exactly for `Release` and `AcqRel`. -/
theorem load_panics_iff (o : MemOrd) : o.assertLoad = .panic ↔ (o = .release ∨ o = .acqRel) := by
  cases o <;> simp [MemOrd.assertLoad]

/-- **C15b.** `store` panics exactly for `Acquire` and `AcqRel`. -/
theorem store_panics_iff (o : MemOrd) : o.assertStore = .panic ↔ (o = .acquire ∨ o = .acqRel) := by
  cases o <;> simp [MemOrd.assertStore]

/-- **C15c.** `compare_exchange` panics exactly when the failure ordering is `Release` or `AcqRel`. -/
theorem cas_panics_iff (s f : MemOrd) :
    MemOrd.assertCas s f = .panic ↔ (f = .release ∨ f = .acqRel) := by
  cases f <;> simp [MemOrd.assertCas]

/-! ## C16 -/

/-- **C16.** For every pair accepted by `compare_exchange`, the combined ordering is at least as
strong as both, and every ordering that is at least as strong as both is at least as strong as it. -/
theorem upgrade_is_lub (s f : MemOrd) (hf : MemOrd.assertCas s f = .ok) :
    (MemOrd.upgradeSuccess s f).AtLeast s ∧ (MemOrd.upgradeSuccess s f).AtLeast f ∧
    ∀ o : MemOrd, o.AtLeast s → o.AtLeast f → o.AtLeast (MemOrd.upgradeSuccess s f) := by
  refine ⟨?_, ?_, ?_⟩
  · intro g; cases s <;> cases f <;> cases g <;> simp [MemOrd.upgradeSuccess, MemOrd.gives]
  · intro g
    cases s <;> cases f <;> cases g <;>
      simp [MemOrd.upgradeSuccess, MemOrd.gives, MemOrd.assertCas] at hf ⊢
  · intro o h1 h2 g
    have a1 := h1 .acquire
    have a2 := h1 .release
    have a3 := h1 .total
    have b1 := h2 .acquire
    have b2 := h2 .release
    have b3 := h2 .total
    revert a1 a2 a3 b1 b2 b3
    clear h1 h2
    cases o <;> cases s <;> cases f <;> cases g <;>
      simp [MemOrd.upgradeSuccess, MemOrd.gives, MemOrd.assertCas] at hf ⊢

/-- Orderings are determined by what they guarantee, so "the weakest" is unique. -/
theorem MemOrd.eq_of_gives {a b : MemOrd} (h1 : a.AtLeast b) (h2 : b.AtLeast a) : a = b := by
  have a1 := h1 .acquire
  have a2 := h1 .release
  have a3 := h1 .total
  have b1 := h2 .acquire
  have b2 := h2 .release
  have b3 := h2 .total
  revert a1 a2 a3 b1 b2 b3
  clear h1 h2
  cases a <;> cases b <;> simp [MemOrd.gives]

example : MemOrd.assertCas .release .acquire = .ok ∧
    MemOrd.upgradeSuccess .release .acquire = .acqRel := by decide

/-! ## C15 for the fallback automaton -/

namespace Fallback
set_option linter.unusedSectionVars false
variable {V : Type} [DecidableEq V] {c : Cfg V}
variable {cells : Obj → V} {v0 : Nat → Nat} {ext : Nat → BitVec c.W}

/-- A program point that is not going to answer `panic`. -/
def NoPanic (pc : Pc V c.W) : Prop := Cfg.mustAnswer pc ≠ some .panic

theorem noPanic_enter (k : Call V) : NoPanic (c.enter k) := by
  unfold Cfg.enter; split
  · split <;> simp [NoPanic, Cfg.mustAnswer]
  · simp [NoPanic, Cfg.mustAnswer]

theorem noPanic_next (pc : Pc V c.W) (x : BitVec c.W) (h : NoPanic pc) : NoPanic (c.next pc x) := by
  cases hm : Cfg.mustAnswer pc with
  | some r =>
    unfold NoPanic
    rw [Cfg.mustAnswer_next _ _ _ hm, ← hm]; exact h
  | none =>
    cases pc with
    | scPre k => exact noPanic_enter k
    | optLo k y => simp only [Cfg.next]; split <;> simp [NoPanic, Cfg.mustAnswer]
    | optChunk k y l i acc => simp only [Cfg.next]; split <;> simp [NoPanic, Cfg.mustAnswer]
    | valLo k y l acc =>
      simp only [Cfg.next]; split
      · simp [NoPanic, Cfg.mustAnswer]
      · split
        · simp [NoPanic, Cfg.mustAnswer_finish]
        · simp [NoPanic, Cfg.mustAnswer]
    | valHi k y l acc l' =>
      simp only [Cfg.next]; split
      · simp [NoPanic, Cfg.mustAnswer_finish]
      · simp [NoPanic, Cfg.mustAnswer]
    | swapLock k => simp only [Cfg.next]; split <;> simp [NoPanic, Cfg.mustAnswer]
    | spin k => simp only [Cfg.next]; split <;> simp [NoPanic, Cfg.mustAnswer]
    | relFence k p =>
      simp only [Cfg.next, Cfg.locked]; split <;> simp [NoPanic, Cfg.mustAnswer, Cfg.startWrite]
    | naRead k p i acc =>
      simp only [Cfg.next]; split
      · simp [NoPanic, Cfg.mustAnswer]
      · simp only [Cfg.decideOp]
        split <;> (try split) <;> simp [NoPanic, Cfg.mustAnswer, Cfg.startWrite]
    | _ => simp [Cfg.mustAnswer] at hm <;> simp [NoPanic, Cfg.mustAnswer, Cfg.next]

/-- **C15d.** A fallback call with an ordering it rejects is about to panic at once, without a single
shared access; with an accepted ordering it starts normally. -/
theorem rejected_before_any_access (k : Call V) (h : k.op.ordOk = false) :
    c.start k = .ret .panic ∧ c.act (c.start k) = none := by
  have hc : checks k.op = .panic := by
    cases hk : checks k.op with
    | panic => rfl
    | ok => rw [(Cfg.checks_ordOk k.op).1 hk] at h; cases h
  have : c.start k = .ret .panic := by unfold Cfg.start; rw [hc]
  exact ⟨this, by rw [this]; rfl⟩

/-- **C15e.** A fallback call returns by panicking only if its ordering argument is one that the
operation rejects. -/
theorem panics_only_if_rejected {h : List (Ev V)} {s : State V c.W}
    (x : Exec c.Step (c.init cells v0 ext) h s) {t : Tid} (hr : s.pc t = .ret .panic) :
    ∃ o op, openCall h t = some (o, op) ∧ op.ordOk = false := by
  suffices H : ∀ t, NoPanic (s.pc t) ∨
      (s.pc t = .ret .panic ∧ ∃ o op, openCall h t = some (o, op) ∧ op.ordOk = false) by
    rcases H t with h1 | h1
    · rw [hr] at h1; exact absurd rfl h1
    · exact h1.2
  clear hr t
  generalize hi : c.init cells v0 ext = i at x
  induction x with
  | refl => subst hi; intro t; left; simp [Cfg.init, NoPanic, Cfg.mustAnswer]
  | tau x st ih =>
    intro t
    cases st with
    | act u b hb =>
      by_cases e : t = u
      · subst e
        simp only [Cfg.doAct, Function.update_self]
        rcases ih t with h1 | ⟨h1, -⟩
        · exact Or.inl (noPanic_next _ _ h1)
        · rw [h1] at hb; simp [Cfg.act] at hb
      · simp only [Cfg.doAct, Function.update_of_ne e]; exact ih t
  | ev x st ih =>
    intro t
    cases st with
    | inv u o op hu =>
      rw [openCall_inv]
      by_cases e : t = u
      · subst e
        simp only [Function.update_self, if_true]
        cases hok : op.ordOk with
        | false =>
          exact Or.inr ⟨(rejected_before_any_access ⟨o, op⟩ hok).1, o, op, rfl, hok⟩
        | true =>
          left
          unfold Cfg.start
          rw [(Cfg.checks_ordOk op).2 hok]
          simp only
          split
          · simp [NoPanic, Cfg.mustAnswer]
          · exact noPanic_enter _
      · simp only [Function.update_of_ne e, if_neg (Ne.symm e)]; exact ih t
    | ret u r hu =>
      rw [openCall_ret]
      by_cases e : t = u
      · subst e; left; simp [NoPanic, Cfg.mustAnswer]
      · simp only [Function.update_of_ne e, if_neg (Ne.symm e)]; exact ih t

example : (Op.load .release : Op (BitVec 8)).ordOk = false ∧
    (Op.cas 1 2 .release .seqCst : Op (BitVec 8)).ordOk = true := by decide

end Fallback
end Verif
