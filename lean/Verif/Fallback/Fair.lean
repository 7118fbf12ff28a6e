import Verif.Fallback.Facts
import Verif.Spec.Fair
/-!
# Endless runs of the fallback
-/
set_option autoImplicit false
namespace Verif
namespace Fallback
set_option linter.unusedSectionVars false
variable {V : Type} [DecidableEq V]

namespace Cfg
variable {c : Cfg V}

/-- A step of thread `t`: the steps of `Fallback/SC.lean`, with the thread named. -/
def StepOf (c : Cfg V) (t : Tid) (s : State V c.W) (e : Option (Ev V)) (s' : State V c.W) : Prop :=
  (∃ o op, e = some (.inv t o op) ∧ c.Step s e s') ∨ (∃ r, e = some (.ret t r) ∧ c.Step s e s') ∨
    (e = none ∧ ∃ a, c.act (s.pc t) = some a ∧ s' = c.doAct s t a)

/-- Every step is some thread's. -/
theorem step_iff {s s' : State V c.W} {e : Option (Ev V)} : c.Step s e s' ↔ ∃ t, c.StepOf t s e s' := by
  constructor
  · intro h
    cases h with
    | inv t o op h hf => exact ⟨t, .inl ⟨o, op, rfl, .inv s t o op h hf⟩⟩
    | act t a h => exact ⟨t, .inr (.inr ⟨rfl, a, h, rfl⟩)⟩
    | ret t r h => exact ⟨t, .inr (.inl ⟨r, rfl, .ret s t r h⟩)⟩
  · rintro ⟨t, ⟨o, op, -, h⟩ | ⟨r, -, h⟩ | ⟨rfl, a, h, rfl⟩⟩
    · exact h
    · exact h
    · exact .act s t a h

/-- An endless run: states, events, and whose step each is. -/
structure Endless (c : Cfg V) (cells : Obj → V) (v0 : Nat → Nat) (ext : Nat → BitVec c.W)
    (σ : Nat → State V c.W) (e : Nat → Option (Ev V)) (who : Nat → Tid) : Prop where
  init : σ 0 = c.init cells v0 ext
  step : ∀ i, c.StepOf (who i) (σ i) (e i) (σ (i + 1))

variable {cells : Obj → V} {v0 : Nat → Nat} {ext : Nat → BitVec c.W}
  {σ : Nat → State V c.W} {e : Nat → Option (Ev V)} {who : Nat → Tid}

namespace Endless

theorem lockInv (ok : c.Sound) (X : Endless c cells v0 ext σ e who) (i : Nat) : ∃ owner, LockInv c (σ i) owner := by
  induction i with
  | zero => rw [X.init]; exact lockInv_exec ok (.refl _)
  | succ i ih =>
    obtain ⟨owner, R⟩ := ih
    exact lockInv_step ok R (step_iff.2 ⟨_, X.step i⟩)

/-- What a step does to the threads. -/
theorem pc_other (X : Endless c cells v0 ext σ e who) {i : Nat} {t : Tid} (h : who i ≠ t) :
    (σ (i + 1)).pc t = (σ i).pc t := by
  rcases X.step i with ⟨o, op, he, h'⟩ | ⟨r, he, h'⟩ | ⟨-, a, -, h'⟩
  · rw [he] at h'
    generalize hs : σ (i + 1) = s' at h'
    cases h' with
    | inv _ _ _ _ _ => exact Function.update_of_ne (Ne.symm h) ..
  · rw [he] at h'
    generalize hs : σ (i + 1) = s' at h'
    cases h' with
    | ret _ _ _ => exact Function.update_of_ne (Ne.symm h) ..
  · rw [h']; exact Function.update_of_ne (Ne.symm h) ..

theorem pc_inv (X : Endless c cells v0 ext σ e who) {i : Nat} {t : Tid} {o : Obj} {op : Op V}
    (h : e i = some (.inv t o op)) : who i = t ∧ (σ i).pc t = .idle ∧ (σ (i + 1)).pc t = c.start ⟨o, op⟩ := by
  rcases X.step i with ⟨o, op, he, h'⟩ | ⟨r, he, h'⟩ | ⟨he, _⟩
  · rw [he] at h'
    rw [h] at he
    cases he
    generalize hs : σ (i + 1) = s' at h'
    cases h' with
    | inv _ _ _ h1 _ => exact ⟨rfl, h1, Function.update_self ..⟩
  · rw [h] at he; cases he
  · rw [h] at he; cases he

theorem pc_ret (X : Endless c cells v0 ext σ e who) {i : Nat} {t : Tid} {r : Res V}
    (h : e i = some (.ret t r)) : who i = t ∧ (σ i).pc t = .ret r ∧ (σ (i + 1)).pc t = .idle := by
  rcases X.step i with ⟨o, op, he, h'⟩ | ⟨r, he, h'⟩ | ⟨he, _⟩
  · rw [h] at he; cases he
  · rw [he] at h'
    rw [h] at he
    cases he
    generalize hs : σ (i + 1) = s' at h'
    cases h' with
    | ret _ _ h1 => exact ⟨rfl, h1, Function.update_self ..⟩
  · rw [h] at he; cases he

theorem pc_act (X : Endless c cells v0 ext σ e who) {i : Nat} (h : e i = none) :
    ∃ a, c.act ((σ i).pc (who i)) = some a ∧
      (σ (i + 1)).pc (who i) = c.next ((σ i).pc (who i)) (execSC (σ i).mem a).2 := by
  rcases X.step i with ⟨o, op, he, h'⟩ | ⟨r, he, h'⟩ | ⟨he, a, ha, h'⟩
  · rw [h] at he; cases he
  · rw [h] at he; cases he
  · exact ⟨a, ha, by rw [h']; exact Function.update_self ..⟩

theorem next_not_idle (pc : Pc V c.W) (x : BitVec c.W) (h : pc ≠ .idle) : c.next pc x ≠ .idle := by
  cases pc <;> simp only [next, ne_eq, not_true_eq_false] at * <;> (repeat' split) <;>
    simp [enter, finish, locked, decideOp, dropGuard, startWrite] <;> (repeat' split) <;> simp

theorem start_not_idle (k : Call V) : c.start k ≠ .idle := by
  unfold start enter
  repeat' split
  all_goals simp

/-- The event of a thread's step. -/
theorem cases_who (X : Endless c cells v0 ext σ e who) (i : Nat) :
    (∃ o op, e i = some (.inv (who i) o op)) ∨ (∃ r, e i = some (.ret (who i) r)) ∨ e i = none := by
  rcases X.step i with ⟨o, op, he, _⟩ | ⟨r, he, _⟩ | ⟨he, _⟩
  · exact .inl ⟨o, op, he⟩
  · exact .inr (.inl ⟨r, he⟩)
  · exact .inr (.inr he)

theorem pending_succ {t : Tid} {o : Obj} {i : Nat} (h : Pending e t o i) (hr : ∀ r, e i ≠ some (.ret t r)) :
    Pending e t o (i + 1) := by
  obtain ⟨k, hk, hop, hj⟩ := h
  refine ⟨k, Nat.lt_succ_of_lt hk, hop, fun j h1 h2 => ?_⟩
  rcases Nat.lt_succ_iff_lt_or_eq.1 h2 with h2 | rfl
  · exact hj j h1 h2
  · exact hr

theorem pending_later {t : Tid} {o : Obj} {i j : Nat} (h : Pending e t o i) (hij : i ≤ j)
    (hr : ∀ k, i ≤ k → k < j → ∀ r, e k ≠ some (.ret t r)) : Pending e t o j := by
  induction j, hij using Nat.le_induction with
  | base => exact h
  | succ j hij ih =>
    exact pending_succ (ih fun k h1 h2 => hr k h1 (Nat.lt_succ_of_lt h2)) (hr j hij (Nat.lt_succ_self _))

theorem pending_not_idle (X : Endless c cells v0 ext σ e who) {t : Tid} {o : Obj} :
    ∀ {i : Nat}, Pending e t o i → (σ i).pc t ≠ .idle := by
  intro i
  induction i with
  | zero => rintro ⟨k, hk, _⟩; exact absurd hk (Nat.not_lt_zero _)
  | succ i ih =>
    rintro ⟨k, hk, ⟨op, hop⟩, hj⟩
    rcases Nat.lt_succ_iff_lt_or_eq.1 hk with hk | rfl
    · have hp : Pending e t o i := ⟨k, hk, ⟨op, hop⟩, fun j h1 h2 => hj j h1 (Nat.lt_succ_of_lt h2)⟩
      have h0 := ih hp
      by_cases hw : who i = t
      · subst hw
        rcases X.cases_who i with ⟨o', op', h⟩ | ⟨r, h⟩ | h
        · exact absurd (X.pc_inv h).2.1 h0
        · exact absurd h (hj i hk (Nat.lt_succ_self _) r)
        · obtain ⟨a, -, h2⟩ := X.pc_act h
          rw [h2]
          exact next_not_idle _ _ h0
      · rw [X.pc_other hw]; exact h0
    · rw [(X.pc_inv hop).2.2]; exact start_not_idle _

theorem pending_unique (X : Endless c cells v0 ext σ e who) {t : Tid} {o o' : Obj} {i : Nat}
    (h : Pending e t o i) (h' : Pending e t o' i) : o = o' := by
  obtain ⟨k, hk, ⟨op, hop⟩, hj⟩ := h
  obtain ⟨k', hk', ⟨op', hop'⟩, hj'⟩ := h'
  rcases Nat.lt_trichotomy k k' with hlt | rfl | hlt
  · exact absurd (X.pc_inv hop').2.1
      (X.pending_not_idle ⟨k, hlt, ⟨op, hop⟩, fun j h1 h2 => hj j h1 (Nat.lt_trans h2 hk')⟩)
  · rw [hop] at hop'; cases hop'; rfl
  · exact absurd (X.pc_inv hop).2.1
      (X.pending_not_idle ⟨k', hlt, ⟨op', hop'⟩, fun j h1 h2 => hj' j h1 (Nat.lt_trans h2 hk)⟩)

/-- A thread that is not idle has a call open, and on the object its program point says. -/
theorem pending_of (X : Endless c cells v0 ext σ e who) (t : Tid) :
    ∀ i, (σ i).pc t ≠ .idle → ∃ o, Pending e t o i ∧ ∀ o', callObj ((σ i).pc t) = some o' → o' = o := by
  intro i
  induction i with
  | zero => rw [X.init]; intro h; exact absurd rfl h
  | succ i ih =>
    intro h
    by_cases hw : who i = t
    · subst hw
      rcases X.cases_who i with ⟨o, op, he⟩ | ⟨r, he⟩ | he
      · refine ⟨o, ⟨i, Nat.lt_succ_self _, ⟨op, he⟩, fun j h1 h2 => by omega⟩, fun o' h' => ?_⟩
        rw [(X.pc_inv he).2.2] at h'
        exact (callObj_start _ _ h').symm
      · exact absurd (X.pc_ret he).2.2 h
      · obtain ⟨a, ha, h2⟩ := X.pc_act he
        have h0 : (σ i).pc (who i) ≠ .idle := by intro h'; rw [h'] at ha; cases ha
        obtain ⟨o, hp, ho⟩ := ih h0
        refine ⟨o, pending_succ hp (by rw [he]; exact fun _ h => by cases h), fun o' h' => ho o' ?_⟩
        rw [h2] at h'
        exact callObj_next _ _ _ h'
    · rw [X.pc_other hw] at h ⊢
      obtain ⟨o, hp, ho⟩ := ih h
      exact ⟨o, pending_succ hp (fun r he => hw (X.pc_ret he).1), ho⟩

/-- The next step of a thread in a call: nothing happens to its program point before. -/
theorem next_step (X : Endless c cells v0 ext σ e who) (F : Fair e who) {t : Tid} {o : Obj} {i : Nat} (h : Pending e t o i) :
    ∃ j, i ≤ j ∧ who j = t ∧ (σ j).pc t = (σ i).pc t ∧ Pending e t o j := by
  obtain ⟨j, hij, hj⟩ := F i t o h
  induction hd : j - i using Nat.strongRecOn generalizing i with
  | _ d ih =>
    by_cases hw : who i = t
    · exact ⟨i, le_refl _, hw, rfl, h⟩
    · have hne : i ≠ j := by rintro rfl; exact hw hj
      have hp := pending_succ h fun r he => hw (X.pc_ret he).1
      obtain ⟨j', h1, h2, h3, h4⟩ := ih (j - (i + 1)) (by omega) hp (by omega) rfl
      exact ⟨j', by omega, h2, h3.trans (X.pc_other hw), h4⟩

theorem owns_next (pc : Pc V c.W) (x : BitVec c.W) {l : Nat} (h : c.owns pc = some l) :
    c.owns (c.next pc x) = some l ∨ callObj (c.next pc x) = none := by
  by_cases h2 : ∃ k p r, pc = .dropStore k p r
  · obtain ⟨k, p, r, rfl⟩ := h2; exact .inr (callObj_finish ..)
  · by_cases h3 : ∃ k p r, pc = .abortStore k p r
    · obtain ⟨k, p, r, rfl⟩ := h3; exact .inr (callObj_finish ..)
    · left
      unfold owns at h ⊢
      rw [holds_next pc x (by rintro k rfl; cases h) (fun k p r hh => h2 ⟨k, p, r, hh⟩) (fun k p r hh => h3 ⟨k, p, r, hh⟩)]
      exact h

section main
variable (ok : c.Sound) (X : Endless c cells v0 ext σ e who) (F : Fair e who) {l n : Nat}
  (hn : ∀ j, n ≤ j → ∀ u o r, c.lockOf o = l → Pending e u o j → e j ≠ some (.ret u r))
include ok X F hn

/-- A thread with a call on the lock whose steps all bring it nearer to the end: contradiction. -/
theorem descend {P : Nat → Tid → Prop}
    (hP : ∀ i u o, n ≤ i → Pending e u o i → c.lockOf o = l → P i u → Unblocked c (σ i) u)
    (hmove : ∀ i j u, i ≤ j → (σ j).pc u = (σ i).pc u → P i u → P j u)
    (hstep : ∀ i, P i (who i) → e i = none → P (i + 1) (who i)) :
    ∀ m i u o, n ≤ i → Pending e u o i → c.lockOf o = l → P i u → c.rank ((σ i).pc u) ≤ m → False := by
  intro m
  induction m with
  | zero =>
    intro i u o _ hp _ _ hm
    refine X.pending_not_idle hp ?_
    cases hpc : (σ i).pc u <;> rw [hpc] at hm <;> simp [rank] at hm
  | succ m ih =>
    intro i u o hi hp hl hPi hm
    obtain ⟨j, hij, hw, hpc, hpj⟩ := X.next_step F hp
    have hPj := hmove i j u hij hpc hPi
    subst hw
    have hnj : n ≤ j := le_trans hi hij
    rcases X.cases_who j with ⟨o', op, he⟩ | ⟨r, he⟩ | he
    · exact X.pending_not_idle hpj (X.pc_inv he).2.1
    · exact hn j hnj _ _ r hl hpj he
    · obtain ⟨a, ha, h2⟩ := X.pc_act he
      obtain ⟨owner, R⟩ := X.lockInv ok j
      have hr := rank_next ok R ha (hP j _ o hnj hpj hl hPj)
      rw [← h2, hpc] at hr
      exact ih (j + 1) (who j) o (by omega) (pending_succ hpj (by rw [he]; exact fun _ h => by cases h)) hl (hstep j hPj he) (by omega)

/-- Nobody takes the lock any more. -/
theorem no_owner {i : Nat} {u : Tid} (hi : n ≤ i) (h : c.owns ((σ i).pc u) = some l) : False := by
  obtain ⟨o', h1, h2⟩ := owns_callObj h
  obtain ⟨o, hp, ho⟩ := X.pending_of u i (by intro h'; rw [h'] at h1; cases h1)
  obtain rfl := ho o' h1
  refine descend ok X F hn (P := fun i u => c.owns ((σ i).pc u) = some l ∨ callObj ((σ i).pc u) = none)
    ?_ ?_ ?_ _ i u o' hi hp h2 (.inl h) (le_refl _)
  · intro i u o _ _ _ hPi w hne o' ho' hown
    rcases hPi with hPi | hPi
    · obtain ⟨o2, h3, h4⟩ := owns_callObj hPi
      rw [h3] at ho'
      cases ho'
      rw [h4] at hown
      obtain ⟨owner, R⟩ := X.lockInv ok i
      have e1 := (R.own u l).1 hPi
      have e2 := (R.own w l).1 hown
      rw [e1] at e2
      exact hne (Option.some.inj e2).symm
    · rw [hPi] at ho'; cases ho'
  · intro i j u _ hpc hPi
    rw [hpc]; exact hPi
  · intro i hPi he
    obtain ⟨a, ha, h2⟩ := X.pc_act he
    rw [h2]
    rcases hPi with hPi | hPi
    · exact owns_next _ _ hPi
    · right
      cases hc : callObj (c.next ((σ i).pc (who i)) (execSC (σ i).mem a).2) with
      | none => rfl
      | some o2 => rw [callObj_next _ _ _ hc] at hPi; cases hPi

/-- There is no call on the lock any more. -/
theorem no_call {i : Nat} {u : Tid} {o : Obj} (hi : n ≤ i) (hp : Pending e u o i) (hl : c.lockOf o = l) : False := by
  refine descend ok X F hn (P := fun _ _ => True) ?_ (fun _ _ _ _ _ _ => trivial) (fun _ _ _ => trivial) _ i u o hi hp hl trivial (le_refl _)
  intro j w o' hj hp' hl' _ x hne o2 ho2 hown
  obtain ⟨o3, hp3, ho3⟩ := X.pending_of w j (X.pending_not_idle hp')
  obtain rfl := ho3 o2 ho2
  obtain rfl := X.pending_unique hp3 hp'
  rw [hl'] at hown
  exact no_owner ok X F hn hj hown

end main

end Endless
end Cfg
end Fallback
end Verif
