import Verif.Fallback.NoTear
import Verif.Fallback.Progress
/-!
# Further invariants of the fallback (proof internals)
-/
namespace Verif
namespace Fallback
set_option linter.unusedSectionVars false
variable {V : Type} [DecidableEq V]

/-- The call a thread is in according to the history: its last invocation, unless it has returned
since. -/
def openCall (h : List (Ev V)) (t : Tid) : Option (Obj × Op V) :=
  h.foldl (fun cur e =>
    match e with
    | .inv u o op => if u = t then some (o, op) else cur
    | .ret u _ => if u = t then none else cur) none

theorem openCall_inv (h : List (Ev V)) (u : Tid) (o : Obj) (op : Op V) (t : Tid) :
    openCall (h ++ [.inv u o op]) t = if u = t then some (o, op) else openCall h t := by
  simp [openCall, List.foldl_append]

theorem openCall_ret (h : List (Ev V)) (u : Tid) (r : Res V) (t : Tid) :
    openCall (h ++ [.ret u r]) t = if u = t then none else openCall h t := by
  simp [openCall, List.foldl_append]

namespace Cfg
variable {c : Cfg V}

/-- The call carried by a program point until it leaves the body. -/
def pcCall : Pc V c.W → Option (Call V)
  | .idle => none
  | .scPre k => some k
  | .optHi k => some k
  | .optLo k _ => some k
  | .optChunk k _ _ _ _ => some k
  | .valFence k _ _ _ => some k
  | .valLo k _ _ _ => some k
  | .valHi k _ _ _ _ => some k
  | .swapLock k => some k
  | .spin k => some k
  | .relFence k _ => some k
  | .naRead k _ _ _ => some k
  | .wrChunk k _ _ _ _ => some k
  | .hiLoad k _ _ => some k
  | .hiStore k _ _ _ => some k
  | .dropStore k _ _ => some k
  | .abortStore k _ _ => some k
  | .scPost _ _ => none
  | .ret _ => none

theorem pcCall_enter (k : Call V) : pcCall (c.enter k) = some k := by
  unfold enter; split
  · split <;> rfl
  · rfl

theorem pcCall_finish (k : Call V) (r : Res V) : pcCall (c.finish k r) = none := by
  unfold finish; split <;> rfl

theorem pcCall_start (k k' : Call V) (h : pcCall (c.start k) = some k') : k' = k := by
  unfold start at h
  split at h
  · simp [pcCall] at h
  · split at h
    · simpa [pcCall] using h.symm
    · rw [pcCall_enter] at h; exact (Option.some.inj h).symm

theorem pcCall_next (pc : Pc V c.W) (x : BitVec c.W) (k : Call V)
    (h : pcCall (c.next pc x) = some k) : pcCall pc = some k := by
  cases pc with
  | scPre k => simp only [next, pcCall_enter] at h; exact h
  | optLo k y => simp only [next] at h; split at h <;> simpa [pcCall] using h
  | optChunk k y l i acc => simp only [next] at h; split at h <;> simpa [pcCall] using h
  | valLo k y l acc =>
    simp only [next] at h; split at h
    · exact h
    · split at h
      · rw [pcCall_finish] at h; cases h
      · exact h
  | valHi k y l acc l' =>
    simp only [next] at h; split at h
    · rw [pcCall_finish] at h; cases h
    · exact h
  | swapLock k => simp only [next] at h; split at h <;> simpa [pcCall] using h
  | spin k => simp only [next] at h; split at h <;> simpa [pcCall] using h
  | relFence k p => simp only [next, locked] at h; split at h <;> simpa [pcCall, startWrite] using h
  | naRead k p i acc =>
    simp only [next] at h; split at h
    · simpa [pcCall] using h
    · simp only [decideOp] at h
      split at h <;> (try split at h) <;> simpa [pcCall, startWrite] using h
  | wrChunk k p i new r =>
    simp only [next] at h; split at h
    · simpa [pcCall] using h
    · simp only [dropGuard] at h; split at h <;> simpa [pcCall] using h
  | dropStore k p r => simp only [next, pcCall_finish] at h; cases h
  | abortStore k p r => simp only [next, pcCall_finish] at h; cases h
  | _ => simpa [next, pcCall] using h

theorem callObj_pcCall (pc : Pc V c.W) : callObj pc = (pcCall pc).map (·.obj) := by
  cases pc <;> rfl

/-- The call carried by the program point is the open call of the history; an idle thread has
none. -/
theorem openCall_exec {cells : Obj → V} {v0 : Nat → Nat} {ext : Nat → BitVec c.W}
    {h : List (Ev V)} {s : State V c.W} (x : Exec c.Step (c.init cells v0 ext) h s) :
    ∀ t k, pcCall (s.pc t) = some k → openCall h t = some (k.obj, k.op) := by
  generalize hi : c.init cells v0 ext = i at x
  induction x with
  | refl => subst hi; intro t k hk; simp [init, pcCall] at hk
  | tau x st ih =>
    intro t k hk
    cases st with
    | act u b hb =>
      by_cases e : t = u
      · subst e
        simp only [doAct, Function.update_self] at hk
        exact ih _ _ (pcCall_next _ _ _ hk)
      · simp only [doAct, Function.update_of_ne e] at hk
        exact ih _ _ hk
  | ev x st ih =>
    intro t k hk
    cases st with
    | inv u o op hu =>
      rw [openCall_inv]
      by_cases e : t = u
      · subst e
        simp only [Function.update_self] at hk
        obtain rfl := pcCall_start _ _ hk
        simp
      · simp only [Function.update_of_ne e] at hk
        rw [if_neg (Ne.symm e)]; exact ih _ _ hk
    | ret u r hu =>
      rw [openCall_ret]
      by_cases e : t = u
      · subst e
        simp [Function.update_self, pcCall] at hk
      · simp only [Function.update_of_ne e] at hk
        rw [if_neg (Ne.symm e)]; exact ih _ _ hk

/-! ## Who writes -/

/-- Ops and results allowed at a program point of a section that will write. -/
def WriteOk : Pc V c.W → Prop
  | .wrChunk k _ _ _ r => ¬ isLoad k.op ∧ (∀ v, r ≠ .err v) ∧ r ≠ .panic
  | .hiLoad k _ r => ¬ isLoad k.op ∧ (∀ v, r ≠ .err v) ∧ r ≠ .panic
  | .hiStore k _ _ r => ¬ isLoad k.op ∧ (∀ v, r ≠ .err v) ∧ r ≠ .panic
  | .dropStore k _ r => ¬ isLoad k.op ∧ (∀ v, r ≠ .err v) ∧ r ≠ .panic
  | _ => True

theorem writeOk_enter (k : Call V) : WriteOk (c.enter k) := by
  unfold enter; split
  · split <;> trivial
  · trivial

theorem writeOk_finish (k : Call V) (r : Res V) : WriteOk (c.finish k r) := by
  unfold finish; split <;> trivial

theorem writeOk_start (k : Call V) : WriteOk (c.start k) := by
  unfold start; split
  · trivial
  · split
    · trivial
    · exact writeOk_enter k

theorem writeOk_next (pc : Pc V c.W) (x : BitVec c.W) (h : WriteOk pc) : WriteOk (c.next pc x) := by
  cases pc with
  | scPre k => exact writeOk_enter k
  | optLo k y => simp only [next]; split <;> trivial
  | optChunk k y l i acc => simp only [next]; split <;> trivial
  | valLo k y l acc =>
    simp only [next]; split
    · trivial
    · split
      · exact writeOk_finish _ _
      · trivial
  | valHi k y l acc l' =>
    simp only [next]; split
    · exact writeOk_finish _ _
    · trivial
  | swapLock k => simp only [next]; split <;> trivial
  | spin k => simp only [next]; split <;> trivial
  | relFence k p =>
    simp only [next, locked]; split
    · rename_i e; simp [startWrite, WriteOk, e, isLoad]
    · trivial
  | naRead k p i acc =>
    simp only [next]; split
    · trivial
    · simp only [decideOp]
      split
      · trivial
      · rename_i e; simp [startWrite, WriteOk, e, isLoad]
      · rename_i e; simp [startWrite, WriteOk, e, isLoad]
      · rename_i e
        split
        · simp [startWrite, WriteOk, e, isLoad]
        · trivial
      · rename_i e; simp [startWrite, WriteOk, e, isLoad]
  | wrChunk k p i new r =>
    simp only [next]; split
    · exact h
    · simp only [dropGuard]; split <;> exact h
  | hiLoad k p r => exact h
  | hiStore k p y r => exact h
  | dropStore k p r => exact writeOk_finish _ _
  | abortStore k p r => exact writeOk_finish _ _
  | _ => trivial

theorem writeOk_step {s s' : State V c.W} {e : Option (Ev V)} (st : c.Step s e s')
    (h : ∀ t, WriteOk (s.pc t)) : ∀ t, WriteOk (s'.pc t) := by
  intro t
  cases st with
  | act u b hb =>
    by_cases e : t = u
    · subst e; simp only [doAct, Function.update_self]; exact writeOk_next _ _ (h _)
    · simp only [doAct, Function.update_of_ne e]; exact h t
  | inv u o op hu =>
    by_cases e : t = u
    · subst e; simp only [Function.update_self]; exact writeOk_start _
    · simp only [Function.update_of_ne e]; exact h t
  | ret u r hu =>
    by_cases e : t = u
    · subst e; simp only [Function.update_self]; trivial
    · simp only [Function.update_of_ne e]; exact h t

theorem writeOk_exec {cells : Obj → V} {v0 : Nat → Nat} {ext : Nat → BitVec c.W}
    {h : List (Ev V)} {s : State V c.W} (x : Exec c.Step (c.init cells v0 ext) h s) :
    ∀ t, WriteOk (s.pc t) := by
  refine Exec.inv_of (P := fun s => ∀ t, WriteOk (s.pc t)) ?_ x ?_
  · intro s e s' h st; exact writeOk_step st h
  · intro t; trivial

/-- Program points at which the call in progress has written, or is sure to write, and will answer
`r`. -/
def mustAnswer : Pc V c.W → Option (Res V)
  | .wrChunk _ _ _ _ r => some r
  | .hiLoad _ _ r => some r
  | .hiStore _ _ _ r => some r
  | .dropStore _ _ r => some r
  | .abortStore _ _ r => some r
  | .scPost _ r => some r
  | .ret r => some r
  | _ => none

theorem mustAnswer_finish (k : Call V) (r : Res V) : mustAnswer (c.finish k r) = some r := by
  unfold finish; split <;> rfl

theorem mustAnswer_next (pc : Pc V c.W) (x : BitVec c.W) (r : Res V) (h : mustAnswer pc = some r) :
    mustAnswer (c.next pc x) = some r := by
  cases pc <;> simp [mustAnswer] at h <;> subst h
  · simp only [next]; split
    · rfl
    · simp only [dropGuard]; split <;> rfl
  · rfl
  · rfl
  · exact mustAnswer_finish _ _
  · exact mustAnswer_finish _ _
  · rfl
  · rfl

theorem mustAnswer_exec {s s' : State V c.W} {h : List (Ev V)} {t : Tid} {r : Res V}
    (x : Exec c.Step s h s') (hno : ∀ e ∈ h, ¬ Ev.by t e) (hr : mustAnswer (s.pc t) = some r) :
    mustAnswer (s'.pc t) = some r := by
  induction x with
  | refl => exact hr
  | tau x st ih =>
    have ih := ih hno
    cases st with
    | act u b hb =>
      by_cases e : t = u
      · subst e; simp only [doAct, Function.update_self]; exact mustAnswer_next _ _ _ ih
      · simp only [doAct, Function.update_of_ne e]; exact ih
  | ev x st ih =>
    have ih := ih (fun e' he => hno e' (by simp [he]))
    cases st with
    | inv u o op hu =>
      have : u ≠ t := fun e => hno (.inv u o op) (by simp) e
      simp only [Function.update_of_ne this.symm]; exact ih
    | ret u r hu =>
      have : u ≠ t := fun e => hno (.ret u r) (by simp) e
      simp only [Function.update_of_ne this.symm]; exact ih

/-- A store to a chunk is made at `wrChunk`. -/
theorem act_chunk {pc : Pc V c.W} {o : Obj} {i : Nat} {v : BitVec c.W} {ord : MemOrd}
    (h : c.act pc = some (.store (.chunk o i) v ord)) :
    ∃ k p new r, pc = .wrChunk k p i new r ∧ k.obj = o ∧ v = new i := by
  cases pc <;> simp [act] at h
  obtain ⟨⟨rfl, rfl⟩, rfl, -⟩ := h
  exact ⟨_, _, _, _, rfl, rfl, rfl⟩

theorem act_swap {pc : Pc V c.W} {l : Loc} {v : BitVec c.W} {ord : MemOrd}
    (h : c.act pc = some (.swap l v ord)) : ∃ k, pc = .swapLock k ∧ l = .lo (c.lockOf k.obj) := by
  cases pc <;> simp [act] at h
  exact ⟨_, rfl, h.1.symm⟩

/-- A chunk changes only by a store of a thread at `wrChunk` for that object. -/
theorem chunk_change {s s' : State V c.W} {e : Option (Ev V)} (st : c.Step s e s') {o : Obj} {i : Nat}
    (hne : s'.mem (.chunk o i) ≠ s.mem (.chunk o i)) :
    ∃ t k p new r, s.pc t = .wrChunk k p i new r ∧ k.obj = o ∧ e = none ∧
      ∀ u, u ≠ t → s'.pc u = s.pc u := by
  cases st with
  | act t b hb =>
    cases b with
    | load l ord => exact absurd rfl hne
    | naLoad l => exact absurd rfl hne
    | fence ord => exact absurd rfl hne
    | store l v ord =>
      by_cases e : l = .chunk o i
      · subst e
        obtain ⟨k, p, new, r, h1, h2, -⟩ := act_chunk hb
        exact ⟨t, k, p, new, r, h1, h2, rfl, fun u hu => by
          simp only [doAct, Function.update_of_ne hu]⟩
      · simp only [doAct, execSC, Function.update_of_ne (Ne.symm e)] at hne
        exact absurd rfl hne
    | swap l v ord =>
      obtain ⟨k, -, rfl⟩ := act_swap hb
      simp only [doAct, execSC] at hne
      rw [Function.update_of_ne (by simp)] at hne
      exact absurd rfl hne
  | inv t o op h => exact absurd rfl hne
  | ret t r h => exact absurd rfl hne

/-- The version changes only at the release of a completed section. -/
theorem ver_change {s s' : State V c.W} {e : Option (Ev V)} (st : c.Step s e s') {l : Nat}
    (hne : s'.ver l ≠ s.ver l) :
    ∃ t k p r, s.pc t = .dropStore k p r ∧ c.lockOf k.obj = l := by
  cases st with
  | act t b hb =>
    simp only [doAct] at hne
    cases hpc : s.pc t with
    | dropStore k p r =>
      rw [hpc] at hne
      refine ⟨t, k, p, r, hpc, ?_⟩
      by_contra hc
      simp only [bump, Function.update_of_ne (Ne.symm hc)] at hne
      exact hne rfl
    | _ => rw [hpc] at hne; exact absurd rfl hne
  | inv t o op h => exact absurd rfl hne
  | ret t r h => exact absurd rfl hne

theorem ver_mono {s s' : State V c.W} {e : Option (Ev V)} (st : c.Step s e s') (l : Nat) :
    s.ver l ≤ s'.ver l := by
  cases st with
  | act t b hb =>
    simp only [doAct]
    cases hpc : s.pc t with
    | dropStore k p r =>
      by_cases e : l = c.lockOf k.obj
      · subst e; simp [bump]
      · simp only [bump, Function.update_of_ne e]; exact le_refl _
    | _ => exact le_refl _
  | inv t o op h => exact le_refl _
  | ret t r h => exact le_refl _

/-! ## The ordinary read -/

/-- The words already read under the lock are the current ones. -/
def ReadOk (s : State V c.W) (t : Tid) : Prop :=
  ∀ k p i acc, s.pc t = .naRead k p i acc →
    i < c.n k.obj ∧ ∀ j, j < i → acc j = s.mem (.chunk k.obj j)

theorem naRead_next {pc : Pc V c.W} {x : BitVec c.W} {k p i acc}
    (h : c.next pc x = .naRead k p i acc) :
    (i = 0) ∨ (∃ i' acc', pc = .naRead k p i' acc' ∧ i = i' + 1 ∧ i < c.n k.obj ∧
      acc = Function.update acc' i' x) := by
  cases pc with
  | scPre k => simp only [next, enter] at h; split at h <;> (try split at h) <;> simp at h
  | optLo k y => simp only [next] at h; split at h <;> simp at h
  | optChunk k y l i acc => simp only [next] at h; split at h <;> simp at h
  | valLo k y l acc =>
    simp only [next, finish] at h; split at h
    · simp at h
    · split at h
      · split at h <;> simp at h
      · simp at h
  | valHi k y l acc l' =>
    simp only [next, finish] at h; split at h
    · split at h <;> simp at h
    · simp at h
  | swapLock k => simp only [next] at h; split at h <;> simp at h
  | spin k => simp only [next] at h; split at h <;> simp at h
  | relFence k p =>
    simp only [next, locked] at h; split at h
    · simp [startWrite] at h
    · simp at h; exact Or.inl h.2.2.1.symm
  | naRead k p i acc =>
    simp only [next] at h; split at h
    · rename_i hi; simp at h; obtain ⟨rfl, rfl, rfl, rfl⟩ := h
      exact Or.inr ⟨_, _, rfl, rfl, hi, rfl⟩
    · simp only [decideOp] at h
      split at h <;> (try split at h) <;> simp [startWrite] at h
  | wrChunk k p i new r =>
    simp only [next] at h; split at h
    · simp at h
    · simp only [dropGuard] at h; split at h <;> simp at h
  | dropStore k p r => simp only [next, finish] at h; split at h <;> simp at h
  | abortStore k p r => simp only [next, finish] at h; split at h <;> simp at h
  | _ => simp [next] at h

theorem start_ne_naRead (k : Call V) (k' p i acc) : c.start k ≠ .naRead k' p i acc := by
  unfold start enter
  split
  · simp
  · split
    · simp
    · split
      · split <;> simp
      · simp

theorem readOk_step (ok : c.Sound) {s s' : State V c.W} {owner : Nat → Option Tid}
    (R : LockInv c s owner) {e : Option (Ev V)}
    (st : c.Step s e s') (h : ∀ t, ReadOk s t) : ∀ t, ReadOk s' t := by
  intro t k p i acc hpc
  have hmem : ∀ {k : Call V} {p i acc}, s.pc t = .naRead k p i acc → ∀ j,
      s'.mem (.chunk k.obj j) = s.mem (.chunk k.obj j) := by
    intro k p i acc hp j
    by_contra hne
    obtain ⟨u, k2, p2, new, r, hu, ho, -⟩ := chunk_change st hne
    have o1 := (R.own t (c.lockOf k.obj)).1 (by rw [hp]; rfl)
    have o2 := (R.own u (c.lockOf k2.obj)).1 (by rw [hu]; rfl)
    rw [ho, o1] at o2
    obtain rfl := Option.some.inj o2
    rw [hp] at hu; simp at hu
  cases st with
  | act u b hb =>
    by_cases e : t = u
    · subst e
      simp only [doAct, Function.update_self] at hpc
      rcases naRead_next hpc with h0 | ⟨i', acc', h1, h2, h3, h4⟩
      · subst h0; exact ⟨ok.hn _, fun j hj => absurd hj (Nat.not_lt_zero _)⟩
      · subst h2
        refine ⟨h3, ?_⟩
        intro j hj
        rw [hmem h1 j, h4]
        rw [h1] at hb; simp only [act, Option.some.injEq] at hb; subst hb
        by_cases ej : j = i'
        · subst ej; rw [Function.update_self]; rfl
        · rw [Function.update_of_ne ej]
          exact (h t k p i' acc' h1).2 j (by omega)
    · have hpc2 : s.pc t = .naRead k p i acc := by
        simpa only [doAct, Function.update_of_ne e] using hpc
      refine ⟨(h t _ _ _ _ hpc2).1, fun j hj => ?_⟩
      rw [hmem hpc2 j]; exact (h t _ _ _ _ hpc2).2 j hj
  | inv u o op hu =>
    by_cases e : t = u
    · subst e; simp only [Function.update_self] at hpc; exact absurd hpc (start_ne_naRead _ _ _ _ _)
    · simp only [Function.update_of_ne e] at hpc; exact h t _ _ _ _ hpc
  | ret u r hu =>
    by_cases e : t = u
    · subst e; simp [Function.update_self] at hpc
    · simp only [Function.update_of_ne e] at hpc; exact h t _ _ _ _ hpc

theorem readOk_exec (ok : c.Sound) {cells : Obj → V} {v0 : Nat → Nat} {ext : Nat → BitVec c.W}
    {h : List (Ev V)} {s : State V c.W} (x : Exec c.Step (c.init cells v0 ext) h s) :
    ∀ t, ReadOk s t := by
  generalize hi : c.init cells v0 ext = i at x
  induction x with
  | refl => subst hi; intro t k p i acc hpc; simp [init] at hpc
  | tau x st ih =>
    subst hi
    obtain ⟨owner, R⟩ := lockInv_exec ok x
    exact readOk_step ok R st ih
  | ev x st ih =>
    subst hi
    obtain ⟨owner, R⟩ := lockInv_exec ok x
    exact readOk_step ok R st ih

end Cfg
end Fallback
end Verif
