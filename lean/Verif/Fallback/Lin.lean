import Verif.Fallback.SimStep
/-!
# Every step is simulated (proof internals)
-/
namespace Verif
namespace Fallback
set_option linter.unusedSectionVars false
variable {V : Type} [DecidableEq V]

namespace Cfg
variable {c : Cfg V}
variable {s : State V c.W} {a : Revisable.State V} {owner : Nat → Option Tid}

theorem onCell_swap (v : V) (o : MemOrd) (x : V) : (Op.swap v o).onCell x = (v, .val x) := by
  simp [Op.onCell, Op.ordOk]

theorem onCell_rmw (f : V → V) (o : MemOrd) (x : V) : (Op.rmw f o).onCell x = (f x, .val x) := by
  simp [Op.onCell, Op.ordOk]

theorem Rel.startWrite (ok : c.Sound) (R : c.Rel s a owner) {t : Tid} {k : Call V} {p : BitVec c.W}
    (v : V) (r : Res V) (hh : c.holds (s.pc t) = some (k, p)) (hnd : ¬ c.dirty (s.pc t))
    (hpend : Pend k (a.th t)) (hnl : ¬ isLoad k.op)
    (hop : k.op.onCell (a.cell k.obj) = (v, r)) :
    Matched c a none { s with pc := Function.update s.pc t (c.startWrite k p v r) } := by
  apply matched_refl t
  have hclean : c.memAt (s.pc t) = fun o i x => c.split o x i := by
    generalize s.pc t = pc at hnd
    cases pc <;> simp [dirty] at hnd <;> rfl
  have hhc : c.hc (s.pc t) = fun x => x / c.B := by
    generalize s.pc t = pc at hnd
    cases pc <;> simp [dirty] at hnd <;> rfl
  refine R.keepO t _ _ (by rw [hh]; rfl) (fun h => absurd h hnd) ?_ ?_ ?_
  · intro l _; rw [hhc]; rfl
  · intro o i _ _; rw [hclean]; simp [Cfg.startWrite, memAt]
  · intro H D _
    exact ⟨hpend, hnl, ok.hn _, by rw [hop], by rw [hop]⟩

theorem Rel.startAbort (R : c.Rel s a owner) {t : Tid} {k : Call V} {p : BitVec c.W}
    (r : Res V) (hh : c.holds (s.pc t) = some (k, p)) (hnd : ¬ c.dirty (s.pc t))
    (hpend : Pend k (a.th t)) (hop : k.op.onCell (a.cell k.obj) = (a.cell k.obj, r)) :
    Matched c a none { s with pc := Function.update s.pc t (.abortStore k p r) } := by
  apply matched_refl t
  have hclean : c.memAt (s.pc t) = fun o i x => c.split o x i := by
    generalize s.pc t = pc at hnd
    cases pc <;> simp [dirty] at hnd <;> rfl
  have hhc : c.hc (s.pc t) = fun x => x / c.B := by
    generalize s.pc t = pc at hnd
    cases pc <;> simp [dirty] at hnd <;> rfl
  refine R.keepO t _ _ (by rw [hh]; rfl) (fun h => absurd h hnd) ?_ ?_ ?_
  · intro l _; rw [hhc]; rfl
  · intro o i _ _; rw [hclean]; simp [memAt]
  · intro H D _
    exact ⟨hpend, hop⟩

theorem sim_naRead (ok : c.Sound) (R : c.Rel s a owner) {t : Tid} {k : Call V} {p : BitVec c.W}
    {i : Nat} {acc : Nat → BitVec c.W} (hpc : s.pc t = .naRead k p i acc) :
    Matched c a none
      { s with pc := Function.update s.pc t (c.next (s.pc t) (s.mem (.chunk k.obj i))) } := by
  have T := R.th t
  rw [hpc] at T
  obtain ⟨hpend, hi, hns, hacc⟩ := T
  have hh : c.holds (s.pc t) = some (k, p) := by rw [hpc]; rfl
  have hown : owner (c.lockOf k.obj) = some t := (R.own t _).1 (by simp [owns, hh])
  have hnd : ¬ c.dirty (s.pc t) := by rw [hpc]; simp [dirty]
  have hx : s.mem (.chunk k.obj i) = c.split k.obj (a.cell k.obj) i := by
    rw [R.mem _ i hi, hown]; simp only [hpc]; rfl
  have hacc' : ∀ j, j < i + 1 →
      Function.update acc i (s.mem (.chunk k.obj i)) j = c.split k.obj (a.cell k.obj) j := by
    intro j hj
    by_cases h : j = i
    · subst h; rw [Function.update_self, hx]
    · rw [Function.update_of_ne h]; exact hacc j (by omega)
  by_cases hlast : i + 1 < c.n k.obj
  · have hnext : c.next (s.pc t) (s.mem (.chunk k.obj i))
        = .naRead k p (i + 1) (Function.update acc i (s.mem (.chunk k.obj i))) := by
      rw [hpc]; simp only [next]; rw [if_pos hlast]
    rw [hnext]
    apply matched_refl t
    refine R.keepO t _ _ (by rw [hh]; rfl) (fun h => absurd h hnd) ?_ ?_ ?_
    · intro l _; rw [hpc]; rfl
    · intro o i _ _; rw [hpc]; rfl
    · intro H D _; exact ⟨hpend, hlast, hns, hacc'⟩
  · have hjoin : c.join k.obj (Function.update acc i (s.mem (.chunk k.obj i))) = a.cell k.obj := by
      rw [ok.join_congr _ _ (c.split k.obj (a.cell k.obj)), ok.join_split _ _ (R.fit _)]
      intro j hj; exact hacc' j (by omega)
    have hnext : c.next (s.pc t) (s.mem (.chunk k.obj i)) = c.decideOp k p (a.cell k.obj) := by
      rw [hpc]; simp only [next]; rw [if_neg hlast, hjoin]
    rw [hnext]
    have hok := hpend.1
    unfold decideOp
    split
    · rename_i o ho
      exact R.startAbort _ hh hnd hpend (by rw [onCell_load ⟨o, ho⟩ hok])
    · rename_i v o ho
      exact absurd ⟨v, o, ho⟩ hns
    · rename_i v o ho
      exact R.startWrite ok _ _ hh hnd hpend (by rw [ho]; rintro ⟨_, h⟩; cases h)
        (by rw [ho, onCell_swap])
    · rename_i cur new so fo ho
      have hok' : (Op.cas cur new so fo).ordOk = true := by rw [← ho]; exact hok
      split
      · rename_i he
        refine R.startWrite ok _ _ hh hnd hpend (by rw [ho]; rintro ⟨_, h⟩; cases h) ?_
        rw [ho]; simp only [Op.onCell, hok', if_true]; rw [if_pos he]
      · rename_i he
        refine R.startAbort _ hh hnd hpend ?_
        rw [ho]; simp only [Op.onCell, hok', if_true]; rw [if_neg he]
    · rename_i f o ho
      exact R.startWrite ok _ _ hh hnd hpend (by rw [ho]; rintro ⟨_, h⟩; cases h)
        (by rw [ho, onCell_rmw])

theorem sim_relFence (ok : c.Sound) (R : c.Rel s a owner) {t : Tid} {k : Call V} {p : BitVec c.W}
    (hpc : s.pc t = .relFence k p) (x : BitVec c.W) :
    Matched c a none { s with pc := Function.update s.pc t (c.next (s.pc t) x) } := by
  have T := R.th t
  rw [hpc] at T
  have hh : c.holds (s.pc t) = some (k, p) := by rw [hpc]; rfl
  have hnd : ¬ c.dirty (s.pc t) := by rw [hpc]; simp [dirty]
  have hnext : c.next (s.pc t) x = c.locked k p := by rw [hpc]; rfl
  rw [hnext]
  unfold locked
  split
  · rename_i v o ho
    refine R.startWrite ok _ _ hh hnd T (by rw [ho]; rintro ⟨_, h⟩; cases h) ?_
    have hok := T.1
    rw [ho] at hok ⊢
    simp [Op.onCell, hok]
  · rename_i hns
    apply matched_refl t
    refine R.keepO t _ _ (by rw [hh]; rfl) (fun h => absurd h hnd) ?_ ?_ ?_
    · intro l _; rw [hpc]; rfl
    · intro o i _ _; rw [hpc]; rfl
    · intro H D _
      exact ⟨T, ok.hn _, fun ⟨v, o, h⟩ => hns v o h, fun j hj => absurd hj (Nat.not_lt_zero _)⟩

/-- The call a thread is executing. -/
def callOf : Pc V c.W → Option (Call V)
  | .idle => none
  | .scPre k => some k
  | .optHi k => some k
  | .optLo k _ => some k
  | .optChunk k _ _ _ _ => some k
  | .valFence k _ _ _ => some k
  | .valLo k _ _ _ => some k
  | .valHi k _ _ _ _ => some k
  | .swapLock k => some k
  | .spin k => some k
  | .relFence k _ => some k
  | .naRead k _ _ _ => some k
  | .wrChunk k _ _ _ _ => some k
  | .hiLoad k _ _ => some k
  | .hiStore k _ _ _ => some k
  | .dropStore k _ _ => some k
  | .abortStore k _ _ => some k
  | .scPost k _ => some k
  | .ret _ => none

theorem callOf_start {k k' : Call V} (h : callOf (c := c) (c.start k) = some k') : k = k' := by
  revert h
  unfold start enter
  repeat' split
  all_goals simp [callOf]

theorem callOf_next {pc : Pc V c.W} {x : BitVec c.W} {k : Call V}
    (h : callOf (c.next pc x) = some k) : callOf pc = some k := by
  revert h
  cases pc <;> simp only [next, enter, finish, locked, decideOp, dropGuard, startWrite] <;>
    (repeat' split) <;> simp [callOf]

/-- The calls in progress are well typed. -/
def CallsFit (s : State V c.W) : Prop :=
  ∀ t k, callOf (s.pc t) = some k → k.op.Fits (c.fits k.obj)

theorem CallsFit.step {s s' : State V c.W} {e : Option (Ev V)} (h : CallsFit s)
    (st : c.Step s e s') : CallsFit s' := by
  cases st with
  | act t b hb =>
    intro u k hk
    by_cases hu : u = t
    · subst hu; simp only [doAct, Function.update_self] at hk; exact h _ _ (callOf_next hk)
    · simp only [doAct, Function.update_of_ne hu] at hk; exact h _ _ hk
  | inv t o op hi hf =>
    intro u k hk
    by_cases hu : u = t
    · subst hu; simp only [Function.update_self] at hk; obtain rfl := callOf_start hk; exact hf
    · simp only [Function.update_of_ne hu] at hk; exact h _ _ hk
  | ret t r hr =>
    intro u k hk
    by_cases hu : u = t
    · subst hu; simp only [Function.update_self, callOf] at hk; cases hk
    · simp only [Function.update_of_ne hu] at hk; exact h _ _ hk

theorem CallsFit.init (cells : Obj → V) (v0 : Nat → Nat) (ext : Nat → BitVec c.W) :
    CallsFit (c.init cells v0 ext) := by
  intro t k h; simp [Cfg.init, callOf] at h

/-- Every internal step is simulated. -/
theorem sim_act (ok : c.Sound) (R : c.Rel s a owner) (cf : CallsFit s) (nw : c.NoWrap s) {t : Tid} {b : Act c.W}
    (h : c.act (s.pc t) = some b) : Matched c a none (c.doAct s t b) := by
  have T := R.th t
  cases hpc : s.pc t with
  | idle => rw [hpc] at h; simp [act] at h
  | ret r => rw [hpc] at h; simp [act] at h
  | scPre k =>
    rw [hpc] at h T; simp only [act, Option.some.injEq] at h; subst h
    rw [doAct_read rfl (by rw [hpc]; rfl)]
    have hnext : ∀ x, c.next (s.pc t) x = c.enter k := by intro x; rw [hpc]; rfl
    rw [hnext]
    refine matched_refl t (R.keepN t _ _ (holds_enter k) (by rw [hpc]; rfl) ?_)
    exact TR_enter T.1 T.2
      (le_trans (Nat.div_le_div_right T.2) (c.H_bounds s owner _).1)
  | optHi k =>
    rw [hpc] at h T; simp only [act, Option.some.injEq] at h; subst h
    rw [doAct_read rfl (by rw [hpc]; rfl)]
    refine matched_refl t (R.keepN t _ _ (by rw [hpc]; rfl) (by rw [hpc]; rfl) ?_)
    rw [hpc]
    obtain ⟨h1, h2, h3, h4⟩ := T
    exact ⟨h1, h2, h3, fun hw => ⟨_, R.hi hw _, h4, le_refl _⟩⟩
  | optLo k y =>
    rw [hpc] at h T; simp only [act, Option.some.injEq] at h; subst h
    rw [doAct_read rfl (by rw [hpc]; rfl)]
    obtain ⟨h1, h2, h3, h4⟩ := T
    simp only [execSC]
    by_cases hm : s.mem (.lo (c.lockOf k.obj)) = 1
    · have hnext : c.next (s.pc t) (s.mem (.lo (c.lockOf k.obj))) = .swapLock k := by
        rw [hpc]; simp only [next]; rw [if_pos hm]
      rw [hnext]
      exact matched_refl t (R.keepN t _ _ rfl (by rw [hpc]; rfl) h1)
    · have hnext : c.next (s.pc t) (s.mem (.lo (c.lockOf k.obj)))
          = .optChunk k y (s.mem (.lo (c.lockOf k.obj))) 0 (fun _ => 0) := by
        rw [hpc]; simp only [next]; rw [if_neg hm]
      rw [hnext]
      obtain ⟨hon, hst⟩ := owner_none_of_lo ok R hm
      refine matched_refl t (R.keepN t _ _ rfl (by rw [hpc]; rfl) ?_)
      refine ⟨h1, h2, ok.hn _, s.ver (c.lockOf k.obj), ⟨h3, le_refl _, hst, fun hw => ?_⟩,
        fun _ => Or.inl fun i hi => absurd hi (Nat.not_lt_zero _)⟩
      obtain ⟨hv, e1, e2, e3⟩ := h4 hw
      exact ⟨hv, e1, e2, by rw [H_of_none hon] at e3; exact e3⟩
  | optChunk k y l i acc =>
    rw [hpc] at h T; simp only [act, Option.some.injEq] at h; subst h
    rw [doAct_read rfl (by rw [hpc]; rfl)]
    obtain ⟨h1, h2, hi, rv, h3, h4⟩ := T
    simp only [execSC]
    have hg : c.Good s.ver a.cell (c.D s owner) k rv (i + 1)
        (Function.update acc i (s.mem (.chunk k.obj i))) := by
      intro hv
      rcases h4 hv with h5 | h5
      · by_cases hD : c.D s owner (c.lockOf k.obj)
        · exact Or.inr hD
        · left
          intro j hj
          by_cases e : j = i
          · subst e; rw [Function.update_self]; exact mem_of_clean R hD j hi
          · rw [Function.update_of_ne e]; exact h5 j (by omega)
      · exact Or.inr h5
    by_cases hlast : i + 1 < c.n k.obj
    · have hnext : c.next (s.pc t) (s.mem (.chunk k.obj i))
          = .optChunk k y l (i + 1) (Function.update acc i (s.mem (.chunk k.obj i))) := by
        rw [hpc]; simp only [next]; rw [if_pos hlast]
      rw [hnext]
      exact matched_refl t (R.keepN t _ _ rfl (by rw [hpc]; rfl) ⟨h1, h2, hlast, rv, h3, hg⟩)
    · have hnext : c.next (s.pc t) (s.mem (.chunk k.obj i))
          = .valFence k y l (Function.update acc i (s.mem (.chunk k.obj i))) := by
        rw [hpc]; simp only [next]; rw [if_neg hlast]
      rw [hnext]
      have : i + 1 = c.n k.obj := by omega
      rw [this] at hg
      exact matched_refl t (R.keepN t _ _ rfl (by rw [hpc]; rfl) ⟨h1, h2, rv, h3, hg⟩)
  | valFence k y l acc =>
    rw [hpc] at h T; simp only [act, Option.some.injEq] at h; subst h
    rw [doAct_read rfl (by rw [hpc]; rfl)]
    refine matched_refl t (R.keepN t _ _ (by rw [hpc]; rfl) (by rw [hpc]; rfl) ?_)
    rw [hpc]; exact T
  | valLo k y l acc =>
    rw [hpc] at h; simp only [act, Option.some.injEq] at h; subst h
    rw [doAct_read rfl (by rw [hpc]; rfl)]
    exact sim_valLo ok R nw hpc
  | valHi k y l acc l' =>
    rw [hpc] at h; simp only [act, Option.some.injEq] at h; subst h
    rw [doAct_read rfl (by rw [hpc]; rfl)]
    exact sim_valHi ok R nw hpc
  | swapLock k =>
    rw [hpc] at h; simp only [act, Option.some.injEq] at h; subst h
    exact sim_swap ok R hpc
  | spin k =>
    rw [hpc] at h T; simp only [act, Option.some.injEq] at h; subst h
    rw [doAct_read rfl (by rw [hpc]; rfl)]
    simp only [execSC]
    refine matched_refl t (R.keepN t _ _ ?_ (by rw [hpc]; rfl) ?_)
    · rw [hpc]; simp only [next]; split <;> rfl
    · rw [hpc]; simp only [next]; split <;> exact T
  | relFence k p =>
    rw [hpc] at h; simp only [act, Option.some.injEq] at h; subst h
    rw [doAct_read rfl (by rw [hpc]; rfl)]
    exact sim_relFence ok R hpc _
  | naRead k p i acc =>
    rw [hpc] at h; simp only [act, Option.some.injEq] at h; subst h
    rw [doAct_read rfl (by rw [hpc]; rfl)]
    exact sim_naRead ok R hpc
  | wrChunk k p i new r =>
    rw [hpc] at h; simp only [act, Option.some.injEq] at h; subst h
    exact sim_wrChunk ok R hpc
  | hiLoad k p r =>
    rw [hpc] at h T; simp only [act, Option.some.injEq] at h; subst h
    rw [doAct_read rfl (by rw [hpc]; rfl)]
    simp only [execSC]
    have hh : c.holds (s.pc t) = some (k, p) := by rw [hpc]; rfl
    have hown : owner (c.lockOf k.obj) = some t := (R.own t _).1 (by simp [owns, hh])
    have hnext : c.next (s.pc t) (s.mem (.hi (c.lockOf k.obj)))
        = .hiStore k p (s.mem (.hi (c.lockOf k.obj))) r := by rw [hpc]; rfl
    rw [hnext]
    obtain ⟨h1, h0, h2, h3, h4⟩ := T
    refine matched_refl t (R.keepO t _ _ (by rw [hpc]; rfl) (fun _ => trivial) ?_ ?_ ?_)
    · intro l _; rw [hpc]; rfl
    · intro o i _ _; rw [hpc]; rfl
    · intro H D hH
      refine ⟨h1, h0, h2, h3, h4, ?_⟩
      rw [R.hi h3, H_of_some hown, hH _ (by simp [owns, holds]), hpc]; rfl
  | hiStore k p y r =>
    rw [hpc] at h; simp only [act, Option.some.injEq] at h; subst h
    exact sim_hiStore ok R hpc
  | dropStore k p r =>
    rw [hpc] at h; simp only [act, Option.some.injEq] at h; subst h
    exact sim_drop ok R hpc (cf t k (by rw [hpc]; rfl))
  | abortStore k p r =>
    rw [hpc] at h; simp only [act, Option.some.injEq] at h; subst h
    exact sim_abort ok R hpc
  | scPost k r =>
    rw [hpc] at h T; simp only [act, Option.some.injEq] at h; subst h
    rw [doAct_read rfl (by rw [hpc]; rfl)]
    refine matched_refl t (R.keepN t _ _ (by rw [hpc]; rfl) (by rw [hpc]; rfl) ?_)
    rw [hpc]; exact T

/-- Setting the ghost start of an idle thread. -/
theorem Rel.setStart (R : c.Rel s a owner) {t : Tid} (h : s.pc t = .idle) (n : Nat) :
    c.Rel { s with start := Function.update s.start t n } a owner := by
  have T := R.th t
  rw [h] at T
  refine ⟨R.own, R.free, R.held, R.prev, R.hi, R.mem, ?_, R.fit⟩
  intro u
  by_cases hu : u = t
  · subst hu; simp only [h]; exact T
  · simp only [Function.update_of_ne hu]; exact R.th u

/-- A call with an accepted ordering starts. -/
theorem Rel.invOk (R : c.Rel s a owner) {t : Tid} {o : Obj} {op : Op V} (h : s.pc t = .idle)
    (hc : op.ordOk = true) :
    c.Rel
      { s with pc := Function.update s.pc t (c.start ⟨o, op⟩)
               start := Function.update s.start t (s.ver (c.lockOf o)) }
      { a with th := Function.update a.th t (.pending o op none) } owner := by
  have R' := R.setStart h (s.ver (c.lockOf o))
  refine R'.keepN t _ _ (holds_start _) (by simp only [h]; rfl) ?_
  have hp : Pend (⟨o, op⟩ : Call V) (.pending o op none) := ⟨hc, _, rfl⟩
  unfold start
  simp only [(checks_ordOk op).2 hc, Function.update_self]
  have h0 : s.ver (c.lockOf o) / c.B ≤ c.H
      { s with start := Function.update s.start t (s.ver (c.lockOf o)) } owner (c.lockOf o) :=
    (c.H_bounds { s with start := Function.update s.start t (s.ver (c.lockOf o)) } owner
      (c.lockOf o)).1
  split
  · exact ⟨hp, le_refl _⟩
  · exact TR_enter hp (le_refl _) h0

/-- Every step is simulated. -/
theorem sim_step (ok : c.Sound) (R : c.Rel s a owner) (cf : CallsFit s) (nw : c.NoWrap s) {e : Option (Ev V)}
    {s' : State V c.W} (st : c.Step s e s') : Matched c a e s' := by
  cases st with
  | act t b h => exact sim_act ok R cf nw h
  | inv t o op h hf =>
    have T := R.th t
    rw [h] at T
    have R' := R.setStart h (s.ver (c.lockOf o))
    by_cases hc : op.ordOk = true
    · exact ⟨_, owner, .ev (.refl _) (Revisable.Step.inv a t o op T), R.invOk h hc,
        Fresh.of_update (fun o v hf => by simp [final] at hf)
          (fun o ord y hy => by rw [T] at hy; cases hy)⟩
    · -- the call panics: commit at once
      have hchk : checks op = .panic := by
        cases h1 : checks op with
        | panic => rfl
        | ok => exact absurd ((checks_ordOk op).1 h1) hc
      have hcell : op.onCell (a.cell o) = (a.cell o, .panic) := by
        simp [Op.onCell, hc]
      let a1 : Revisable.State V := { a with th := Function.update a.th t (.pending o op none) }
      have st1 : Revisable.Step a (some (.inv t o op)) a1 := Revisable.Step.inv a t o op T
      have st2 := Revisable.Step.obs a1 t o op none .panic (by simp [a1]) hcell
      refine ⟨_, owner, .tau (.ev (.refl _) st1) st2, ?_, ?_⟩
      swap
      · simp only [a1, Function.update_idem]
        exact Fresh.of_update (fun o v hf => by unfold final at hf; split at hf <;> simp_all)
          (fun o ord y hy => by rw [T] at hy; cases hy)
      simp only [a1, Function.update_idem]
      refine R'.keepN t _ _ (holds_start _) (by simp only [h]; rfl) ?_
      unfold start
      simp only [hchk]
      exact Or.inr ⟨_, _, rfl⟩
  | ret t r h =>
    have T := R.th t
    rw [h] at T
    rcases T with T | ⟨o, op, T⟩
    · exact ⟨_, owner, .ev (.refl _) (Revisable.Step.ret a t r T),
        R.keepN t _ _ rfl (by rw [h]; rfl) rfl,
        Fresh.of_update (fun o v hf => by simp [final] at hf) (fun o ord y _ => Or.inr ⟨r, rfl⟩)⟩
    · exact ⟨_, owner, .ev (.refl _) (Revisable.Step.retCand a t o op r T),
        R.keepN t _ _ rfl (by rw [h]; rfl) rfl,
        Fresh.of_update (fun o v hf => by simp [final] at hf) (fun o ord y _ => Or.inr ⟨r, rfl⟩)⟩

theorem rel_init (cells : Obj → V) (hf : ∀ o, c.fits o (cells o)) (v0 : Nat → Nat) (ext : Nat → BitVec c.W) :
    c.Rel (c.init cells v0 ext) (Revisable.init cells) (fun _ => none) := by
  refine ⟨?_, ?_, ?_, ?_, ?_, ?_, ?_, hf⟩
  · intro t l; simp [init, owns, holds]
  · intro l _; rfl
  · intro l t h; cases h
  · intro t k p h; simp [init, holds] at h
  · intro _ l; rfl
  · intro o i _; rfl
  · intro t; rfl

/-- Every bounded execution is simulated. -/
theorem sim_exec (ok : c.Sound) {cells : Obj → V} (hf : ∀ o, c.fits o (cells o))
    {v0 : Nat → Nat} {ext : Nat → BitVec c.W} {h : List (Ev V)} {s : State V c.W} (x : Exec c.StepB (c.init cells v0 ext) h s) :
    ∃ a owner, Exec Revisable.Step (Revisable.init cells) h a ∧ c.Rel s a owner ∧ CallsFit s := by
  generalize hi : c.init cells v0 ext = i at x
  induction x with
  | refl => subst hi; exact ⟨_, _, .refl _, rel_init cells hf v0 ext, CallsFit.init cells v0 ext⟩
  | tau _ st ih =>
    obtain ⟨a, owner, h1, h2, cf⟩ := ih
    obtain ⟨a', owner', h3, h4, -⟩ := sim_step ok h2 cf st.2 st.1
    refine ⟨a', owner', ?_, h4, cf.step st.1⟩
    have := h1.trans h3
    simpa using this
  | ev _ st ih =>
    obtain ⟨a, owner, h1, h2, cf⟩ := ih
    obtain ⟨a', owner', h3, h4, -⟩ := sim_step ok h2 cf st.2 st.1
    exact ⟨a', owner', by simpa using h1.trans h3, h4, cf.step st.1⟩

end Cfg
end Fallback
end Verif
