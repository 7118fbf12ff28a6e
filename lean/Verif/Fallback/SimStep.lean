import Verif.Fallback.Sim
/-!
# Step-by-step simulation (proof internals)
-/
namespace Verif
namespace Fallback
set_option linter.unusedSectionVars false
variable {V : Type} [DecidableEq V]

namespace Cfg
variable {c : Cfg V}

/-- The state after thread `t` performs a reading action or a fence. -/
theorem doAct_read {s : State V c.W} {t : Tid} {a : Act c.W}
    (hm : (execSC s.mem a).1 = s.mem) (hb : c.bump (s.pc t) s.ver = s.ver) :
    c.doAct s t a = { s with pc := Function.update s.pc t (c.next (s.pc t) (execSC s.mem a).2) } := by
  unfold doAct; rw [hm, hb]

variable {s : State V c.W} {a : Revisable.State V} {owner : Nat → Option Tid}

theorem owner_none_of_lo (ok : c.Sound) (R : c.Rel s a owner) {l : Nat} (h : s.mem (.lo l) ≠ 1) :
    owner l = none ∧ s.mem (.lo l) = c.stamp (s.ver l) := by
  cases ho : owner l with
  | none => exact ⟨rfl, R.free l ho⟩
  | some t => exact absurd (R.held l t ho) h

theorem H_of_none {l : Nat} (h : owner l = none) : c.H s owner l = s.ver l / c.B := by
  unfold H; rw [h]

theorem H_of_some {l : Nat} {t : Tid} (h : owner l = some t) :
    c.H s owner l = c.hc (s.pc t) (s.ver l) := by
  unfold H; rw [h]

theorem D_of_none {l : Nat} (h : owner l = none) : ¬ c.D s owner l := by
  rintro ⟨t, h1, -⟩; rw [h] at h1; cases h1

theorem mem_of_clean (R : c.Rel s a owner) {o : Obj} (h : ¬ c.D s owner (c.lockOf o)) :
    ∀ i, i < c.n o → s.mem (.chunk o i) = c.split o (a.cell o) i := by
  intro i hi
  rw [R.mem o i hi]
  cases ho : owner (c.lockOf o) with
  | none => rfl
  | some t =>
    have hnd : ¬ c.dirty (s.pc t) := fun hd => h ⟨t, ho, hd⟩
    show c.memAt (s.pc t) o i (a.cell o) = _
    generalize s.pc t = pc at hnd
    cases pc <;> simp [dirty] at hnd <;> rfl

theorem onCell_load {op : Op V} (h : isLoad op) (hok : op.ordOk = true) (x : V) :
    op.onCell x = (x, .val x) := by
  obtain ⟨o, rfl⟩ := h; simp [Op.onCell, hok]

theorem Fresh.of_update {t : Tid} {x : Revisable.Th V} {e : Option (Ev V)} {cell' : Obj → V}
    {s' : State V c.W}
    (h1 : ∀ o v, final x = some (o, v) → ∀ i, i < c.n o → s'.mem (.chunk o i) = c.split o v i)
    (h2 : ∀ o ord y, a.th t = .pending o (.load ord) y →
      (∃ x', x = .pending o (.load ord) x') ∨ ∃ r, e = some (.ret t r)) :
    Fresh c a e { cell := cell', th := Function.update a.th t x } s' := by
  constructor
  · intro u o v
    by_cases hu : u = t
    · subst hu; simp only [Function.update_self]; exact fun h => Or.inr (h1 o v h)
    · simp only [Function.update_of_ne hu]; exact fun h => Or.inl h
  · intro u o ord y hy
    by_cases hu : u = t
    · subst hu; simp only [Function.update_self]; exact h2 o ord y hy
    · simp only [Function.update_of_ne hu]; exact Or.inl ⟨y, hy⟩

/-- A read-only observation at the current moment. -/
theorem matched_obs {s' : State V c.W} {t : Tid} {k : Call V} {cand : Option (Res V)} {r : Res V}
    {owner' : Nat → Option Tid}
    (hx : a.th t = .pending k.obj k.op cand)
    (hr : k.op.onCell (a.cell k.obj) = (a.cell k.obj, r))
    (hm : ∀ i, i < c.n k.obj → s'.mem (.chunk k.obj i) = c.split k.obj (a.cell k.obj) i)
    (h : c.Rel s' { a with th := Function.update a.th t (.pending k.obj k.op (some r)) } owner') :
    Matched c a none s' := by
  refine ⟨_, owner', Exec.one_tau (Revisable.Step.obs a t _ _ _ _ hx hr), h, Fresh.of_update ?_ ?_⟩
  · intro o v hf
    cases hop : k.op with
    | load ord =>
      rw [hop] at hf hr
      have hr2 : r = .val (a.cell k.obj) ∨ r = .panic := by
        simp only [Op.onCell] at hr
        split at hr
        · left; exact (congrArg Prod.snd hr).symm
        · right; exact (congrArg Prod.snd hr).symm
      rcases hr2 with rfl | rfl
      · simp only [final, Option.some.injEq, Prod.mk.injEq] at hf
        obtain ⟨rfl, rfl⟩ := hf
        exact hm
      · simp [final] at hf
    | _ => rw [hop] at hf; simp [final] at hf
  · intro o ord y hy
    rw [hx] at hy
    injection hy with h1 h2 h3
    subst h1; rw [h2]
    exact Or.inl ⟨_, rfl⟩

theorem sim_valLo (ok : c.Sound) (R : c.Rel s a owner) (nw : c.NoWrap s) {t : Tid}
    {k : Call V} {h l : BitVec c.W} {acc : Nat → BitVec c.W}
    (hpc : s.pc t = .valLo k h l acc) :
    Matched c a none
      { s with pc := Function.update s.pc t (c.next (s.pc t) (s.mem (.lo (c.lockOf k.obj)))) } := by
  have T := R.th t
  rw [hpc] at T
  obtain ⟨hp, hl, rv, hT, hG⟩ := T
  obtain ⟨hok, cand, hx⟩ := hp
  obtain ⟨hst, hrv, hlo, hw⟩ := hT
  have nwt := nw t k.obj (by rw [hpc]; rfl)
  have hn : c.holds (s.pc t) = none := by rw [hpc]; rfl
  -- consequences of finding the same stamp when the version is the same
  have key : s.mem (.lo (c.lockOf k.obj)) = l → s.ver (c.lockOf k.obj) = rv →
      k.op.onCell (a.cell k.obj) = (a.cell k.obj, .val (c.join k.obj acc)) := by
    intro hm hv
    have hne : s.mem (.lo (c.lockOf k.obj)) ≠ 1 := by rw [hm, hlo]; exact stamp_ne_one ok _
    obtain ⟨hon, -⟩ := owner_none_of_lo ok R hne
    rcases hG hv with hg | hg
    · rw [onCell_load hl hok]
      congr 2
      rw [ok.join_congr _ acc (c.split k.obj (a.cell k.obj)) hg, ok.join_split _ _ (R.fit _)]
    · exact absurd hg (D_of_none hon)
  by_cases hwide : c.wide = true
  · -- wide: go on to `valHi`, observing now if the high half still agrees
    have hnext : c.next (s.pc t) (s.mem (.lo (c.lockOf k.obj)))
        = .valHi k h l acc (s.mem (.lo (c.lockOf k.obj))) := by
      rw [hpc]; simp [next, hwide]
    rw [hnext]
    obtain ⟨hv, hh, hhv1, hhv2⟩ := hw hwide
    by_cases hm : s.mem (.lo (c.lockOf k.obj)) = l
    · have hne : s.mem (.lo (c.lockOf k.obj)) ≠ 1 := by rw [hm, hlo]; exact stamp_ne_one ok _
      obtain ⟨hon, hstamp⟩ := owner_none_of_lo ok R hne
      have hvv : rv / c.B ≤ s.ver (c.lockOf k.obj) / c.B := Nat.div_le_div_right hrv
      by_cases hq : s.ver (c.lockOf k.obj) / c.B = hv
      · have hveq : s.ver (c.lockOf k.obj) = rv := by
          apply eq_of_div_stamp ok
          · omega
          · rw [← hstamp, hm, hlo]
        refine matched_obs hx (key hm hveq) (mem_of_clean R (D_of_none hon)) (R.keepN t _ _ rfl hn ?_)
        exact ⟨⟨hok, _, rfl⟩, hwide, hv, hh, hhv1, fun _ =>
          ⟨s.ver (c.lockOf k.obj), by rw [H_of_none hon], by omega, fun _ => rfl⟩⟩
      · refine matched_refl t (R.keepN t _ _ rfl hn ?_)
        exact ⟨⟨hok, _, hx⟩, hwide, hv, hh, hhv1, fun _ =>
          ⟨s.ver (c.lockOf k.obj), by rw [H_of_none hon], by omega, fun e => absurd e hq⟩⟩
    · refine matched_refl t (R.keepN t _ _ rfl hn ?_)
      exact ⟨⟨hok, _, hx⟩, hwide, hv, hh, hhv1, fun e => absurd e hm⟩
  · -- narrow
    have hwf : c.wide = false := by simpa using hwide
    by_cases hm : s.mem (.lo (c.lockOf k.obj)) = l
    · have hne : s.mem (.lo (c.lockOf k.obj)) ≠ 1 := by rw [hm, hlo]; exact stamp_ne_one ok _
      obtain ⟨hon, hstamp⟩ := owner_none_of_lo ok R hne
      have hveq : s.ver (c.lockOf k.obj) = rv := by
        symm; apply stamp_near ok hrv
        · have : c.maxOverlap = c.B := by simp [maxOverlap, hwf, B]
          omega
        · rw [← hstamp, hm, hlo]
      have hnext : c.next (s.pc t) (s.mem (.lo (c.lockOf k.obj)))
          = c.finish k (.val (c.join k.obj acc)) := by
        rw [hpc]; simp [next, hwf, hm]
      rw [hnext]
      refine matched_obs hx (key hm hveq) (mem_of_clean R (D_of_none hon)) (R.keepN t _ _ (holds_finish _ _) hn ?_)
      exact TR_finish _ _ (Or.inr ⟨_, _, rfl⟩)
    · have hnext : c.next (s.pc t) (s.mem (.lo (c.lockOf k.obj))) = .swapLock k := by
        rw [hpc]; simp [next, hwf, hm]
      rw [hnext]
      exact matched_refl t (R.keepN t _ _ rfl hn ⟨hok, _, hx⟩)

theorem sim_valHi (ok : c.Sound) (R : c.Rel s a owner) (nw : c.NoWrap s) {t : Tid}
    {k : Call V} {h l l' : BitVec c.W} {acc : Nat → BitVec c.W}
    (hpc : s.pc t = .valHi k h l acc l') :
    Matched c a none
      { s with pc := Function.update s.pc t (c.next (s.pc t) (s.mem (.hi (c.lockOf k.obj)))) } := by
  have T := R.th t
  rw [hpc] at T
  obtain ⟨hp, hwide, hv, hh, hst, hcl⟩ := T
  have nwt := nw t k.obj (by rw [hpc]; rfl)
  have hn : c.holds (s.pc t) = none := by rw [hpc]; rfl
  by_cases hm : s.mem (.hi (c.lockOf k.obj)) = h ∧ l' = l
  · obtain ⟨hm1, hm2⟩ := hm
    obtain ⟨v3, h1, h2, h3⟩ := hcl hm2
    have hb := c.H_bounds s owner (c.lockOf k.obj)
    have hHv : hv = c.H s owner (c.lockOf k.obj) := by
      apply ofNat_near ok (by omega)
      · have hB := B_pos ok
        have hmax : c.maxOverlap = 2 * c.B * c.B - c.B := by
          have hW := ok.hW
          simp only [maxOverlap, hwide, if_true, B]
          congr 1
          rw [← pow_succ', ← pow_add]; congr 1; omega
        have h5 : (s.ver (c.lockOf k.obj) + 1) / c.B ≤ (s.start t + (2 * c.B - 1) * c.B) / c.B := by
          apply Nat.div_le_div_right
          have : (2 * c.B - 1) * c.B = 2 * c.B * c.B - c.B := by
            rw [Nat.sub_mul, Nat.one_mul]
          omega
        rw [Nat.add_mul_div_right _ _ hB] at h5
        omega
      · rw [← hh, ← hm1, R.hi hwide]
    have hx := h3 (by omega)
    have hnext : c.next (s.pc t) (s.mem (.hi (c.lockOf k.obj)))
        = c.finish k (.val (c.join k.obj acc)) := by
      rw [hpc]; simp [next, hm1, hm2]
    rw [hnext]
    refine matched_refl t (R.keepN t _ _ (holds_finish _ _) hn ?_)
    exact TR_finish _ _ (Or.inr ⟨_, _, hx⟩)
  · have hnext : c.next (s.pc t) (s.mem (.hi (c.lockOf k.obj))) = .swapLock k := by
      rw [hpc]; simp only [next]; rw [if_neg hm]
    rw [hnext]
    exact matched_refl t (R.keepN t _ _ rfl hn hp)

/-- Taking the lock. -/
theorem sim_swap (ok : c.Sound) (R : c.Rel s a owner) {t : Tid} {k : Call V}
    (hpc : s.pc t = .swapLock k) :
    Matched c a none (c.doAct s t (.swap (.lo (c.lockOf k.obj)) 1 .acquire)) := by
  have T := R.th t
  rw [hpc] at T
  have hn : c.holds (s.pc t) = none := by rw [hpc]; rfl
  have hb : c.bump (s.pc t) s.ver = s.ver := by rw [hpc]; rfl
  unfold doAct; rw [hb]; simp only [execSC]
  by_cases hm : s.mem (.lo (c.lockOf k.obj)) = 1
  · have hnext : c.next (s.pc t) (s.mem (.lo (c.lockOf k.obj))) = .spin k := by
      rw [hpc]; simp [next, hm]
    rw [hnext]
    have hmem : Function.update s.mem (.lo (c.lockOf k.obj)) 1 = s.mem := by
      rw [← hm]; exact Function.update_eq_self _ _
    rw [hmem]
    exact matched_refl t (R.keepN t _ _ rfl hn T)
  · obtain ⟨hon, hstamp⟩ := owner_none_of_lo ok R hm
    have hnext : c.next (s.pc t) (s.mem (.lo (c.lockOf k.obj)))
        = .relFence k (s.mem (.lo (c.lockOf k.obj))) := by
      rw [hpc]; simp only [next]; rw [if_neg hm]
    rw [hnext]
    have hnot : ∀ l, owner l ≠ some t := by
      intro l e; have := (R.own t l).2 e; simp [owns, hn] at this
    refine ⟨a, Function.update owner (c.lockOf k.obj) (some t), .refl _, ?_, Fresh.refl _ _ _⟩
    set l0 := c.lockOf k.obj with hl0
    set pc' : Pc V c.W := .relFence k (s.mem (.lo l0)) with hpc'
    have hH : c.H { s with mem := Function.update s.mem (.lo l0) 1, pc := Function.update s.pc t pc' }
        (Function.update owner l0 (some t)) = c.H s owner := by
      funext l
      by_cases hl : l = l0
      · subst hl; unfold H; simp [hon, hpc', hc]
      · unfold H; rw [Function.update_of_ne hl]
        cases h : owner l with
        | none => rfl
        | some u =>
          have : u ≠ t := fun e => hnot l (by rw [h, e])
          simp [Function.update_of_ne this]
    have hD : c.D { s with mem := Function.update s.mem (.lo l0) 1, pc := Function.update s.pc t pc' }
        (Function.update owner l0 (some t)) = c.D s owner := by
      funext l
      apply propext
      constructor
      · rintro ⟨u, h1, h2⟩
        by_cases hu : u = t
        · subst hu; simp [hpc', dirty] at h2
        · refine ⟨u, ?_, ?_⟩
          · by_cases hl : l = l0
            · subst hl; simp at h1; exact absurd h1.symm hu
            · rwa [Function.update_of_ne hl] at h1
          · simpa [Function.update_of_ne hu] using h2
      · rintro ⟨u, h1, h2⟩
        have hu : u ≠ t := fun e => hnot l (by rw [h1, e])
        refine ⟨u, ?_, by simpa [Function.update_of_ne hu] using h2⟩
        have : l ≠ l0 := by intro e; rw [e, hon] at h1; cases h1
        rw [Function.update_of_ne this]; exact h1
    refine ⟨?_, ?_, ?_, ?_, ?_, ?_, ?_, R.fit⟩
    · intro u l
      by_cases hu : u = t
      · subst hu
        simp only [Function.update_self]
        constructor
        · intro e
          have : l0 = l := by simpa [hpc', owns, holds] using e
          subst this; simp
        · intro e
          by_cases hl : l = l0
          · subst hl; simp [hpc', owns, holds, hl0]
          · rw [Function.update_of_ne hl] at e; exact absurd e (hnot l)
      · simp only [Function.update_of_ne hu]
        rw [R.own u l]
        by_cases hl : l = l0
        · subst hl; rw [hon]; simp; exact fun e => hu e.symm
        · rw [Function.update_of_ne hl]
    · intro l hl
      by_cases h : l = l0
      · subst h; simp at hl
      · rw [Function.update_of_ne h] at hl
        simp only
        rw [Function.update_of_ne (by simpa using h)]
        exact R.free l hl
    · intro l u hl
      by_cases h : l = l0
      · subst h; simp
      · rw [Function.update_of_ne h] at hl
        simp only
        rw [Function.update_of_ne (by simpa using h)]
        exact R.held l u hl
    · intro u k' p hu
      by_cases h : u = t
      · subst h
        simp only [Function.update_self, hpc', holds, Option.some.injEq, Prod.mk.injEq] at hu
        obtain ⟨rfl, rfl⟩ := hu
        exact hstamp
      · simp only [Function.update_of_ne h] at hu; exact R.prev _ _ _ hu
    · intro hw l
      rw [hH]
      simp only
      rw [Function.update_of_ne (by simp)]
      exact R.hi hw l
    · intro o i hi
      simp only
      rw [Function.update_of_ne (by simp), R.mem o i hi]
      by_cases h : c.lockOf o = l0
      · rw [h, hon]; simp [hpc', memAt]
      · rw [Function.update_of_ne h]
        cases h2 : owner (c.lockOf o) with
        | none => rfl
        | some u =>
          have : u ≠ t := fun e => hnot _ (by rw [h2, e])
          simp [Function.update_of_ne this]
    · rw [hH, hD]
      intro u
      by_cases hu : u = t
      · subst hu; simp only [Function.update_self]; exact T
      · simp only [Function.update_of_ne hu]; exact R.th u

/-- Releasing the lock, in both ways: `m` new stamp, `v` number of completed sections added, `w`
the value stored. -/
theorem rel_release (ok : c.Sound) (R : c.Rel s a owner) {t : Tid} {k : Call V} {p : BitVec c.W}
    {r : Res V} (ver' : Nat → Nat) (v : V) (x : Revisable.Th V)
    (hx : x = .done r ∨ ∃ o op, x = .pending o op (some r))
    (hfit : c.fits k.obj v)
    (hh : c.holds (s.pc t) = some (k, p))
    (hver : ∀ l, l ≠ c.lockOf k.obj → ver' l = s.ver l)
    (hge : s.ver (c.lockOf k.obj) ≤ ver' (c.lockOf k.obj))
    (hsame : ver' (c.lockOf k.obj) = s.ver (c.lockOf k.obj) → v = a.cell k.obj ∧ ¬ c.dirty (s.pc t))
    (hhc : c.wide = true → c.hc (s.pc t) (s.ver (c.lockOf k.obj)) = ver' (c.lockOf k.obj) / c.B)
    (hmemt : ∀ o i, i < c.n o → c.lockOf o = c.lockOf k.obj →
      c.memAt (s.pc t) o i (a.cell o) = c.split o (Function.update a.cell k.obj v o) i) :
    c.Rel
      { mem := Function.update s.mem (.lo (c.lockOf k.obj)) (c.stamp (ver' (c.lockOf k.obj)))
        pc := Function.update s.pc t (c.finish k r)
        ver := ver'
        start := s.start }
      { cell := Function.update a.cell k.obj v
        th := Function.update a.th t x }
      (Function.update owner (c.lockOf k.obj) none) := by
  set l0 := c.lockOf k.obj with hl0
  set s' : State V c.W :=
    { mem := Function.update s.mem (.lo l0) (c.stamp (ver' l0))
      pc := Function.update s.pc t (c.finish k r)
      ver := ver'
      start := s.start } with hs'
  have hown : owner l0 = some t := (R.own t l0).1 (by simp [owns, hh, hl0])
  have hnot : ∀ l, l ≠ l0 → owner l ≠ some t := by
    intro l hl e
    have := (R.own t l).2 e
    simp [owns, hh] at this
    exact hl (by rw [← this])
  have Hl0 : c.H s' (Function.update owner l0 none) l0 = ver' l0 / c.B := by
    unfold H; simp [hs']
  have Hne : ∀ l, l ≠ l0 → c.H s' (Function.update owner l0 none) l = c.H s owner l := by
    intro l hl
    unfold H; rw [Function.update_of_ne hl]
    cases h : owner l with
    | none => simp [hs', hver l hl]
    | some u =>
      have : u ≠ t := fun e => hnot l hl (by rw [h, e])
      simp [hs', Function.update_of_ne this, hver l hl]
  have hcellne : ∀ o, c.lockOf o ≠ l0 → Function.update a.cell k.obj v o = a.cell o := by
    intro o ho
    rw [Function.update_of_ne]; intro e; exact ho (by rw [e])
  refine ⟨?_, ?_, ?_, ?_, ?_, ?_, ?_, fun o => ?_⟩
  on_goal 8 =>
    by_cases h : o = k.obj
    · subst h; simp only [Function.update_self]; exact hfit
    · simp only [Function.update_of_ne h]; exact R.fit o
  · intro u l
    by_cases hu : u = t
    · subst hu
      simp only [hs', Function.update_self]
      constructor
      · intro e; simp [owns, holds_finish] at e
      · intro e
        by_cases hl : l = l0
        · subst hl; simp at e
        · rw [Function.update_of_ne hl] at e; exact absurd e (hnot l hl)
    · simp only [hs', Function.update_of_ne hu]
      rw [R.own u l]
      by_cases hl : l = l0
      · subst hl; rw [hown]; simp; exact fun e => hu e.symm
      · rw [Function.update_of_ne hl]
  · intro l hl
    by_cases h : l = l0
    · subst h; simp [hs']
    · rw [Function.update_of_ne h] at hl
      simp only [hs']
      rw [Function.update_of_ne (by simpa using h), hver l h]
      exact R.free l hl
  · intro l u hl
    by_cases h : l = l0
    · subst h; simp at hl
    · rw [Function.update_of_ne h] at hl
      simp only [hs']
      rw [Function.update_of_ne (by simpa using h)]
      exact R.held l u hl
  · intro u k' p' hu
    by_cases h : u = t
    · subst h
      simp only [hs', Function.update_self, holds_finish] at hu
      cases hu
    · simp only [hs', Function.update_of_ne h] at hu
      have hne : c.lockOf k'.obj ≠ l0 := by
        intro e
        have h1 := (R.own u (c.lockOf k'.obj)).1 (by simp [owns, hu])
        rw [e, hown] at h1
        exact h (Option.some.inj h1).symm
      rw [hs']; simp only; rw [hver _ hne]
      exact R.prev _ _ _ hu
  · intro hw l
    have : s'.mem (.hi l) = s.mem (.hi l) := by
      simp only [hs']; rw [Function.update_of_ne (by simp)]
    rw [this, R.hi hw]
    by_cases hl : l = l0
    · subst hl; rw [Hl0, H_of_some hown, hhc hw]
    · rw [Hne l hl]
  · intro o i hi
    have : s'.mem (.chunk o i) = s.mem (.chunk o i) := by
      simp only [hs']; rw [Function.update_of_ne (by simp)]
    rw [this, R.mem o i hi]
    by_cases h : c.lockOf o = l0
    · rw [h, hown]; simp only [Function.update_self]; exact hmemt o i hi h
    · rw [Function.update_of_ne h]
      simp only
      rw [hcellne o h]
      cases h2 : owner (c.lockOf o) with
      | none => rfl
      | some u =>
        have : u ≠ t := fun e => hnot _ h (by rw [h2, e])
        simp [hs', Function.update_of_ne this]
  · intro u
    by_cases hu : u = t
    · subst hu; simp only [hs', Function.update_self]; exact TR_finish _ _ hx
    · simp only [hs', Function.update_of_ne hu]
      refine (R.th u).frame c ?_ ?_ ?_ ?_ ?_
      · intro l
        by_cases hl : l = l0
        · subst hl; exact hge
        · rw [hver l hl]
      · intro l
        by_cases hl : l = l0
        · subst hl
          rw [Hl0, H_of_some hown]
          by_cases hw : c.wide = true
          · rw [hhc hw]
          · -- the high counter is not used by the narrow lock
            have hb := c.hc_mono (s.pc t) (s.ver l0)
            by_cases hd : ver' l0 = s.ver l0
            · have := (hsame hd).2
              have e : c.hc (s.pc t) (s.ver l0) = s.ver l0 / c.B := by
                generalize s.pc t = pc at this ⊢
                cases pc <;> simp [dirty] at this <;> rfl
              rw [e, hd]
            · refine le_trans hb.2 (Nat.div_le_div_right ?_)
              omega
        · rw [Hne l hl]
      · rintro l hl ⟨w, h1, h2⟩
        by_cases hll : l = l0
        · subst hll
          rw [hown] at h1
          obtain rfl := Option.some.inj h1
          exact absurd h2 (hsame hl).2
        · refine ⟨w, by rw [Function.update_of_ne hll]; exact h1, ?_⟩
          have : w ≠ t := fun e => hnot l hll (by rw [h1, e])
          simpa [hs', Function.update_of_ne this] using h2
      · intro o ho
        by_cases hoo : o = k.obj
        · subst hoo; rw [Function.update_self]; exact (hsame ho).1
        · rw [Function.update_of_ne hoo]
      · intro l hl
        have hll : l ≠ l0 := by
          intro e
          have h1 := (R.own u l).1 hl
          rw [e, hown] at h1
          exact hu (Option.some.inj h1).symm
        exact ⟨hver l hll, Hne l hll⟩

theorem sim_drop (ok : c.Sound) (R : c.Rel s a owner) {t : Tid} {k : Call V} {p : BitVec c.W}
    {r : Res V} (hpc : s.pc t = .dropStore k p r) (hf : k.op.Fits (c.fits k.obj)) :
    Matched c a none (c.doAct s t (.store (.lo (c.lockOf k.obj)) (p + 2) .release)) := by
  have T := R.th t
  rw [hpc] at T
  obtain ⟨⟨hok, cand, hx⟩, hnl, hr⟩ := T
  have hh : c.holds (s.pc t) = some (k, p) := by rw [hpc]; rfl
  have hp := R.prev _ _ _ hh
  refine ⟨_, Function.update owner (c.lockOf k.obj) none,
    Exec.one_tau (Revisable.Step.commit a t _ _ _ hx), ?_,
    Fresh.of_update (fun o v hf => by simp [final] at hf) ?_⟩
  swap
  · intro o ord y hy
    rw [hx] at hy
    injection hy with h1 h2 h3
    exact absurd ⟨ord, h2⟩ hnl
  have hrel := rel_release (r := r) ok R (k := k) (p := p) (t := t)
    (Function.update s.ver (c.lockOf k.obj) (s.ver (c.lockOf k.obj) + 1))
    (k.op.onCell (a.cell k.obj)).1 (.done r) (Or.inl rfl)
    (hf.onCell (R.fit _)) hh
    (fun l hl => Function.update_of_ne hl _ _) (by simp)
    (by simp) (by intro _; rw [hpc]; simp [hc])
    (by
      intro o i hi ho
      rw [hpc]
      simp only [memAt]
      by_cases h : k.obj = o
      · subst h; simp
      · rw [if_neg h, Function.update_of_ne (Ne.symm h)])
  unfold doAct
  rw [hpc]
  simp only [execSC, next, bump]
  rw [Function.update_self] at hrel
  rw [hp, stamp_add, hr]
  exact hrel

theorem sim_abort (ok : c.Sound) (R : c.Rel s a owner) {t : Tid} {k : Call V} {p : BitVec c.W}
    {r : Res V} (hpc : s.pc t = .abortStore k p r) :
    Matched c a none (c.doAct s t (.store (.lo (c.lockOf k.obj)) p .release)) := by
  have T := R.th t
  rw [hpc] at T
  obtain ⟨⟨hok, cand, hx⟩, hr⟩ := T
  have hh : c.holds (s.pc t) = some (k, p) := by rw [hpc]; rfl
  have hp := R.prev _ _ _ hh
  have hown : owner (c.lockOf k.obj) = some t := (R.own t _).1 (by simp [owns, hh])
  have hrel := rel_release (r := r) ok R (k := k) (p := p) (t := t) s.ver (a.cell k.obj)
    (.pending k.obj k.op (some r)) (Or.inr ⟨_, _, rfl⟩) (R.fit _) hh
    (fun l hl => rfl) (le_refl _)
    (by intro _; rw [hpc]; simp [dirty]) (by intro _; rw [hpc]; simp [hc])
    (by
      intro o i hi ho
      rw [hpc]
      simp only [memAt, Function.update_eq_self])
  rw [Function.update_eq_self] at hrel
  refine matched_obs (k := k) hx hr (owner' := Function.update owner (c.lockOf k.obj) none) ?_ ?_
  · intro i hi
    simp only [doAct, execSC]
    rw [Function.update_of_ne (by simp), R.mem _ i hi, hown]
    simp only [hpc]; rfl
  · unfold doAct
    rw [hpc]
    simp only [execSC, next, bump]
    rw [hp]
    exact hrel

/-- Storing one chunk. -/
theorem sim_wrChunk (ok : c.Sound) (R : c.Rel s a owner) {t : Tid} {k : Call V} {p : BitVec c.W}
    {i : Nat} {new : Nat → BitVec c.W} {r : Res V} (hpc : s.pc t = .wrChunk k p i new r) :
    Matched c a none (c.doAct s t (.store (.chunk k.obj i) (new i) .relaxed)) := by
  have T := R.th t
  rw [hpc] at T
  obtain ⟨hpend, hnl, hi, hr, hnew⟩ := T
  have hh : c.holds (s.pc t) = some (k, p) := by rw [hpc]; rfl
  have hp := R.prev _ _ _ hh
  have hown : owner (c.lockOf k.obj) = some t := (R.own t _).1 (by simp [owns, hh])
  have hb : c.bump (s.pc t) s.ver = s.ver := by rw [hpc]; rfl
  unfold doAct; rw [hb]; simp only [execSC]
  -- chunks of objects under this lock, before
  have hmem0 : ∀ o j, j < c.n o → c.lockOf o = c.lockOf k.obj → s.mem (.chunk o j) =
      if k.obj = o ∧ j < i then c.split o (k.op.onCell (a.cell o)).1 j else c.split o (a.cell o) j := by
    intro o j hj ho
    rw [R.mem o j hj, ho, hown]; simp only [hpc, memAt]
  have hupd : ∀ o j, j < c.n o → c.lockOf o = c.lockOf k.obj →
      Function.update s.mem (.chunk k.obj i) (new i) (.chunk o j) =
      if k.obj = o ∧ j < i + 1 then c.split o (k.op.onCell (a.cell o)).1 j
      else c.split o (a.cell o) j := by
    intro o j hj ho
    by_cases h : Loc.chunk o j = Loc.chunk k.obj i
    · rw [h, Function.update_self]
      simp only [Loc.chunk.injEq] at h
      obtain ⟨rfl, rfl⟩ := h
      simp [hnew]
    · rw [Function.update_of_ne h, hmem0 o j hj ho]
      by_cases h1 : k.obj = o
      · have h2 : j ≠ i := by rintro rfl; exact h (by rw [h1])
        have h3 : j < i + 1 ↔ j < i := by omega
        simp [h3]
      · simp [h1]
  have hother : ∀ o j, j < c.n o → c.lockOf o ≠ c.lockOf k.obj →
      Function.update s.mem (.chunk k.obj i) (new i) (.chunk o j) = s.mem (.chunk o j) := by
    intro o j hj ho
    rw [Function.update_of_ne]
    intro e; simp only [Loc.chunk.injEq] at e; exact ho (by rw [e.1])
  by_cases hlast : i + 1 < c.n k.obj
  · have hnext : c.next (s.pc t) 0 = .wrChunk k p (i + 1) new r := by
      rw [hpc]; simp only [next]; rw [if_pos hlast]
    rw [hnext]
    apply matched_refl t
    refine R.keep t _ _ _ (by rw [hpc]; rfl) (fun _ => trivial) ?_ ?_ ?_ ?_ ?_ ?_
    · intro l; rw [Function.update_of_ne (by simp)]
    · intro l hl
      have hl : c.lockOf k.obj = l := by simpa [owns, holds] using hl
      subst hl
      refine ⟨by rw [hpc]; exact le_refl _, fun hw => ?_⟩
      rw [Function.update_of_ne (by simp), R.hi hw, H_of_some hown, hpc]; rfl
    · intro l _; rw [Function.update_of_ne (by simp)]
    · intro o j hj ho
      have ho : c.lockOf k.obj = c.lockOf o := by simpa [owns, holds] using ho
      rw [hupd o j hj ho.symm]; rfl
    · intro o j hj ho
      have ho : ¬ c.lockOf k.obj = c.lockOf o := by simpa [owns, holds] using ho
      exact hother o j hj (Ne.symm ho)
    · exact ⟨hpend, hnl, hlast, hr, hnew⟩
  · have hn : ∀ j, j < c.n k.obj → j < i + 1 := fun j hj => by omega
    by_cases hwrap : c.wide = true ∧ p + 2 = 0
    · have hnext : c.next (s.pc t) 0 = .hiLoad k p r := by
        rw [hpc]; simp only [next]; rw [if_neg hlast]; unfold dropGuard; rw [if_pos hwrap]
      rw [hnext]
      apply matched_refl t
      refine R.keep t _ _ _ (by rw [hpc]; rfl) (fun _ => trivial) ?_ ?_ ?_ ?_ ?_ ?_
      · intro l; rw [Function.update_of_ne (by simp)]
      · intro l hl
        have hl : c.lockOf k.obj = l := by simpa [owns, holds] using hl
        subst hl
        refine ⟨by rw [hpc]; exact le_refl _, fun hw => ?_⟩
        rw [Function.update_of_ne (by simp), R.hi hw, H_of_some hown, hpc]; rfl
      · intro l _; rw [Function.update_of_ne (by simp)]
      · intro o j hj ho
        have ho : c.lockOf k.obj = c.lockOf o := by simpa [owns, holds] using ho
        rw [hupd o j hj ho.symm]
        by_cases e : k.obj = o
        · subst e; simp [memAt, hn j hj]
        · simp [memAt, e]
      · intro o j hj ho
        have ho : ¬ c.lockOf k.obj = c.lockOf o := by simpa [owns, holds] using ho
        exact hother o j hj (Ne.symm ho)
      · exact ⟨hpend, hnl, hr, hwrap.1, hwrap.2⟩
    · have hnext : c.next (s.pc t) 0 = .dropStore k p r := by
        rw [hpc]; simp only [next]; rw [if_neg hlast]; unfold dropGuard; rw [if_neg hwrap]
      rw [hnext]
      apply matched_refl t
      refine R.keep t _ _ _ (by rw [hpc]; rfl) (fun _ => trivial) ?_ ?_ ?_ ?_ ?_ ?_
      · intro l; rw [Function.update_of_ne (by simp)]
      · intro l hl
        have hl : c.lockOf k.obj = l := by simpa [owns, holds] using hl
        subst hl
        refine ⟨?_, fun hw => ?_⟩
        · rw [hpc]; exact (c.hc_mono (.dropStore k p r) _).1
        · rw [Function.update_of_ne (by simp), R.hi hw, H_of_some hown, hpc]
          simp only [hc]
          rw [succ_div_nowrap ok]
          intro e; exact hwrap ⟨hw, by rw [hp]; exact e⟩
      · intro l _; rw [Function.update_of_ne (by simp)]
      · intro o j hj ho
        have ho : c.lockOf k.obj = c.lockOf o := by simpa [owns, holds] using ho
        rw [hupd o j hj ho.symm]
        by_cases e : k.obj = o
        · subst e; simp [memAt, hn j hj]
        · simp [memAt, e]
      · intro o j hj ho
        have ho : ¬ c.lockOf k.obj = c.lockOf o := by simpa [owns, holds] using ho
        exact hother o j hj (Ne.symm ho)
      · exact ⟨hpend, hnl, hr⟩

theorem sim_hiStore (ok : c.Sound) (R : c.Rel s a owner) {t : Tid} {k : Call V} {p y : BitVec c.W}
    {r : Res V} (hpc : s.pc t = .hiStore k p y r) :
    Matched c a none (c.doAct s t (.store (.hi (c.lockOf k.obj)) (y + 1) .release)) := by
  have T := R.th t
  rw [hpc] at T
  obtain ⟨hpend, hnl, hr, hw, hz, hy⟩ := T
  have hh : c.holds (s.pc t) = some (k, p) := by rw [hpc]; rfl
  have hp := R.prev _ _ _ hh
  have hown : owner (c.lockOf k.obj) = some t := (R.own t _).1 (by simp [owns, hh])
  have hb : c.bump (s.pc t) s.ver = s.ver := by rw [hpc]; rfl
  unfold doAct; rw [hb]; simp only [execSC]
  have hnext : c.next (s.pc t) 0 = .dropStore k p r := by rw [hpc]; rfl
  rw [hnext]
  apply matched_refl t
  refine R.keep t _ _ _ (by rw [hpc]; rfl) (fun _ => trivial) ?_ ?_ ?_ ?_ ?_ ?_
  · intro l; rw [Function.update_of_ne (by simp)]
  · intro l hl
    have hl : c.lockOf k.obj = l := by simpa [owns, holds] using hl
    subst hl
    refine ⟨?_, fun _ => ?_⟩
    · rw [hpc]; exact (c.hc_mono (.dropStore k p r) _).1
    · rw [Function.update_self, hy, H_of_some hown, hpc]
      simp only [hc]
      rw [succ_div_wrap ok (by rw [← hp]; exact hz)]
      rw [BitVec.ofNat_add]; rfl
  · intro l hl
    have hl : ¬ c.lockOf k.obj = l := by simpa [owns, holds] using hl
    rw [Function.update_of_ne]; intro e; simp only [Loc.hi.injEq] at e; exact hl e.symm
  · intro o j hj ho
    have ho : c.lockOf k.obj = c.lockOf o := by simpa [owns, holds] using ho
    rw [Function.update_of_ne (by simp), R.mem o j hj, ← ho, hown]; simp only [hpc]; rfl
  · intro o j hj ho; rw [Function.update_of_ne (by simp)]
  · exact ⟨hpend, hnl, hr⟩

end Cfg
end Fallback
end Verif
