import Verif.Cs.Code
import Verif.Irq.Sim
/-!
# Linearizability of atomics in a critical section
-/
set_option linter.unusedSectionVars false
namespace Verif.Cs
open Verif.Object Verif.Irq

variable {n : Nat} {C : Type} [DecidableEq C]

abbrev St (n : Nat) (C : Type) := Status (Obj × Op (Val n C) × Nat) (Res (Val n C) × Nat)

/-- Inside its critical section, before `release`? -/
def inside : Option (Pc n C) → Bool
  | some (.rd ..) | some (.wr ..) | some (.rel ..) => true
  | _ => false

/-- Program point, depth, and the specification's view. -/
def At (K : Cfg n C) (d : Nat) : Option (Pc n C) → St n C → Prop
  | none, st => st = .idle
  | some (.start o op), st => st = .pending (o, op, d)
  | some (.native o op), st => st = .pending (o, op, d) ∧ op.ordOk = true ∧
      K.refuse o op = false ∧ K.inCs o = false
  | some (.acq o op), st => st = .pending (o, op, d) ∧ op.ordOk = true ∧
      K.refuse o op = false ∧ K.inCs o = true
  | some (.rd o op _), st => ∃ k, d = k + 1 ∧ st = .pending (o, op, k) ∧ op.ordOk = true ∧
      K.refuse o op = false ∧ K.inCs o = true
  | some (.wr o op _ _ _), st => ∃ k, d = k + 1 ∧ st = .pending (o, op, k) ∧ op.ordOk = true ∧
      K.refuse o op = false ∧ K.inCs o = true
  | some (.rel r), st => ∃ k, d = k + 1 ∧ st = .done (r, k)
  | some (.fin r), st => st = .done (r, d)

/-- What `t`, if writing, has done to memory. -/
def MemAt (m obj : Mem n C) : Option (Pc n C) → Prop
  | some (.rd o _ buf) => ∀ i x, buf i = some x → obj o i = x
  | some (.wr o op new wrote r) =>
      (∀ i, m o i = if wrote i then new i else obj o i) ∧ op.onCell (obj o) = (new, r)
  | _ => True

/-- Is this object being written? -/
def writing (o : Obj) : Option (Pc n C) → Prop
  | some (.wr o' _ _ _ _) => o' = o
  | _ => False

structure Rel (K : Cfg n C) (s : State n C)
    (a : Object.State (Mem n C) (Obj × Op (Val n C) × Nat) (Res (Val n C) × Nat)) : Prop where
  excl : ∀ t u, s.held t ≠ 0 → s.held u ≠ 0 → t = u
  at_ : ∀ t, At K (s.held t) (s.th t) (a.th t)
  memAt : ∀ t, MemAt s.mem a.obj (s.th t)
  mem : ∀ o, (∀ t, ¬ writing o (s.th t)) → s.mem o = a.obj o

theorem Rel.inside_held {K : Cfg n C} {s a} (hr : Rel K s a) {t} (h : inside (s.th t) = true) :
    s.held t ≠ 0 := by
  have := hr.at_ t
  cases hp : s.th t with
  | none => simp [hp, inside] at h
  | some p =>
    rw [hp] at this
    cases p with
    | rd => obtain ⟨k, h1, _⟩ := this; omega
    | wr => obtain ⟨k, h1, _⟩ := this; omega
    | rel => obtain ⟨k, h1, _⟩ := this; omega
    | _ => simp [hp, inside] at h

theorem writing_inside {o : Obj} {pc : Option (Pc n C)} (h : writing o pc) : inside pc = true := by
  cases pc with
  | none => exact h.elim
  | some p => cases p <;> first | rfl | exact h.elim

/-- A context inside its critical section is the only one writing a guarded object. -/
theorem Rel.guarded {K : Cfg n C} {s a} (hr : Rel K s a) {t} (hi : inside (s.th t) = true) {o u}
    (hw : writing o (s.th u)) : u = t :=
  hr.excl u t (hr.inside_held (writing_inside hw)) (hr.inside_held hi)

theorem writing_guarded {K : Cfg n C} {s a} (hr : Rel K s a) {o u} (hw : writing o (s.th u)) :
    K.inCs o = true := by
  have := hr.at_ u
  cases hp : s.th u with
  | none => rw [hp] at hw; exact hw.elim
  | some p =>
    rw [hp] at hw this
    cases p with
    | wr o' op new wrote r =>
      obtain ⟨k, _, _, _, _, h⟩ := this
      have e : o' = o := hw
      rw [← e]; exact h
    | _ => exact hw.elim

/-- `MemAt` of contexts other than the one that wrote object `o`. -/
theorem memAt_other {m m' obj obj' : Mem n C} {pc : Option (Pc n C)} {o : Obj}
    (hm : ∀ o', o' ≠ o → m' o' = m o') (ho : ∀ o', o' ≠ o → obj' o' = obj o')
    (hpc : ∀ p, pc = some p → (∀ op buf, p ≠ .rd o op buf) ∧
      (∀ op new wrote r, p ≠ .wr o op new wrote r))
    (h : MemAt m obj pc) : MemAt m' obj' pc := by
  cases pc with
  | none => trivial
  | some p =>
    obtain ⟨h1, h2⟩ := hpc p rfl
    cases p with
    | rd o' op buf =>
      have hne : o' ≠ o := by rintro rfl; exact h1 op buf rfl
      intro i x hx
      rw [ho o' hne]; exact h i x hx
    | wr o' op new wrote r =>
      have hne : o' ≠ o := by rintro rfl; exact h2 op new wrote r rfl
      refine ⟨fun i => ?_, ?_⟩
      · rw [hm o' hne, ho o' hne]; exact h.1 i
      · rw [ho o' hne]; exact h.2
    | _ => trivial

/-- Depths of contexts other than `t`. -/
theorem held_other {K : Cfg n C} {s : State n C} {a} (hr : Rel K s a) {t u : Tid} (h : u ≠ t)
    (d : Nat) : At K (Function.update s.held t d u) (s.th u) (a.th u) := by
  rw [Function.update_of_ne h]; exact hr.at_ u

theorem sim_act {K : Cfg n C} {s : State n C} {a} (hr : Rel K s a) {t pc m' held' pc'}
    (h : s.th t = some pc) (ha : Act K t s pc m' held' pc') :
    ∃ a', Rel K ⟨m', held', Function.update s.th t (some pc')⟩ a' ∧
      (a' = a ∨ Object.Step (spec K) a none a') := by
  have hat := hr.at_ t
  have hma := hr.memAt t
  rw [h] at hat hma
  -- the steps that touch neither memory nor the specification
  have same : ∀ (held' : Tid → Nat) (pc' : Pc n C),
      (∀ u, u ≠ t → held' u = s.held u) →
      (∀ t u, held' t ≠ 0 → held' u ≠ 0 → t = u) →
      At K (held' t) (some pc') (a.th t) → MemAt s.mem a.obj (some pc') →
      (∀ o, ¬ writing o (some pc') → ¬ writing o (some pc) ∨ s.mem o = a.obj o) →
      Rel K ⟨s.mem, held', Function.update s.th t (some pc')⟩ a := by
    intro held' pc' h1 h2 h3 h4 h5
    refine ⟨h2, fun u => ?_, fun u => ?_, fun o ho => ?_⟩
    · by_cases hu : u = t
      · subst hu; simp only [Function.update_self]; exact h3
      · simp only [Function.update_of_ne hu, h1 u hu]; exact hr.at_ u
    · by_cases hu : u = t
      · subst hu; simp only [Function.update_self]; exact h4
      · simp only [Function.update_of_ne hu]; exact hr.memAt u
    · have ht := ho t
      simp only [Function.update_self] at ht
      rcases h5 o ht with h6 | h6
      · refine hr.mem o (fun u => ?_)
        by_cases hu : u = t
        · subst hu; rw [h]; exact h6
        · have := ho u; simpa only [Function.update_of_ne hu] using this
      · exact h6
  -- the steps that commit
  have commit : ∀ (m' : Mem n C) (pc' : Pc n C) (o : Obj) (op : Op (Val n C)) (d : Nat)
      (obj' : Mem n C) (r : Res (Val n C) × Nat),
      a.th t = .pending (o, op, d) → (spec K).sem (o, op, d) a.obj obj' r →
      (∀ o', o' ≠ o → m' o' = s.mem o') → (∀ o', o' ≠ o → obj' o' = a.obj o') →
      m' o = obj' o → (∀ o, ¬ writing o (some pc')) →
      (∀ u, u ≠ t → ∀ p, s.th u = some p → (∀ op buf, p ≠ .rd o op buf) ∧
        (∀ op new wrote r, p ≠ .wr o op new wrote r)) →
      (∀ o', o' ≠ o → ¬ writing o' (some pc)) →
      At K (s.held t) (some pc') (.done r) → MemAt m' obj' (some pc') →
      Rel K ⟨m', s.held, Function.update s.th t (some pc')⟩
        ⟨obj', Function.update a.th t (.done r)⟩ := by
    intro m' pc' o op d obj' r _ _ hm ho heq hnw hoth hwr h3 h4
    refine ⟨hr.excl, fun u => ?_, fun u => ?_, fun o' ho' => ?_⟩
    · by_cases hu : u = t
      · subst hu; simp only [Function.update_self]; exact h3
      · simp only [Function.update_of_ne hu]; exact hr.at_ u
    · by_cases hu : u = t
      · subst hu; simp only [Function.update_self]; exact h4
      · simp only [Function.update_of_ne hu]
        exact memAt_other hm ho (fun p hp => hoth u hu p hp) (hr.memAt u)
    · by_cases hoo : o' = o
      · subst hoo; exact heq
      · show m' o' = obj' o'
        rw [hm o' hoo, ho o' hoo]
        refine hr.mem o' (fun u => ?_)
        by_cases hu : u = t
        · subst hu; rw [h]; exact hwr o' hoo
        · have := ho' u; simpa only [Function.update_of_ne hu] using this
  cases ha with
  | @panic o op ho =>
    have hst : (spec K).sem (o, op, s.held t) a.obj a.obj (.panic, s.held t) := by
      refine ⟨rfl, ?_⟩
      rw [if_neg (by simp [ho])]
      simp [Op.onCell, ho]
    refine ⟨⟨a.obj, Function.update a.th t (.done (.panic, s.held t))⟩, ?_,
      Or.inr (.commit a t _ a.obj _ hat hst)⟩
    refine ⟨hr.excl, fun u => ?_, fun u => ?_, fun o' ho' => ?_⟩
    · by_cases hu : u = t
      · subst hu; simp only [Function.update_self]; rfl
      · simp only [Function.update_of_ne hu]; exact hr.at_ u
    · by_cases hu : u = t
      · subst hu; simp only [Function.update_self]; trivial
      · simp only [Function.update_of_ne hu]; exact hr.memAt u
    · refine hr.mem o' (fun u => ?_)
      by_cases hu : u = t
      · subst hu; rw [h]; exact id
      · have := ho' u; simpa only [Function.update_of_ne hu] using this
  | @refuse o op ho hrf =>
    have hst : (spec K).sem (o, op, s.held t) a.obj a.obj (.panic, s.held t) :=
      ⟨rfl, by rw [if_pos ⟨ho, hrf⟩]; exact ⟨rfl, rfl⟩⟩
    refine ⟨⟨a.obj, Function.update a.th t (.done (.panic, s.held t))⟩, ?_,
      Or.inr (.commit a t _ a.obj _ hat hst)⟩
    refine ⟨hr.excl, fun u => ?_, fun u => ?_, fun o' ho' => ?_⟩
    · by_cases hu : u = t
      · subst hu; simp only [Function.update_self]; rfl
      · simp only [Function.update_of_ne hu]; exact hr.at_ u
    · by_cases hu : u = t
      · subst hu; simp only [Function.update_self]; trivial
      · simp only [Function.update_of_ne hu]; exact hr.memAt u
    · refine hr.mem o' (fun u => ?_)
      by_cases hu : u = t
      · subst hu; rw [h]; exact id
      · have := ho' u; simpa only [Function.update_of_ne hu] using this
  | goNative ho hrf hc =>
    exact ⟨a, same _ _ (fun _ _ => rfl) hr.excl ⟨hat, ho, hrf, hc⟩ trivial
      (fun o _ => Or.inl id), Or.inl rfl⟩
  | goAcq ho hrf hc =>
    exact ⟨a, same _ _ (fun _ _ => rfl) hr.excl ⟨hat, ho, hrf, hc⟩ trivial
      (fun o _ => Or.inl id), Or.inl rfl⟩
  | @nat o op =>
    obtain ⟨h1, h2, h3, h4⟩ := hat
    have hno : ∀ u, ¬ writing o (s.th u) := by
      intro u hw
      have := writing_guarded hr hw
      rw [h4] at this; cases this
    have hmo : s.mem o = a.obj o := hr.mem o hno
    have hst : (spec K).sem (o, op, s.held t) a.obj
        (Function.update a.obj o (op.onCell (a.obj o)).1)
        ((op.onCell (a.obj o)).2, s.held t) := by
      refine ⟨rfl, ?_⟩
      rw [if_neg (by simp [h3])]
      exact ⟨rfl, rfl⟩
    refine ⟨_, commit _ _ o op (s.held t) _ _ h1 hst ?_ ?_ ?_ (fun _ => id) ?_ (fun _ _ => id) ?_
      trivial, Or.inr (.commit a t _ _ _ h1 hst)⟩
    · intro o' ho'; rw [Function.update_of_ne ho']
    · intro o' ho'; rw [Function.update_of_ne ho']
    · rw [Function.update_self, Function.update_self, hmo]
    · intro u hu p hp
      have hau := hr.at_ u
      rw [hp] at hau
      constructor
      · rintro op' buf rfl
        obtain ⟨k, _, _, _, _, h⟩ := hau
        rw [h4] at h; cases h
      · rintro op' new wrote r rfl
        obtain ⟨k, _, _, _, _, h⟩ := hau
        rw [h4] at h; cases h
    · rw [hmo]; rfl
  | @acqRd o op hf hns =>
    obtain ⟨h1, h2, h3, h4⟩ := hat
    refine ⟨a, same _ _ (fun u hu => Function.update_of_ne hu ..) ?_ ?_ ?_
      (fun o _ => Or.inl id), Or.inl rfl⟩
    · intro u v hu hv
      have key : ∀ w, Function.update s.held t (s.held t + 1) w ≠ 0 → w = t := by
        intro w hw
        by_contra hne
        rw [Function.update_of_ne hne] at hw
        exact hw (hf w hne)
      rw [key u hu, key v hv]
    · exact ⟨s.held t, Function.update_self .., h1, h2, h3, h4⟩
    · intro i x hx; cases hx
  | @acqWr o v ord hf =>
    obtain ⟨h1, h2, h3, h4⟩ := hat
    have hex : ∀ u v, Function.update s.held t (s.held t + 1) u ≠ 0 →
        Function.update s.held t (s.held t + 1) v ≠ 0 → u = v := by
      intro u v hu hv
      have key : ∀ w, Function.update s.held t (s.held t + 1) w ≠ 0 → w = t := by
        intro w hw
        by_contra hne
        rw [Function.update_of_ne hne] at hw
        exact hw (hf w hne)
      rw [key u hu, key v hv]
    have hno : ∀ u, ¬ writing o (s.th u) := by
      intro u hw
      have h5 := hr.inside_held (writing_inside hw)
      by_cases hu : u = t
      · subst hu; rw [h] at hw; exact hw
      · exact h5 (hf u hu)
    refine ⟨a, same _ _ (fun u hu => Function.update_of_ne hu ..) hex ?_ ?_
      (fun o _ => Or.inl id), Or.inl rfl⟩
    · exact ⟨s.held t, Function.update_self .., h1, h2, h3, h4⟩
    · refine ⟨fun i => ?_, ?_⟩
      · simp [hr.mem o hno]
      · simp only [Op.onCell, h2, if_true]
  | @rd o op buf i =>
    have hin : inside (s.th t) = true := by rw [h]; rfl
    have hno : ∀ u, ¬ writing o (s.th u) := by
      intro u hw
      obtain rfl := hr.guarded hin hw
      rw [h] at hw; exact hw
    refine ⟨a, same _ _ (fun _ _ => rfl) hr.excl hat ?_ (fun o _ => Or.inl id), Or.inl rfl⟩
    intro j x hx
    by_cases hj : j = i
    · subst hj
      rw [Function.update_self] at hx
      rw [← hr.mem o hno]
      exact Option.some.inj hx
    · rw [Function.update_of_ne hj] at hx; exact hma j x hx
  | @rdRel o op buf x r hx hra =>
    obtain ⟨k, h0, h1, h2, h3, h4⟩ := hat
    have hin : inside (s.th t) = true := by rw [h]; rfl
    have hno : ∀ u, ¬ writing o (s.th u) := by
      intro u hw
      obtain rfl := hr.guarded hin hw
      rw [h] at hw; exact hw
    have ex : x = a.obj o := funext fun i => (hma i _ (hx i)).symm
    have hc := after_none h2 hra
    have hst : (spec K).sem (o, op, k) a.obj a.obj (r, k) := by
      refine ⟨rfl, ?_⟩
      rw [if_neg (by simp [h3])]
      refine ⟨?_, ?_⟩
      · show a.obj = Function.update a.obj o (op.onCell (a.obj o)).1
        rw [← ex, hc, ex]; simp
      · show r = (op.onCell (a.obj o)).2
        rw [← ex, hc]
    refine ⟨_, commit s.mem (.rel r) o op k a.obj (r, k) h1 hst (fun _ _ => rfl) (fun _ _ => rfl)
      (hr.mem o hno) (fun _ => id) ?_ (fun _ _ => id) ⟨k, h0, rfl⟩ trivial,
      Or.inr (.commit a t _ _ _ h1 hst)⟩
    intro u hu p hp
    have hni : inside (s.th u) = false := by
      cases hi : inside (s.th u) with
      | false => rfl
      | true => exact absurd (hr.excl u t (hr.inside_held hi) (hr.inside_held hin)) hu
    rw [hp] at hni
    constructor
    · rintro op' buf rfl; cases hni
    · rintro op' new wrote r rfl; cases hni
  | @rdWr o op buf x v r hx hra =>
    obtain ⟨k, h0, h1, h2, h3, h4⟩ := hat
    have hin : inside (s.th t) = true := by rw [h]; rfl
    have hno : ∀ u, ¬ writing o (s.th u) := by
      intro u hw
      obtain rfl := hr.guarded hin hw
      rw [h] at hw; exact hw
    have ex : x = a.obj o := funext fun i => (hma i _ (hx i)).symm
    refine ⟨a, same _ _ (fun _ _ => rfl) hr.excl ⟨k, h0, h1, h2, h3, h4⟩ ⟨fun i => ?_, ?_⟩
      (fun o _ => Or.inl id), Or.inl rfl⟩
    · simp [hr.mem o hno]
    · rw [← ex]; exact after_some h2 hra
  | @wr o op new wrote r i =>
    obtain ⟨k, h0, h1, h2, h3, h4⟩ := hat
    have hin : inside (s.th t) = true := by rw [h]; rfl
    refine ⟨a, ⟨hr.excl, fun u => ?_, fun u => ?_, fun o' ho' => ?_⟩, Or.inl rfl⟩
    · by_cases hu : u = t
      · subst hu; simp only [Function.update_self]; exact ⟨k, h0, h1, h2, h3, h4⟩
      · simp only [Function.update_of_ne hu]; exact hr.at_ u
    · by_cases hu : u = t
      · subst hu
        simp only [Function.update_self]
        refine ⟨fun j => ?_, hma.2⟩
        rw [Function.update_self]
        by_cases hj : j = i
        · subst hj; simp
        · rw [Function.update_of_ne hj, Function.update_of_ne hj]; exact hma.1 j
      · simp only [Function.update_of_ne hu]
        refine memAt_other (o := o) (fun o' ho' => Function.update_of_ne ho' ..) (fun _ _ => rfl)
          (fun p hp => ?_) (hr.memAt u)
        have hni : inside (s.th u) = false := by
          cases hi : inside (s.th u) with
          | false => rfl
          | true => exact absurd (hr.excl u t (hr.inside_held hi) (hr.inside_held hin)) hu
        rw [hp] at hni
        constructor
        · rintro op' buf rfl; cases hni
        · rintro op' new wrote r rfl; cases hni
    · have hne : o' ≠ o := by
        rintro rfl
        have := ho' t
        simp only [Function.update_self] at this
        exact this rfl
      show Function.update s.mem o _ o' = a.obj o'
      rw [Function.update_of_ne hne]
      refine hr.mem o' (fun u => ?_)
      by_cases hu : u = t
      · subst hu; rw [h]; exact fun e => hne (Eq.symm e)
      · have := ho' u; simpa only [Function.update_of_ne hu] using this
  | @wrRel o op new wrote r hw =>
    obtain ⟨k, h0, h1, h2, h3, h4⟩ := hat
    have hin : inside (s.th t) = true := by rw [h]; rfl
    have hc := hma.2
    have hst : (spec K).sem (o, op, k) a.obj (Function.update a.obj o new) (r, k) := by
      refine ⟨rfl, ?_⟩
      rw [if_neg (by simp [h3])]
      refine ⟨?_, ?_⟩
      · show _ = Function.update a.obj o (op.onCell (a.obj o)).1
        rw [hc]
      · show r = (op.onCell (a.obj o)).2
        rw [hc]
    refine ⟨_, commit s.mem (.rel r) o op k _ (r, k) h1 hst (fun _ _ => rfl)
      (fun o' ho' => Function.update_of_ne ho' ..) ?_ (fun _ => id) ?_ ?_ ⟨k, h0, rfl⟩ trivial,
      Or.inr (.commit a t _ _ _ h1 hst)⟩
    · rw [Function.update_self]; funext i; rw [hma.1 i, if_pos (hw i)]
    · intro u hu p hp
      have hni : inside (s.th u) = false := by
        cases hi : inside (s.th u) with
        | false => rfl
        | true => exact absurd (hr.excl u t (hr.inside_held hi) (hr.inside_held hin)) hu
      rw [hp] at hni
      constructor
      · rintro op' buf rfl; cases hni
      · rintro op' new wrote r rfl; cases hni
    · intro o' ho' e; exact ho' (Eq.symm e)
  | @rel r =>
    obtain ⟨k, h0, h1⟩ := hat
    refine ⟨a, same _ _ (fun u hu => Function.update_of_ne hu ..) ?_ ?_ trivial
      (fun o _ => Or.inl id), Or.inl rfl⟩
    · have key : ∀ w, Function.update s.held t (s.held t - 1) w ≠ 0 → s.held w ≠ 0 := by
        intro w hw
        by_cases hne : w = t
        · subst hne; omega
        · rwa [Function.update_of_ne hne] at hw
      exact fun u v hu hv => hr.excl u v (key u hu) (key v hv)
    · show a.th t = _
      rw [Function.update_self, h1, h0]; rfl

theorem sim_step {K : Cfg n C} {s e s'} (hs : Step K s e s') {a} (hr : Rel K s a) :
    ∃ a', Rel K s' a' ∧ ((e = none ∧ (a' = a ∨ Object.Step (spec K) a none a')) ∨
      (∃ ev, e = some ev ∧ Object.Step (spec K) a (some ev) a')) := by
  cases hs with
  | enter t h hf =>
    have hi : a.th t = .idle := by have := hr.at_ t; rw [h] at this; exact this
    refine ⟨a, ⟨?_, fun u => ?_, hr.memAt, hr.mem⟩, Or.inl ⟨rfl, Or.inl rfl⟩⟩
    · have key : ∀ w, Function.update s.held t (s.held t + 1) w ≠ 0 → w = t := by
        intro w hw
        by_contra hne
        rw [Function.update_of_ne hne] at hw
        exact hw (hf w hne)
      intro u v hu hv
      rw [key u hu, key v hv]
    · by_cases hu : u = t
      · subst hu; simp only [h]; exact hi
      · exact held_other hr hu _
  | leave t h =>
    have hi : a.th t = .idle := by have := hr.at_ t; rw [h] at this; exact this
    refine ⟨a, ⟨?_, fun u => ?_, hr.memAt, hr.mem⟩, Or.inl ⟨rfl, Or.inl rfl⟩⟩
    · have key : ∀ w, Function.update s.held t (s.held t - 1) w ≠ 0 → s.held w ≠ 0 := by
        intro w hw
        by_cases hne : w = t
        · subst hne; rw [Function.update_self] at hw; omega
        · rwa [Function.update_of_ne hne] at hw
      exact fun u v hu hv => hr.excl u v (key u hu) (key v hv)
    · by_cases hu : u = t
      · subst hu; simp only [h]; exact hi
      · exact held_other hr hu _
  | inv t o op h =>
    have hi : a.th t = .idle := by have := hr.at_ t; rw [h] at this; exact this
    refine ⟨⟨a.obj, Function.update a.th t (.pending (o, op, s.held t))⟩,
      ⟨hr.excl, fun u => ?_, fun u => ?_, fun o' ho' => ?_⟩, Or.inr ⟨_, rfl, .inv a t _ hi⟩⟩
    · by_cases hu : u = t
      · subst hu; simp only [Function.update_self]; rfl
      · simp only [Function.update_of_ne hu]; exact hr.at_ u
    · by_cases hu : u = t
      · subst hu; simp only [Function.update_self]; trivial
      · simp only [Function.update_of_ne hu]; exact hr.memAt u
    · refine hr.mem o' (fun u => ?_)
      by_cases hu : u = t
      · subst hu; rw [h]; exact id
      · have := ho' u; simpa only [Function.update_of_ne hu] using this
  | act t pc m' held' pc' h ha =>
    obtain ⟨a', hr', hd⟩ := sim_act hr h ha
    exact ⟨a', hr', Or.inl ⟨rfl, hd⟩⟩
  | ret t r h =>
    have hi : a.th t = .done (r, s.held t) := by have := hr.at_ t; rw [h] at this; exact this
    refine ⟨⟨a.obj, Function.update a.th t .idle⟩,
      ⟨hr.excl, fun u => ?_, fun u => ?_, fun o' ho' => ?_⟩, Or.inr ⟨_, rfl, .ret a t _ hi⟩⟩
    · by_cases hu : u = t
      · subst hu; simp only [Function.update_self]; rfl
      · simp only [Function.update_of_ne hu]; exact hr.at_ u
    · by_cases hu : u = t
      · subst hu; simp only [Function.update_self]; trivial
      · simp only [Function.update_of_ne hu]; exact hr.memAt u
    · refine hr.mem o' (fun u => ?_)
      by_cases hu : u = t
      · subst hu; rw [h]; exact id
      · have := ho' u; simpa only [Function.update_of_ne hu] using this

theorem sim_exec {K : Cfg n C} (m : Mem n C) {h s} (hx : Exec (Step K) (init m) h s) :
    ∃ a, Exec (Object.Step (spec K)) { obj := m, th := fun _ => .idle } h a ∧ Rel K s a := by
  generalize hi : init m = i at hx
  induction hx with
  | refl =>
    subst hi
    exact ⟨_, .refl _, ⟨fun _ _ h => absurd rfl h, fun _ => rfl, fun _ => trivial, fun _ _ => rfl⟩⟩
  | tau _ st ih =>
    obtain ⟨a, ha, hr⟩ := ih
    obtain ⟨a', hr', hd⟩ := sim_step st hr
    rcases hd with ⟨_, h | h⟩ | ⟨ev, h, _⟩
    · subst h; exact ⟨_, ha, hr'⟩
    · exact ⟨a', .tau ha h, hr'⟩
    · simp at h
  | ev _ st ih =>
    obtain ⟨a, ha, hr⟩ := ih
    obtain ⟨a', hr', hd⟩ := sim_step st hr
    rcases hd with ⟨h, _⟩ | ⟨ev, h, hst⟩
    · simp at h
    · obtain rfl := Option.some.inj h
      exact ⟨a', .ev ha hst, hr'⟩

end Verif.Cs
