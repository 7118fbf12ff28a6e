import Verif.Cs.Weak
import Verif.WM.NativeFacts
import Verif.WM.Lemmas
/-!
# Critical sections in weak memory: the invariant (proof internals)
-/
set_option autoImplicit false
set_option linter.unusedSectionVars false
namespace Verif.WM.Crit
open Verif.Irq (Val)

variable {n : Nat} {C X : Type} [DecidableEq C]

/-- The last write in the list is the latest in modification order, and wrote `x`. -/
def Head {L Y : Type} (ms : List (Msg L Y)) (x : Y) : Prop :=
  ∃ m ms', ms = m :: ms' ∧ m.val = x ∧ ∀ m' ∈ ms', m'.ts < m.ts

/-- What the lock knows: what its holder knows, or what the last holder left. -/
inductive State.Lock (s : State n C X) : View (CL n) → Prop where
  | free (h : ∀ t, s.held t = 0) : s.Lock s.lv
  | held (t) (h : s.held t ≠ 0) : s.Lock (s.tv t).cur

/-- `v` knows all accesses to the objects. -/
structure Know (s : State n C X) (v : View (CL n)) : Prop where
  wr : ∀ o i, ∀ m ∈ s.mem o i, m.ts ≤ v (.word o i)
  rd : ∀ o i t, (s.nr o i t : Ts) ≤ v (.rd o i t)

/-- Is the context inside the critical section of its operation? -/
def inside : Pc n C → Bool
  | .rd .. | .wr .. | .rel .. => true
  | _ => false

structure Inv (s : State n C X) : Prop where
  excl : ∀ t u, s.held t ≠ 0 → s.held u ≠ 0 → t = u
  wf : ∀ t, (s.tv t).Wf
  know : ∀ v, s.Lock v → Know s v
  ins : ∀ t, inside (s.pc t) = true → s.held t ≠ 0
  head : ∀ o i, ∃ x, Head (s.mem o i) x

theorem lock_exists (s : State n C X) : ∃ v, s.Lock v := by
  by_cases h : ∀ t, s.held t = 0
  · exact ⟨_, .free h⟩
  · simp only [not_forall] at h
    obtain ⟨t, h⟩ := h
    exact ⟨_, .held t h⟩

theorem Know.mono {s s' : State n C X} {v v' : View (CL n)} (k : Know s v) (h : v ≤ v')
    (hm : s'.mem = s.mem) (hn : s'.nr = s.nr) : Know s' v' :=
  ⟨fun o i m hm' => (k.wr o i m (by rw [← hm]; exact hm')).trans (h _),
   fun o i t => by rw [hn]; exact (k.rd o i t).trans (h _)⟩

theorem client_wf {L : Type} [DecidableEq L] {loc : Nat → L} {S S' : View L} {mx mx' : Nat → List (Msg L X)}
    {v v' : TV L} {a : CAct X} {r : Option X} (w : v.Wf) (h : Client loc S mx v a r mx' v' S') :
    v'.Wf ∧ v.cur ≤ v'.cur ∧ S ≤ S' ∧ ∀ b, mx b ⊆ mx' b := by
  cases h with
  | load a o x v' h => exact ⟨(Native.load_wf w h).1, (Native.load_wf w h).2, le_rfl, fun _ => List.Subset.refl _⟩
  | store a o x ms v' h =>
    obtain ⟨h1, h2, h3⟩ := Native.store_wf w h
    refine ⟨h1, h2, le_rfl, fun b => ?_⟩
    by_cases e : b = a
    · subst e; rw [Function.update_self]; exact h3
    · rw [Function.update_of_ne e]; exact List.Subset.refl _
  | rmw a g o x ms v' h =>
    obtain ⟨h1, h2, h3⟩ := Native.rmw_wf w h
    refine ⟨h1, h2, le_rfl, fun b => ?_⟩
    by_cases e : b = a
    · subst e; rw [Function.update_self]; exact h3
    · rw [Function.update_of_ne e]; exact List.Subset.refl _
  | fence o =>
    obtain ⟨h1, h2, h3⟩ := Native.fence_wf w S o
    exact ⟨h1, h2, h3, fun _ => List.Subset.refl _⟩

theorem take_wf {v : TV (CL n)} (w : v.Wf) (S : View (CL n)) : (take v S).Wf ∧ v.cur ≤ (take v S).cur :=
  ⟨⟨w.rel.trans le_sup_left, sup_le_sup_right w.cur _⟩, le_sup_left⟩

theorem mark_wf {v : TV (CL n)} (w : v.Wf) (o : Obj) (i : Fin n) (t : Tid) (k : Nat) :
    (mark v o i t k).Wf ∧ v.cur ≤ (mark v o i t k).cur :=
  ⟨⟨w.rel.trans le_sup_left, sup_le_sup_right w.cur _⟩, le_sup_left⟩

/-- What changes along a step, in terms of views. -/
structure Grow (s s' : State n C X) : Prop where
  cur : ∀ t, (s.tv t).cur ≤ (s'.tv t).cur
  mx : ∀ a, s.mx a ⊆ s'.mx a
  lock : ∀ v', s'.Lock v' → ∃ v, s.Lock v ∧ v ≤ v'

theorem Grow.rfl {s : State n C X} : Grow s s :=
  ⟨fun _ => le_rfl, fun _ => List.Subset.refl _, fun v h => ⟨v, h, le_rfl⟩⟩

theorem Grow.trans {a b c : State n C X} (x : Grow a b) (y : Grow b c) : Grow a c :=
  ⟨fun t => (x.cur t).trans (y.cur t), fun u => List.Subset.trans (x.mx u) (y.mx u), fun v h => by
    obtain ⟨v1, h1, l1⟩ := y.lock v h
    obtain ⟨v2, h2, l2⟩ := x.lock v1 h1
    exact ⟨v2, h2, l2.trans l1⟩⟩

/-- Only views of threads changed. -/
theorem grow_tv {s s' : State n C X} (hh : s'.held = s.held) (hl : s'.lv = s.lv)
    (hc : ∀ t, (s.tv t).cur ≤ (s'.tv t).cur) (hm : ∀ a, s.mx a ⊆ s'.mx a) : Grow s s' := by
  refine ⟨hc, hm, fun v' h => ?_⟩
  cases h with
  | free h => exact ⟨_, .free (fun t => by rw [← hh]; exact h t), by rw [hl]⟩
  | held t h => exact ⟨_, .held t (by rw [← hh]; exact h), hc t⟩

theorem cur_update {s : State n C X} {t : Tid} {v : TV (CL n)} (h : (s.tv t).cur ≤ v.cur) (u : Tid) :
    (s.tv u).cur ≤ (Function.update s.tv t v u).cur := by
  by_cases e : u = t
  · subst e; rw [Function.update_self]; exact h
  · rw [Function.update_of_ne e]

theorem wf_update {s : State n C X} {t : Tid} {v : TV (CL n)} (w : ∀ u, (s.tv u).Wf) (h : v.Wf) (u : Tid) :
    (Function.update s.tv t v u).Wf := by
  by_cases e : u = t
  · subst e; rw [Function.update_self]; exact h
  · rw [Function.update_of_ne e]; exact w u

theorem enter_tv (s : State n C X) (t u : Tid) (w : (s.tv u).Wf) :
    ((s.enter t).tv u).Wf ∧ (s.tv u).cur ≤ ((s.enter t).tv u).cur := by
  unfold State.enter
  by_cases h : s.held t = 0
  · simp only [h, if_true]
    by_cases e : u = t
    · subst e; rw [Function.update_self]; exact take_wf w _
    · rw [Function.update_of_ne e]; exact ⟨w, le_rfl⟩
  · simp only [if_neg h]; exact ⟨w, le_rfl⟩

theorem enter_held {s : State n C X} {t u : Tid} (hf : s.free t) (h : (s.enter t).held u ≠ 0) : u = t := by
  by_contra e
  apply h
  show Function.update s.held t (s.held t + 1) u = 0
  rw [Function.update_of_ne e]; exact hf u e

/-- After entering, the context knows what the lock knew. -/
theorem enter_lock {s : State n C X} {t : Tid} (hf : s.free t) :
    ∃ v, s.Lock v ∧ v ≤ ((s.enter t).tv t).cur := by
  by_cases h : s.held t = 0
  · refine ⟨_, .free (fun u => ?_), ?_⟩
    · by_cases e : u = t
      · subst e; exact h
      · exact hf u e
    · simp only [State.enter, h, if_true, Function.update_self]
      exact le_sup_right
  · refine ⟨_, .held t h, ?_⟩
    simp only [State.enter, if_neg h]; exact le_rfl

theorem grow_enter {s : State n C X} {t : Tid} (w : ∀ u, (s.tv u).Wf) (hf : s.free t) :
    Grow s (s.enter t) := by
  refine ⟨fun u => (enter_tv s t u (w u)).2, fun _ => List.Subset.refl _, fun v' h => ?_⟩
  cases h with
  | free h =>
    have := h t
    simp [State.enter] at this
  | held u h =>
    obtain rfl := enter_held hf h
    exact enter_lock hf

theorem grow_leave {s : State n C X} {t : Tid} (ex : ∀ t u, s.held t ≠ 0 → s.held u ≠ 0 → t = u)
    (hh : s.held t ≠ 0) : Grow s (s.leave t) := by
  refine ⟨fun _ => le_rfl, fun _ => List.Subset.refl _, fun v' h => ?_⟩
  refine ⟨_, .held t hh, ?_⟩
  cases h with
  | free h =>
    have := h t
    simp only [State.leave, Function.update_self] at this
    have e : s.held t = 1 := by omega
    simp only [State.leave, e, if_true]
    exact le_rfl
  | held u h =>
    have : u = t := by
      by_contra e
      apply e
      refine ex u t ?_ hh
      intro h0
      apply h
      show Function.update s.held t (s.held t - 1) u = 0
      rw [Function.update_of_ne e]; exact h0
    subst this
    exact le_rfl

theorem Lock.goto {s : State n C X} {t : Tid} {p : Pc n C} {v : View (CL n)} :
    (s.goto t p).Lock v ↔ s.Lock v := by
  constructor
  · intro h
    cases h with
    | free h => exact .free h
    | held u h => exact .held u h
  · intro h
    cases h with
    | free h => exact State.Lock.free (s := s.goto t p) h
    | held u h => exact State.Lock.held (s := s.goto t p) u h

theorem grow_goto {s : State n C X} (t : Tid) (p : Pc n C) : Grow s (s.goto t p) :=
  ⟨fun _ => le_rfl, fun _ => List.Subset.refl _, fun v h => ⟨v, Lock.goto.1 h, le_rfl⟩⟩

/-- Moving to another program point. -/
theorem Inv.goto {s : State n C X} (I : Inv s) (t : Tid) (p : Pc n C) (hp : inside p = true → s.held t ≠ 0) :
    Inv (s.goto t p) := by
  refine ⟨I.excl, I.wf, fun v h => ?_, fun u hu => ?_, I.head⟩
  · have := I.know v (Lock.goto.1 h)
    exact ⟨this.wr, this.rd⟩
  · by_cases e : u = t
    · subst e
      simp only [State.goto, Function.update_self] at hu
      exact hp hu
    · simp only [State.goto, Function.update_of_ne e] at hu
      exact I.ins u hu

theorem Inv.enter {s : State n C X} (I : Inv s) {t : Tid} (hf : s.free t) : Inv (s.enter t) := by
  refine ⟨fun a b ha hb => ?_, fun u => (enter_tv s t u (I.wf u)).1, fun v h => ?_, fun u hu => ?_, I.head⟩
  · rw [enter_held hf ha, enter_held hf hb]
  · obtain ⟨v0, h0, hl⟩ := (grow_enter I.wf hf).lock v h
    exact (I.know v0 h0).mono hl rfl rfl
  · have h1 := I.ins u hu
    by_cases e : u = t
    · subst e; simp [State.enter]
    · exact absurd (hf u e) h1

theorem Inv.leave {s : State n C X} (I : Inv s) {t : Tid} (hh : s.held t ≠ 0) (ho : inside (s.pc t) = false) :
    Inv (s.leave t) := by
  have key : ∀ u, (s.leave t).held u ≠ 0 → s.held u ≠ 0 := by
    intro u hu
    by_cases e : u = t
    · subst e; exact hh
    · simp only [State.leave, Function.update_of_ne e] at hu; exact hu
  refine ⟨fun a b ha hb => I.excl a b (key a ha) (key b hb), I.wf, fun v h => ?_, fun u hu => ?_, I.head⟩
  · obtain ⟨v0, h0, hl⟩ := (grow_leave I.excl hh).lock v h
    exact (I.know v0 h0).mono hl rfl rfl
  · by_cases e : u = t
    · subst e
      have hu' : inside (s.pc u) = true := hu
      rw [ho] at hu'; cases hu'
    · have h1 := I.ins u hu
      exact absurd (I.excl u t h1 hh) e

/-- The only write a plain read can see is the last one. -/
theorem load_head {s : State n C X} (I : Inv s) {t : Tid} (hh : s.held t ≠ 0) {o : Obj} {i : Fin n}
    {ord : MemOrd} {x y : C} {v : TV (CL n)} (hd : Head (s.mem o i) y)
    (hl : Load (s.mem o i) (s.tv t) (.word o i) ord x v) : x = y := by
  obtain ⟨m, ms, e, hx, hlt⟩ := hd
  cases hl with
  | mk m' hm' hv =>
    have hk := (I.know _ (.held t hh)).wr o i m (by rw [e]; exact List.mem_cons_self)
    rw [e] at hm'
    rcases List.mem_cons.1 hm' with rfl | hm'
    · exact hx
    · exact absurd (hk.trans hv) (not_le.2 (hlt m' hm'))

/-- A plain write becomes the last one. -/
theorem store_head {s : State n C X} (I : Inv s) {t : Tid} (hh : s.held t ≠ 0) {o : Obj} {i : Fin n}
    {ord : MemOrd} {x : C} {ms : List (Msg (CL n) C)} {v : TV (CL n)}
    (hs : Store (s.mem o i) (s.tv t) (.word o i) ord x ms v) : Head ms x := by
  cases hs with
  | mk f t' hv hf =>
    exact ⟨_, _, rfl, rfl, fun m' hm' =>
      lt_of_le_of_lt ((I.know _ (.held t hh)).wr o i m' hm') hv⟩

theorem step_inv {s s' : State n C X} {e : Option (Ev (Val n C) X)} (I : Inv s) (st : Step s e s') :
    Inv s' ∧ Grow s s' := by
  cases st with
  | inv t o op h => exact ⟨I.goto t _ (fun h => by cases h), grow_goto t _⟩
  | panic t o op h ho => exact ⟨I.goto t _ (fun h => by cases h), grow_goto t _⟩
  | check t o op h ho => exact ⟨I.goto t _ (fun h => by cases h), grow_goto t _⟩
  | acq t o op h hf =>
    exact ⟨(I.enter hf).goto t _ (fun _ => by simp [State.enter]), (grow_enter I.wf hf).trans (grow_goto t _)⟩
  | rd t o op buf i x v h hl =>
    have hh := I.ins t (by rw [h]; rfl)
    have w1 := Native.load_wf (I.wf t) hl
    have w2 := mark_wf w1.1 o i t (s.nr o i t + 1)
    have g : Grow s { s with
        tv := Function.update s.tv t (mark v o i t (s.nr o i t + 1))
        nr := Function.update s.nr o (Function.update (s.nr o) i
          (Function.update (s.nr o i) t (s.nr o i t + 1))) } :=
      grow_tv rfl rfl (cur_update (w1.2.trans w2.2)) (fun _ => List.Subset.refl _)
    suffices I1 : Inv { s with
        tv := Function.update s.tv t (mark v o i t (s.nr o i t + 1))
        nr := Function.update s.nr o (Function.update (s.nr o) i
          (Function.update (s.nr o i) t (s.nr o i t + 1))) } from ⟨I1.goto t _ (fun _ => hh), g.trans (grow_goto t _)⟩
    refine ⟨I.excl, wf_update I.wf w2.1, fun v' hv' => ?_, I.ins, I.head⟩
    have hv2 : v' = (mark v o i t (s.nr o i t + 1)).cur := by
      cases hv' with
      | free h => exact absurd (h t) hh
      | held u hu =>
        obtain rfl := I.excl u t hu hh
        simp only [Function.update_self]
    obtain ⟨v0, h0, hle⟩ := g.lock v' hv'
    have k := I.know v0 h0
    refine ⟨fun o' i' m hm => (k.wr o' i' m hm).trans (hle _), fun o' i' t' => ?_⟩
    by_cases eo : o' = o
    · subst eo
      by_cases ei : i' = i
      · subst ei
        by_cases et : t' = t
        · subst et
          simp only [Function.update_self]
          rw [hv2]
          simp [mark]
        · simp only [Function.update_self, Function.update_of_ne et]
          exact (k.rd o' i' t').trans (hle _)
      · simp only [Function.update_self, Function.update_of_ne ei]
        exact (k.rd o' i' t').trans (hle _)
    · simp only [Function.update_of_ne eo]
      exact (k.rd o' i' t').trans (hle _)
  | rdRel t o op buf x r h hx hr => exact ⟨I.goto t _ (fun _ => I.ins t (by rw [h]; rfl)), grow_goto t _⟩
  | rdWr t o op buf x v r h hx hr => exact ⟨I.goto t _ (fun _ => I.ins t (by rw [h]; rfl)), grow_goto t _⟩
  | wr t o op new wrote r i ms v h hs =>
    have hh := I.ins t (by rw [h]; rfl)
    have hd := store_head I hh hs
    have w1 := Native.store_wf (I.wf t) hs
    have g : Grow s { s with
        mem := Function.update s.mem o (Function.update (s.mem o) i ms)
        tv := Function.update s.tv t v } :=
      grow_tv rfl rfl (cur_update w1.2.1) (fun _ => List.Subset.refl _)
    suffices I1 : Inv { s with
        mem := Function.update s.mem o (Function.update (s.mem o) i ms)
        tv := Function.update s.tv t v } from ⟨I1.goto t _ (fun _ => hh), g.trans (grow_goto t _)⟩
    refine ⟨I.excl, wf_update I.wf w1.1, fun v' hv' => ?_, I.ins, fun o' i' => ?_⟩
    · have hv2 : v' = v.cur := by
        cases hv' with
        | free h => exact absurd (h t) hh
        | held u hu =>
          obtain rfl := I.excl u t hu hh
          simp only [Function.update_self]
      obtain ⟨v0, h0, hle⟩ := g.lock v' hv'
      have k := I.know v0 h0
      refine ⟨fun o' i' m hm => ?_, fun o' i' t' => (k.rd o' i' t').trans (hle _)⟩
      by_cases eo : o' = o
      · subst eo
        by_cases ei : i' = i
        · subst ei
          simp only [Function.update_self] at hm
          cases hs with
          | mk f t' hv hf =>
            rcases List.mem_cons.1 hm with rfl | hm
            · rw [hv2]; exact write_cur_self _ _ _
            · exact (k.wr o' i' m hm).trans (hle _)
        · simp only [Function.update_self, Function.update_of_ne ei] at hm
          exact (k.wr o' i' m hm).trans (hle _)
      · simp only [Function.update_of_ne eo] at hm
        exact (k.wr o' i' m hm).trans (hle _)
    · by_cases eo : o' = o
      · subst eo
        by_cases ei : i' = i
        · subst ei
          simp only [Function.update_self]; exact ⟨_, hd⟩
        · simp only [Function.update_self, Function.update_of_ne ei]; exact I.head o' i'
      · simp only [Function.update_of_ne eo]; exact I.head o' i'
  | wrRel t o op new wrote r h hw => exact ⟨I.goto t _ (fun _ => I.ins t (by rw [h]; rfl)), grow_goto t _⟩
  | rel t o op r h =>
    have hh := I.ins t (by rw [h]; rfl)
    have I1 : Inv (s.goto t (.fin r)) := I.goto t _ (fun h => by cases h)
    refine ⟨?_, (grow_leave I.excl hh).trans (grow_goto t _)⟩
    exact Inv.leave I1 (t := t) hh (by simp [State.goto, inside])
  | ret t r h => exact ⟨I.goto t _ (fun h => by cases h), grow_goto t _⟩
  | enter t h hf => exact ⟨I.enter hf, grow_enter I.wf hf⟩
  | leave t h hh => exact ⟨I.leave hh (by rw [h]; rfl), grow_leave I.excl hh⟩
  | client t a r mx v sc h hc =>
    have w := client_wf (I.wf t) hc
    have g : Grow s { s with mx := mx, tv := Function.update s.tv t v, sc := sc } :=
      grow_tv rfl rfl (cur_update w.2.1) w.2.2.2
    refine ⟨⟨I.excl, wf_update I.wf w.1, fun v' hv' => ?_, I.ins, I.head⟩, g⟩
    obtain ⟨v0, h0, hle⟩ := g.lock v' hv'
    exact (I.know v0 h0).mono hle rfl rfl

theorem init_inv (v0 : Obj → Val n C) (x0 : Nat → X) : Inv (init v0 x0) := by
  refine ⟨fun _ _ h => absurd rfl h, fun _ => ⟨le_rfl, le_rfl⟩, fun v h => ?_, ?_,
    fun o i => ⟨v0 o i, _, [], rfl, rfl, fun _ h => by simp at h⟩⟩
  swap
  · intro t h; simp [init, inside] at h
  refine ⟨fun o i m hm => ?_, fun o i t => by simp [init]⟩
  simp only [init, initMsgs, List.mem_singleton] at hm
  subst hm
  exact zero_le

theorem exec_inv {v0 : Obj → Val n C} {x0 : Nat → X} {h : List (Ev (Val n C) X)} {s : State n C X}
    (hx : Exec Step (init v0 x0) h s) : Inv s :=
  hx.inv_of (P := Inv) (fun _ _ _ I st => (step_inv I st).1) (init_inv v0 x0)

end Verif.WM.Crit
