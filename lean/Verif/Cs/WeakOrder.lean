import Verif.Cs.WeakSim
import Verif.Spec.Sync
/-!
# Critical sections in weak memory: who knows what (proof internals)
-/
set_option autoImplicit false
set_option linter.unusedSectionVars false
namespace Verif.WM.Crit
open Verif.Irq (Val)

section trace
variable {S E : Type}

/-- The states and labels of an execution. -/
structure Trace (step : S → Option E → S → Prop) (s : S) (h : List E) where
  N : Nat
  st : Nat → S
  lab : Nat → Option E
  zero : st 0 = s
  next : ∀ i, i < N → step (st i) (lab i) (st (i + 1))
  hist : h = (List.range N).filterMap lab

variable {step : S → Option E → S → Prop} {s : S} {h : List E}

theorem trace_of {s' : S} (x : Exec step s h s') : ∃ T : Trace step s h, T.st T.N = s' := by
  have ext : ∀ {h : List E} {s' s'' : S} {e : Option E} (T : Trace step s h), T.st T.N = s' → step s' e s'' →
      ∃ (st' : Nat → S) (lab' : Nat → Option E), st' 0 = s ∧ st' (T.N + 1) = s'' ∧
        (∀ i, i < T.N + 1 → step (st' i) (lab' i) (st' (i + 1))) ∧
        (List.range (T.N + 1)).filterMap lab' = h ++ e.toList := by
    intro h s' s'' e T hT hst
    refine ⟨fun i => if i ≤ T.N then T.st i else s'', fun i => if i < T.N then T.lab i else e, ?_, ?_, ?_, ?_⟩
    · simp [T.zero]
    · simp
    · intro i hi
      by_cases hlt : i < T.N
      · simp only [hlt, if_true, if_pos (Nat.le_of_lt hlt), if_pos (Nat.succ_le_of_lt hlt)]
        exact T.next i hlt
      · have : i = T.N := by omega
        subst this
        simp only [Nat.lt_irrefl, if_false, Nat.le_refl, if_true, if_neg (Nat.not_succ_le_self _)]
        rw [hT]; exact hst
    · rw [List.range_succ, List.filterMap_append]
      have h1 : List.filterMap (fun i => if i < T.N then T.lab i else e) (List.range T.N) = h := by
        refine Eq.trans ?_ T.hist.symm
        refine List.filterMap_congr fun i hi => ?_
        rw [if_pos (List.mem_range.1 hi)]
      rw [h1]
      congr 1
      cases e <;> simp
  induction x with
  | refl => exact ⟨⟨0, fun _ => s, fun _ => none, rfl, fun i hi => absurd hi (Nat.not_lt_zero _), by simp⟩, rfl⟩
  | tau _ st ih =>
    obtain ⟨T, hT⟩ := ih
    obtain ⟨st', lab', h0, hN, hn, hh⟩ := ext T hT st
    exact ⟨⟨T.N + 1, st', lab', h0, hn, by simpa using hh.symm⟩, hN⟩
  | ev _ st ih =>
    obtain ⟨T, hT⟩ := ih
    obtain ⟨st', lab', h0, hN, hn, hh⟩ := ext T hT st
    exact ⟨⟨T.N + 1, st', lab', h0, hn, by simpa using hh.symm⟩, hN⟩

/-- Number of events before step `p`. -/
def Trace.cnt (T : Trace step s h) (p : Nat) : Nat := ((List.range p).filterMap T.lab).length

theorem Trace.cnt_mono (T : Trace step s h) {p q : Nat} (hpq : p ≤ q) : T.cnt p ≤ T.cnt q := by
  induction hpq with
  | refl => exact Nat.le_refl _
  | step _ ih =>
    refine ih.trans ?_
    simp only [Trace.cnt, List.range_succ, List.filterMap_append, List.length_append]
    omega

theorem Trace.cnt_lt (T : Trace step s h) {p q : Nat} {e : E} (he : T.lab p = some e) (hpq : p < q) :
    T.cnt p < T.cnt q := by
  refine Nat.lt_of_lt_of_le ?_ (T.cnt_mono (Nat.succ_le_of_lt hpq))
  simp [Trace.cnt, List.range_succ, List.filterMap_append, he]

/-- The step of an event. -/
theorem Trace.pos (T : Trace step s h) {i : Nat} {e : E} (he : h[i]? = some e) :
    ∃ p, p < T.N ∧ T.lab p = some e ∧ T.cnt p = i := by
  have key : ∀ N, ((List.range N).filterMap T.lab)[i]? = some e → ∃ p, p < N ∧ T.lab p = some e ∧ T.cnt p = i := by
    intro N
    induction N with
    | zero => intro h; simp at h
    | succ N ih =>
      intro h
      rw [List.range_succ, List.filterMap_append, List.getElem?_append] at h
      split at h
      · obtain ⟨p, h1, h2, h3⟩ := ih h
        exact ⟨p, Nat.lt_succ_of_lt h1, h2, h3⟩
      · rename_i hge
        cases hl : T.lab N with
        | none => simp [hl] at h
        | some e' =>
          rw [List.filterMap_cons_some hl] at h
          have hi : i - (List.filterMap T.lab (List.range N)).length = 0 := by
            by_contra hne
            rw [List.getElem?_eq_none (by simp; omega)] at h
            cases h
          rw [hi] at h
          simp only [List.getElem?_cons_zero, Option.some.injEq] at h
          subst h
          refine ⟨N, Nat.lt_succ_self _, hl, ?_⟩
          simp only [Trace.cnt]; omega
  refine key T.N ?_
  rw [← T.hist]; exact he

/-- The event of a step. -/
theorem Trace.event (T : Trace step s h) {p : Nat} {e : E} (hp : p < T.N) (he : T.lab p = some e) :
    h[T.cnt p]? = some e := by
  have key : ∀ N, p < N → ((List.range N).filterMap T.lab)[T.cnt p]? = some e := by
    intro N
    induction N with
    | zero => intro h; omega
    | succ N ih =>
      intro h
      rw [List.range_succ, List.filterMap_append]
      by_cases hpN : p < N
      · have h1 := T.cnt_lt he hpN
        rw [List.getElem?_append_left h1]
        exact ih hpN
      · have : p = N := by omega
        subst this
        rw [List.getElem?_append_right (show (List.filterMap T.lab (List.range p)).length ≤ T.cnt p from Nat.le_refl _), List.filterMap_cons_some he]
        simp [Trace.cnt]
  have := key T.N hp
  rwa [← T.hist] at this

theorem Trace.lt_of (T : Trace step s h) {p q : Nat} (hlt : T.cnt p < T.cnt q) : p < q := by
  rcases Nat.lt_or_ge p q with h | h
  · exact h
  · have := T.cnt_mono h; omega

end trace

variable {n : Nat} {C X : Type} [DecidableEq C] {v0 : Obj → Val n C} {x0 : Nat → X} {h : List (Ev (Val n C) X)}

theorem trace_inv (T : Trace Step (init v0 x0) h) {p : Nat} (hp : p ≤ T.N) : Inv (T.st p) := by
  induction p with
  | zero => rw [T.zero]; exact init_inv v0 x0
  | succ p ih => exact (step_inv (ih (by omega)) (T.next p hp)).1

theorem trace_grow (T : Trace Step (init v0 x0) h) {p q : Nat} (hpq : p ≤ q) (hq : q ≤ T.N) :
    Grow (T.st p) (T.st q) := by
  induction q with
  | zero =>
    have : p = 0 := by omega
    subst this; exact Grow.rfl
  | succ q ih =>
    rcases Nat.lt_or_ge q p with hlt | hge
    · have : p = q + 1 := by omega
      subst this; exact Grow.rfl
    · exact (ih hge (by omega)).trans (step_inv (trace_inv T (by omega)) (T.next q hq)).2

/-- What the lock knows at a state in which `t` holds it. -/
theorem lock_holder {s : State n C X} (I : Inv s) {t : Tid} (ht : s.held t ≠ 0) {v : View (CL n)} (hv : s.Lock v) :
    v = (s.tv t).cur := by
  cases hv with
  | free h => exact absurd (h t) ht
  | held u hu => obtain rfl := I.excl u t hu ht; rfl

/-- A call in progress, `p` its step: not yet in the critical section; or in it, or past it, and then
there is a step `m` after which the context held the lock; or refused. -/
def Phase (T : Trace Step (init v0 x0) h) (t : Tid) (p q : Nat) : Prop :=
  (∃ o op, (T.st q).pc t = .start o op) ∨ (∃ o op, (T.st q).pc t = .acq o op) ∨ (T.st q).pc t = .fin .panic ∨
  ((inside ((T.st q).pc t) = true ∨ ∃ r, (T.st q).pc t = .fin r) ∧
    ∃ m, p ≤ m ∧ m ≤ q ∧ (T.st m).held t ≠ 0)

theorem inside_entered (o : Obj) (op : Op (Val n C)) : inside (entered o op) = true := by
  cases op <;> rfl

theorem Phase.next {T : Trace Step (init v0 x0) h} {t : Tid} {p q : Nat} (P : Phase T t p q) (hpq : p ≤ q)
    (hq : q < T.N) (hr : ∀ r, T.lab q ≠ some (.ret t r)) : Phase T t p (q + 1) := by
  have st := T.next q hq
  have I := trace_inv T (p := q) (by omega)
  -- a step of another context
  have other : (T.st (q + 1)).pc t = (T.st q).pc t → Phase T t p (q + 1) := by
    intro e
    unfold Phase
    rw [e]
    rcases P with h | h | h | ⟨h, m, h1, h2, h3⟩
    · exact .inl h
    · exact .inr (.inl h)
    · exact .inr (.inr (.inl h))
    · exact .inr (.inr (.inr ⟨h, m, h1, by omega, h3⟩))
  -- inside or done: stays so
  have old : ∀ p' : Pc n C, (T.st (q + 1)).pc t = p' →
      ((inside ((T.st q).pc t) = true ∨ ∃ r, (T.st q).pc t = .fin r) ∧ ∃ m, p ≤ m ∧ m ≤ q ∧ (T.st m).held t ≠ 0) →
      (inside p' = true ∨ ∃ r, p' = .fin r) → Phase T t p (q + 1) := by
    rintro p' e ⟨_, m, h1, h2, h3⟩ h
    exact .inr (.inr (.inr ⟨by rw [e]; exact h, m, h1, by omega, h3⟩))
  have get : inside ((T.st q).pc t) = true → Phase T t p q →
      ((inside ((T.st q).pc t) = true ∨ ∃ r, (T.st q).pc t = .fin r) ∧ ∃ m, p ≤ m ∧ m ≤ q ∧ (T.st m).held t ≠ 0) := by
    intro hi P
    rcases P with ⟨_, _, h⟩ | ⟨_, _, h⟩ | h | h
    · rw [h] at hi; cases hi
    · rw [h] at hi; cases hi
    · rw [h] at hi; cases hi
    · exact h
  have notidle : (T.st q).pc t ≠ .idle := by
    intro hi
    rcases P with ⟨_, _, h⟩ | ⟨_, _, h⟩ | h | ⟨h | ⟨_, h⟩, _⟩ <;> rw [hi] at h <;> cases h
  generalize hs : T.st q = s at st
  generalize hs' : T.st (q + 1) = s' at st
  generalize hl : T.lab q = l at st
  rw [hs] at I get notidle
  have hother : s'.pc t = s.pc t → Phase T t p (q + 1) := fun e => other (by rw [hs', hs]; exact e)
  have hin : ∀ p' : Pc n C, s'.pc t = p' → inside (s.pc t) = true → (inside p' = true ∨ ∃ r, p' = .fin r) →
      Phase T t p (q + 1) := fun p' e hi ho => old p' (by rw [hs']; exact e) (by rw [hs]; exact get hi P) ho
  have go : ∀ (s1 : State n C X) (u : Tid) (p' : Pc n C), s1.pc = s.pc → u ≠ t → (s1.goto u p').pc t = s.pc t := by
    intro s1 u p' e hu
    simp only [State.goto]
    rw [Function.update_of_ne (Ne.symm hu), e]
  cases st with
  | inv u o op hp =>
    by_cases e : u = t
    · subst e; exact absurd hp notidle
    · exact hother (go s u _ rfl e)
  | panic u o op hp ho =>
    by_cases e : u = t
    · subst e; exact .inr (.inr (.inl (by rw [hs']; simp [State.goto])))
    · exact hother (go s u _ rfl e)
  | check u o op hp ho =>
    by_cases e : u = t
    · subst e; exact .inr (.inl ⟨o, op, by rw [hs']; simp [State.goto]⟩)
    · exact hother (go s u _ rfl e)
  | acq u o op hp hf =>
    by_cases e : u = t
    · subst e
      refine .inr (.inr (.inr ⟨.inl ?_, q + 1, by omega, Nat.le_refl _, ?_⟩))
      · rw [hs']; simp [State.goto, inside_entered]
      · rw [hs']; simp [State.goto, State.enter]
    · exact hother (go _ u _ rfl e)
  | rd u o op buf i x v hp hl =>
    by_cases e : u = t
    · subst e; exact hin _ (Function.update_self ..) (by rw [hp]; rfl) (.inl rfl)
    · exact hother (go _ u _ rfl e)
  | rdRel u o op buf x r hp hx hr =>
    by_cases e : u = t
    · subst e; exact hin _ (Function.update_self ..) (by rw [hp]; rfl) (.inl rfl)
    · exact hother (go _ u _ rfl e)
  | rdWr u o op buf x v r hp hx hr =>
    by_cases e : u = t
    · subst e; exact hin _ (Function.update_self ..) (by rw [hp]; rfl) (.inl rfl)
    · exact hother (go _ u _ rfl e)
  | wr u o op new wrote r i ms v hp hs =>
    by_cases e : u = t
    · subst e; exact hin _ (Function.update_self ..) (by rw [hp]; rfl) (.inl rfl)
    · exact hother (go _ u _ rfl e)
  | wrRel u o op new wrote r hp hw =>
    by_cases e : u = t
    · subst e; exact hin _ (Function.update_self ..) (by rw [hp]; rfl) (.inl rfl)
    · exact hother (go _ u _ rfl e)
  | rel u o op r hp =>
    by_cases e : u = t
    · subst e; exact hin _ (Function.update_self ..) (by rw [hp]; rfl) (.inr ⟨r, rfl⟩)
    · exact hother (go _ u _ rfl e)
  | ret u r hp =>
    by_cases e : u = t
    · subst e; exact absurd hl (hr r)
    · exact hother (go s u _ rfl e)
  | enter u hp hf => exact hother rfl
  | leave u hp hh => exact hother rfl
  | client u a r mx v sc hp hc => exact hother rfl

/-- During a completed operation there is a moment at which the context holds the critical section. -/
theorem called_holds (T : Trace Step (init v0 x0) h) {i k : Nat} {t : Tid} {o : Obj} {op : Op (Val n C)} {r : Res (Val n C)}
    (c : Called h i k t o op r) (hn : r ≠ .panic) :
    ∃ p m q, p < T.N ∧ q < T.N ∧ T.cnt p = i ∧ T.cnt q = k ∧ T.lab p = some (.inv t o op) ∧ T.lab q = some (.ret t r) ∧
      p < m ∧ m ≤ q ∧ (T.st m).held t ≠ 0 := by
  obtain ⟨hik, hi, hk, hno⟩ := c
  obtain ⟨p, hp, lp, cp⟩ := T.pos hi
  obtain ⟨q, hq, lq, cq⟩ := T.pos hk
  have hpq : p < q := T.lt_of (by omega)
  have key : ∀ d, p + 1 + d ≤ q → Phase T t (p + 1) (p + 1 + d) := by
    intro d
    induction d with
    | zero =>
      intro _
      have st := T.next p hp
      rw [lp] at st
      generalize T.st p = s at st
      generalize hs' : T.st (p + 1) = s' at st
      cases st with
      | inv t o op hp' => exact .inl ⟨o, op, by rw [Nat.add_zero, hs']; simp [State.goto]⟩
    | succ d ih =>
      intro hd
      refine (ih (by omega)).next (by omega) (by omega) (fun r' hr' => ?_)
      have hlt : p + 1 + d < q := by omega
      have e := T.event (by omega) hr'
      have c1 := T.cnt_lt lp (show p < p + 1 + d by omega)
      have c2 := T.cnt_lt hr' hlt
      exact hno _ (by omega) (by omega) r' e
  have P := key (q - p - 1) (by omega)
  rw [show p + 1 + (q - p - 1) = q by omega] at P
  have hfin : (T.st q).pc t = .fin r := by
    have st := T.next q hq
    rw [lq] at st
    generalize T.st q = s at st
    generalize T.st (q + 1) = s' at st
    cases st with
    | ret t r hp' => exact hp'
  rcases P with ⟨_, _, e⟩ | ⟨_, _, e⟩ | e | ⟨_, m, h1, h2, h3⟩
  · rw [hfin] at e; cases e
  · rw [hfin] at e; cases e
  · rw [hfin] at e; cases e; exact absurd rfl hn
  · exact ⟨p, m, q, hp, hq, cp, cq, lp, lq, by omega, h2, h3⟩

/-- What is known at one such moment is known at every later one. -/
theorem holds_le (T : Trace Step (init v0 x0) h) {m m' : Nat} {A B : Tid} (hle : m ≤ m') (hm' : m' ≤ T.N)
    (ha : (T.st m).held A ≠ 0) (hb : (T.st m').held B ≠ 0) : ((T.st m).tv A).cur ≤ ((T.st m').tv B).cur := by
  obtain ⟨v, hv, hl⟩ := (trace_grow T hle hm').lock _ (.held B hb)
  rw [lock_holder (trace_inv T (by omega)) ha hv] at hl
  exact hl

/-! ## A variable to which only one value is stored -/

/-- All writes to `a` except the first are of `x`. -/
def Only (a : Nat) (x : X) (s : State n C X) : Prop := ∀ m ∈ s.mx a, m.ts ≠ 0 → m.val = x

theorem only_step {s s' : State n C X} {e : Option (Ev (Val n C) X)} {a : Nat} {x : X} (o : Only a x s)
    (he : ∀ t act r, e = some (.client t act r) → WritesVar a act → ∃ ow, act = .store a x ow)
    (st : Step s e s') : Only a x s' := by
  cases st with
  | client t act r mx v sc hp hc =>
    have h1 := he t act r rfl
    cases hc with
    | load b o' y v' hl => exact o
    | store b o' y ms v' hs =>
      intro m hm hne
      have hm' : m ∈ Function.update s.mx b ms a := hm
      by_cases e : a = b
      · subst e
        rw [Function.update_self] at hm'
        cases hs with
        | mk f t' hv hf =>
          rcases List.mem_cons.1 hm' with rfl | hm'
          · obtain ⟨ow, e⟩ := h1 rfl
            cases e; rfl
          · exact o m hm' hne
      · rw [Function.update_of_ne e] at hm'; exact o m hm' hne
    | rmw b f o' y ms v' hs =>
      intro m hm hne
      have hm' : m ∈ Function.update s.mx b ms a := hm
      by_cases e : a = b
      · subst e
        obtain ⟨ow, e⟩ := h1 rfl
        cases e
      · rw [Function.update_of_ne e] at hm'; exact o m hm' hne
    | fence o' => exact o
  | _ => exact o

theorem visible_of (T : Trace Step (init v0 x0) h) {A B : Tid} {i k pi qk m m' : Nat} (hpi : T.cnt pi = i) (hqk : T.cnt qk = k)
    (hq : qk < T.N)
    (h1 : pi ≤ m) (h2 : m ≤ m') (h3 : m' ≤ qk) (ha : (T.st m).held A ≠ 0) (hb : (T.st m').held B ≠ 0) :
    Visible h A i B k := by
  intro a x ms jl ow ol r z ho hs hlt hld hgt
  -- the store
  obtain ⟨ps, hps, lps, cps⟩ := T.pos hs
  obtain ⟨pl, hpl, lpl, cpl⟩ := T.pos hld
  have hsi : ps < pi := T.lt_of (by omega)
  have hkl : qk < pl := T.lt_of (by omega)
  have only : ∀ p, p ≤ T.N → Only a x (T.st p) := by
    intro p
    induction p with
    | zero =>
      intro _
      rw [T.zero]
      intro m hm hne
      simp only [init, initMsgs, List.mem_singleton] at hm
      subst hm; exact absurd rfl hne
    | succ p ih =>
      intro hp
      refine only_step (ih (by omega)) (fun t act r e => ?_) (T.next p hp)
      exact ho _ t act r (T.event hp e)
  obtain ⟨τ, hτ, hk⟩ : ∃ τ : Ts, 0 < τ ∧ τ ≤ ((T.st (ps + 1)).tv A).cur (.ext a) := by
    have st := T.next ps hps
    rw [lps] at st
    generalize T.st ps = s at st
    generalize T.st (ps + 1) = s' at st
    cases st with
    | client t act r mx v sc hp hc =>
      cases hc with
      | store b o' y ms v' hst =>
        cases hst with
        | mk f t' hv hf =>
          refine ⟨t', lt_of_le_of_lt zero_le hv, ?_⟩
          simp only [Function.update_self]
          exact write_cur_self _ _ _
  have g1 := (trace_grow T (show ps + 1 ≤ m by omega) (by omega)).cur A
  have g2 := holds_le T h2 (by omega) ha hb
  have g3 := (trace_grow T (show m' ≤ pl by omega) (by omega)).cur B
  have hcur : τ ≤ ((T.st pl).tv B).cur (.ext a) := hk.trans ((g1 _).trans ((g2 _).trans (g3 _)))
  have st := T.next pl hpl
  have on := only pl (by omega)
  rw [lpl] at st
  generalize T.st pl = s at st on hcur
  generalize T.st (pl + 1) = s' at st
  cases st with
  | client t act r mx v sc hp hc =>
    cases hc with
    | load b o' y v' hl =>
      cases hl with
      | mk m hm hv =>
        refine congrArg some (on m hm ?_)
        intro e
        rw [e] at hv
        exact absurd (lt_of_lt_of_le hτ (hcur.trans hv)) (lt_irrefl _)

end Verif.WM.Crit
