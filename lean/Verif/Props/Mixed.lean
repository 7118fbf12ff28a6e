import Verif.Spec.Mixed
import Verif.Props.HerlihyWing
/-!
# Atomics of different kinds used together (C63)
-/
set_option autoImplicit false
namespace Verif.Object
open Verif.Object.HW (tid proj Alternates WellFormed)

variable {K : Type} [DecidableEq K] {C O R : K → Type}

@[simp] theorem at_tag (k : K) (e : Ev (O k) (R k)) : Ev.at k (Ev.tag k e) = some e := by
  cases e <;> simp [Ev.at, Ev.tag]

theorem at_tag_ne {k k' : K} (h : k' ≠ k) (e : Ev (O k) (R k)) : Ev.at k' (Ev.tag k e) = none := by
  cases e <;> simp [Ev.at, Ev.tag, Ne.symm h]

/-- Every event is one of exactly one object. -/
theorem tag_surj (e : Ev (Σ k, O k) (Σ k, R k)) : ∃ k e', e = Ev.tag k e' := by
  cases e with
  | inv t op => exact ⟨op.1, .inv t op.2, rfl⟩
  | ret t r => exact ⟨r.1, .ret t r.2, rfl⟩

@[simp] theorem part_append (k : K) (a b : List (Ev (Σ k, O k) (Σ k, R k))) : part k (a ++ b) = part k a ++ part k b :=
  List.filterMap_append ..

theorem part_tag (k : K) (e : Ev (O k) (R k)) : part k [Ev.tag k e] = [e] := by
  simp [part]

theorem part_tag_ne {k k' : K} (h : k' ≠ k) (e : Ev (O k) (R k)) : part k' [Ev.tag k e] = [] := by
  simp [part, at_tag_ne h]

/-- What each system does in an execution of several side by side. -/
theorem mix_part {T : K → Type} {step : ∀ k, T k → Option (Ev (O k) (R k)) → T k → Prop} {s s' : ∀ k, T k}
    {h : List (Ev (Σ k, O k) (Σ k, R k))} (hx : Exec (MixStep step) s h s') (k : K) :
    Exec (step k) (s k) (part k h) (s' k) := by
  induction hx with
  | refl => exact .refl _
  | @tau h a b _ st ih =>
    generalize hn : (none : Option (Ev (Σ k, O k) (Σ k, R k))) = o at st
    cases st with
    | of k' e x hs =>
      cases e with
      | some e => simp at hn
      | none =>
        by_cases hk : k = k'
        · subst hk; rw [Function.update_self]; exact .tau ih hs
        · rw [Function.update_of_ne hk]; exact ih
  | @ev h a e b _ st ih =>
    generalize hn : some e = o at st
    cases st with
    | of k' e' x hs =>
      cases e' with
      | none => simp at hn
      | some e' =>
        simp only [Option.map_some, Option.some.injEq] at hn
        subst hn
        rw [part_append]
        by_cases hk : k = k'
        · subst hk; rw [Function.update_self, part_tag]; exact .ev ih hs
        · rw [Function.update_of_ne hk, part_tag_ne hk, List.append_nil]; exact ih

/-- An execution up to its first event. -/
theorem exec_cons {S E : Type} {step : S → Option E → S → Prop} {a b : S} {e : E} {l : List E} (hx : Exec step a (e :: l) b) :
    ∃ x y, Exec step a [] x ∧ step x (some e) y ∧ Exec step y l b := by
  generalize hh : e :: l = h at hx
  induction hx generalizing l with
  | refl => cases hh
  | @tau h s s' _ st ih =>
    obtain ⟨x, y, h1, h2, h3⟩ := ih hh
    exact ⟨x, y, h1, h2, .tau h3 st⟩
  | @ev h s e' s' hx st ih =>
    rcases h with _ | ⟨e0, h⟩
    · simp only [List.nil_append, List.cons.injEq] at hh
      obtain ⟨rfl, rfl⟩ := hh
      exact ⟨s, s', hx, st, .refl _⟩
    · simp only [List.cons_append, List.cons.injEq] at hh
      obtain ⟨rfl, rfl⟩ := hh
      obtain ⟨x, y, h1, h2, h3⟩ := ih rfl
      exact ⟨x, y, h1, h2, .ev h3 st⟩

/-! ## Locality -/

/-- What object `k` sees of a thread. -/
def view (k : K) : Status (Σ k, O k) (Σ k, R k) → Status (O k) (R k)
  | .idle => .idle
  | .pending op => if h : op.1 = k then .pending (h ▸ op.2) else .idle
  | .done r => if h : r.1 = k then .done (h ▸ r.2) else .idle

@[simp] theorem view_pending (k : K) (op : O k) : view (R := R) k (.pending ⟨k, op⟩) = .pending op := by simp [view]
@[simp] theorem view_done (k : K) (r : R k) : view (O := O) k (.done ⟨k, r⟩) = .done r := by simp [view]
theorem view_pending_ne {k k' : K} (h : k' ≠ k) (op : O k) : view (R := R) k' (.pending ⟨k, op⟩) = .idle := by
  simp [view, Ne.symm h]
theorem view_done_ne {k k' : K} (h : k' ≠ k) (r : R k) : view (O := O) k' (.done ⟨k, r⟩) = .idle := by
  simp [view, Ne.symm h]

theorem of_view_pending {k : K} {x : Status (Σ k, O k) (Σ k, R k)} {op : O k} (h : view k x = .pending op) :
    x = .pending ⟨k, op⟩ := by
  cases x with
  | idle => cases h
  | done r => simp only [view] at h; split at h <;> cases h
  | pending o =>
    obtain ⟨k', o⟩ := o
    by_cases hk : k' = k
    · subst hk; simp only [view_pending, Status.pending.injEq] at h; rw [h]
    · rw [view_pending_ne (Ne.symm hk)] at h; cases h

theorem of_view_done {k : K} {x : Status (Σ k, O k) (Σ k, R k)} {r : R k} (h : view k x = .done r) :
    x = .done ⟨k, r⟩ := by
  cases x with
  | idle => cases h
  | pending r => simp only [view] at h; split at h <;> cases h
  | done o =>
    obtain ⟨k', o⟩ := o
    by_cases hk : k' = k
    · subst hk; simp only [view_done, Status.done.injEq] at h; rw [h]
    · rw [view_done_ne (Ne.symm hk)] at h; cases h

/-- The objects' states are the parts of the whole state. -/
structure Glue (a : ∀ k, State (C k) (O k) (R k)) (s : State (∀ k, C k) (Σ k, O k) (Σ k, R k)) : Prop where
  obj : ∀ k, s.obj k = (a k).obj
  th : ∀ k t, (a k).th t = view k (s.th t)

/-- A thread of object `k` changes its status. -/
theorem Glue.move {a : ∀ k, State (C k) (O k) (R k)} {s : State (∀ k, C k) (Σ k, O k) (Σ k, R k)} (g : Glue a s) {k : K}
    {t : Tid} {x : C k} {st : Status (O k) (R k)} {st' : Status (Σ k, O k) (Σ k, R k)}
    (h1 : view k st' = st) (h2 : ∀ k', k' ≠ k → view k' st' = view k' (s.th t)) :
    Glue (Function.update a k { obj := x, th := Function.update (a k).th t st })
      { obj := Function.update s.obj k x, th := Function.update s.th t st' } := by
  constructor
  · intro k'
    by_cases hk : k' = k
    · subst hk; simp
    · simp [Function.update_of_ne hk, g.obj]
  · intro k' u
    by_cases hk : k' = k
    · subst hk
      rw [Function.update_self]
      by_cases hu : u = t
      · subst hu; simp [h1]
      · simp [Function.update_of_ne hu, g.th]
    · rw [Function.update_of_ne hk]
      by_cases hu : u = t
      · subst hu; simp [h2 k' hk, g.th]
      · simp [Function.update_of_ne hu, g.th]

/-- Moments of object `k`. -/
theorem run_one {S : ∀ k, Spec (C k) (O k) (R k)} {a : ∀ k, State (C k) (O k) (R k)}
    {s : State (∀ k, C k) (Σ k, O k) (Σ k, R k)} (g : Glue a s) {k : K} {x : State (C k) (O k) (R k)}
    (hx : Exec (Step (S k)) (a k) [] x) :
    ∃ s', Exec (Step (Spec.mix S)) s [] s' ∧ Glue (Function.update a k x) s' ∧ ∀ t, s'.th t = .idle ↔ s.th t = .idle := by
  generalize hh : ([] : List (Ev (O k) (R k))) = h at hx
  generalize ha : a k = y at hx
  induction hx with
  | refl => exact ⟨s, .refl _, by rw [← ha, Function.update_eq_self]; exact g, fun _ => Iff.rfl⟩
  | @ev h s1 e s2 _ st ih => simp at hh
  | @tau h s1 s2 _ st ih =>
    obtain ⟨s', hx', g', hi⟩ := ih hh
    generalize hn : (none : Option (Ev (O k) (R k))) = o at st
    cases st with
    | inv => cases hn
    | ret => cases hn
    | commit t op c' r hp hs =>
      have e1 : (Function.update a k s1 k) = s1 := Function.update_self ..
      have hp' : s'.th t = .pending ⟨k, op⟩ := by
        refine of_view_pending ?_
        rw [← g'.th k t, e1, hp]
      have ho : s'.obj k = s1.obj := by rw [g'.obj k, e1]
      refine ⟨_, .tau hx' (.commit s' t ⟨k, op⟩ (Function.update s'.obj k c') ⟨k, r⟩ hp' ⟨c', r, ?_, rfl, rfl⟩), ?_, ?_⟩
      · show (S k).sem op (s'.obj k) c' r
        rw [ho]; exact hs
      · have := g'.move (k := k) (t := t) (x := c') (st := .done r) (st' := .done ⟨k, r⟩) (view_done k r)
          (fun k' hk => by rw [view_done_ne hk, hp', view_pending_ne hk])
        rw [e1, Function.update_idem] at this
        exact this
      · intro u
        rw [← hi u]
        by_cases hu : u = t
        · subst hu; simp [hp']
        · simp [Function.update_of_ne hu]

/-- Moments after the last event. -/
theorem run_all {S : ∀ k, Spec (C k) (O k) (R k)} {b : ∀ k, State (C k) (O k) (R k)} : ∀ (L : List K)
    {a : ∀ k, State (C k) (O k) (R k)} {s : State (∀ k, C k) (Σ k, O k) (Σ k, R k)}, Glue a s →
    (∀ k, Exec (Step (S k)) (a k) [] (b k)) → (∀ k, k ∉ L → a k = b k) →
    ∃ s', Exec (Step (Spec.mix S)) s [] s' ∧ Glue b s'
  | [], a, s, g, _, hL => by
    have : a = b := funext fun k => hL k (by simp)
    subst this
    exact ⟨s, .refl _, g⟩
  | k :: L, a, s, g, hx, hL => by
    obtain ⟨s1, hx1, g1, _⟩ := run_one g (hx k)
    obtain ⟨s2, hx2, g2⟩ := run_all L (a := Function.update a k (b k)) g1
      (fun k' => by
        by_cases hk : k' = k
        · subst hk; rw [Function.update_self]; exact .refl _
        · rw [Function.update_of_ne hk]; exact hx k')
      (fun k' hk' => by
        by_cases hk : k' = k
        · subst hk; rw [Function.update_self]
        · rw [Function.update_of_ne hk]; exact hL k' (by simp [hk, hk']))
    exact ⟨s2, hx1.trans hx2, g2⟩

theorem quiet {C O R : Type} {S : Spec C O R} {a b : State C O R} (hi : ∀ t, a.th t = .idle) (hx : Exec (Step S) a [] b) :
    a = b := by
  generalize hh : ([] : List (Ev O R)) = h at hx
  induction hx with
  | refl => rfl
  | @ev h s1 e s2 _ st ih => simp at hh
  | @tau h s1 s2 _ st ih =>
    have e := ih hh
    subst e
    generalize hn : (none : Option (Ev O R)) = o at st
    cases st with
    | inv => cases hn
    | ret => cases hn
    | commit t op c' r hp hs => rw [hi t] at hp; cases hp

theorem not_alternates {O R : Type} {t u : Tid} {o o' : O} {r : List (Ev O R)} : ∀ m : List (Ev O R),
    ¬ Alternates (m ++ .inv t o :: .inv u o' :: r)
  | [] => by simp [Alternates]
  | [.inv _ _] => by simp [Alternates]
  | [.ret _ _] => by simp [Alternates]
  | .inv _ _ :: .ret _ _ :: m => by
    simp only [List.cons_append, Alternates]
    exact not_alternates m
  | .inv _ _ :: .inv _ _ :: m => by simp [Alternates]
  | .ret _ _ :: .ret _ _ :: m => by simp [Alternates]
  | .ret _ _ :: .inv _ _ :: m => by simp [Alternates]

/-- The kind of an event. -/
def kind : Ev (Σ k, O k) (Σ k, R k) → K
  | .inv _ op => op.1
  | .ret _ r => r.1

theorem run_events {S : ∀ k, Spec (C k) (O k) (R k)} {b : ∀ k, State (C k) (O k) (R k)} (L : List K) :
    ∀ (h2 h1 : List (Ev (Σ k, O k) (Σ k, R k))) {a : ∀ k, State (C k) (O k) (R k)}
      {s : State (∀ k, C k) (Σ k, O k) (Σ k, R k)}, Glue a s →
    WellFormed (h1 ++ h2) → (∀ t, s.th t = .idle ∨ ∃ m op, proj t h1 = m ++ [.inv t op]) →
    (∀ k, k ∉ L → ∀ t, (a k).th t = .idle) → (∀ e ∈ h2, kind e ∈ L) →
    (∀ k, Exec (Step (S k)) (a k) (part k h2) (b k)) →
    ∃ s', Exec (Step (Spec.mix S)) s h2 s' ∧ Glue b s'
  | [], h1, a, s, g, _, _, hL, _, hx => run_all L g hx fun k hk => quiet (hL k hk) (hx k)
  | e :: h2, h1, a, s, g, hw, hopen, hL, hkind, hx => by
    obtain ⟨k, e, rfl⟩ := tag_surj e
    have hk : k ∈ L := by
      have := hkind _ (List.mem_cons_self ..)
      cases e <;> exact this
    have hxk := hx k
    rw [show Ev.tag k e :: h2 = [Ev.tag k e] ++ h2 from rfl, part_append, part_tag] at hxk
    obtain ⟨x, y, hx1, st, hx2⟩ := exec_cons hxk
    obtain ⟨s1, hs1, g1, hi1⟩ := run_one g hx1
    have ex : Function.update a k x k = x := Function.update_self ..
    have main : ∃ s2, Step (Spec.mix S) s1 (some (Ev.tag k e)) s2 ∧ Glue (Function.update a k y) s2 ∧
        ∀ t, s2.th t = .idle ∨ ∃ m op, proj t (h1 ++ [Ev.tag k e]) = m ++ [.inv t op] := by
      generalize hn : some e = o at st
      cases st with
      | commit => cases hn
      | inv t op hp =>
        cases hn
        have hidle : s1.th t = .idle := by
          rcases hopen t with h | ⟨m, op', h⟩
          · exact (hi1 t).2 h
          · have hwt := hw t
            rw [HW.proj_append, h, show Ev.tag k (Ev.inv t op) :: h2 = [Ev.tag k (Ev.inv t op)] ++ h2 from rfl, HW.proj_append,
              HW.proj_one, if_pos (show tid (Ev.tag (R := R) k (Ev.inv t op)) = t from rfl)] at hwt
            refine absurd hwt ?_
            rw [List.append_assoc]
            exact not_alternates m
        refine ⟨_, .inv s1 t ⟨k, op⟩ hidle, ?_, fun u => ?_⟩
        · have := g1.move (k := k) (t := t) (x := s1.obj k) (st := .pending op) (st' := .pending ⟨k, op⟩) (view_pending k op)
            (fun k' hk' => by rw [view_pending_ne hk', hidle]; rfl)
          rw [Function.update_eq_self, ex, Function.update_idem, g1.obj k, ex] at this
          exact this
        · rw [HW.proj_append, HW.proj_one]
          by_cases hu : u = t
          · subst hu
            right
            exact ⟨proj u h1, ⟨k, op⟩, by rw [if_pos (show tid (Ev.tag (R := R) k (Ev.inv u op)) = u from rfl)]; rfl⟩
          · rw [if_neg (show ¬ tid (Ev.tag (R := R) k (Ev.inv t op)) = u from Ne.symm hu), List.append_nil]
            rcases hopen u with h | h
            · left
              show Function.update s1.th t _ u = _
              rw [Function.update_of_ne hu]; exact (hi1 u).2 h
            · exact .inr h
      | ret t r hp =>
        cases hn
        have hp' : s1.th t = .done ⟨k, r⟩ := by
          refine of_view_done ?_
          rw [← g1.th k t, ex, hp]
        refine ⟨_, .ret s1 t ⟨k, r⟩ hp', ?_, fun u => ?_⟩
        · have := g1.move (k := k) (t := t) (x := s1.obj k) (st := .idle) (st' := .idle) rfl
            (fun k' hk' => by rw [hp', view_done_ne hk']; rfl)
          rw [Function.update_eq_self, ex, Function.update_idem, g1.obj k, ex] at this
          exact this
        · rw [HW.proj_append, HW.proj_one]
          by_cases hu : u = t
          · subst hu
            left
            exact Function.update_self ..
          · rw [if_neg (show ¬ tid (Ev.tag (O := O) k (Ev.ret t r)) = u from Ne.symm hu), List.append_nil]
            rcases hopen u with h | h
            · left
              show Function.update s1.th t _ u = _
              rw [Function.update_of_ne hu]; exact (hi1 u).2 h
            · exact .inr h
    obtain ⟨s2, hs2, g2, hopen2⟩ := main
    obtain ⟨s3, hs3, g3⟩ := run_events L h2 (h1 ++ [Ev.tag k e]) g2 (by simpa using hw) hopen2
      (fun k' hk' t => by
        have : k' ≠ k := fun h => hk' (h ▸ hk)
        rw [Function.update_of_ne this]; exact hL k' hk' t)
      (fun e he => hkind e (List.mem_cons_of_mem _ he))
      (fun k' => by
        by_cases h : k' = k
        · subst h; rw [Function.update_self]; exact hx2
        · rw [Function.update_of_ne h]
          have := hx k'
          rw [show Ev.tag k e :: h2 = [Ev.tag k e] ++ h2 from rfl, part_append, part_tag_ne h] at this
          exact this)
    exact ⟨s3, (hs1.trans (.ev (.refl _) hs2)).trans hs3, g3⟩

theorem whole_part {S : ∀ k, Spec (C k) (O k) (R k)} {c : ∀ k, C k} {h : List (Ev (Σ k, O k) (Σ k, R k))}
    {s : State (∀ k, C k) (Σ k, O k) (Σ k, R k)}
    (hx : Exec (Step (Spec.mix S)) { obj := c, th := fun _ => .idle } h s) (k : K) :
    Exec (Step (S k)) { obj := c k, th := fun _ => .idle } (part k h) { obj := s.obj k, th := fun t => view k (s.th t) } := by
  have upd : ∀ (f : Tid → Status (Σ k, O k) (Σ k, R k)) (t : Tid) (x), (fun u => view k (Function.update f t x u)) =
      Function.update (fun u => view k (f u)) t (view k x) := by
    intro f t x
    funext u
    by_cases hu : u = t
    · subst hu; simp
    · simp [Function.update_of_ne hu]
  generalize hi : ({ obj := c, th := fun _ => .idle } : State (∀ k, C k) (Σ k, O k) (Σ k, R k)) = i at hx
  induction hx with
  | refl => subst hi; exact .refl _
  | @tau h s s' _ st ih =>
    generalize hn : (none : Option (Ev (Σ k, O k) (Σ k, R k))) = o at st
    cases st with
    | inv => cases hn
    | ret => cases hn
    | commit t op c' r hp hs =>
      obtain ⟨k', op⟩ := op
      obtain ⟨x, y, hs, rfl, rfl⟩ := hs
      simp only at hs
      rw [upd]
      by_cases hk : k = k'
      · subst hk
        have := Exec.tau ih (.commit _ t op x y (by simp [hp]) hs)
        simpa using this
      · have e1 : Function.update (fun u => view k (s.th u)) t (view k (.done ⟨k', y⟩)) = fun u => view k (s.th u) := by
          rw [view_done_ne hk, Function.update_eq_self_iff]
          rw [hp, view_pending_ne hk]
        rw [e1]
        simpa [Function.update_of_ne hk] using ih
  | @ev h s e s' _ st ih =>
    rw [part_append]
    generalize hn : some e = o at st
    cases st with
    | commit => cases hn
    | inv t op hp =>
      cases hn
      obtain ⟨k', op⟩ := op
      rw [upd]
      by_cases hk : k = k'
      · subst hk
        have := Exec.ev ih (.inv _ t op (by simp [hp, view]))
        rw [show Ev.inv t ⟨k, op⟩ = Ev.tag (R := R) k (Ev.inv t op) from rfl, part_tag]
        simpa using this
      · have e1 : Function.update (fun u => view k (s.th u)) t (view k (.pending ⟨k', op⟩)) = fun u => view k (s.th u) := by
          rw [view_pending_ne hk, Function.update_eq_self_iff]
          rw [hp]; rfl
        rw [e1, show Ev.inv t ⟨k', op⟩ = Ev.tag (R := R) k' (Ev.inv t op) from rfl, part_tag_ne hk]
        simpa using ih
    | ret t r hp =>
      cases hn
      obtain ⟨k', r⟩ := r
      rw [upd]
      by_cases hk : k = k'
      · subst hk
        have := Exec.ev ih (.ret _ t r (by simp [hp]))
        rw [show Ev.ret t ⟨k, r⟩ = Ev.tag (O := O) k (Ev.ret t r) from rfl, part_tag]
        simpa [view] using this
      · have e1 : Function.update (fun u => view k (s.th u)) t (view k .idle) = fun u => view k (s.th u) := by
          rw [Function.update_eq_self_iff]
          rw [hp, view_done_ne hk]; rfl
        rw [e1, show Ev.ret t ⟨k', r⟩ = Ev.tag (O := O) k' (Ev.ret t r) from rfl, part_tag_ne hk]
        simpa using ih

/-- **C63a** (Herlihy and Wing's Theorem 1). A well-formed history of any objects of any kinds is linearizable exactly
when, for each of them, its part of the history is. -/
theorem locality (S : ∀ k, Spec (C k) (O k) (R k)) (c c' : ∀ k, C k) (h : List (Ev (Σ k, O k) (Σ k, R k)))
    (hw : WellFormed h) :
    LinearizableTo (Spec.mix S) c h c' ↔ ∀ k, LinearizableTo (S k) (c k) (part k h) (c' k) := by
  constructor
  · rintro ⟨s, hx, rfl⟩ k
    exact ⟨_, whole_part hx k, rfl⟩
  · intro hl
    have hb : ∃ b : ∀ k, State (C k) (O k) (R k), ∀ k,
        Exec (Step (S k)) { obj := c k, th := fun _ => .idle } (part k h) (b k) ∧ (b k).obj = c' k :=
      ⟨fun k => (hl k).choose, fun k => (hl k).choose_spec⟩
    obtain ⟨b, hb⟩ := hb
    obtain ⟨s', hx, g⟩ := run_events (S := S) (b := b) (h.map kind) h [] (a := fun k => { obj := c k, th := fun _ => .idle })
      (s := { obj := c, th := fun _ => .idle }) ⟨fun _ => rfl, fun _ _ => rfl⟩ (by simpa using hw) (fun _ => .inl rfl)
      (fun _ _ _ => rfl) (fun e he => List.mem_map_of_mem he) (fun k => (hb k).1)
    exact ⟨s', hx, funext fun k => by rw [g.obj k, (hb k).2]⟩

end Verif.Object
