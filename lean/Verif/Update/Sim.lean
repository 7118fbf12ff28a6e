import Verif.Update.Code
/-!
# `fetch_update` with arbitrary closures: proof internals
-/
set_option autoImplicit false
set_option linter.unusedSectionVars false
namespace Verif.Update
open Verif.Object

variable {K V I P : Type} [DecidableEq K]

/-- A point of the code as a stage of the specification. -/
def stage : Pc V → Stage V
  | .load | .waitLoad => .reading
  | .head v => .seen v
  | .body v => .asked v
  | .cas v w | .waitCas v w => .replied v w
  | .ret r => .over r

/-- Accepted by `load`. -/
def Good (f : MemOrd) : Prop := f ≠ .release ∧ f ≠ .acqRel

/-- Past the first load, the ordering has been accepted. -/
def PcOk (f : MemOrd) : Pc V → Prop
  | .load | .waitLoad | .ret _ => True
  | _ => Good f

/-- The innermost call, given how far the implementation's call is. -/
inductive Top (M : Methods K V I P) : Fr K V I P → Status I P → Frame K V I P → Prop where
  | call (i : I) : Top M (.call i) .idle (.pending i)
  | wait (i : I) : Top M (.wait i) (.pending i) (.pending i)
  | waited (i : I) (p : P) : Top M (.wait i) (.done p) (.done p)
  | got (p : P) : Top M (.got p) .idle (.done p)
  | upd (k : K) (s f : MemOrd) (pc : Pc V) (h : pc ≠ .waitLoad) (h' : ∀ v w, pc ≠ .waitCas v w) (ho : PcOk f pc) :
      Top M (.upd k s f pc) .idle (.upd k s f (stage pc))
  | load (k : K) (s f : MemOrd) (i : I) (hm : M.load k f i) : Top M (.upd k s f .waitLoad) (.pending i) (.upd k s f .reading)
  | loaded (k : K) (s f : MemOrd) (p : P) (ho : PcOk f (afterLoad (M.ans p))) :
      Top M (.upd k s f .waitLoad) (.done p) (.upd k s f (stage (afterLoad (M.ans p))))
  | cas (k : K) (s f : MemOrd) (v w : V) (ho : Good f) (i : I) (hm : M.compareExchangeWeak k v w s f i) :
      Top M (.upd k s f (.waitCas v w)) (.pending i) (.upd k s f (.replied v w))
  | cased (k : K) (s f : MemOrd) (v w : V) (p : P) (ho : PcOk f (afterCas (M.ans p))) :
      Top M (.upd k s f (.waitCas v w)) (.done p) (.upd k s f (stage (afterCas (M.ans p))))

/-- A stack of calls in progress: all but the innermost are inside their closures. -/
inductive Stack : List (Fr K V I P) → List (Frame K V I P) → Prop where
  | nil : Stack [] []
  | cons (k : K) (s f : MemOrd) (v : V) (ho : Good f) {l : List (Fr K V I P)} {m : List (Frame K V I P)} (h : Stack l m) :
      Stack (.upd k s f (.body v) :: l) (.upd k s f (.asked v) :: m)

/-- A thread. -/
inductive Match (M : Methods K V I P) : List (Fr K V I P) → Status I P → List (Frame K V I P) → Prop where
  | nil : Match M [] .idle []
  | cons {f : Fr K V I P} {st : Status I P} {g : Frame K V I P} {l : List (Fr K V I P)} {m : List (Frame K V I P)}
      (h : Top M f st g) (hs : Stack l m) : Match M (f :: l) st (g :: m)

theorem Stack.match {M : Methods K V I P} {l : List (Fr K V I P)} {m : List (Frame K V I P)} (h : Stack l m) : Match M l .idle m := by
  cases h with
  | nil => exact .nil
  | cons k s f v ho h => exact .cons (.upd k s f (.body v) (by simp) (by simp) ho) h

theorem Match.stack {M : Methods K V I P} {l : List (Fr K V I P)} {st : Status I P} {m : List (Frame K V I P)} (h : Match M l st m)
    (hc : CanCall l) : Stack l m ∧ st = .idle ∧ MayCall m := by
  cases h with
  | nil => exact ⟨.nil, rfl, trivial⟩
  | cons h hs =>
    cases h with
    | upd k s f pc h h' ho =>
      cases pc with
      | body v => exact ⟨.cons _ _ _ _ ho hs, rfl, trivial⟩
      | _ => exact hc.elim
    | _ => exact hc.elim

/-- The user's view has an explanation that agrees with where the threads and the implementation are. -/
def Agree (M : Methods K V I P) (T : Spec (K → V) I P) (m : K → V) (ho : List (Ev K V I P)) (w : Tid → List (Fr K V I P))
    (a : Object.State (K → V) I P) : Prop :=
  ∃ s, Exec (Step T) ⟨m, fun _ => []⟩ ho s ∧ s.cells = a.obj ∧ ∀ t, Match M (w t) (a.th t) (s.th t)

variable {M : Methods K V I P} {T : Spec (K → V) I P} {m : K → V} {ho : List (Ev K V I P)} {w : Tid → List (Fr K V I P)}

theorem good_or (f : MemOrd) : (f = .release ∨ f = .acqRel) ∨ Good f := by
  unfold Good; cases f <;> simp

theorem Agree.commit (hM : M.Ok T) {a b : Object.State (K → V) I P} (h : Agree M T m ho w b) (st : Object.Step T b none a) :
    Agree M T m ho w a := by
  obtain ⟨s, hx, hc, ht⟩ := h
  cases st with
  | commit t op c' r hp hs =>
    have h1 := ht t
    have fin : ∀ {s' : State K V I P}, Step T s none s' → s'.cells = c' → Match M (w t) (.done r) (s'.th t) →
        (∀ u, u ≠ t → s'.th u = s.th u) → Agree M T m ho w ⟨c', Function.update b.th t (.done r)⟩ := by
      intro s' h2 h3 h4 h5
      refine ⟨s', .tau hx h2, h3, fun u => ?_⟩
      by_cases e : u = t
      · subst e; simpa using h4
      · simp only [Function.update_of_ne e]; rw [h5 u e]; exact ht u
    have upd : ∀ {x : List (Frame K V I P)} u, u ≠ t → Function.update s.th t x u = s.th u := fun u e => Function.update_of_ne e _ _
    rw [hp] at h1
    rw [← hc] at hs
    generalize hwt : w t = wt at h1 fin
    generalize hst : s.th t = stt at h1
    cases h1 with
    | cons h hstk =>
      cases h with
      | wait =>
        exact fin (.commit s t op c' r _ hst hs) rfl (by simp only [Function.update_self]; exact .cons (.waited _ _) hstk) upd
      | load k so f _ hm =>
        rcases good_or f with hb | hg
        · obtain ⟨rfl, e⟩ := hM.load_bad _ _ _ _ _ _ hm hs hb
          refine fin (.reject s t k so f _ hst hb) rfl ?_ upd
          simp only [Function.update_self]
          have := Top.loaded (M := M) k so f r (by rw [e]; trivial)
          rw [e] at this
          exact .cons this hstk
        · obtain ⟨rfl, e⟩ := hM.load_ok _ _ _ _ _ _ hm hs hg
          refine fin (.look s t k so f _ hst hg) rfl ?_ upd
          simp only [Function.update_self]
          have := Top.loaded (M := M) k so f r (by rw [e]; exact hg)
          rw [e] at this
          exact .cons this hstk
      | cas k so f v n hg _ hm =>
        rcases hM.weak _ _ _ _ _ _ _ _ _ hm hs hg with ⟨e1, rfl, e2⟩ | ⟨rfl, e2⟩
        · refine fin (.replace s t k so f v n _ hst e1) rfl ?_ upd
          simp only [Function.update_self]
          have := Top.cased (M := M) k so f v n r (by rw [e2]; trivial)
          rw [e2] at this
          exact .cons this hstk
        · refine fin (.again s t k so f v n _ hst) rfl ?_ upd
          simp only [Function.update_self]
          have := Top.cased (M := M) k so f v n r (by rw [e2]; exact hg)
          rw [e2] at this
          exact .cons this hstk

/-- An event of the user's. -/
theorem Agree.user {a : Object.State (K → V) I P} {t : Tid} {e : Ev K V I P} {l : List (Fr K V I P)}
    (h : Agree M T m ho w a)
    (hs : ∀ s : State K V I P, Match M (w t) (a.th t) (s.th t) →
      ∃ x, Step T s (some e) ⟨s.cells, Function.update s.th t x⟩ ∧ Match M l (a.th t) x) :
    Agree M T m (ho ++ [e]) (Function.update w t l) a := by
  obtain ⟨s, hx, hc, ht⟩ := h
  obtain ⟨x, h1, h2⟩ := hs s (ht t)
  refine ⟨_, .ev hx h1, hc, fun u => ?_⟩
  by_cases e : u = t
  · subst e; simpa using h2
  · simpa only [Function.update_of_ne e] using ht u

/-- A call of the implementation, or its answer. -/
theorem Agree.impl (hM : M.Ok T) {hi : List (Object.Ev I P)} {t : Tid} {e : Object.Ev I P} {l : List (Fr K V I P)}
    (ih : ∀ a, Exec (Object.Step T) { obj := m, th := fun _ => .idle } hi a → Agree M T m ho w a)
    (he : ∀ {b b'}, Object.Step T b (some e) b' → b'.obj = b.obj ∧ ∃ x, b'.th = Function.update b.th t x ∧
      ∀ z, Match M (w t) (b.th t) z → Match M l x z) {a}
    (hx : Exec (Object.Step T) { obj := m, th := fun _ => .idle } (hi ++ [e]) a) :
    Agree M T m ho (Function.update w t l) a := by
  generalize hh : hi ++ [e] = h0 at hx
  generalize hi0 : ({ obj := m, th := fun _ => .idle } : Object.State (K → V) I P) = i0 at hx
  induction hx with
  | refl => simp at hh
  | @tau h s s' hx st ih2 =>
    subst hh hi0
    exact (ih2 rfl).commit hM st
  | @ev h s e' s' hx st _ =>
    subst hi0
    have e2 := List.append_inj_left' hh rfl
    have e1 := List.append_inj_right' hh rfl
    simp only [List.cons.injEq, and_true] at e1
    subst e1 e2
    obtain ⟨q, hr, hm, ht⟩ := ih _ hx
    obtain ⟨h1, x, h2, h3⟩ := he st
    refine ⟨q, hr, hm.trans h1.symm, fun u => ?_⟩
    rw [h2]
    by_cases hu : u = t
    · subst hu; simpa using h3 _ (ht u)
    · simpa only [Function.update_of_ne hu] using ht u

theorem inv_step {b b' : Object.State (K → V) I P} {t : Tid} {i : I} (st : Object.Step T b (some (.inv t i)) b') :
    b.th t = .idle ∧ b'.obj = b.obj ∧ b'.th = Function.update b.th t (.pending i) := by
  cases st with
  | inv _ _ h => exact ⟨h, rfl, rfl⟩

theorem ret_step {b b' : Object.State (K → V) I P} {t : Tid} {p : P} (st : Object.Step T b (some (.ret t p)) b') :
    b.th t = .done p ∧ b'.obj = b.obj ∧ b'.th = Function.update b.th t .idle := by
  cases st with
  | ret _ _ h => exact ⟨h, rfl, rfl⟩

theorem pc_load (r : Res V) : afterLoad r ≠ .waitLoad ∧ ∀ v w, afterLoad r ≠ .waitCas v w := by
  cases r <;> simp [afterLoad]
theorem pc_cas (r : Res V) : afterCas r ≠ .waitLoad ∧ ∀ v w, afterCas r ≠ .waitCas v w := by
  cases r <;> simp [afterCas]

theorem run_agree (hM : M.Ok T) {hi : List (Object.Ev I P)} (x : Run M hi ho w) :
    ∀ a, Exec (Object.Step T) { obj := m, th := fun _ => .idle } hi a → Agree M T m ho w a := by
  induction x with
  | nil =>
    intro a hx
    generalize hh : ([] : List (Object.Ev I P)) = h0 at hx
    generalize hi0 : ({ obj := m, th := fun _ => .idle } : Object.State (K → V) I P) = i0 at hx
    induction hx with
    | refl => subst hi0; exact ⟨_, .refl _, rfl, fun t => .nil⟩
    | tau hx st ih2 => subst hh hi0; exact (ih2 rfl).commit hM st
    | ev => simp at hh
  | inv x t i h ih =>
    intro a hx
    refine (ih a hx).user fun s hm => ?_
    obtain ⟨h1, h2, h3⟩ := hm.stack h
    rw [h2]
    exact ⟨_, .inv s t i h3, .cons (.call i) h1⟩
  | update x t k so f h ih =>
    intro a hx
    refine (ih a hx).user fun s hm => ?_
    obtain ⟨h1, h2, h3⟩ := hm.stack h
    rw [h2]
    exact ⟨_, .update s t k so f h3, .cons (.upd k so f .load (by simp) (by simp) trivial) h1⟩
  | ret x t p st h ih =>
    intro a hx
    refine (ih a hx).user fun s hm => ?_
    rw [h] at hm
    generalize hz : a.th t = z at hm ⊢
    generalize hy : s.th t = y at hm
    cases hm with
    | cons h1 h2 => cases h1; exact ⟨_, .ret s t p _ hy, h2.match⟩
  | ask x t k so f v st h ih =>
    intro a hx
    refine (ih a hx).user fun s hm => ?_
    rw [h] at hm
    generalize hz : a.th t = z at hm ⊢
    generalize hy : s.th t = y at hm
    cases hm with
    | cons h1 h2 =>
      cases h1 with
      | upd _ _ _ _ _ _ ho => exact ⟨_, .ask s t k so f v _ hy, .cons (.upd k so f (.body v) (by simp) (by simp) ho) h2⟩
  | reply x t k so f v a' st h ih =>
    intro a hx
    refine (ih a hx).user fun s hm => ?_
    rw [h] at hm
    generalize hz : a.th t = z at hm ⊢
    generalize hy : s.th t = y at hm
    cases hm with
    | cons h1 h2 =>
      cases h1 with
      | upd _ _ _ _ _ _ ho =>
        cases a' with
        | none => exact ⟨_, .no s t k so f v _ hy, .cons (.upd k so f (.ret (.err v)) (by simp) (by simp) trivial) h2⟩
        | some n => exact ⟨_, .yes s t k so f v n _ hy, .cons (.upd k so f (.cas v n) (by simp) (by simp) ho) h2⟩
  | panic x t k so f v st h ih =>
    intro a hx
    refine (ih a hx).user fun s hm => ?_
    rw [h] at hm
    generalize hz : a.th t = z at hm ⊢
    generalize hy : s.th t = y at hm
    cases hm with
    | cons h1 h2 =>
      cases h1 with
      | upd _ _ _ _ _ _ ho => exact ⟨_, .panic s t k so f v _ hy, .cons (.upd k so f (.ret .panic) (by simp) (by simp) trivial) h2⟩
  | finish x t k so f r st h ih =>
    intro a hx
    refine (ih a hx).user fun s hm => ?_
    rw [h] at hm
    generalize hz : a.th t = z at hm ⊢
    generalize hy : s.th t = y at hm
    cases hm with
    | cons h1 h2 =>
      cases h1 with
      | upd _ _ _ _ _ _ ho => exact ⟨_, .finish s t k so f r _ hy, h2.match⟩
  | call x t i st h ih =>
    intro a hx
    refine Agree.impl hM ih (fun {b b'} hst => ?_) hx
    obtain ⟨h1, h2, h3⟩ := inv_step hst
    refine ⟨h2, _, h3, fun z hm => ?_⟩
    rw [h, h1] at hm
    cases hm with
    | cons h1 h2 => cases h1; exact .cons (.wait i) h2
  | answer x t i p st h ih =>
    intro a hx
    refine Agree.impl hM ih (fun {b b'} hst => ?_) hx
    obtain ⟨h1, h2, h3⟩ := ret_step hst
    refine ⟨h2, _, h3, fun z hm => ?_⟩
    rw [h, h1] at hm
    cases hm with
    | cons h1 h2 => cases h1; exact .cons (.got p) h2
  | load x t k so f st h i hmm ih =>
    intro a hx
    refine Agree.impl hM ih (fun {b b'} hst => ?_) hx
    obtain ⟨h1, h2, h3⟩ := inv_step hst
    refine ⟨h2, _, h3, fun z hm => ?_⟩
    rw [h, h1] at hm
    cases hm with
    | cons h1 h2 => cases h1; exact .cons (.load k so f i hmm) h2
  | loaded x t k so f p st h ih =>
    intro a hx
    refine Agree.impl hM ih (fun {b b'} hst => ?_) hx
    obtain ⟨h1, h2, h3⟩ := ret_step hst
    refine ⟨h2, _, h3, fun z hm => ?_⟩
    rw [h, h1] at hm
    cases hm with
    | cons h1 h2 =>
      cases h1 with
      | loaded _ _ _ _ ho => exact .cons (.upd k so f _ (pc_load _).1 (pc_load _).2 ho) h2
  | cas x t k so f v n st h i hmm ih =>
    intro a hx
    refine Agree.impl hM ih (fun {b b'} hst => ?_) hx
    obtain ⟨h1, h2, h3⟩ := inv_step hst
    refine ⟨h2, _, h3, fun z hm => ?_⟩
    rw [h, h1] at hm
    cases hm with
    | cons h1 h2 =>
      cases h1 with
      | upd _ _ _ _ _ _ ho => exact .cons (.cas k so f v n ho i hmm) h2
  | cased x t k so f v n p st h ih =>
    intro a hx
    refine Agree.impl hM ih (fun {b b'} hst => ?_) hx
    obtain ⟨h1, h2, h3⟩ := ret_step hst
    refine ⟨h2, _, h3, fun z hm => ?_⟩
    rw [h, h1] at hm
    cases hm with
    | cons h1 h2 =>
      cases h1 with
      | cased _ _ _ _ _ _ ho => exact .cons (.upd k so f _ (pc_cas _).1 (pc_cas _).2 ho) h2

end Verif.Update
