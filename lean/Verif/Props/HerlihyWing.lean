import Verif.Spec.HerlihyWing
/-!
# Linearizability in this development is Herlihy and Wing's (C62)
-/
set_option autoImplicit false
namespace Verif.Object.HW
open Verif.Object

variable {C O R : Type}

/-! ## Counting -/

@[simp] theorem proj_append (t : Tid) (a b : List (Ev O R)) : proj t (a ++ b) = proj t a ++ proj t b := List.filter_append ..
@[simp] theorem proj_nil (t : Tid) : proj t ([] : List (Ev O R)) = [] := rfl
@[simp] theorem rets_append (t : Tid) (a b : List (Ev O R)) : rets t (a ++ b) = rets t a + rets t b := List.countP_append ..
@[simp] theorem invs_append (t : Tid) (a b : List (Ev O R)) : invs t (a ++ b) = invs t a + invs t b := List.countP_append ..

theorem proj_one (t : Tid) (e : Ev O R) : proj t [e] = if tid e = t then [e] else [] := by
  simp only [proj, List.filter_cons, beq_iff_eq, List.filter_nil]

/-- The calls of thread `t` in a sequence of calls. -/
def mine (t : Tid) (q : List (Tid × O × R)) : List (O × R) := (q.filter fun x => x.1 == t).map (·.2)

@[simp] theorem mine_append (t : Tid) (a b : List (Tid × O × R)) : mine t (a ++ b) = mine t a ++ mine t b := by
  simp [mine]
@[simp] theorem mine_nil (t : Tid) : mine t ([] : List (Tid × O × R)) = [] := rfl
theorem mine_cons (t : Tid) (x : Tid × O × R) (q) : mine t (x :: q) = if x.1 = t then x.2 :: mine t q else mine t q := by
  simp only [mine, List.filter_cons, beq_iff_eq]
  split <;> simp

/-- The events of a thread's completed calls. -/
def evs (t : Tid) (m : List (O × R)) : List (Ev O R) := m.flatMap fun x => [.inv t x.1, .ret t x.2]

@[simp] theorem evs_nil (t : Tid) : evs t ([] : List (O × R)) = [] := rfl
@[simp] theorem evs_cons (t : Tid) (x : O × R) (m) : evs t (x :: m) = .inv t x.1 :: .ret t x.2 :: evs t m := rfl
@[simp] theorem evs_append (t : Tid) (a b : List (O × R)) : evs t (a ++ b) = evs t a ++ evs t b := List.flatMap_append

theorem proj_events (t : Tid) : ∀ q : List (Tid × O × R), proj t (events q) = evs t (mine t q)
  | [] => rfl
  | x :: q => by
    have ih := proj_events t q
    have : events (x :: q) = [.inv x.1 x.2.1] ++ ([.ret x.1 x.2.2] ++ events q) := rfl
    rw [this, proj_append, proj_append, proj_one, proj_one, ih, mine_cons]
    by_cases h : x.1 = t
    · subst h; simp [tid]
    · simp [tid, h]

@[simp] theorem answered_evs_append (t : Tid) : ∀ (m : List (O × R)) (l : List (Ev O R)),
    answered (evs t m ++ l) = m ++ answered l
  | [], _ => rfl
  | x :: m, l => by
    rw [evs_cons, List.cons_append, List.cons_append, answered, answered_evs_append t m l]; rfl

theorem answered_evs (t : Tid) (m : List (O × R)) : answered (evs t m) = m := by
  have := answered_evs_append t m ([] : List (Ev O R))
  simpa [answered] using this

theorem alternates_evs (t : Tid) : ∀ (m : List (O × R)) (l : List (Ev O R)), Alternates (evs t m ++ l) ↔ Alternates l
  | [], _ => Iff.rfl
  | x :: m, l => by
    rw [evs_cons, List.cons_append, List.cons_append, Alternates]
    exact alternates_evs t m l

theorem rets_proj (t : Tid) : ∀ h : List (Ev O R), rets t (proj t h) = rets t h
  | [] => rfl
  | e :: h => by
    have ih := rets_proj t h
    rw [show e :: h = [e] ++ h from rfl, proj_append, rets_append, rets_append, ih, proj_one]
    congr 1
    cases e <;> by_cases hu : ‹Tid› = t <;> simp [tid, hu, rets]

theorem invs_proj (t : Tid) : ∀ h : List (Ev O R), invs t (proj t h) = invs t h
  | [] => rfl
  | e :: h => by
    have ih := invs_proj t h
    rw [show e :: h = [e] ++ h from rfl, proj_append, invs_append, invs_append, ih, proj_one]
    congr 1
    cases e <;> by_cases hu : ‹Tid› = t <;> simp [tid, hu, invs]

@[simp] theorem rets_evs (t : Tid) : ∀ m : List (O × R), rets t (evs t m) = m.length
  | [] => rfl
  | x :: m => by
    have ih := rets_evs t m
    rw [evs_cons, show (Ev.inv t x.1 :: .ret t x.2 :: evs t m : List (Ev O R)) = [.inv t x.1] ++ ([.ret t x.2] ++ evs t m) from rfl,
      rets_append, rets_append, ih]
    simp [rets, Nat.add_comm]

@[simp] theorem invs_evs (t : Tid) : ∀ m : List (O × R), invs t (evs t m) = m.length
  | [] => rfl
  | x :: m => by
    have ih := invs_evs t m
    rw [evs_cons, show (Ev.inv t x.1 :: .ret t x.2 :: evs t m : List (Ev O R)) = [.inv t x.1] ++ ([.ret t x.2] ++ evs t m) from rfl,
      invs_append, invs_append, ih]
    simp [invs, Nat.add_comm]

theorem rets_inv (t u : Tid) (op : O) : rets t ([.inv u op] : List (Ev O R)) = 0 := rfl
theorem invs_ret (t u : Tid) (r : R) : invs t ([.ret u r] : List (Ev O R)) = 0 := rfl
theorem invs_inv (t : Tid) (op : O) : invs t ([.inv t op] : List (Ev O R)) = 1 := by simp [invs]
theorem rets_ret (t : Tid) (r : R) : rets t ([.ret t r] : List (Ev O R)) = 1 := by simp [rets]

/-- A prefix of a sequential history. -/
theorem events_prefix : ∀ (q : List (Tid × O × R)) {h1 h2 : List (Ev O R)}, events q = h1 ++ h2 →
    ∃ q1 q2, q = q1 ++ q2 ∧ ∀ t, rets t h1 ≤ (mine t q1).length ∧ (mine t q1).length ≤ invs t h1
  | [], h1, h2, h => by
    have : h1 = [] := by simp [events] at h; exact h.1
    subst this
    exact ⟨[], [], rfl, fun t => ⟨Nat.le_refl _, Nat.le_refl _⟩⟩
  | x :: q, h1, h2, h => by
    have he : events (x :: q) = .inv x.1 x.2.1 :: .ret x.1 x.2.2 :: events q := rfl
    rw [he] at h
    rcases h1 with _ | ⟨a, _ | ⟨b, h1⟩⟩
    · exact ⟨[], x :: q, rfl, fun t => ⟨Nat.le_refl _, Nat.le_refl _⟩⟩
    · simp only [List.cons_append, List.nil_append, List.cons.injEq] at h
      refine ⟨[], x :: q, rfl, fun t => ⟨?_, Nat.zero_le _⟩⟩
      rw [← h.1]; exact Nat.le_refl _
    · simp only [List.cons_append, List.cons.injEq] at h
      obtain ⟨rfl, rfl, h⟩ := h
      obtain ⟨q1, q2, rfl, hq⟩ := events_prefix q h
      refine ⟨x :: q1, q2, rfl, fun t => ?_⟩
      have := hq t
      rw [show (Ev.inv x.1 x.2.1 :: .ret x.1 x.2.2 :: h1 : List (Ev O R)) = [.inv x.1 x.2.1] ++ ([.ret x.1 x.2.2] ++ h1) from rfl]
      simp only [rets_append, invs_append, rets_inv, invs_ret, mine_cons]
      by_cases hx : x.1 = t
      · subst hx
        simp only [rets_ret, invs_inv, if_true, List.length_cons]
        omega
      · simp only [hx, if_false]
        have e1 : rets t ([.ret x.1 x.2.2] : List (Ev O R)) = 0 := by simp [rets, hx]
        have e2 : invs t ([.inv x.1 x.2.1] : List (Ev O R)) = 0 := by simp [invs, hx]
        omega

theorem events_before {q q1 q2 : List (Tid × O × R)} (hq : q = q1 ++ q2) {t u : Tid} {i j : Nat}
    (h1 : i < (mine t q1).length) (h2 : (mine u q1).length ≤ j) : Before (events q) (t, i) (u, j) := by
  refine ⟨events q1, events q2, by rw [hq]; exact List.flatMap_append, ?_, ?_⟩
  · show i < rets t (events q1)
    rw [← rets_proj, proj_events, rets_evs]; exact h1
  · show invs u (events q1) ≤ j
    rw [← invs_proj, proj_events, invs_evs]; exact h2

theorem Legal.append {S : Spec C O R} {c : C} {q1 q2 : List (Tid × O × R)} {c'' : C} :
    Legal S c (q1 ++ q2) c'' ↔ ∃ c', Legal S c q1 c' ∧ Legal S c' q2 c'' := by
  constructor
  · induction q1 generalizing c with
    | nil => exact fun h => ⟨c, .nil c, h⟩
    | cons x q1 ih =>
      intro h
      cases h with
      | cons hs hl =>
        obtain ⟨c', h1, h2⟩ := ih hl
        exact ⟨c', .cons hs h1, h2⟩
  · rintro ⟨c', h1, h2⟩
    induction h1 with
    | nil => exact h2
    | cons hs _ ih => exact .cons hs (ih h2)

/-! ## Threads

How the status of a thread goes with its events `l` and the calls `m` of it that have taken effect. -/

inductive Fits (t : Tid) : List (Ev O R) → List (O × R) → Status O R → Prop
  | idle (m : List (O × R)) : Fits t (evs t m) m .idle
  | pending (m : List (O × R)) (op : O) : Fits t (evs t m ++ [.inv t op]) m (.pending op)
  | done (m : List (O × R)) (op : O) (r : R) : Fits t (evs t m ++ [.inv t op]) (m ++ [(op, r)]) (.done r)

theorem Fits.counts {t : Tid} {l : List (Ev O R)} {m : List (O × R)} {st} (h : Fits t l m st) :
    rets t l ≤ m.length ∧ m.length ≤ invs t l := by
  cases h with
  | idle => simp
  | pending => simp [rets_inv, invs_inv]
  | done => simp [rets_inv, invs_inv]

/-! ## From steps to Herlihy and Wing -/

theorem snoc_split {α : Type} {h h1 h2 : List α} {e : α} (hs : h ++ [e] = h1 ++ h2) :
    h1 = h ++ [e] ∨ ∃ h3, h = h1 ++ h3 := by
  rcases List.eq_nil_or_concat h2 with rfl | ⟨h3, x, rfl⟩
  · exact .inl (by rw [hs, List.append_nil])
  · right
    rw [List.concat_eq_append, ← List.append_assoc] at hs
    exact ⟨h3, (List.append_inj' hs rfl).1⟩

theorem steps_inv {S : Spec C O R} {c : C} {h : List (Ev O R)} {s : State C O R}
    (hx : Exec (Step S) { obj := c, th := fun _ => .idle } h s) :
    ∃ q, Legal S c q s.obj ∧ (∀ t, Fits t (proj t h) (mine t q) (s.th t)) ∧
      ∀ h1 h2, h = h1 ++ h2 → ∃ q1 q2, q = q1 ++ q2 ∧
        ∀ t, rets t h1 ≤ (mine t q1).length ∧ (mine t q1).length ≤ invs t h1 := by
  generalize hi : ({ obj := c, th := fun _ => .idle } : State C O R) = i at hx
  induction hx with
  | refl =>
    subst hi
    refine ⟨[], .nil c, fun t => .idle [], fun h1 h2 hh => ⟨[], [], rfl, fun t => ?_⟩⟩
    have : h1 = [] := (List.append_eq_nil_iff.1 hh.symm).1
    subst this; exact ⟨Nat.le_refl _, Nat.le_refl _⟩
  | @tau h s s' _ st ih =>
    obtain ⟨q, hl, hf, hp⟩ := ih
    generalize hn : (none : Option (Ev O R)) = o at st
    cases st with
    | inv => cases hn
    | ret => cases hn
    | commit t op c' r hth hs =>
      refine ⟨q ++ [(t, op, r)], Legal.append.2 ⟨_, hl, .cons hs (.nil _)⟩, fun u => ?_, fun h1 h2 hh => ?_⟩
      · have := hf u
        by_cases hu : u = t
        · subst hu
          rw [hth] at this
          show Fits u _ _ (Function.update s.th u (.done r) u)
          rw [Function.update_self, mine_append, mine_cons]
          generalize hm : mine u q = m at this
          generalize hk : proj u h = l at this
          cases this with
          | pending => simpa using Fits.done _ _ _
        · show Fits u _ _ (Function.update s.th t (.done r) u)
          rw [Function.update_of_ne hu, mine_append, mine_cons, if_neg (Ne.symm hu)]
          simpa using this
      · obtain ⟨q1, q2, rfl, hq⟩ := hp h1 h2 hh
        exact ⟨q1, q2 ++ [(t, op, r)], by simp, hq⟩
  | @ev h s e s' _ st ih =>
    obtain ⟨q, hl, hf, hp⟩ := ih
    have key : s'.obj = s.obj ∧ ∀ t, Fits t (proj t (h ++ [e])) (mine t q) (s'.th t) := by
      generalize hn : some e = o at st
      cases st with
      | commit => cases hn
      | inv t op hth =>
        cases hn
        refine ⟨rfl, fun u => ?_⟩
        have := hf u
        rw [proj_append, proj_one]
        by_cases hu : u = t
        · subst hu
          rw [hth] at this
          show Fits u _ _ (Function.update s.th u (.pending op) u)
          rw [Function.update_self, if_pos (show tid (Ev.inv u op : Ev O R) = u from rfl)]
          generalize hm : mine u q = m at this
          generalize hk : proj u h = l at this
          cases this with
          | idle => exact Fits.pending _ _
        · show Fits u _ _ (Function.update s.th t (.pending op) u)
          rw [Function.update_of_ne hu, if_neg (show ¬ tid (Ev.inv t op : Ev O R) = u from Ne.symm hu)]
          simpa using this
      | ret t r hth =>
        cases hn
        refine ⟨rfl, fun u => ?_⟩
        have := hf u
        rw [proj_append, proj_one]
        by_cases hu : u = t
        · subst hu
          rw [hth] at this
          show Fits u _ _ (Function.update s.th u .idle u)
          rw [Function.update_self, if_pos (show tid (Ev.ret u r : Ev O R) = u from rfl)]
          generalize hm : mine u q = m at this
          generalize hk : proj u h = l at this
          cases this with
          | done m op =>
            have := Fits.idle (t := u) (m ++ [(op, r)])
            simpa using this
        · show Fits u _ _ (Function.update s.th t .idle u)
          rw [Function.update_of_ne hu, if_neg (show ¬ tid (Ev.ret t r : Ev O R) = u from Ne.symm hu)]
          simpa using this
    refine ⟨q, by rw [key.1]; exact hl, key.2, fun h1 h2 hh => ?_⟩
    rcases snoc_split hh with rfl | ⟨h3, h3e⟩
    · refine ⟨q, [], by simp, fun t => ?_⟩
      have := (key.2 t).counts
      rwa [rets_proj, invs_proj] at this
    · exact hp h1 h3 h3e

/-- The returns still missing, of the threads in a list. -/
theorem returns (st : Tid → Status O R) : ∀ ts : List Tid, ∃ more : List (Ev O R),
    (∀ e ∈ more, ∃ t r, e = .ret t r) ∧
    (∀ t r, t ∈ ts → st t = .done r → proj t more = [.ret t r]) ∧
    ∀ t, (t ∉ ts ∨ ∀ r, st t ≠ .done r) → proj t more = []
  | [] => ⟨[], by simp, by simp, by simp⟩
  | u :: ts => by
    obtain ⟨more, h1, h2, h3⟩ := returns st ts
    by_cases hu : u ∈ ts
    · refine ⟨more, h1, fun t r ht => h2 t r ?_, fun t ht => h3 t ?_⟩
      · rcases List.mem_cons.1 ht with rfl | ht
        · exact hu
        · exact ht
      · exact ht.imp (fun a b => a (List.mem_cons_of_mem _ b)) id
    · by_cases hd : ∃ r, st u = .done r
      · obtain ⟨r, hd⟩ := hd
        refine ⟨.ret u r :: more, ?_, fun t r' ht hr => ?_, fun t ht => ?_⟩
        · intro e he
          rcases List.mem_cons.1 he with rfl | he
          · exact ⟨u, r, rfl⟩
          · exact h1 e he
        · rw [show Ev.ret u r :: more = [.ret u r] ++ more from rfl, proj_append, proj_one]
          by_cases htu : t = u
          · subst htu
            rw [hd] at hr; cases hr
            rw [h3 t (.inl hu), if_pos (show tid (Ev.ret t r : Ev O R) = t from rfl)]; rfl
          · rw [if_neg (show ¬ tid (Ev.ret u r : Ev O R) = t from Ne.symm htu), h2 t r' ((List.mem_cons.1 ht).resolve_left htu) hr]; rfl
        · rw [show Ev.ret u r :: more = [.ret u r] ++ more from rfl, proj_append, proj_one]
          by_cases htu : t = u
          · subst htu
            rcases ht with ht | ht
            · exact absurd (List.mem_cons_self ..) ht
            · exact absurd hd (ht r)
          · rw [if_neg (show ¬ tid (Ev.ret u r : Ev O R) = t from Ne.symm htu), h3 t (ht.imp (fun a b => a (List.mem_cons_of_mem _ b)) id)]; rfl
      · refine ⟨more, h1, fun t r ht hr => ?_, fun t ht => ?_⟩
        · rcases List.mem_cons.1 ht with rfl | ht
          · exact absurd ⟨r, hr⟩ hd
          · exact h2 t r ht hr
        · by_cases htu : t = u
          · subst htu; exact h3 t (.inl hu)
          · exact h3 t (ht.imp (fun a b => a (List.mem_cons_of_mem _ b)) id)

theorem rets_only {more : List (Ev O R)} (h : ∀ e ∈ more, ∃ t r, e = .ret t r) (t : Tid) : invs t more = 0 := by
  rw [invs, List.countP_eq_zero]
  intro e he
  obtain ⟨u, r, rfl⟩ := h e he
  simp

theorem append_split {α : Type} {a b x y : List α} (h : a ++ b = x ++ y) :
    (∃ z, a = x ++ z) ∨ ∃ z, x = a ++ z ∧ b = z ++ y := by
  rcases List.append_eq_append_iff.1 h with ⟨z, h1, h2⟩ | ⟨z, h1, h2⟩
  · exact .inr ⟨z, h1, h2⟩
  · exact .inl ⟨z, h1⟩

theorem of_steps {S : Spec C O R} {c c' : C} {h : List (Ev O R)} (hl : Object.LinearizableTo S c h c') :
    LinearizableTo S c h c' := by
  obtain ⟨s, hx, rfl⟩ := hl
  obtain ⟨q, hl, hf, hp⟩ := steps_inv hx
  obtain ⟨more, hm, hd, hn⟩ := returns s.th (q.map (·.1))
  have shape : ∀ t, proj t (h ++ more) = evs t (mine t q) ∨ ∃ op, proj t (h ++ more) = evs t (mine t q) ++ [.inv t op] := by
    intro t
    have hft := hf t
    rw [proj_append]
    generalize hst : s.th t = st at hft
    generalize hmm : mine t q = m at hft ⊢
    generalize hk : proj t h = l at hft ⊢
    cases hft with
    | idle => left; rw [hn t (.inr (by simp [hst])), List.append_nil]
    | pending _ op => right; exact ⟨op, by rw [hn t (.inr (by simp [hst])), List.append_nil]⟩
    | done m op r =>
      left
      have : t ∈ q.map (·.1) := by
        have hin : (op, r) ∈ mine t q := by rw [hmm]; simp
        simp only [mine, List.mem_map, List.mem_filter, beq_iff_eq] at hin
        obtain ⟨x, ⟨hx, hxt⟩, _⟩ := hin
        exact List.mem_map.2 ⟨x, hx, hxt⟩
      rw [hd t r this hst]; simp
  have bound : ∀ t, rets t (h ++ more) ≤ (mine t q).length := by
    intro t
    rw [← rets_proj]
    rcases shape t with h | ⟨op, h⟩ <;> rw [h] <;> simp [rets_inv]
  refine ⟨more, q, hm, fun t => ?_, fun t => ?_, hl, fun a b hab => ?_⟩
  · rcases shape t with h | ⟨op, h⟩
    · rw [h]; simpa [Alternates] using (alternates_evs t (mine t q) ([] : List (Ev O R)))
    · rw [h, alternates_evs]; trivial
  · rw [proj_events, answered_evs]
    rcases shape t with h | ⟨op, h⟩
    · rw [h, answered_evs]
    · rw [h, answered_evs_append]; simp [answered]
  · obtain ⟨x, y, hxy, h1, h2⟩ := hab
    rcases append_split hxy with ⟨z, hz⟩ | ⟨z, rfl, rfl⟩
    · obtain ⟨q1, q2, hq, hc⟩ := hp x z hz
      have ha := hc a.1
      have hb := hc b.1
      exact events_before hq (by omega) (by omega)
    · have ha := bound a.1
      have hb := (hf b.1).counts
      rw [invs_proj] at hb
      simp only [rets_append, invs_append] at h1 h2 ha
      exact events_before (q1 := q) (q2 := []) (by simp) (by omega) (by omega)

/-! ## From Herlihy and Wing to steps -/

theorem alternates_shape (t : Tid) : ∀ l : List (Ev O R), (∀ e ∈ l, tid e = t) → Alternates l →
    l = evs t (answered l) ∨ ∃ op, l = evs t (answered l) ++ [.inv t op]
  | [], _, _ => .inl rfl
  | [.inv u op], h, _ => by
    have : u = t := h _ (List.mem_cons_self ..)
    subst this
    exact .inr ⟨op, rfl⟩
  | .inv u op :: .ret v r :: l, h, ha => by
    have h1 : u = t := h (.inv u op) (by simp)
    have h2 : v = t := h (.ret v r) (by simp)
    subst h1; subst h2
    rcases alternates_shape v l (fun e he => h e (by simp [he])) ha with e | ⟨op', e⟩
    · left; rw [answered, evs_cons, ← e]
    · right; exact ⟨op', by rw [answered, evs_cons, List.cons_append, List.cons_append, ← e]⟩
  | .ret _ _ :: _, _, ha => by simp [Alternates] at ha
  | .inv _ _ :: .inv _ _ :: _, _, ha => by simp [Alternates] at ha

theorem mem_proj {t : Tid} {h : List (Ev O R)} {e : Ev O R} (he : e ∈ proj t h) : tid e = t := by
  simpa using (List.mem_filter.1 he).2

/-- What a thread still has to do is a suffix of what it does. -/
structure Rest (t : Tid) (m : List (O × R)) (l rest : List (Ev O R)) : Prop where
  alt : Alternates (l ++ rest)
  ans : answered (l ++ rest) = m

/-- A call that was made and takes effect in the sequential history is pending with that operation. -/
theorem Fits.must {t : Tid} {l rest : List (Ev O R)} {m m' : List (O × R)} {x : O × R} {st : Status O R} (hf : Fits t l m st)
    (hr : Rest t (m ++ x :: m') l rest) (hn : m.length + 1 ≤ invs t l) :
    st = .pending x.1 ∧ ∀ y, Fits t l (m ++ [(x.1, y)]) (.done y) := by
  cases hf with
  | idle => simp at hn; omega
  | done => simp [invs_inv] at hn; omega
  | pending m op =>
    have ha := hr.ans
    have hl := hr.alt
    rw [List.append_assoc, answered_evs_append, List.append_cancel_left_eq] at ha
    rw [List.append_assoc, alternates_evs] at hl
    have hop : op = x.1 := by
      rcases rest with _ | ⟨e, rest⟩
      · simp [answered] at ha
      · cases e with
        | inv u o => simp [Alternates] at hl
        | ret u r =>
          rw [List.singleton_append, answered, List.cons.injEq] at ha
          rw [← ha.1]
    subst hop
    exact ⟨rfl, fun y => .done ..⟩

theorem catch_up {S : Spec C O R} {i : State C O R} {h h' : List (Ev O R)} {c : C} {q1 qx q3 : List (Tid × O × R)}
    (hR : ∀ t, Rest t (mine t (q1 ++ qx ++ q3)) (proj t h) (proj t h'))
    (hn : ∀ t, (mine t (q1 ++ qx)).length ≤ invs t h)
    {s : State C O R} (hx : Exec (Step S) i h s) (hf : ∀ t, Fits t (proj t h) (mine t q1) (s.th t))
    (hl : Legal S s.obj qx c) :
    ∃ s', Exec (Step S) i h s' ∧ s'.obj = c ∧ ∀ t, Fits t (proj t h) (mine t (q1 ++ qx)) (s'.th t) := by
  induction qx generalizing q1 s with
  | nil =>
    cases hl
    exact ⟨s, hx, rfl, by simpa using hf⟩
  | cons x qx ih =>
    obtain ⟨u, op, r⟩ := x
    cases hl with
    | @cons _ c1 _ _ _ _ _ hs hl =>
      have hm : mine u (q1 ++ (u, op, r) :: qx) = mine u q1 ++ (op, r) :: mine u qx := by simp [mine_cons]
      have hru : Rest u (mine u q1 ++ (op, r) :: (mine u qx ++ mine u q3)) (proj u h) (proj u h') := by
        have := hR u
        rw [mine_append, hm] at this
        simpa using this
      have hnu := hn u
      rw [hm, ← invs_proj] at hnu
      simp only [List.length_append, List.length_cons] at hnu
      obtain ⟨hp, hd⟩ := (hf u).must hru (by omega)
      have e : q1 ++ (u, op, r) :: qx = (q1 ++ [(u, op, r)]) ++ qx := by simp
      rw [e] at hR hn ⊢
      refine ih hR hn (s := { obj := c1, th := Function.update s.th u (.done r) }) (.tau hx (.commit s u op c1 r hp hs))
        (fun t => ?_) hl
      show Fits t _ _ (Function.update s.th u (.done r) t)
      by_cases ht : t = u
      · subst ht
        rw [Function.update_self, mine_append, mine_cons]
        simpa using hd r
      · rw [Function.update_of_ne ht, mine_append, mine_cons, if_neg (Ne.symm ht)]
        simpa using hf t

/-- A thread's next return, seen from its status. -/
theorem Fits.return {t : Tid} {l rest : List (Ev O R)} {m m2 : List (O × R)} {r : R} {st : Status O R} (hf : Fits t l m st)
    (hr : Rest t (m ++ m2) l (.ret t r :: rest)) :
    (∃ op m3, st = .pending op ∧ m2 = (op, r) :: m3) ∨ st = .done r := by
  have ha := hr.ans
  have hl := hr.alt
  cases hf with
  | idle =>
    rw [alternates_evs] at hl
    simp [Alternates] at hl
  | pending m op =>
    rw [List.append_assoc, answered_evs_append, List.append_cancel_left_eq, List.singleton_append, answered] at ha
    exact .inl ⟨op, _, rfl, ha.symm⟩
  | done m op r' =>
    rw [List.append_assoc, List.append_assoc, answered_evs_append, List.append_cancel_left_eq, List.singleton_append, answered,
      List.singleton_append, List.cons.injEq, Prod.mk.injEq] at ha
    exact .inr (by rw [ha.1.2])

theorem Fits.call {t : Tid} {l rest : List (Ev O R)} {m m2 : List (O × R)} {op : O} {st : Status O R} (hf : Fits t l m st)
    (hr : Rest t m2 l (.inv t op :: rest)) : st = .idle := by
  have hl := hr.alt
  cases hf with
  | idle => rfl
  | pending => rw [List.append_assoc, alternates_evs] at hl; simp [Alternates] at hl
  | done => rw [List.append_assoc, alternates_evs] at hl; simp [Alternates] at hl

theorem Fits.effect {t : Tid} {l : List (Ev O R)} {m : List (O × R)} {op : O} {r : R} {st : Status O R}
    (hf : Fits t l (m ++ [(op, r)]) st) (hn : rets t l = m.length) : st = .done r := by
  generalize hk : m ++ [(op, r)] = k at hf
  have hlen : k.length = m.length + 1 := by rw [← hk]; simp
  cases hf with
  | idle => rw [rets_evs] at hn; omega
  | pending => rw [rets_append, rets_evs, rets_inv] at hn; omega
  | done m' op' r' =>
    have := (List.append_inj' hk rfl).2
    simp only [List.cons.injEq, Prod.mk.injEq, and_true] at this
    rw [this.2]

/-- The first call of thread `t`. -/
theorem mine_first {t : Tid} {x : O × R} {m : List (O × R)} : ∀ {q : List (Tid × O × R)}, mine t q = x :: m →
    ∃ qa qb, q = qa ++ (t, x) :: qb ∧ mine t qa = []
  | [], h => by simp at h
  | y :: q, h => by
    rw [mine_cons] at h
    by_cases hy : y.1 = t
    · rw [if_pos hy, List.cons.injEq] at h
      exact ⟨[], q, by rw [← h.1, ← hy]; rfl, rfl⟩
    · rw [if_neg hy] at h
      obtain ⟨qa, qb, rfl, hq⟩ := mine_first h
      exact ⟨y :: qa, qb, rfl, by rw [mine_cons, if_neg hy, hq]⟩

theorem mine_le {t : Tid} {a b : List (Tid × O × R)} : (mine t a).length ≤ (mine t (a ++ b)).length := by simp

section
variable {S : Spec C O R} {c c' : C} {H : List (Ev O R)} {q : List (Tid × O × R)}
  (hR : ∀ h h', H = h ++ h' → ∀ t, Rest t (mine t q) (proj t h) (proj t h'))
  (hB : ∀ a b, Before H a b → Before (events q) a b)

/-- After part `h` of the history the specification has made the calls `q1` of `q`. -/
def Reached (S : Spec C O R) (c c' : C) (q : List (Tid × O × R)) (h : List (Ev O R)) : Prop :=
  ∃ (q1 q2 : List (Tid × O × R)) (s : State C O R), q = q1 ++ q2 ∧
    Exec (Step S) { obj := c, th := fun _ => .idle } h s ∧ Legal S s.obj q2 c' ∧ ∀ t, Fits t (proj t h) (mine t q1) (s.th t)

include hR hB in
theorem reached_step {h h' : List (Ev O R)} {e : Ev O R} (hH : H = h ++ (e :: h')) (hr : Reached S c c' q h) :
    Reached S c c' q (h ++ [e]) := by
  obtain ⟨q1, q2, s, hq, hx, hl, hf⟩ := hr
  have hRt := hR h (e :: h') hH
  cases e with
  | inv t op =>
    have hidle : s.th t = .idle := by
      have := hRt t
      rw [show Ev.inv t op :: h' = [.inv t op] ++ h' from rfl, proj_append, proj_one,
        if_pos (show tid (Ev.inv t op : Ev O R) = t from rfl)] at this
      exact (hf t).call this
    refine ⟨q1, q2, _, hq, .ev hx (.inv s t op hidle), hl, fun u => ?_⟩
    have hfu := hf u
    show Fits u _ _ (Function.update s.th t (.pending op) u)
    rw [proj_append, proj_one]
    by_cases hu : u = t
    · subst hu
      rw [hidle] at hfu
      rw [Function.update_self, if_pos (show tid (Ev.inv u op : Ev O R) = u from rfl)]
      generalize hm : mine u q1 = m at hfu
      generalize hk : proj u h = l at hfu
      cases hfu with
      | idle => exact Fits.pending _ _
    · rw [Function.update_of_ne hu, if_neg (show ¬ tid (Ev.inv t op : Ev O R) = u from Ne.symm hu)]
      simpa using hfu
  | ret t r =>
    -- first let the call of `t` take effect, with everything before it
    have hdone : ∃ (q1 q2 : List (Tid × O × R)) (s : State C O R), q = q1 ++ q2 ∧
        Exec (Step S) { obj := c, th := fun _ => .idle } h s ∧ Legal S s.obj q2 c' ∧
        (∀ u, Fits u (proj u h) (mine u q1) (s.th u)) ∧ s.th t = .done r := by
      have ht := hRt t
      rw [show Ev.ret t r :: h' = [.ret t r] ++ h' from rfl, proj_append, proj_one,
        if_pos (show tid (Ev.ret t r : Ev O R) = t from rfl), hq, mine_append] at ht
      rcases (hf t).return ht with ⟨op, m3, hp, hm2⟩ | hd
      · obtain ⟨qa, qb, rfl, hqa⟩ := mine_first hm2
        have hq' : q = q1 ++ (qa ++ [(t, op, r)]) ++ qb := by rw [hq]; simp
        have hcount : (mine t q1).length + 1 = invs t h ∧ rets t h = (mine t q1).length := by
          have := hf t
          rw [hp] at this
          rw [← invs_proj, ← rets_proj]
          generalize hm : mine t q1 = m at this
          generalize hk : proj t h = l at this
          cases this with
          | pending => simp [invs_inv, rets_inv]
        have hn : ∀ u, (mine u (q1 ++ (qa ++ [(t, op, r)]))).length ≤ invs u h := by
          intro u
          by_cases hu : u = t
          · subst hu
            simp only [mine_append, hqa, mine_cons, if_pos, mine_nil, List.nil_append, List.length_append, List.length_cons, List.length_nil]
            omega
          · have e : mine u (q1 ++ (qa ++ [(t, op, r)])) = mine u (q1 ++ qa) := by
              simp [mine_cons, Ne.symm hu]
            rw [e]
            refine Nat.le_of_not_lt fun hlt => ?_
            have hb : Before H (t, (mine t q1).length) (u, (mine u (q1 ++ qa)).length - 1) := by
              refine ⟨h ++ [.ret t r], h', by rw [hH]; simp, ?_, ?_⟩
              · show _ < rets t _
                rw [rets_append, rets_ret]; omega
              · show invs u _ ≤ _
                rw [invs_append, invs_ret]; omega
            obtain ⟨x, y, hxy, hb1, hb2⟩ := hB _ _ hb
            obtain ⟨p1, p2, hp12, hpc⟩ := events_prefix q hxy
            have h1 := (hpc t).1
            have h2 := (hpc u).2
            simp only at hb1 hb2
            have hqq : (q1 ++ qa) ++ ((t, op, r) :: qb) = p1 ++ p2 := by rw [← hp12, hq]; simp
            rcases append_split hqq with ⟨z, hz⟩ | ⟨z, hz, _⟩
            · have : (mine t p1).length ≤ (mine t (q1 ++ qa)).length := by rw [hz]; exact mine_le
              rw [mine_append, hqa, List.append_nil] at this
              omega
            · have : (mine u (q1 ++ qa)).length ≤ (mine u p1).length := by rw [hz]; exact mine_le
              omega
        rw [show qa ++ (t, op, r) :: qb = (qa ++ [(t, op, r)]) ++ qb by simp] at hl
        obtain ⟨c2, hLx, hLy⟩ := Legal.append.1 hl
        obtain ⟨s', hx', ho, hf'⟩ := catch_up (h := h) (h' := .ret t r :: h') (q3 := qb) (by rw [← hq']; exact hRt) hn hx hf hLx
        refine ⟨_, qb, s', hq', hx', by rw [ho]; exact hLy, hf', ?_⟩
        have hft := hf' t
        rw [mine_append, mine_append, hqa, mine_cons] at hft
        exact Fits.effect (m := mine t q1) (op := op) (by simpa using hft) (by rw [rets_proj]; exact hcount.2)
      · exact ⟨q1, q2, s, hq, hx, hl, hf, hd⟩
    obtain ⟨q1, q2, s, hq, hx, hl, hf, hd⟩ := hdone
    refine ⟨q1, q2, _, hq, .ev hx (.ret s t r hd), hl, fun u => ?_⟩
    have hfu := hf u
    show Fits u _ _ (Function.update s.th t .idle u)
    rw [proj_append, proj_one]
    by_cases hu : u = t
    · subst hu
      rw [hd] at hfu
      rw [Function.update_self, if_pos (show tid (Ev.ret u r : Ev O R) = u from rfl)]
      generalize hm : mine u q1 = m at hfu
      generalize hk : proj u h = l at hfu
      cases hfu with
      | done m op =>
        have := Fits.idle (t := u) (m ++ [(op, r)])
        simpa using this
    · rw [Function.update_of_ne hu, if_neg (show ¬ tid (Ev.ret t r : Ev O R) = u from Ne.symm hu)]
      simpa using hfu

include hR hB in
theorem reached_all : ∀ (h' : List (Ev O R)) (h more : List (Ev O R)), H = h ++ h' ++ more → Reached S c c' q h →
    Reached S c c' q (h ++ h')
  | [], h, _, _, hr => by simpa using hr
  | e :: h', h, more, hH, hr => by
    have := reached_all h' (h ++ [e]) more (by rw [hH]; simp)
      (reached_step hR hB (h' := h' ++ more) (by rw [hH]; simp) hr)
    simpa using this
end

theorem to_steps {S : Spec C O R} {c c' : C} {h : List (Ev O R)} (hl : LinearizableTo S c h c') :
    Object.LinearizableTo S c h c' := by
  obtain ⟨more, q, hm, hw, ha, hL, hB⟩ := hl
  have hR : ∀ x y, h ++ more = x ++ y → ∀ t, Rest t (mine t q) (proj t x) (proj t y) := by
    intro x y hxy t
    constructor
    · rw [← proj_append, ← hxy]; exact hw t
    · rw [← proj_append, ← hxy, ha t, proj_events, answered_evs]
  have h0 : Reached S c c' q [] := ⟨[], q, _, rfl, .refl _, hL, fun t => .idle []⟩
  obtain ⟨q1, q2, s, hq, hx, hl, hf⟩ := reached_all hR hB h [] more rfl h0
  rw [List.nil_append] at hx
  simp only [List.nil_append] at hf
  have hn : ∀ t, (mine t (q1 ++ q2)).length ≤ invs t h := by
    intro t
    have e : invs t h = invs t (h ++ more) := by rw [invs_append, rets_only hm, Nat.add_zero]
    rw [e, ← hq, ← invs_proj]
    have hat := ha t
    rw [proj_events, answered_evs] at hat
    have hsh := alternates_shape t (proj t (h ++ more)) (fun _ => mem_proj) (hw t)
    rw [hat] at hsh
    rcases hsh with h | ⟨op, h⟩ <;> rw [h] <;> simp
  obtain ⟨s', hx', ho, _⟩ := catch_up (h := h) (h' := more) (q3 := []) (by rw [List.append_nil, ← hq]; exact hR h more rfl) hn hx hf hl
  exact ⟨s', hx', ho⟩

/-- **C62.** For every sequential object, state and history, linearizability as used by all theorems here — every call has
one indivisible moment between its invocation and its return — is linearizability as Herlihy and Wing define it. -/
theorem linearizable_iff (S : Spec C O R) (c : C) (h : List (Ev O R)) (c' : C) :
    Object.LinearizableTo S c h c' ↔ LinearizableTo S c h c' := ⟨of_steps, to_steps⟩

/-- A register: `some v` writes `v`, `none` reads. -/
def register : Spec Nat (Option Nat) Nat where
  sem op c c' r := match op with | some v => c' = v ∧ r = 0 | none => c' = c ∧ r = c

/-- Non-trivial case: a read returns the value of a write that has not returned; a later read must return it too. -/
example : LinearizableTo register 0
    [.inv 0 (some 7), .inv 1 none, .ret 1 7, .inv 1 none, .ret 1 7] 7 := by
  refine (linearizable_iff _ _ _ _).1 ?_
  have s0 := Exec.refl (step := Step register) { obj := 0, th := fun _ => .idle }
  have s1 := Exec.ev s0 (.inv _ 0 (some 7) rfl)
  have s2 := Exec.tau s1 (.commit _ 0 (some 7) 7 0 rfl ⟨rfl, rfl⟩)
  have s3 := Exec.ev s2 (.inv _ 1 none rfl)
  have s4 := Exec.tau s3 (.commit _ 1 none 7 7 rfl ⟨rfl, rfl⟩)
  have s5 := Exec.ev s4 (.ret _ 1 7 rfl)
  have s6 := Exec.ev s5 (.inv _ 1 none rfl)
  have s7 := Exec.tau s6 (.commit _ 1 none 7 7 rfl ⟨rfl, rfl⟩)
  exact ⟨_, Exec.ev s7 (.ret _ 1 7 rfl), rfl⟩

theorem mine_eq_nil {q : List (Tid × O × R)} (h : ∀ t, mine t q = []) : q = [] := by
  cases q with
  | nil => rfl
  | cons x q =>
    have := h x.1
    rw [mine_cons, if_pos rfl] at this
    cases this

/-- And an impossible one: the write has returned, and a read made afterwards does not see it. -/
example : ∀ c', ¬ LinearizableTo register 0 [.inv 0 (some 7), .ret 0 0, .inv 1 none, .ret 1 0] c' := by
  rintro c' ⟨more, q, hm, hw, ha, hL, hB⟩
  have hmore : ∀ t, proj t more = [] := by
    intro t
    have hwt := hw t
    rw [proj_append] at hwt
    have hall : ∀ e ∈ proj t more, ∃ u r, e = .ret u r := fun e he => hm e (List.mem_filter.1 he).1
    generalize proj t more = l at hwt hall
    rcases l with _ | ⟨e, l⟩
    · rfl
    · obtain ⟨u, r, rfl⟩ := hall e (List.mem_cons_self ..)
      have e0 : proj t [Ev.inv 0 (some 7), .ret 0 0, .inv 1 none, .ret 1 0] = [Ev.inv 0 (some 7), .ret 0 0] ∨
          proj t [Ev.inv 0 (some 7), .ret 0 0, .inv 1 none, .ret 1 0] = [Ev.inv 1 none, .ret 1 0] ∨
          proj t [Ev.inv 0 (some 7), .ret 0 0, .inv 1 none, .ret 1 0] = ([] : List (Ev (Option Nat) Nat)) := by
        by_cases h0 : t = 0
        · subst h0; exact .inl rfl
        · by_cases h1 : t = 1
          · subst h1; exact .inr (.inl rfl)
          · right; right; simp [proj, tid, Ne.symm h0, Ne.symm h1]
      rcases e0 with e0 | e0 | e0 <;> rw [e0] at hwt <;> simp [Alternates] at hwt
  have hq : ∀ t, mine t q = answered (proj t [Ev.inv 0 (some 7), .ret 0 0, .inv 1 none, .ret 1 0]) := by
    intro t
    have := ha t
    rw [proj_append, hmore, List.append_nil, proj_events, answered_evs] at this
    exact this.symm
  have hb := hB (0, 0) (1, 0) ⟨[.inv 0 (some 7), .ret 0 0], [.inv 1 none, .ret 1 0] ++ more, rfl, by decide, by decide⟩
  obtain ⟨x, y, hxy, h1, h2⟩ := hb
  obtain ⟨q1, q2, rfl, hc⟩ := events_prefix q hxy
  have m0 : mine 0 (q1 ++ q2) = [(some 7, 0)] := hq 0
  have m1 : mine 1 (q1 ++ q2) = [(none, 0)] := hq 1
  have c0 := (hc 0).1
  have c1 := (hc 1).2
  simp only at h1 h2
  rw [mine_append] at m0 m1
  have l0 := congrArg List.length m0
  have l1 := congrArg List.length m1
  simp only [List.length_append, List.length_cons, List.length_nil] at l0 l1
  have z1 : mine 1 q1 = [] := List.eq_nil_of_length_eq_zero (by omega)
  have z0 : mine 0 q2 = [] := List.eq_nil_of_length_eq_zero (by omega)
  rw [z0, List.append_nil] at m0
  rw [z1, List.nil_append] at m1
  have hother : ∀ t, t ≠ 0 → t ≠ 1 → mine t q1 = [] ∧ mine t q2 = [] := by
    intro t h0 h1
    have := hq t
    rw [show proj t [Ev.inv 0 (some 7), .ret 0 0, .inv 1 none, .ret 1 0] = ([] : List (Ev (Option Nat) Nat)) by
      simp [proj, tid, Ne.symm h0, Ne.symm h1], mine_append] at this
    exact List.append_eq_nil_iff.1 this
  have single : ∀ {t : Tid} {x : Option Nat × Nat} {q : List (Tid × Option Nat × Nat)}, mine t q = [x] →
      (∀ u, u ≠ t → mine u q = []) → q = [(t, x)] := by
    intro t x q hx ho
    obtain ⟨qa, qb, rfl, hqa⟩ := mine_first hx
    have e1 : qa = [] := mine_eq_nil fun u => by
      by_cases hu : u = t
      · subst hu; exact hqa
      · have := ho u hu
        rw [mine_append] at this
        exact (List.append_eq_nil_iff.1 this).1
    have e2 : qb = [] := mine_eq_nil fun u => by
      by_cases hu : u = t
      · subst hu
        rw [mine_append, hqa, mine_cons, if_pos rfl] at hx
        simpa using hx
      · have := ho u hu
        rw [mine_append, mine_cons, if_neg (show ¬ t = u from Ne.symm hu)] at this
        exact (List.append_eq_nil_iff.1 this).2
    rw [e1, e2]; rfl
  have r1 : q1 = [(0, some 7, 0)] := single m0 fun u hu => by
    by_cases h1 : u = 1
    · subst h1; exact z1
    · exact (hother u hu h1).1
  have r2 : q2 = [(1, none, 0)] := single m1 fun u hu => by
    by_cases h0 : u = 0
    · subst h0; exact z0
    · exact (hother u h0 hu).2
  subst r1; subst r2
  cases hL with
  | cons s1 hL =>
    cases hL with
    | cons s2 _ =>
      obtain ⟨rfl, _⟩ := s1
      obtain ⟨_, h⟩ := s2
      cases h

end Verif.Object.HW
