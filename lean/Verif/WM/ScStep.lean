import Verif.WM.ScLin
/-!
# Sequentially consistent operations are linearizable in weak memory: the steps
-/
set_option autoImplicit false
set_option linter.unusedSectionVars false
namespace Verif.WM.Sc
open Verif.WM.Native
variable {V X : Type} [DecidableEq V] {P : Obj → Bool} {v0 : Obj → V}

/-! ## The history of the objects -/

/-- Which threads are engaged in a call on `P` after `h`. -/
def flags (P : Obj → Bool) (m : Tid → Bool) : List (WM.Ev V X) → Tid → Bool
  | [] => m
  | .inv t o _ :: h => flags P (Function.update m t (P o)) h
  | .ret _ _ :: h => flags P m h
  | .client _ _ _ :: h => flags P m h

theorem only_append (h k : List (WM.Ev V X)) : ∀ m, only P m (h ++ k) = only P m h ++ only P (flags P m h) k := by
  induction h with
  | nil => intro m; rfl
  | cons e h ih =>
    intro m
    cases e with
    | inv t o op =>
      simp only [List.cons_append, only, flags, ih]
      cases hP : P o <;> simp
    | ret t r =>
      simp only [List.cons_append, only, flags, ih]
      split <;> simp
    | client t a r => simp only [List.cons_append, only, flags, ih]

theorem flags_append (h k : List (WM.Ev V X)) : ∀ m, flags P m (h ++ k) = flags P (flags P m h) k := by
  induction h with
  | nil => intro m; rfl
  | cons e h ih => intro m; cases e <;> simp only [List.cons_append, flags, ih]

/-! ## Changing one thread -/

def status (d : Option (Call V)) (S : View Loc) : Atomic.Th V :=
  match d with
  | none => .idle
  | some c => c.th S

theorem absD_update (M : Obj → Ms V) (D : Tid → Option (Call V)) (S : View Loc) (t : Tid) (d : Option (Call V)) :
    absD P v0 M (Function.update D t d) S =
      { absD P v0 M D S with th := Function.update (absD P v0 M D S).th t (status d S) } := by
  simp only [absD, Atomic.State.mk.injEq, true_and]
  funext u
  by_cases h : u = t
  · subst h; simp only [Function.update_self, status]; cases d <;> rfl
  · simp only [Function.update_of_ne h]

theorem th_absD (M : Obj → Ms V) (D : Tid → Option (Call V)) (S : View Loc) (t : Tid) :
    (absD P v0 M D S).th t = status (D t) S := rfl

theorem same {a : Atomic.State V} {t : Tid} {x : Atomic.Th V} (e : a.th t = x) :
    Exec Atomic.Step a [] { a with th := Function.update a.th t x } := by
  subst e
  rw [Function.update_eq_self]
  exact .refl _

theorem calls_update {s s' : Native.State V X} {t : Tid} {p : Pc V} (hp : s'.pc = Function.update s.pc t p)
    (g : Done V) (fate : Fate V) (d : Option (Obj × Op V × Tgt V)) (f : Option (Tgt V)) :
    callsOf P s' (Function.update g t d) (Function.update fate t f) =
      Function.update (callsOf P s g fate) t (callOf P p d f) := by
  funext u
  by_cases h : u = t
  · subst h; simp only [callsOf, hp, Function.update_self]
  · simp only [callsOf, hp, Function.update_of_ne h]

theorem calls_update' {s s' : Native.State V X} {t : Tid} {p : Pc V} (hp : s'.pc = Function.update s.pc t p)
    (g : Done V) (fate : Fate V) :
    callsOf P s' g fate = Function.update (callsOf P s g fate) t (callOf P p (g t) (fate t)) := by
  have := calls_update (P := P) hp g fate (g t) (fate t)
  rwa [Function.update_eq_self, Function.update_eq_self] at this

/-! ## The invariant -/

theorem Fwd.quiet {s s' : Native.State V X} {g g' : Done V} {fl fl' : Tid → Bool} (F : Fwd P v0 s g fl)
    (views : AllWf s') (fin : ∃ N, ∀ t, N ≤ t → s'.pc t = .idle)
    (hmo : ∀ o, P o = true → s'.mo o = s.mo o) (hsc : s.sc ≤ s'.sc)
    (h1 : ∀ t r b, s'.pc t = .fin r b → (g' t = none ∧ fl' t = false) ∨
      ∃ b', s.pc t = .fin r b' ∧ g' t = g t ∧ fl' t = fl t ∧ (s.tv t).acq ≤ (s'.tv t).acq ∧
        (b = false → b' = false ∨ ∀ o op k, g t = some (o, op, k) → k.ts ≤ s'.sc (.obj o)))
    (h2 : ∀ t r b, s.pc t = .fin r b → (∃ b', s'.pc t = .fin r b' ∧ g' t = g t) ∨
      ∀ o op k, g t = some (o, op, k) → k.ts ≤ s'.sc (.obj o))
    (h3 : ∀ t o op b, s'.pc t = .todo o op b → fl' t = P o ∧ (P o = true → op.IsSeqCst)) :
    Fwd P v0 s' g' fl' := by
  refine ⟨views, fun o ho => by rw [hmo o ho]; exact F.wf o ho, fin, ?_, h3, ?_, ?_, ?_⟩
  · intro o hP m hm hlt
    rw [hmo o hP] at hm
    obtain ⟨t, r, b, op, k, k1, k2, k3, k4⟩ := F.author o hP m hm ((hsc _).trans_lt hlt)
    rcases h2 t r b k1 with ⟨b', e1, e2⟩ | h
    · exact ⟨t, r, b', op, k, e1, by rw [e2, k2], k3, k4⟩
    · have := h o op k k2
      rw [k4] at this
      exact absurd this (not_le_of_gt hlt)
  · intro t r b hp
    rcases h1 t r b hp with ⟨e1, e2⟩ | ⟨b', e1, e2, e3, -⟩
    · rw [e1, e2]; rfl
    · rw [e2, e3]; exact F.flag t r b' e1
  · intro t r b o op k hp hg
    rcases h1 t r b hp with ⟨e1, -⟩ | ⟨b', e1, e2, e3, e4, e5⟩
    · rw [e1] at hg; cases hg
    · rw [e2] at hg
      obtain ⟨a1, a2, a3, a4, a5, a6⟩ := F.tgt t r b' o op k e1 hg
      refine ⟨a1, a2, by rw [hmo o a1]; exact a3, by rw [hmo o a1]; exact a4, a5.trans (e4 _), ?_⟩
      intro hb
      rcases e5 hb with h | h
      · exact (a6 h).trans (hsc _)
      · exact h o op k hg
  · intro t r b o op k t' r' b' op' k' hp hg hw hp' hg' hw' e
    rcases h1 t r b hp with ⟨e1, -⟩ | ⟨c, e1, e2, -⟩
    · rw [e1] at hg; cases hg
    rcases h1 t' r' b' hp' with ⟨e1', -⟩ | ⟨c', e1', e2', -⟩
    · rw [e1'] at hg'; cases hg'
    rw [e2] at hg; rw [e2'] at hg'
    exact F.dist t r c o op k t' r' c' op' k' e1 hg hw e1' hg' hw' e

theorem fin_update {s s' : Native.State V X} {t : Tid} {p : Pc V} (hp : s'.pc = Function.update s.pc t p)
    (h : ∃ N, ∀ u, N ≤ u → s.pc u = .idle) : ∃ N, ∀ u, N ≤ u → s'.pc u = .idle := by
  obtain ⟨N, hN⟩ := h
  refine ⟨max N (t + 1), fun u hu => ?_⟩
  have h1 : N ≤ u := (Nat.le_max_left _ _).trans hu
  have h2 : t + 1 ≤ u := (Nat.le_max_right _ _).trans hu
  rw [hp, Function.update_of_ne (by intro e; subst e; exact absurd h2 (Nat.not_succ_le_self _))]
  exact hN u h1

/-- What a step must provide. -/
def Good (P : Obj → Bool) (v0 : Obj → V) (s : Native.State V X) (g : Done V) (fl : Tid → Bool) (e : List (WM.Ev V X))
    (s' : Native.State V X) : Prop :=
  ∃ g', Fwd P v0 s' g' (flags P fl e) ∧ ∀ M fate', Cons P v0 s' M fate' → ∃ fate, Cons P v0 s M fate ∧
    Exec Atomic.Step (absD P v0 M (callsOf P s g fate) s.sc) (only P fl e)
      (absD P v0 M (callsOf P s' g' fate') s'.sc)

theorem good_inv {s : Native.State V X} {g : Done V} {fl : Tid → Bool} (F : Fwd P v0 s g fl) {t : Tid} {o : Obj}
    {op : Op V} (h : s.pc t = .idle) (hq : P o = true → op.IsSeqCst) :
    Good P v0 s g fl [.inv t o op] (s.goto t (.todo o op false)) := by
  have hpc : (s.goto t (.todo o op false)).pc = Function.update s.pc t (.todo o op false) := rfl
  have hne : ∀ u, s.pc u ≠ .idle → u ≠ t := by rintro u hu rfl; exact hu h
  refine ⟨g, ?_, ?_⟩
  · refine F.quiet F.views (fin_update hpc F.fin) (fun _ _ => rfl) le_rfl ?_ ?_ ?_
    · intro u r b hu
      have hut : u ≠ t := by rintro rfl; rw [hpc, Function.update_self] at hu; cases hu
      rw [hpc, Function.update_of_ne hut] at hu
      refine .inr ⟨b, hu, rfl, ?_, le_rfl, fun hb => .inl hb⟩
      simp only [flags, Function.update_of_ne hut]
    · intro u r b hu
      have hut := hne u (by rw [hu]; simp)
      exact .inl ⟨b, by rw [hpc, Function.update_of_ne hut]; exact hu, rfl⟩
    · intro u o' op' b hu
      simp only [flags]
      by_cases hut : u = t
      · subst hut
        rw [hpc, Function.update_self] at hu; cases hu
        rw [Function.update_self]; exact ⟨rfl, hq⟩
      · rw [hpc, Function.update_of_ne hut] at hu
        rw [Function.update_of_ne hut]; exact F.todo u o' op' b hu
  · intro M fate C
    refine ⟨fate, ?_, ?_⟩
    · refine C.back (fun _ _ => rfl) le_rfl (fun _ => le_rfl) ?_ ?_
      · intro u o' op' b hu hP
        have hut := hne u (by rw [hu]; simp)
        exact ⟨b, by rw [hpc, Function.update_of_ne hut]; exact hu, fun hb => .inl hb⟩
      · intro u o' op' b hu hP
        by_cases hut : u = t
        · subst hut
          rw [hpc, Function.update_self] at hu; cases hu; exact .inr rfl
        · rw [hpc, Function.update_of_ne hut] at hu; exact .inl ⟨b, hu⟩
    · have hth : (absD P v0 M (callsOf P s g fate) s.sc).th t = .idle := by
        rw [th_absD]; simp [callsOf, callOf, h, status]
      rw [calls_update' hpc, absD_update]
      simp only [only]
      cases hP : P o with
      | true =>
        simp only [callOf, hP, if_true, status]
        refine Exec.ev (h := []) (.refl _) ?_
        have : Call.th (⟨o, op, false, fate t⟩ : Call V) (s.goto t (.todo o op false)).sc = .pending o op := by
          simp only [Call.th, Bool.false_eq_true, false_and, if_false]
          cases fate t <;> rfl
        rw [this]
        exact Atomic.Step.inv _ t o op hth
      | false =>
        simp only [callOf, hP, Bool.false_eq_true, if_false, status]
        exact same hth

theorem good_panic {s : Native.State V X} {g : Done V} {fl : Tid → Bool} (F : Fwd P v0 s g fl) {t : Tid} {o : Obj}
    {op : Op V} {b : Bool} (h : s.pc t = .todo o op b) (ho : op.ordOk = false) :
    Good P v0 s g fl [] (s.goto t (.fin .panic false)) := by
  have hpc : (s.goto t (.fin .panic false)).pc = Function.update s.pc t (.fin .panic false) := rfl
  obtain ⟨hfl, hq⟩ := F.todo t o op b h
  have hP : P o = false := by
    cases hP : P o with
    | false => rfl
    | true => rw [isSeqCst_ok (hq hP)] at ho; cases ho
  have hne : ∀ u, (∀ o' op' b', P o' = true → s.pc u ≠ .todo o' op' b') ∨ u ≠ t := by
    intro u
    by_cases hut : u = t
    · left; subst hut
      intro o' op' b' hP' e
      rw [h] at e; cases e; rw [hP] at hP'; cases hP'
    · exact .inr hut
  refine ⟨Function.update g t none, ?_, ?_⟩
  · refine F.quiet F.views (fin_update hpc F.fin) (fun _ _ => rfl) le_rfl ?_ ?_ ?_
    · intro u r b' hu
      by_cases hut : u = t
      · subst hut; left
        simp only [Function.update_self, flags, true_and]; rw [hfl, hP]
      · rw [hpc, Function.update_of_ne hut] at hu
        exact .inr ⟨b', hu, Function.update_of_ne hut _ _, rfl, le_rfl, fun hb => .inl hb⟩
    · intro u r b' hu
      have hut : u ≠ t := by rintro rfl; rw [h] at hu; cases hu
      exact .inl ⟨b', by rw [hpc, Function.update_of_ne hut]; exact hu, Function.update_of_ne hut _ _⟩
    · intro u o' op' b' hu
      have hut : u ≠ t := by rintro rfl; rw [hpc, Function.update_self] at hu; cases hu
      rw [hpc, Function.update_of_ne hut] at hu
      exact F.todo u o' op' b' hu
  · intro M fate C
    refine ⟨fate, ?_, ?_⟩
    · refine C.back (fun _ _ => rfl) le_rfl (fun _ => le_rfl) ?_ ?_
      · intro u o' op' b' hu hP'
        have hut : u ≠ t := (hne u).resolve_left fun k => k o' op' b' hP' hu
        exact ⟨b', by rw [hpc, Function.update_of_ne hut]; exact hu, fun hb => .inl hb⟩
      · intro u o' op' b' hu hP'
        have hut : u ≠ t := by rintro rfl; rw [hpc, Function.update_self] at hu; cases hu
        rw [hpc, Function.update_of_ne hut] at hu; exact .inl ⟨b', hu⟩
    · have hth : (absD P v0 M (callsOf P s g fate) s.sc).th t = .idle := by
        rw [th_absD]; simp [callsOf, callOf, h, status, hP]
      have e := calls_update (P := P) hpc g fate none (fate t)
      rw [Function.update_eq_self] at e
      rw [e, absD_update]
      simp only [callOf, Option.map_none, status, only]
      exact same hth

theorem good_ret {s : Native.State V X} {g : Done V} {fl : Tid → Bool} (F : Fwd P v0 s g fl) {t : Tid}
    {r : Res V} (h : s.pc t = .fin r false) : Good P v0 s g fl [.ret t r] (s.goto t .idle) := by
  have hpc : (s.goto t .idle).pc = Function.update s.pc t (.idle : Pc V) := rfl
  refine ⟨g, ?_, ?_⟩
  · refine F.quiet F.views (fin_update hpc F.fin) (fun _ _ => rfl) le_rfl ?_ ?_ ?_
    · intro u r' b hu
      have hut : u ≠ t := by rintro rfl; rw [hpc, Function.update_self] at hu; cases hu
      rw [hpc, Function.update_of_ne hut] at hu
      exact .inr ⟨b, hu, rfl, rfl, le_rfl, fun hb => .inl hb⟩
    · intro u r' b hu
      by_cases hut : u = t
      · subst hut; right
        intro o op k hk
        rw [h] at hu; cases hu
        exact (F.tgt u r false o op k h hk).2.2.2.2.2 rfl
      · exact .inl ⟨b, by rw [hpc, Function.update_of_ne hut]; exact hu, rfl⟩
    · intro u o' op' b hu
      have hut : u ≠ t := by rintro rfl; rw [hpc, Function.update_self] at hu; cases hu
      rw [hpc, Function.update_of_ne hut] at hu
      exact F.todo u o' op' b hu
  · intro M fate C
    refine ⟨fate, ?_, ?_⟩
    · refine C.back (fun _ _ => rfl) le_rfl (fun _ => le_rfl) ?_ ?_
      · intro u o' op' b hu hP
        have hut : u ≠ t := by rintro rfl; rw [h] at hu; cases hu
        exact ⟨b, by rw [hpc, Function.update_of_ne hut]; exact hu, fun hb => .inl hb⟩
      · intro u o' op' b hu hP
        have hut : u ≠ t := by rintro rfl; rw [hpc, Function.update_self] at hu; cases hu
        rw [hpc, Function.update_of_ne hut] at hu; exact .inl ⟨b, hu⟩
    · rw [calls_update' hpc, absD_update]
      simp only [only, callOf, status]
      rw [F.flag t r false h]
      cases hg : g t with
      | none =>
        have hth : (absD P v0 M (callsOf P s g fate) s.sc).th t = .idle := by
          rw [th_absD]; simp [callsOf, callOf, h, status, hg]
        simp only [Option.isSome_none, Bool.false_eq_true, if_false]
        exact same hth
      | some x =>
        obtain ⟨o, op, k⟩ := x
        obtain ⟨-, a2, -, -, -, a6⟩ := F.tgt t r false o op k h hg
        have hth : (absD P v0 M (callsOf P s g fate) s.sc).th t = .done r := by
          rw [th_absD]; simp [callsOf, callOf, h, status, hg, Call.th, a6 rfl, a2]
        simp only [Option.isSome_some, if_true]
        exact Exec.ev (h := []) (.refl _) (Atomic.Step.ret _ t r hth)

/-- A step that publishes more and otherwise changes nothing. -/
theorem advance_step {s s' : Native.State V X} {g : Done V} {fl : Tid → Bool} (F : Fwd P v0 s g fl) {M : Obj → Ms V}
    {fate : Fate V} (C : Cons P v0 s M fate) (C' : Cons P v0 s' M fate) (hsc : s.sc ≤ s'.sc)
    (hmo : ∀ o, P o = true → s'.mo o = s.mo o)
    (h1 : ∀ t o op, s.pc t = .todo o op false → P o = true → ∃ b', s'.pc t = .todo o op b' ∧
      (b' = false ∨ s'.sc (.obj o) ≤ (s'.tv t).cur (.obj o)))
    (h2 : ∀ t o op b, s'.pc t = .todo o op b → P o = true → ∃ b', s.pc t = .todo o op b') :
    Exec Atomic.Step (absD P v0 M (callsOf P s g fate) s.sc) [] (absD P v0 M (callsOf P s g fate) s'.sc) := by
  refine advance (can_of F C hsc ?_ ?_)
  · intro t o op k hp hP hk
    obtain ⟨b', hp', hb⟩ := h1 t o op hp hP
    obtain ⟨a1, a2, a3, a4⟩ := C'.tgt t o op b' k hp' hP hk
    rcases hb with h | h
    · exact a4 h
    · exact ⟨h.trans a2, fun hw => h.trans_lt (a3 hw).1⟩
  · intro o hP m hm ht
    rcases C'.past o hP m hm ht with h | ⟨t, op, b, k, k1, k2, k3, k4⟩
    · exact .inl (by rw [← hmo o hP]; exact h)
    · obtain ⟨b', hb'⟩ := h2 t o op b k1 hP
      exact .inr ⟨t, op, b', k, hb', k2, k3, k4⟩

theorem scFence_wf {s : Native.State V X} {t : Tid} (w : AllWf s) {p : Pc V} : AllWf ((s.scFence t).goto t p) := by
  intro u
  simp only [State.goto, State.scFence]
  by_cases hut : u = t
  · subst hut; rw [Function.update_self]; exact ⟨le_rfl, le_rfl⟩
  · rw [Function.update_of_ne hut]; exact w u

theorem scFence_cur {s : Native.State V X} {t : Tid} (w : AllWf s) {p : Pc V} (u : Tid) :
    (s.tv u).cur ≤ (((s.scFence t).goto t p).tv u).cur ∧ (s.tv u).acq ≤ (((s.scFence t).goto t p).tv u).acq := by
  simp only [State.goto, State.scFence]
  by_cases hut : u = t
  · subst hut; rw [Function.update_self]; exact ⟨(w u).cur.trans le_sup_left, le_sup_left⟩
  · rw [Function.update_of_ne hut]; exact ⟨le_rfl, le_rfl⟩

theorem good_pre {s : Native.State V X} {g : Done V} {fl : Tid → Bool} (F : Fwd P v0 s g fl) {t : Tid} {o : Obj}
    {op : Op V} {b : Bool} (h : s.pc t = .todo o op b) :
    Good P v0 s g fl [] ((s.scFence t).goto t (.todo o op true)) := by
  have hpc : ((s.scFence t).goto t (.todo o op true)).pc = Function.update s.pc t (.todo o op true) := rfl
  have hcur : (((s.scFence t).goto t (.todo o op true)).tv t).cur = ((s.scFence t).goto t (.todo o op true)).sc := by
    simp only [State.goto, State.scFence, Function.update_self, TV.scFence]
  have hsc : s.sc ≤ ((s.scFence t).goto t (.todo o op true)).sc := le_sup_right
  have hmo : ((s.scFence t).goto t (.todo o op true)).mo = s.mo := rfl
  have hw := scFence_wf F.views (t := t) (p := .todo o op true)
  have hcu := scFence_cur F.views (t := t) (p := .todo o op true)
  generalize hs' : (s.scFence t).goto t (.todo o op true) = s' at *
  have hp1 : ∀ u o' op' b', s.pc u = .todo o' op' b' → P o' = true → ∃ b'', s'.pc u = .todo o' op' b'' ∧
      (b' = false → b'' = false ∨ s'.sc (.obj o') ≤ (s'.tv u).cur (.obj o')) := by
    intro u o' op' b' hu hP
    by_cases hut : u = t
    · subst hut
      rw [h] at hu; cases hu
      exact ⟨true, by rw [hpc, Function.update_self], fun _ => .inr (by rw [hcur])⟩
    · exact ⟨b', by rw [hpc, Function.update_of_ne hut]; exact hu, fun hb => .inl hb⟩
  have hp2 : ∀ u o' op' b', s'.pc u = .todo o' op' b' → P o' = true → ∃ b'', s.pc u = .todo o' op' b'' := by
    intro u o' op' b' hu hP
    by_cases hut : u = t
    · subst hut
      rw [hpc, Function.update_self] at hu; cases hu
      exact ⟨b, h⟩
    · rw [hpc, Function.update_of_ne hut] at hu; exact ⟨b', hu⟩
  refine ⟨g, ?_, ?_⟩
  · refine F.quiet hw (fin_update hpc F.fin) (fun _ _ => by rw [hmo]) hsc ?_ ?_ ?_
    · intro u r b' hu
      have hut : u ≠ t := by rintro rfl; rw [hpc, Function.update_self] at hu; cases hu
      rw [hpc, Function.update_of_ne hut] at hu
      exact .inr ⟨b', hu, rfl, rfl, (hcu u).2, fun hb => .inl hb⟩
    · intro u r b' hu
      have hut : u ≠ t := by rintro rfl; rw [h] at hu; cases hu
      exact .inl ⟨b', by rw [hpc, Function.update_of_ne hut]; exact hu, rfl⟩
    · intro u o' op' b' hu
      by_cases hut : u = t
      · subst hut
        rw [hpc, Function.update_self] at hu; cases hu
        exact F.todo u o op b h
      · rw [hpc, Function.update_of_ne hut] at hu
        exact F.todo u o' op' b' hu
  · intro M fate C
    have C0 : Cons P v0 s M fate := C.back (fun _ _ => by rw [hmo]) hsc (fun u => (hcu u).1) hp1
      (fun u o' op' b' hu hP => .inl (hp2 u o' op' b' hu hP))
    refine ⟨fate, C0, ?_⟩
    have X1 := advance_step (g := g) F C0 C hsc (fun _ _ => by rw [hmo])
      (fun u o' op' hu hP => by
        obtain ⟨b'', k1, k2⟩ := hp1 u o' op' false hu hP
        exact ⟨b'', k1, k2 rfl⟩) hp2
    have : only P fl ([] : List (WM.Ev V X)) = [] ++ [] := rfl
    rw [this]
    refine X1.trans ?_
    rw [calls_update' hpc, absD_update]
    have hth := th_absD (P := P) (v0 := v0) M (callsOf P s g fate) s'.sc t
    by_cases e : status (callOf P (.todo o op true) (g t) (fate t)) s'.sc = status (callsOf P s g fate t) s'.sc
    · rw [e]
      exact same hth
    · -- a read at the published place
      have hP : P o = true := by
        by_contra hP
        apply e
        simp only [callsOf, callOf, h, hP, if_false, Bool.false_eq_true]
      have hb : b = false := by
        by_contra hb
        apply e
        have hb : b = true := by simpa using hb
        simp only [callsOf, callOf, h, hb]
      subst hb
      have e1 : callsOf P s g fate t = some ⟨o, op, false, fate t⟩ := by simp [callsOf, callOf, h, hP]
      have e2 : callOf P (.todo o op true) (g t) (fate t) = some ⟨o, op, true, fate t⟩ := by simp [callOf, hP]
      rw [e1] at e hth
      rw [e2] at e ⊢
      cases hk : fate t with
      | none => rw [hk] at e; exact absurd rfl e
      | some k =>
        rw [hk] at e hth
        simp only [status, Call.th, Bool.false_eq_true, false_and, if_false, true_and] at e hth ⊢
        by_cases hts : k.ts ≤ s'.sc (.obj o)
        · rw [if_pos hts]
          obtain ⟨a1, a2, a3, -⟩ := C.tgt t o op true k (by rw [hpc, Function.update_self]) hP hk
          rw [hcur] at a2 a3
          have hwr : k.wr = false := by
            by_contra hwr
            exact absurd hts (not_le_of_gt (a3 (by simpa using hwr)).1)
          obtain ⟨m, m1, m2, m3⟩ := a1
          rw [hwr] at m3
          simp only [Bool.false_eq_true, if_false] at m3
          have hc : (absD P v0 M (callsOf P s g fate) s'.sc).cell o = m.val := by
            simp only [absD, hP, if_true]
            exact curv_eq (C.wf o hP) ⟨m1, by rw [m2]; exact hts, fun m' _ ht => by rw [m2]; exact ht.trans a2⟩
          have st := Atomic.Step.commit _ t o op hth
          rw [hc, m3] at st
          simp only at st
          rw [← hc, Function.update_eq_self] at st
          exact Exec.one_tau st
        · rw [if_neg hts] at e; exact absurd rfl e

theorem good_post {s : Native.State V X} {g : Done V} {fl : Tid → Bool} (F : Fwd P v0 s g fl) {t : Tid}
    {r : Res V} {b : Bool} (h : s.pc t = .fin r b) :
    Good P v0 s g fl [] ((s.scFence t).goto t (.fin r false)) := by
  have hpc : ((s.scFence t).goto t (.fin r false)).pc = Function.update s.pc t (.fin r false) := rfl
  have hsc : s.sc ≤ ((s.scFence t).goto t (.fin r false)).sc := le_sup_right
  have hacq : (s.tv t).acq ≤ ((s.scFence t).goto t (.fin r false)).sc := le_sup_left
  have hmo : ((s.scFence t).goto t (.fin r false)).mo = s.mo := rfl
  have hw := scFence_wf F.views (t := t) (p := .fin r false)
  have hcu := scFence_cur F.views (t := t) (p := .fin r false)
  generalize hs' : (s.scFence t).goto t (.fin r false) = s' at *
  have hp1 : ∀ u o' op' b', s.pc u = .todo o' op' b' → s'.pc u = .todo o' op' b' := by
    intro u o' op' b' hu
    have hut : u ≠ t := by rintro rfl; rw [h] at hu; cases hu
    rw [hpc, Function.update_of_ne hut]; exact hu
  have hp2 : ∀ u o' op' b', s'.pc u = .todo o' op' b' → s.pc u = .todo o' op' b' := by
    intro u o' op' b' hu
    have hut : u ≠ t := by rintro rfl; rw [hpc, Function.update_self] at hu; cases hu
    rw [hpc, Function.update_of_ne hut] at hu; exact hu
  refine ⟨g, ?_, ?_⟩
  · refine F.quiet hw (fin_update hpc F.fin) (fun _ _ => by rw [hmo]) hsc ?_ ?_ ?_
    · intro u r' b' hu
      by_cases hut : u = t
      · subst hut
        rw [hpc, Function.update_self] at hu; cases hu
        refine .inr ⟨b, h, rfl, rfl, (hcu u).2, fun _ => .inr fun o op k hk => ?_⟩
        exact (F.tgt u r b o op k h hk).2.2.2.2.1.trans (hacq _)
      · rw [hpc, Function.update_of_ne hut] at hu
        exact .inr ⟨b', hu, rfl, rfl, (hcu u).2, fun hb => .inl hb⟩
    · intro u r' b' hu
      by_cases hut : u = t
      · subst hut
        rw [h] at hu; cases hu
        exact .inl ⟨false, by rw [hpc, Function.update_self], rfl⟩
      · exact .inl ⟨b', by rw [hpc, Function.update_of_ne hut]; exact hu, rfl⟩
    · intro u o' op' b' hu
      exact F.todo u o' op' b' (hp2 u o' op' b' hu)
  · intro M fate C
    have C0 : Cons P v0 s M fate := C.back (fun _ _ => by rw [hmo]) hsc (fun u => (hcu u).1)
      (fun u o' op' b' hu _ => ⟨b', hp1 u o' op' b' hu, fun hb => .inl hb⟩)
      (fun u o' op' b' hu _ => .inl ⟨b', hp2 u o' op' b' hu⟩)
    refine ⟨fate, C0, ?_⟩
    have X1 := advance_step (g := g) F C0 C hsc (fun _ _ => by rw [hmo])
      (fun u o' op' hu _ => ⟨false, hp1 u o' op' false hu, .inl rfl⟩)
      (fun u o' op' b' hu _ => ⟨b', hp2 u o' op' b' hu⟩)
    have e : callsOf P s' g fate = callsOf P s g fate := by
      rw [calls_update' hpc]
      have : callOf P (.fin r false) (g t) (fate t) = callsOf P s g fate t := by simp [callsOf, callOf, h]
      rw [this, Function.update_eq_self]
    rw [e]; exact X1

theorem good_client {s : Native.State V X} {g : Done V} {fl : Tid → Bool} (F : Fwd P v0 s g fl) {t : Tid}
    {a : CAct X} {r : Option X} {mx : Nat → List (Msg Loc X)} {v : TV Loc} {sc : View Loc} (h : s.pc t = .idle)
    (hc : Client .ext s.sc s.mx (s.tv t) a r mx v sc) :
    Good P v0 s g fl [.client t a r] { s with mx := mx, tv := Function.update s.tv t v, sc := sc } := by
  obtain ⟨w, le⟩ := step_le F.views (Step.client s t a r mx v sc h hc)
  have hpc : ({ s with mx := mx, tv := Function.update s.tv t v, sc := sc } : Native.State V X).pc = s.pc := rfl
  have hmo : ({ s with mx := mx, tv := Function.update s.tv t v, sc := sc } : Native.State V X).mo = s.mo := rfl
  have htv : ∀ u, u ≠ t → ({ s with mx := mx, tv := Function.update s.tv t v, sc := sc } : Native.State V X).tv u = s.tv u :=
    fun u hu => Function.update_of_ne hu _ _
  generalize ({ s with mx := mx, tv := Function.update s.tv t v, sc := sc } : Native.State V X) = s' at *
  refine ⟨g, ?_, ?_⟩
  · refine F.quiet w (by rw [hpc]; exact F.fin) (fun _ _ => by rw [hmo]) le.sc ?_ ?_ ?_
    · intro u r' b' hu
      rw [hpc] at hu
      have hut : u ≠ t := by rintro rfl; rw [h] at hu; cases hu
      exact .inr ⟨b', hu, rfl, rfl, (by rw [htv u hut]), fun hb => .inl hb⟩
    · intro u r' b' hu
      exact .inl ⟨b', by rw [hpc]; exact hu, rfl⟩
    · intro u o' op' b' hu
      rw [hpc] at hu
      exact F.todo u o' op' b' hu
  · intro M fate C
    have C0 : Cons P v0 s M fate := C.back (fun _ _ => by rw [hmo]) le.sc le.cur
      (fun u o' op' b' hu _ => ⟨b', by rw [hpc]; exact hu, fun hb => .inl hb⟩)
      (fun u o' op' b' hu _ => .inl ⟨b', by rw [hpc] at hu; exact hu⟩)
    refine ⟨fate, C0, ?_⟩
    have X1 := advance_step (g := g) F C0 C le.sc (fun _ _ => by rw [hmo])
      (fun u o' op' hu _ => ⟨false, by rw [hpc]; exact hu, .inl rfl⟩)
      (fun u o' op' b' hu _ => ⟨b', by rw [hpc] at hu; exact hu⟩)
    have e : callsOf P s' g fate = callsOf P s g fate := by
      funext u; simp only [callsOf, hpc]
    rw [e]; exact X1

theorem good_access {s : Native.State V X} {g : Done V} {fl : Tid → Bool} (F : Fwd P v0 s g fl) {t : Tid} {o : Obj}
    {op : Op V} {b : Bool} {ord : MemOrd} {ms : List (Msg Loc V)} {v : TV Loc} {r : Res V}
    (h : s.pc t = .todo o op b) (ho : op.ordOk = true)
    (ha : Access (s.mo o) (s.tv t) (.obj o) op ord ms v r) (hs : ord = MemOrd.seqCst → b = true) :
    Good P v0 s g fl [] ({ s with mo := Function.update s.mo o ms, tv := Function.update s.tv t v }.goto t
        (.fin r (decide (ord = MemOrd.seqCst)))) := by
  obtain ⟨w, le⟩ := step_le F.views (Step.access s t o op b ord ms v r h ho ha hs)
  obtain ⟨hfl, hq⟩ := F.todo t o op b h
  generalize hneed : decide (ord = MemOrd.seqCst) = need at *
  have hpc : ({ s with mo := Function.update s.mo o ms, tv := Function.update s.tv t v }.goto t
        (.fin r need)).pc = Function.update s.pc t (.fin r need) := rfl
  have hsc : ({ s with mo := Function.update s.mo o ms, tv := Function.update s.tv t v }.goto t
        (.fin r need)).sc = s.sc := rfl
  have hmo : ({ s with mo := Function.update s.mo o ms, tv := Function.update s.tv t v }.goto t
        (.fin r need)).mo = Function.update s.mo o ms := rfl
  have htv : ({ s with mo := Function.update s.mo o ms, tv := Function.update s.tv t v }.goto t
        (.fin r need)).tv = Function.update s.tv t v := rfl
  generalize hs' : ({ s with mo := Function.update s.mo o ms, tv := Function.update s.tv t v } : Native.State V X).goto t
        (.fin r need) = s' at *
  clear hs'
  have hp2 : ∀ u o' op' b', s'.pc u = .todo o' op' b' → u ≠ t ∧ s.pc u = .todo o' op' b' := by
    intro u o' op' b' hu
    have hut : u ≠ t := by rintro rfl; rw [hpc, Function.update_self] at hu; cases hu
    rw [hpc, Function.update_of_ne hut] at hu; exact ⟨hut, hu⟩
  have hp1 : ∀ u o' op' b', u ≠ t → s.pc u = .todo o' op' b' → s'.pc u = .todo o' op' b' := by
    intro u o' op' b' hut hu
    rw [hpc, Function.update_of_ne hut]; exact hu
  cases hP : P o with
  | false =>
    have hmo' : ∀ o', P o' = true → s'.mo o' = s.mo o' := by
      intro o' ho'
      rw [hmo, Function.update_of_ne]
      rintro rfl; rw [hP] at ho'; cases ho'
    have hne : ∀ u o' op' b', s.pc u = .todo o' op' b' → P o' = true → u ≠ t := by
      rintro u o' op' b' hu hP' rfl
      rw [h] at hu; cases hu; rw [hP] at hP'; cases hP'
    refine ⟨Function.update g t none, ?_, ?_⟩
    · refine F.quiet w (fin_update hpc F.fin) hmo' (by rw [hsc]) ?_ ?_ ?_
      · intro u r' b' hu
        by_cases hut : u = t
        · subst hut; left
          simp only [Function.update_self, flags, true_and]; rw [hfl, hP]
        · rw [hpc, Function.update_of_ne hut] at hu
          exact .inr ⟨b', hu, Function.update_of_ne hut _ _, rfl, (by rw [htv, Function.update_of_ne hut]), fun hb => .inl hb⟩
      · intro u r' b' hu
        have hut : u ≠ t := by rintro rfl; rw [h] at hu; cases hu
        exact .inl ⟨b', by rw [hpc, Function.update_of_ne hut]; exact hu, Function.update_of_ne hut _ _⟩
      · intro u o' op' b' hu
        exact F.todo u o' op' b' (hp2 u o' op' b' hu).2
    · intro M fate C
      refine ⟨fate, ?_, ?_⟩
      · exact C.back hmo' (by rw [hsc]) le.cur
          (fun u o' op' b' hu hP' => ⟨b', hp1 u o' op' b' (hne u o' op' b' hu hP') hu, fun hb => .inl hb⟩)
          (fun u o' op' b' hu _ => .inl ⟨b', (hp2 u o' op' b' hu).2⟩)
      · have hth : (absD P v0 M (callsOf P s g fate) s.sc).th t = .idle := by
          rw [th_absD]; simp [callsOf, callOf, h, status, hP]
        have e := calls_update (P := P) hpc g fate none (fate t)
        rw [Function.update_eq_self] at e
        rw [e, absD_update, hsc]
        simp only [callOf, Option.map_none, status, only]
        exact same hth
  | true =>
    obtain ⟨hord, k, T⟩ := took (F.wf o hP) (hq hP) ha
    have hb : b = true := hs hord
    have hn : need = true := by rw [← hneed]; simpa using hord
    subst hb hn
    -- the writes to the other objects are the same
    have hmoo : s'.mo o = ms := by rw [hmo, Function.update_self]
    have hmon : ∀ o', o' ≠ o → s'.mo o' = s.mo o' := fun o' ho' => by rw [hmo, Function.update_of_ne ho']
    have hsub : ∀ o', s.mo o' ⊆ s'.mo o' := le.mo
    have hnew : ∀ o' m, m ∈ s'.mo o' → m ∈ s.mo o' ∨ (o' = o ∧ k.wr = true ∧ m.ts = k.ts) := by
      intro o' m hm
      by_cases e : o' = o
      · subst e
        rw [hmoo] at hm
        cases hw : k.wr with
        | false => left; rw [T.read hw] at hm; exact hm
        | true =>
          rcases (T.write hw).2.2 m hm with h1 | h1
          · exact .inl h1
          · exact .inr ⟨rfl, rfl, h1⟩
      · rw [hmon o' e] at hm; exact .inl hm
    have hfin : ∀ u r' b', s.pc u = .fin r' b' → u ≠ t := by
      rintro u r' b' hu rfl; rw [h] at hu; cases hu
    refine ⟨Function.update g t (some (o, op, k)), ⟨w, ?_, fin_update hpc F.fin, ?_, ?_, ?_, ?_, ?_⟩, ?_⟩
    · intro o' hP'
      by_cases e : o' = o
      · subst e; rw [hmoo]; exact T.wf
      · rw [hmon o' e]; exact F.wf o' hP'
    · intro o' hP' m hm hlt
      rw [hsc] at hlt
      rcases hnew o' m hm with h1 | ⟨e, h1, h2⟩
      · obtain ⟨u, r', b', op', k', k1, k2, k3, k4⟩ := F.author o' hP' m h1 hlt
        have hut := hfin u r' b' k1
        exact ⟨u, r', b', op', k', by rw [hpc, Function.update_of_ne hut]; exact k1,
          by rw [Function.update_of_ne hut]; exact k2, k3, k4⟩
      · subst e
        exact ⟨t, r, true, op, k, by rw [hpc, Function.update_self], by rw [Function.update_self], h1, h2.symm⟩
    · intro u o' op' b' hu
      exact F.todo u o' op' b' (hp2 u o' op' b' hu).2
    · intro u r' b' hu
      by_cases hut : u = t
      · subst hut
        simp only [flags, Function.update_self, Option.isSome_some]; rw [hfl, hP]
      · rw [hpc, Function.update_of_ne hut] at hu
        rw [Function.update_of_ne hut]; exact F.flag u r' b' hu
    · intro u r' b' o' op' k' hu hg
      by_cases hut : u = t
      · subst hut
        rw [hpc, Function.update_self] at hu; cases hu
        rw [Function.update_self] at hg; cases hg
        refine ⟨hP, T.res, by rw [hmoo]; exact T.mem, by rw [hmoo]; exact T.valid, ?_, fun hb => by cases hb⟩
        rw [htv, Function.update_self]; exact T.acq
      · rw [hpc, Function.update_of_ne hut] at hu
        rw [Function.update_of_ne hut] at hg
        obtain ⟨a1, a2, ⟨m, a3, a3'⟩, a4, a5, a6⟩ := F.tgt u r' b' o' op' k' hu hg
        refine ⟨a1, a2, ⟨m, hsub o' a3, a3'⟩, fun M hM hM' => a4 M hM (List.Subset.trans (hsub o') hM'), ?_, by rw [hsc]; exact a6⟩
        rw [htv, Function.update_of_ne hut]; exact a5
    · -- distinct places
      have key : ∀ u r' b' op' k', u ≠ t → s.pc u = .fin r' b' → g u = some (o, op', k') → k.wr = true → k.ts ≠ k'.ts := by
        intro u r' b' op' k' hut hu hg hw e
        obtain ⟨m, m1, m2⟩ := (F.tgt u r' b' o op' k' hu hg).2.2.1
        exact (T.write hw).2.1 m m1 (m2.trans e.symm)
      intro u r1 b1 o1 op1 k1 u' r2 b2 op2 k2 hu hg hw hu' hg' hw' e
      by_cases hut : u = t <;> by_cases hut' : u' = t
      · rw [hut, hut']
      · exfalso
        subst hut
        rw [Function.update_self] at hg; cases hg
        rw [hpc, Function.update_of_ne hut'] at hu'
        rw [Function.update_of_ne hut'] at hg'
        exact key u' r2 b2 op2 k2 hut' hu' hg' hw e
      · exfalso
        subst hut'
        rw [Function.update_self] at hg'; cases hg'
        rw [hpc, Function.update_of_ne hut] at hu
        rw [Function.update_of_ne hut] at hg
        exact key u r1 b1 op1 k1 hut hu hg hw' e.symm
      · rw [hpc, Function.update_of_ne hut] at hu
        rw [Function.update_of_ne hut] at hg
        rw [hpc, Function.update_of_ne hut'] at hu'
        rw [Function.update_of_ne hut'] at hg'
        exact F.dist u r1 b1 o1 op1 k1 u' r2 b2 op2 k2 hu hg hw hu' hg' hw' e
    · intro M fate' C
      have hV : Valid (M o) op k := T.valid _ (C.wf o hP) (by rw [← hmoo]; exact C.sub o hP)
      refine ⟨Function.update fate' t (some k), ⟨C.wf, fun o' ho' => List.Subset.trans (hsub o') (C.sub o' ho'), ?_, ?_, ?_⟩, ?_⟩
      · intro u o' op' b' k' hu hP' hk
        by_cases hut : u = t
        · subst hut
          rw [h] at hu; cases hu
          rw [Function.update_self] at hk; cases hk
          exact ⟨hV, T.cur, fun hw => ⟨(T.write hw).1, (T.write hw).2.1⟩, fun hb => by cases hb⟩
        · rw [Function.update_of_ne hut] at hk
          obtain ⟨a1, a2, a3, a4⟩ := C.tgt u o' op' b' k' (hp1 u o' op' b' hut hu) hP' hk
          rw [htv, Function.update_of_ne hut] at a2 a3
          rw [hsc] at a4
          exact ⟨a1, a2, fun hw => ⟨(a3 hw).1, fun m hm => (a3 hw).2 m (hsub o' hm)⟩, a4⟩
      · have key : ∀ u op' b' k', u ≠ t → s.pc u = .todo o op' b' → fate' u = some k' → k'.wr = true → k.wr = true →
            k.ts ≠ k'.ts := by
          intro u op' b' k' hut hu hk hw' hw e
          obtain ⟨m, m1, m2⟩ := T.mem
          exact ((C.tgt u o op' b' k' (hp1 u o op' b' hut hu) hP hk).2.2.1 hw').2 m (by rw [hmoo]; exact m1) (m2.trans e)
        intro u o1 op1 b1 k1 u' op2 b2 k2 hu hg hw hu' hg' hw' hP' e
        by_cases hut : u = t <;> by_cases hut' : u' = t
        · rw [hut, hut']
        · exfalso
          subst hut
          rw [h] at hu; cases hu
          rw [Function.update_self] at hg; cases hg
          rw [Function.update_of_ne hut'] at hg'
          exact key u' op2 b2 k2 hut' hu' hg' hw' hw e
        · exfalso
          subst hut'
          rw [h] at hu'; cases hu'
          rw [Function.update_self] at hg'; cases hg'
          rw [Function.update_of_ne hut] at hg
          exact key u op1 b1 k1 hut hu hg hw hw' e.symm
        · rw [Function.update_of_ne hut] at hg
          rw [Function.update_of_ne hut'] at hg'
          exact C.dist u o1 op1 b1 k1 u' op2 b2 k2 (hp1 u _ _ _ hut hu) hg hw (hp1 u' _ _ _ hut' hu') hg' hw' hP' e
      · intro o' hP' m hm ht
        rw [← hsc] at ht
        rcases C.past o' hP' m hm ht with h1 | ⟨u, op', b', k', k1, k2, k3, k4⟩
        · rcases hnew o' m h1 with h2 | ⟨e, h2, h3⟩
          · exact .inl h2
          · subst e
            exact .inr ⟨t, op, true, k, h, Function.update_self _ _ _, h2, h3.symm⟩
        · obtain ⟨hut, hu⟩ := hp2 u o' op' b' k1
          exact .inr ⟨u, op', b', k', hu, by rw [Function.update_of_ne hut]; exact k2, k3, k4⟩
      · have e : callsOf P s' (Function.update g t (some (o, op, k))) fate' =
            callsOf P s g (Function.update fate' t (some k)) := by
          funext u
          by_cases hut : u = t
          · subst hut; simp [callsOf, callOf, hpc, h, hP]
          · simp only [callsOf, hpc, Function.update_of_ne hut]
        rw [e, hsc]
        exact .refl _

theorem good_step {s s' : Native.State V X} {g : Done V} {fl : Tid → Bool} (F : Fwd P v0 s g fl)
    {e : Option (WM.Ev V X)} (st : Native.Step s e s')
    (hq : ∀ t o op, e = some (.inv t o op) → P o = true → op.IsSeqCst) : Good P v0 s g fl e.toList s' := by
  cases st with
  | inv t o op h => exact good_inv F h (hq t o op rfl)
  | panic t o op b h ho => exact good_panic F h ho
  | pre t o op b h => exact good_pre F h
  | access t o op b ord ms v r h ho ha hs => exact good_access F h ho ha hs
  | post t r b h => exact good_post F h
  | ret t r h => exact good_ret F h
  | client t a r mx v sc h hc => exact good_client F h hc

theorem fwd_init (x0 : Nat → X) : Fwd P v0 (Native.init v0 x0) (fun _ => none) (fun _ => false) := by
  refine ⟨init_wf v0 x0, ?_, ⟨0, fun _ _ => rfl⟩, ?_, ?_, ?_, ?_, ?_⟩
  · intro o _
    refine ⟨?_, ?_, List.mem_singleton.2 rfl⟩
    · intro m hm m' hm'
      exact .inl ((List.mem_singleton.1 hm).trans (List.mem_singleton.1 hm').symm)
    · intro m hm
      exact .inr (List.mem_singleton.1 hm)
  · intro o _ m hm hlt
    rw [List.mem_singleton.1 hm] at hlt
    exact absurd hlt (by simp [Native.init])
  · intro t o op b h; cases h
  · intro t r b h; cases h
  · intro t r b o op k h; cases h
  · intro t r b o op k t' r' b' op' k' h; cases h

theorem exec_lin {x0 : Nat → X} {h : List (WM.Ev V X)} {s : Native.State V X}
    (x : Exec Native.Step (Native.init v0 x0) h s) (hq : AllSeqCst P h) :
    ∃ g, Fwd P v0 s g (flags P (fun _ => false) h) ∧ ∀ M fate, Cons P v0 s M fate →
      Exec Atomic.Step (Atomic.init v0) (history P h) (absD P v0 M (callsOf P s g fate) s.sc) := by
  generalize hi : Native.init v0 x0 = i at x
  induction x with
  | refl =>
    subst hi
    refine ⟨fun _ => none, fwd_init x0, fun M fate C => ?_⟩
    have : absD P v0 M (callsOf P (Native.init v0 x0) (fun _ => none) fate) (Native.init v0 x0).sc = Atomic.init v0 := by
      have hc : (absD P v0 M (callsOf P (Native.init v0 x0) (fun _ => none) fate) (Native.init v0 x0).sc).cell = v0 := by
        funext o
        simp only [absD]
        split
        · next hP =>
          have w := C.wf o hP
          exact curv_eq w (m := m0 (v0 o)) ⟨w.ini, le_of_eq rfl, fun m' _ ht => ht⟩
        · rfl
      have ht : (absD P v0 M (callsOf P (Native.init v0 x0) (fun _ => none) fate) (Native.init v0 x0).sc).th =
          fun _ => .idle := by
        funext t; rfl
      show Atomic.State.mk _ _ = _
      rw [Atomic.init]
      exact congrArg₂ Atomic.State.mk hc ht
    rw [this]
    exact .refl _
  | @tau h s s' _ st ih =>
    obtain ⟨g, F, H⟩ := ih hq
    obtain ⟨g', F', H'⟩ := good_step F st (fun t o op he => by cases he)
    refine ⟨g', F', fun M fate' C' => ?_⟩
    obtain ⟨fate, C, hx⟩ := H' M fate' C'
    have := (H M fate C).trans hx
    simp only [Option.toList_none, only, List.append_nil] at this
    exact this
  | @ev h s e s' _ st ih =>
    obtain ⟨g, F, H⟩ := ih (fun t o op hm => hq t o op (List.mem_append_left _ hm))
    obtain ⟨g', F', H'⟩ := good_step F st (fun t o op he hP => by
      cases he; exact hq t o op (List.mem_append_right _ (List.mem_singleton.2 rfl)) hP)
    refine ⟨g', by rw [flags_append]; exact F', fun M fate' C' => ?_⟩
    obtain ⟨fate, C, hx⟩ := H' M fate' C'
    have := (H M fate C).trans hx
    rw [history, only_append]
    exact this

/-- Native atomics: the operations on objects used with `SeqCst` only are linearizable, whatever happens
elsewhere. -/
theorem native_linearizable {x0 : Nat → X} {h : List (WM.Ev V X)} (hb : Native.Behaviour v0 x0 h)
    (hq : AllSeqCst P h) : Atomic.Linearizable v0 (history P h) := by
  obtain ⟨s, x⟩ := hb
  obtain ⟨g, F, H⟩ := exec_lin x hq
  refine ⟨_, H s.mo (fun _ => none) ⟨F.wf, fun o _ => List.Subset.refl _, ?_, ?_, ?_⟩⟩
  · intro t o op b k _ _ hk; cases hk
  · intro t o op b k t' op' b' k' _ hk; cases hk
  · intro o _ m hm _; exact .inl hm

end Verif.WM.Sc
