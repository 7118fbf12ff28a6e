import Verif.Spec.Sync
import Verif.WM.Inv
import Mathlib.Tactic.Order
/-!
# Facts about native atomics in weak memory (proof internals)

Consequences of `Spec/WeakMemory.lean` for whole histories, used by `Props/WeakMemory.lean`.
-/
set_option autoImplicit false
set_option linter.unusedSectionVars false
namespace Verif

namespace Exec
variable {S E : Type} {step : S → Option E → S → Prop}

theorem split {s s' : S} {h : List E} (x : Exec step s h s') {p q : List E} (e : h = p ++ q) :
    ∃ m, Exec step s p m ∧ Exec step m q s' := by
  induction x generalizing q with
  | refl =>
    obtain ⟨rfl, rfl⟩ := List.append_eq_nil_iff.1 e.symm
    exact ⟨_, .refl _, .refl _⟩
  | tau x st ih =>
    obtain ⟨m, a, b⟩ := ih e
    exact ⟨m, a, .tau b st⟩
  | @ev h s' ev s'' x st ih =>
    rcases List.eq_nil_or_concat q with rfl | ⟨q', y, rfl⟩
    · refine ⟨s'', ?_, .refl _⟩
      rw [List.append_nil] at e
      rw [← e]
      exact .ev x st
    · rw [List.concat_eq_append, ← List.append_assoc] at e
      have := List.append_inj' e rfl
      obtain ⟨e1, e2⟩ := this
      simp only [List.cons.injEq, and_true] at e2
      subst e2
      obtain ⟨m, a, b⟩ := ih e1
      refine ⟨m, a, ?_⟩
      rw [List.concat_eq_append]
      exact .ev b st

theorem cons_inv {s s' : S} {e : E} {q : List E} (x : Exec step s (e :: q) s') :
    ∃ m m', Exec step s [] m ∧ step m (some e) m' ∧ Exec step m' q s' := by
  obtain ⟨m', a, b⟩ := x.split (p := [e]) (q := q) rfl
  have key : ∀ {h : List E} {t : S}, Exec step s h t → h = [e] →
      ∃ m m', Exec step s [] m ∧ step m (some e) m' ∧ Exec step m' [] t := by
    intro h t y
    induction y with
    | refl => intro h; cases h
    | tau y st ih =>
      intro h
      obtain ⟨m, m', a, b, c⟩ := ih h
      exact ⟨m, m', a, b, .tau c st⟩
    | @ev h s1 ev s2 y st ih =>
      intro hh
      have : h = [] ∧ ev = e := by simpa using List.append_inj' (hh.trans (List.nil_append [e]).symm) rfl
      obtain ⟨rfl, rfl⟩ := this
      exact ⟨_, _, y, st, .refl _⟩
  obtain ⟨m, m1, h1, h2, h3⟩ := key a rfl
  exact ⟨m, m1, h1, h2, by simpa using h3.trans b⟩

end Exec

namespace WM.Native
variable {V X : Type} [DecidableEq V]

theorem le_sup3 {L : Type} (a b c : View L) : a ≤ a ⊔ b ⊔ c := le_sup_left.trans le_sup_left

/-! ## Views only grow -/

theorem read_wf {L Y : Type} [DecidableEq L] {v : TV L} (w : v.Wf) (l : L) (o : MemOrd) (m : Msg L Y) :
    (v.read l o m).Wf ∧ v.cur ≤ (v.read l o m).cur := by
  refine ⟨⟨w.rel.trans (le_sup3 _ _ _), ?_⟩, le_sup3 _ _ _⟩
  simp only [TV.read]
  split
  · exact sup_le_sup (sup_le_sup w.cur le_rfl) le_rfl
  · exact sup_le ((sup_le_sup w.cur le_rfl).trans le_sup_left) bot_le

theorem write_wf {L : Type} [DecidableEq L] {v : TV L} (w : v.Wf) (l : L) (t : Ts) :
    (v.write l t).Wf ∧ v.cur ≤ (v.write l t).cur :=
  ⟨⟨w.rel.trans le_sup_left, sup_le_sup w.cur le_rfl⟩, le_sup_left⟩

theorem fence_wf {L : Type} {v : TV L} (w : v.Wf) (S : View L) (o : MemOrd) :
    (fence v S o).1.Wf ∧ v.cur ≤ (fence v S o).1.cur ∧ S ≤ (fence v S o).2 := by
  cases o <;> simp only [fence, TV.fence, TV.scFence, acqs, rels, if_true, if_false, Bool.false_eq_true]
  · exact ⟨⟨w.rel, w.cur⟩, le_rfl, le_rfl⟩
  · exact ⟨⟨le_rfl, w.cur⟩, le_rfl, le_rfl⟩
  · exact ⟨⟨w.rel.trans w.cur, le_rfl⟩, w.cur, le_rfl⟩
  · exact ⟨⟨le_rfl, le_rfl⟩, w.cur, le_rfl⟩
  · exact ⟨⟨le_rfl, le_rfl⟩, w.cur.trans le_sup_left, le_sup_right⟩

theorem load_wf {L Y : Type} [DecidableEq L] {ms : List (Msg L Y)} {v v' : TV L} {l : L} {o : MemOrd}
    {x : Y} (w : v.Wf) (h : Load ms v l o x v') : v'.Wf ∧ v.cur ≤ v'.cur := by
  cases h with | mk m hm hv => exact read_wf w _ _ _

theorem store_wf {L Y : Type} [DecidableEq L] {ms ms' : List (Msg L Y)} {v v' : TV L} {l : L} {o : MemOrd}
    {x : Y} (w : v.Wf) (h : Store ms v l o x ms' v') : v'.Wf ∧ v.cur ≤ v'.cur ∧ ms ⊆ ms' := by
  cases h with
  | mk f t hv hf => exact ⟨(write_wf w _ _).1, (write_wf w _ _).2, List.subset_cons_self _ _⟩

theorem rmw_wf {L Y : Type} [DecidableEq L] {ms ms' : List (Msg L Y)} {v v' : TV L} {l : L} {o : MemOrd}
    {g : Y → Y} {x : Y} (w : v.Wf) (h : Rmw ms v l o g x ms' v') : v'.Wf ∧ v.cur ≤ v'.cur ∧ ms ⊆ ms' := by
  cases h with
  | mk m t hm hv hf =>
    have h1 := read_wf w l o m
    have h2 := write_wf h1.1 l t
    exact ⟨h2.1, h1.2.trans h2.2, List.subset_cons_self _ _⟩

theorem access_wf {ms ms' : List (Msg Loc V)} {v v' : TV Loc} {l : Loc} {op : Op V} {ord : MemOrd}
    {r : Res V} (w : v.Wf) (h : Access ms v l op ord ms' v' r) :
    v'.Wf ∧ v.cur ≤ v'.cur ∧ ms ⊆ ms' := by
  cases h with
  | load o x v' h => exact ⟨(load_wf w h).1, (load_wf w h).2, List.Subset.refl _⟩
  | store x o ms' v' h => exact store_wf w h
  | swap x o y ms' v' h => exact rmw_wf w h
  | rmw g o y ms' v' h => exact rmw_wf w h
  | casOk cur new s f ms' v' h => exact rmw_wf w h
  | casErr cur new s f y v' h hy => exact ⟨(load_wf w h).1, (load_wf w h).2, List.Subset.refl _⟩

theorem client_wf {S S' : View Loc} {mx mx' : Nat → List (Msg Loc X)} {v v' : TV Loc} {a : CAct X}
    {r : Option X} (w : v.Wf) (h : Client Loc.ext S mx v a r mx' v' S') :
    v'.Wf ∧ v.cur ≤ v'.cur ∧ S ≤ S' ∧ ∀ b, mx b ⊆ mx' b := by
  cases h with
  | load a o x v' h => exact ⟨(load_wf w h).1, (load_wf w h).2, le_rfl, fun _ => List.Subset.refl _⟩
  | store a o x ms v' h =>
    obtain ⟨h1, h2, h3⟩ := store_wf w h
    refine ⟨h1, h2, le_rfl, fun b => ?_⟩
    by_cases e : b = a
    · subst e; rwa [Function.update_self]
    · rw [Function.update_of_ne e]; exact List.Subset.refl _
  | rmw a g o x ms v' h =>
    obtain ⟨h1, h2, h3⟩ := rmw_wf w h
    refine ⟨h1, h2, le_rfl, fun b => ?_⟩
    by_cases e : b = a
    · subst e; rwa [Function.update_self]
    · rw [Function.update_of_ne e]; exact List.Subset.refl _
  | fence o =>
    obtain ⟨h1, h2, h3⟩ := fence_wf w S o
    exact ⟨h1, h2, h3, fun _ => List.Subset.refl _⟩

/-- All threads' views are well formed. -/
def AllWf (s : State V X) : Prop := ∀ t, (s.tv t).Wf

/-- `s'` has at least the writes and the knowledge of `s`. -/
structure Le (s s' : State V X) : Prop where
  cur : ∀ t, (s.tv t).cur ≤ (s'.tv t).cur
  sc : s.sc ≤ s'.sc
  mo : ∀ o, s.mo o ⊆ s'.mo o
  mx : ∀ a, s.mx a ⊆ s'.mx a

theorem Le.rfl {s : State V X} : Le s s := ⟨fun _ => le_rfl, le_rfl, fun _ => List.Subset.refl _, fun _ => List.Subset.refl _⟩
theorem Le.trans {a b c : State V X} (x : Le a b) (y : Le b c) : Le a c :=
  ⟨fun t => (x.cur t).trans (y.cur t), x.sc.trans y.sc, fun o => List.Subset.trans (x.mo o) (y.mo o),
    fun o => List.Subset.trans (x.mx o) (y.mx o)⟩

/-- A step of thread `t` that changes its views to `v`. -/
theorem le_of {s s' : State V X} {t : Tid} {v : TV Loc} (w : AllWf s) (hv : v.Wf)
    (hc : (s.tv t).cur ≤ v.cur) (e : s'.tv = Function.update s.tv t v) (hs : s.sc ≤ s'.sc)
    (ho : ∀ o, s.mo o ⊆ s'.mo o) (hx : ∀ a, s.mx a ⊆ s'.mx a) : AllWf s' ∧ Le s s' := by
  refine ⟨fun u => ?_, fun u => ?_, hs, ho, hx⟩ <;> rw [e] <;> by_cases h : u = t
  · subst h; rwa [Function.update_self]
  · rw [Function.update_of_ne h]; exact w u
  · subst h; rwa [Function.update_self]
  · rw [Function.update_of_ne h]

theorem step_le {s s' : State V X} {e : Option (Ev V X)} (w : AllWf s) (st : Step s e s') :
    AllWf s' ∧ Le s s' := by
  have r0 : ∀ o, s.mo o ⊆ s.mo o := fun _ => List.Subset.refl _
  have r1 : ∀ o, s.mx o ⊆ s.mx o := fun _ => List.Subset.refl _
  have fw : ∀ t, ((s.tv t).scFence s.sc).Wf ∧ (s.tv t).cur ≤ ((s.tv t).scFence s.sc).cur := fun t =>
    ⟨⟨le_rfl, le_rfl⟩, (w t).cur.trans le_sup_left⟩
  cases st with
  | inv t o op h => exact ⟨w, fun _ => le_rfl, le_rfl, r0, r1⟩
  | panic t o op b h ho => exact ⟨w, fun _ => le_rfl, le_rfl, r0, r1⟩
  | pre t o op b h => exact le_of w (fw t).1 (fw t).2 rfl le_sup_right r0 r1
  | access t o op b ord ms v r h ho ha hs =>
    obtain ⟨h1, h2, h3⟩ := access_wf (w t) ha
    refine le_of w h1 h2 rfl le_rfl (fun o' => ?_) r1
    simp only [State.goto]
    by_cases e : o' = o
    · subst e; rwa [Function.update_self]
    · rw [Function.update_of_ne e]; exact List.Subset.refl _
  | post t r b h => exact le_of w (fw t).1 (fw t).2 rfl le_sup_right r0 r1
  | ret t r h => exact ⟨w, fun _ => le_rfl, le_rfl, r0, r1⟩
  | client t a r mx v sc h hc =>
    obtain ⟨h1, h2, h3, h4⟩ := client_wf (w t) hc
    exact le_of w h1 h2 rfl h3 r0 h4

theorem exec_le {s s' : State V X} {h : List (Ev V X)} (w : AllWf s) (x : Exec Step s h s') :
    AllWf s' ∧ Le s s' := by
  induction x with
  | refl => exact ⟨w, Le.rfl⟩
  | tau _ st ih => exact ⟨(step_le ih.1 st).1, ih.2.trans (step_le ih.1 st).2⟩
  | ev _ st ih => exact ⟨(step_le ih.1 st).1, ih.2.trans (step_le ih.1 st).2⟩

theorem init_wf (v0 : Obj → V) (x0 : Nat → X) : AllWf (init v0 x0) := fun _ => ⟨le_rfl, le_rfl⟩

/-! ## The parts of a call -/

/-- What is known of a call of `op` on `o` by `t` since it began in state `s0`; `q` is the history
since then. -/
inductive Phase (s0 : State V X) (t : Tid) (o : Obj) (op : Op V) (q : List (Ev V X)) (s : State V X) :
    Prop where
  | todo (b : Bool) (hp : s.pc t = .todo o op b) (hb : b = true → s0.sc ≤ (s.tv t).cur)
  | bad (b : Bool) (hp : s.pc t = .fin .panic b) (ho : op.ordOk = false)
  | fin (q1 q2 : List (Ev V X)) (sa : State V X) (ord : MemOrd) (ms : List (Msg Loc V)) (v : TV Loc)
      (r : Res V) (b b' : Bool) (hq : q = q1 ++ q2) (hx : Exec Step s0 q1 sa) (hpa : sa.pc t = .todo o op b)
      (ho : op.ordOk = true) (ha : Access (sa.mo o) (sa.tv t) (.obj o) op ord ms v r)
      (hsc : ord = .seqCst → s0.sc ≤ (sa.tv t).cur) (hc : v.cur ≤ (s.tv t).cur) (hm : ms ⊆ s.mo o)
      (hp : s.pc t = .fin r b') (hz : ord = .seqCst → b' = false → v.cur ≤ s.sc)
      (hl : Le sa s)

/-- Steps of other threads, and the thread's own internal steps that do not change its program
point, keep the phase. -/
theorem Phase.stay {s0 s s' : State V X} {t : Tid} {o : Obj} {op : Op V} {q q' : List (Ev V X)}
    (P : Phase s0 t o op q s) (l : Le s s') (hp : s'.pc t = s.pc t) :
    Phase s0 t o op (q ++ q') s' := by
  cases P with
  | todo b h hb => exact .todo b (hp.trans h) fun e => (hb e).trans (l.cur t)
  | bad b h ho => exact .bad b (hp.trans h) ho
  | fin q1 q2 sa ord ms v r b b' hq hx hpa ho ha hsc hc hm h hz hl =>
    exact .fin q1 (q2 ++ q') sa ord ms v r b b' (by rw [hq, List.append_assoc]) hx hpa ho ha hsc
      (hc.trans (l.cur t)) (List.Subset.trans hm (l.mo o)) (hp.trans h) (fun e1 e2 => (hz e1 e2).trans l.sc) (hl.trans l)

theorem phase {s1 s : State V X} {q : List (Ev V X)} {t : Tid} {o : Obj} {op : Op V}
    (w : AllWf s1)
    (hp : s1.pc t = .todo o op false) (x : Exec Step s1 q s) (hr : ∀ r, Ev.ret t r ∉ q) :
    Phase s1 t o op q s := by
  induction x with
  | refl => exact .todo false hp (by simp)
  | @tau q s s' x st ih =>
    have P := ih hr
    obtain ⟨w', -⟩ := exec_le w x
    have l := (step_le w' st).2
    have stay : s'.pc t = s.pc t → Phase s1 t o op q s' := fun h => by
      have := P.stay (q' := []) l h
      rwa [List.append_nil] at this
    by_cases hst : s'.pc t = s.pc t
    · exact stay hst
    cases st with
    | panic u o' op' b h ho =>
      have hu : t = u := by
        by_contra hn; exact hst (by simp only [State.goto]; rw [Function.update_of_ne hn])
      subst hu
      cases P with
      | todo b' h' hb =>
        rw [h] at h'; cases h'
        exact .bad false (by simp only [State.goto, Function.update_self]) ho
      | bad b h' ho => rw [h] at h'; cases h'
      | fin => rename_i h' _ _; rw [h] at h'; cases h'
    | pre u o' op' b h =>
      have hu : t = u := by
        by_contra hn; exact hst (by simp only [State.goto, State.scFence]; rw [Function.update_of_ne hn])
      subst hu
      cases P with
      | todo b' h' hb =>
        rw [h] at h'; cases h'
        refine .todo true (by simp only [State.goto, Function.update_self]) fun _ => ?_
        simp only [State.goto, State.scFence, Function.update_self, TV.scFence]
        exact (exec_le w x).2.sc.trans le_sup_right
      | bad b h' ho => rw [h] at h'; cases h'
      | fin => rename_i h' _ _; rw [h] at h'; cases h'
    | access u o' op' b ord ms v r h ho ha hs =>
      have hu : t = u := by
        by_contra hn; exact hst (by simp only [State.goto]; rw [Function.update_of_ne hn])
      subst hu
      cases P with
      | todo b' h' hb =>
        rw [h] at h'; cases h'
        refine .fin q [] s ord ms v r b (decide (ord = .seqCst)) (by simp) x h ho ha (fun e => hb (hs e))
          ?_ ?_ (by simp only [State.goto, Function.update_self]) ?_ l
        · simp only [State.goto, Function.update_self]; exact le_rfl
        · simp only [State.goto, Function.update_self]; exact List.Subset.refl _
        · intro e1 e2; rw [e1] at e2; simp at e2
      | bad b h' ho => rw [h] at h'; cases h'
      | fin => rename_i h' _ _; rw [h] at h'; cases h'
    | post u r b h =>
      have hu : t = u := by
        by_contra hn; exact hst (by simp only [State.goto, State.scFence]; rw [Function.update_of_ne hn])
      subst hu
      cases P with
      | todo b' h' hb => rw [h] at h'; cases h'
      | bad b h' ho =>
        rw [h] at h'; cases h'
        exact .bad false (by simp only [State.goto, Function.update_self]) ho
      | fin q1 q2 sa ord ms v r b b' hq hx hpa ho ha hsc hc hm h' hz hl =>
        rw [h] at h'; cases h'
        refine .fin q1 q2 sa ord ms v r b false hq hx hpa ho ha hsc (hc.trans (l.cur t)) hm
          (by simp only [State.goto, Function.update_self]) (fun _ _ => ?_) (hl.trans l)
        simp only [State.goto, State.scFence]
        exact (hc.trans (w' t).cur).trans le_sup_left
  | @ev q s e s' x st ih =>
    have P := ih fun r hm => hr r (by simp [hm])
    obtain ⟨w', -⟩ := exec_le w x
    have l := (step_le w' st).2
    have stay : s'.pc t = s.pc t → Phase s1 t o op (q ++ [e]) s' := fun h => P.stay l h
    have notidle : s.pc t ≠ .idle := by
      intro h
      cases P with
      | todo b' h' hb => rw [h] at h'; cases h'
      | bad b h' ho => rw [h] at h'; cases h'
      | fin => rename_i h' _ _; rw [h] at h'; cases h'
    apply stay
    cases st with
    | inv u o' op' h =>
      by_cases hn : t = u
      · subst hn; exact absurd h notidle
      · simp only [State.goto]; rw [Function.update_of_ne hn]
    | ret u r h =>
      by_cases hn : t = u
      · subst hn; exact absurd (by simp) (hr r)
      · simp only [State.goto]; rw [Function.update_of_ne hn]
    | client u a r mx v sc h hc => rfl

/-- A completed call. -/
theorem call {s0 s : State V X} (w0 : AllWf s0) {p q w : List (Ev V X)} {t : Tid} {o : Obj}
    {op : Op V} {r : Res V} (x : Exec Step s0 (p ++ .inv t o op :: (q ++ .ret t r :: w)) s)
    (hr : ∀ r, Ev.ret t r ∉ q) :
    (op.ordOk = false ∧ r = .panic) ∨ ∃ sp sa sz q1 q2 ord ms v, q = q1 ++ q2 ∧
      Exec Step s0 p sp ∧ Exec Step s0 (p ++ .inv t o op :: q1) sa ∧
      (∃ b, sa.pc t = .todo o op b) ∧ op.ordOk = true ∧ Access (sa.mo o) (sa.tv t) (.obj o) op ord ms v r ∧
      Le sp sa ∧ Le sa sz ∧ v.cur ≤ (sz.tv t).cur ∧ ms ⊆ sz.mo o ∧ (ord = .seqCst → sp.sc ≤ (sa.tv t).cur) ∧
      (ord = .seqCst → v.cur ≤ sz.sc) ∧
      Exec Step s0 (p ++ .inv t o op :: (q ++ [.ret t r])) sz ∧ Exec Step sz w s := by
  obtain ⟨sp0, x1, x2⟩ := x.split rfl
  obtain ⟨sp, sp', x3, st, x4⟩ := x2.cons_inv
  obtain ⟨sy0, x5, x6⟩ := x4.split rfl
  obtain ⟨sy, sz, x7, st', x8⟩ := x6.cons_inv
  have xsp : Exec Step s0 p sp := by simpa using x1.trans x3
  have xsy : Exec Step sp' q sy := by simpa using x5.trans x7
  have wsp := exec_le w0 xsp
  cases st with
  | inv _ _ _ hi =>
    have P := phase (t := t) (o := o) (op := op) (w := (step_le wsp.1 (.inv sp t o op hi)).1)
      (by simp only [State.goto, Function.update_self]) xsy hr
    have xi : Exec Step s0 (p ++ [.inv t o op]) (sp.goto t (.todo o op false)) := .ev xsp (.inv sp t o op hi)
    cases st' with
    | ret _ _ hz' =>
      cases P with
      | todo b hp hb => rw [hp] at hz'; cases hz'
      | bad b hp ho => rw [hp] at hz'; cases hz'; exact .inl ⟨ho, rfl⟩
      | fin q1 q2 sa ord ms v r' b b' hq hx hpa ho ha hsc hc hm hp hz hl =>
        rw [hp] at hz'; cases hz'
        refine .inr ⟨sp, sa, sy.goto t .idle, q1, q2, ord, ms, v, hq, xsp, ?_, ⟨b, hpa⟩, ho, ha, ?_, ?_, hc, hm,
          hsc, fun e => hz e rfl, ?_, x8⟩
        · simpa using xi.trans hx
        · have := exec_le (step_le wsp.1 (.inv sp t o op hi)).1 hx
          exact (step_le wsp.1 (.inv sp t o op hi)).2.trans this.2
        · exact hl.trans ⟨fun _ => le_rfl, le_rfl, fun _ => List.Subset.refl _, fun _ => List.Subset.refl _⟩
        · have := (xi.trans xsy).ev (.ret sy t r hp)
          simpa using this

/-! ## Splitting a history at its calls -/

theorem split_at {E : Type} {h : List E} {i : Nat} {e : E} (hi : h[i]? = some e) :
    h = h.take i ++ e :: h.drop (i + 1) := by
  obtain ⟨hl, rfl⟩ := List.getElem?_eq_some_iff.1 hi
  rw [← List.drop_eq_getElem_cons hl, List.take_append_drop]

theorem _root_.Verif.WM.Called.split {h : List (Ev V X)} {i k : Nat} {t : Tid} {o : Obj} {op : Op V} {r : Res V}
    (C : Called h i k t o op r) : ∃ p q w, h = p ++ .inv t o op :: (q ++ .ret t r :: w) ∧
      p = h.take i ∧ w = h.drop (k + 1) ∧ h.take k = p ++ .inv t o op :: q ∧ ∀ r, Ev.ret t r ∉ q := by
  obtain ⟨h1, h2, h3, h4⟩ := C
  have e1 := split_at h2
  have e2 : (h.drop (i + 1))[k - (i + 1)]? = some (.ret t r) := by
    rw [List.getElem?_drop, ← h3]; congr 1; omega
  have e3 := split_at e2
  rw [List.drop_drop, show i + 1 + (k - (i + 1) + 1) = k + 1 by omega] at e3
  refine ⟨h.take i, (h.drop (i + 1)).take (k - (i + 1)), h.drop (k + 1), ?_, rfl, rfl, ?_, ?_⟩
  · rw [← e3]; exact e1
  · have hi := (List.getElem?_eq_some_iff.1 h2).1
    have hk := (List.getElem?_eq_some_iff.1 h3).1
    conv_lhs => rw [e1, e3]
    rw [← List.cons_append, ← List.append_assoc]
    refine List.take_left' ?_
    simp only [List.length_append, List.length_cons, List.length_drop, List.length_take]
    omega
  · intro r' hm
    obtain ⟨n, hn⟩ := List.mem_iff_getElem?.1 hm
    rw [List.getElem?_take] at hn
    split at hn
    · next hlt =>
      rw [List.getElem?_drop] at hn
      exact h4 (i + 1 + n) (by omega) (by omega) r' hn
    · cases hn

theorem _root_.Verif.WM.Called.drop {h : List (Ev V X)} {i k n : Nat} {t : Tid} {o : Obj} {op : Op V} {r : Res V}
    (C : Called h i k t o op r) (hn : n ≤ i) : Called (h.drop n) (i - n) (k - n) t o op r := by
  obtain ⟨h1, h2, h3, h4⟩ := C
  refine ⟨by omega, ?_, ?_, fun j a b r' => ?_⟩
  · rw [List.getElem?_drop, ← h2]; congr 1; omega
  · rw [List.getElem?_drop, ← h3]; congr 1; omega
  · rw [List.getElem?_drop]; exact h4 (n + j) (by omega) (by omega) r'

/-! ## Values -/

theorem _root_.Verif.WM.Written.append {v0 : Obj → V} {h : List (Ev V X)} {o : Obj} {x : V} (w : Written v0 h o x)
    (k : List (Ev V X)) : Written v0 (h ++ k) o x := by
  induction w with
  | init => exact .init
  | store t v ord hm => exact .store t v ord (by simp [hm])
  | swap t v ord hm => exact .swap t v ord (by simp [hm])
  | cas t cur new s f hm _ ih => exact .cas t cur new s f (by simp [hm]) ih
  | rmw t f ord y hm _ ih => exact .rmw t f ord y (by simp [hm]) ih

/-- Every value in memory was written by a call; pending calls are in the history. -/
structure ValInv (v0 : Obj → V) (h : List (Ev V X)) (s : State V X) : Prop where
  msgs : ∀ o, ∀ m ∈ s.mo o, Written v0 h o m.val
  todo : ∀ t o op b, s.pc t = .todo o op b → Ev.inv t o op ∈ h

theorem access_mem {ms ms' : List (Msg Loc V)} {v v' : TV Loc} {l : Loc} {op : Op V} {ord : MemOrd}
    {r : Res V} (h : Access ms v l op ord ms' v' r) {m : Msg Loc V} (hm : m ∈ ms') :
    m ∈ ms ∨ (∃ ord, op = .store m.val ord) ∨ (∃ ord, op = .swap m.val ord) ∨
    (∃ f ord, op = .rmw f ord ∧ ∃ m0 ∈ ms, m.val = f m0.val) ∨
    (∃ cur s f, op = .cas cur m.val s f ∧ ∃ m0 ∈ ms, m0.val = cur) := by
  cases h with
  | load o x v' h => exact .inl hm
  | store x o ms' v' h =>
    cases h with
    | mk f t hv hf =>
      rcases List.mem_cons.1 hm with rfl | hm
      · exact .inr (.inl ⟨_, rfl⟩)
      · exact .inl hm
  | swap x o y ms' v' h =>
    cases h with
    | mk m0 t h0 hv hf =>
      rcases List.mem_cons.1 hm with rfl | hm
      · exact .inr (.inr (.inl ⟨_, rfl⟩))
      · exact .inl hm
  | rmw g o y ms' v' h =>
    cases h with
    | mk m0 t h0 hv hf =>
      rcases List.mem_cons.1 hm with rfl | hm
      · exact .inr (.inr (.inr (.inl ⟨_, _, rfl, m0, h0, rfl⟩)))
      · exact .inl hm
  | casOk cur new s f ms' v' h =>
    cases h with
    | mk m0 t h0 hv hf =>
      rcases List.mem_cons.1 hm with rfl | hm
      · exact .inr (.inr (.inr (.inr ⟨_, _, _, rfl, m0, h0, rfl⟩)))
      · exact .inl hm
  | casErr cur new s f y v' h hy => exact .inl hm

theorem access_reads {ms ms' : List (Msg Loc V)} {v v' : TV Loc} {l : Loc} {op : Op V} {ord : MemOrd}
    {r : Res V} (h : Access ms v l op ord ms' v' r) {y : V} (hy : Reads r y) :
    ∃ m ∈ ms, v.cur l ≤ m.ts ∧ m.val = y ∧ m.ts ≤ v'.cur l ∧ (acqs ord = true → m.view ≤ v'.cur) := by
  have rd : ∀ (o : MemOrd) (m : Msg Loc V), m.ts ≤ (v.read l o m).cur l ∧
      (acqs o = true → m.view ≤ (v.read l o m).cur) := fun o m => by
    refine ⟨?_, fun e => ?_⟩
    · refine le_trans ?_ ((le_sup_left : v.cur ⊔ single l m.ts ≤ _) l)
      refine le_trans ?_ ((le_sup_right : single l m.ts ≤ v.cur ⊔ single l m.ts) l)
      simp [single]
    · simp only [TV.read, e, if_true]; exact le_sup_right
  have wr : ∀ (u : TV Loc) (t : Ts), u.cur ≤ (u.write l t).cur := fun u t => le_sup_left
  cases h with
  | load o x v' h =>
    cases h with
    | mk m hm hv => cases hy; exact ⟨m, hm, hv, rfl, (rd _ m).1, (rd _ m).2⟩
  | store x o ms' v' h => cases hy
  | swap x o y ms' v' h =>
    cases h with
    | mk m t hm hv hf =>
      cases hy
      exact ⟨m, hm, hv, rfl, (rd _ m).1.trans (wr _ t l), fun e => ((rd _ m).2 e).trans (wr _ t)⟩
  | rmw g o y ms' v' h =>
    cases h with
    | mk m t hm hv hf =>
      cases hy
      exact ⟨m, hm, hv, rfl, (rd _ m).1.trans (wr _ t l), fun e => ((rd _ m).2 e).trans (wr _ t)⟩
  | casOk cur new s f ms' v' h =>
    cases h with
    | mk m t hm hv hf =>
      cases hy
      exact ⟨m, hm, hv, rfl, (rd _ m).1.trans (wr _ t l), fun e => ((rd _ m).2 e).trans (wr _ t)⟩
  | casErr cur new s f y v' h hy' =>
    cases h with
    | mk m hm hv => cases hy; exact ⟨m, hm, hv, rfl, (rd _ m).1, (rd _ m).2⟩

theorem access_ord {ms ms' : List (Msg Loc V)} {v v' : TV Loc} {l : Loc} {op : Op V} {ord : MemOrd}
    {r : Res V} (h : Access ms v l op ord ms' v' r) : ord = effOrd op r := by
  cases h <;> rfl

/-- Where the program points of the successor state come from. -/
theorem todo_step {s s' : State V X} {e : Option (Ev V X)} (st : Step s e s') {t : Tid} {o : Obj}
    {op : Op V} {b : Bool} (h : s'.pc t = .todo o op b) :
    (∃ b', s.pc t = .todo o op b') ∨ e = some (.inv t o op) := by
  cases st with
  | inv u o' op' hp =>
    by_cases hn : t = u
    · subst hn
      simp only [State.goto, Function.update_self] at h
      cases h; exact .inr rfl
    · simp only [State.goto] at h; rw [Function.update_of_ne hn] at h; exact .inl ⟨_, h⟩
  | panic u o' op' b' hp ho =>
    by_cases hn : t = u
    · subst hn; simp only [State.goto, Function.update_self] at h; cases h
    · simp only [State.goto] at h; rw [Function.update_of_ne hn] at h; exact .inl ⟨_, h⟩
  | pre u o' op' b' hp =>
    by_cases hn : t = u
    · subst hn
      simp only [State.goto, Function.update_self] at h
      cases h; exact .inl ⟨_, hp⟩
    · simp only [State.goto, State.scFence] at h; rw [Function.update_of_ne hn] at h; exact .inl ⟨_, h⟩
  | access u o' op' b' ord ms v r hp ho ha hs =>
    by_cases hn : t = u
    · subst hn; simp only [State.goto, Function.update_self] at h; cases h
    · simp only [State.goto] at h; rw [Function.update_of_ne hn] at h; exact .inl ⟨_, h⟩
  | post u r b' hp =>
    by_cases hn : t = u
    · subst hn; simp only [State.goto, Function.update_self] at h; cases h
    · simp only [State.goto, State.scFence] at h; rw [Function.update_of_ne hn] at h; exact .inl ⟨_, h⟩
  | ret u r hp =>
    by_cases hn : t = u
    · subst hn; simp only [State.goto, Function.update_self] at h; cases h
    · simp only [State.goto] at h; rw [Function.update_of_ne hn] at h; exact .inl ⟨_, h⟩
  | client u a r mx v sc hp hc => exact .inl ⟨_, h⟩

theorem val_access {v0 : Obj → V} {h : List (Ev V X)} {s : State V X} (I : ValInv v0 h s) {t : Tid} {o : Obj}
    {op : Op V} {b : Bool} {ord : MemOrd} {ms : List (Msg Loc V)} {v : TV Loc} {r : Res V}
    (hp : s.pc t = .todo o op b) (ha : Access (s.mo o) (s.tv t) (.obj o) op ord ms v r) {m : Msg Loc V}
    (hm : m ∈ ms) : Written v0 h o m.val := by
  have hi := I.todo t o op b hp
  rcases access_mem ha hm with h1 | ⟨ord, rfl⟩ | ⟨ord, rfl⟩ | ⟨f, ord, rfl, m0, h0, e⟩ | ⟨cur, sc, f, rfl, m0, h0, e⟩
  · exact I.msgs o m h1
  · exact .store t _ _ hi
  · exact .swap t _ _ hi
  · rw [e]; exact .rmw t _ _ _ hi (I.msgs o m0 h0)
  · exact .cas t _ _ _ _ hi (e ▸ I.msgs o m0 h0)

theorem val_inv {v0 : Obj → V} {x0 : Nat → X} {h : List (Ev V X)} {s : State V X}
    (x : Exec Step (init v0 x0) h s) : ValInv v0 h s := by
  generalize hi : init v0 x0 = i at x
  induction x with
  | refl =>
    subst hi
    refine ⟨fun o m hm => ?_, fun t o op b hp => by simp [init] at hp⟩
    simp only [init, initMsgs, List.mem_singleton] at hm
    subst hm; exact .init
  | @tau h s s' x st ih =>
    refine ⟨?_, fun t o op b hp => ?_⟩
    · intro o m hm
      cases st with
      | panic t o' op b hp ho => exact ih.msgs o m hm
      | pre t o' op b hp => exact ih.msgs o m hm
      | post t r b hp => exact ih.msgs o m hm
      | access t o' op b ord ms v r hp ho ha hs =>
        simp only [State.goto] at hm
        by_cases e : o = o'
        · subst e; rw [Function.update_self] at hm; exact val_access ih hp ha hm
        · rw [Function.update_of_ne e] at hm; exact ih.msgs o m hm
    · rcases todo_step st hp with ⟨b', h1⟩ | h1
      · exact ih.todo t o op b' h1
      · cases h1
  | @ev h s e s' x st ih =>
    refine ⟨?_, fun t o op b hp => ?_⟩
    · intro o m hm
      have : s'.mo = s.mo := by cases st <;> rfl
      rw [this] at hm
      exact Written.append (ih.msgs o m hm) _
    · rcases todo_step st hp with ⟨b', h1⟩ | h1
      · exact List.mem_append_left _ (ih.todo t o op b' h1)
      · cases h1; simp

/-! ## Monotone properties of an object's value -/

/-- Reachable downwards through writes without `Q`, each read-modify-write directly after the one it
read. -/
inductive Chain (Q : V → Prop) (ms : List (Msg Loc V)) : Ts → Prop where
  | zero : Chain Q ms 0
  | next (m : Msg Loc V) : m ∈ ms → ¬ Q m.val → Chain Q ms m.frm → Chain Q ms m.ts

theorem Chain.mono {Q : V → Prop} {ms ms' : List (Msg Loc V)} (hs : ms ⊆ ms') {t : Ts} (h : Chain Q ms t) :
    Chain Q ms' t := by
  induction h with
  | zero => exact .zero
  | next m hm hq _ ih => exact .next m (hs hm) hq ih

theorem Chain.lt {Q : V → Prop} {ms : List (Msg Loc V)} {f t τ : Ts} (hf : Fresh ms f t) (h : Chain Q ms τ) :
    τ < t := by
  induction h with
  | zero => exact lt_of_le_of_lt (show (0 : Ts) ≤ f from zero_le) hf.1
  | next m hm hq _ ih =>
    rcases hf.2 m hm with h | h
    · exact absurd ih (not_lt.2 h)
    · exact lt_of_le_of_lt h hf.1

structure Flag (Q : V → Prop) (ms : List (Msg Loc V)) : Prop where
  low : ∀ m ∈ ms, ¬ Q m.val → Chain Q ms m.ts
  ord : ∀ m ∈ ms, ∀ m' ∈ ms, Q m.val → ¬ Q m'.val → m'.ts < m.ts
  pos : ∀ m ∈ ms, m.frm < m.ts ∨ m.ts = 0

/-- The view covers a write with `Q`. -/
def Sees (Q : V → Prop) (ms : List (Msg Loc V)) (t : Ts) : Prop := ∃ m ∈ ms, Q m.val ∧ m.ts ≤ t

theorem Sees.mono {Q : V → Prop} {ms ms' : List (Msg Loc V)} {t t' : Ts} (h : Sees Q ms t) (hs : ms ⊆ ms')
    (ht : t ≤ t') : Sees Q ms' t' := by
  obtain ⟨m, h1, h2, h3⟩ := h
  exact ⟨m, hs h1, h2, h3.trans ht⟩

theorem Flag.pushQ {Q : V → Prop} {ms : List (Msg Loc V)} (F : Flag Q ms) {f t : Ts} (hf : Fresh ms f t)
    (x : V) (w : View Loc) (hx : Q x) : Flag Q (⟨f, t, x, w⟩ :: ms) := by
  have hs : ms ⊆ ⟨f, t, x, w⟩ :: ms := List.subset_cons_self _ _
  refine ⟨fun m hm hq => ?_, fun m hm m' hm' hq hq' => ?_, fun m hm => ?_⟩
  · rcases List.mem_cons.1 hm with rfl | hm
    · exact absurd hx hq
    · exact (F.low m hm hq).mono hs
  · rcases List.mem_cons.1 hm' with rfl | hm'
    · exact absurd hx hq'
    · rcases List.mem_cons.1 hm with rfl | hm
      · exact (F.low m' hm' hq').lt hf
      · exact F.ord m hm m' hm' hq hq'
  · rcases List.mem_cons.1 hm with rfl | hm
    · exact .inl hf.1
    · exact F.pos m hm

theorem Flag.pushR {Q : V → Prop} {ms : List (Msg Loc V)} (F : Flag Q ms) {m0 : Msg Loc V} {t : Ts}
    (h0 : m0 ∈ ms) (hf : Fresh ms m0.ts t) (x : V) (w : View Loc) (hx : Q m0.val → Q x) :
    Flag Q (⟨m0.ts, t, x, w⟩ :: ms) := by
  by_cases hq : Q x
  · exact F.pushQ hf x w hq
  have hq0 : ¬ Q m0.val := fun h => hq (hx h)
  have hs : ms ⊆ ⟨m0.ts, t, x, w⟩ :: ms := List.subset_cons_self _ _
  refine ⟨fun m hm hq => ?_, fun m hm m' hm' hq1 hq' => ?_, fun m hm => ?_⟩
  · rcases List.mem_cons.1 hm with rfl | hm
    · exact .next _ (List.mem_cons_self ..) hq ((F.low m0 h0 hq0).mono hs)
    · exact (F.low m hm hq).mono hs
  · rcases List.mem_cons.1 hm with rfl | hm
    · exact absurd hq1 hq
    · rcases List.mem_cons.1 hm' with rfl | hm'
      · have h1 := F.ord m hm m0 h0 hq1 hq0
        have h2 : m.frm < m.ts := (F.pos m hm).resolve_right fun e => by
          rw [e] at h1
          exact absurd h1 (not_lt.2 (zero_le))
        rcases hf.2 m hm with h | h
        · exact lt_of_le_of_lt h h2
        · exact absurd h1 (not_lt.2 h)
      · exact F.ord m hm m' hm' hq1 hq'
  · rcases List.mem_cons.1 hm with rfl | hm
    · exact .inl hf.1
    · exact F.pos m hm

theorem Flag.access {Q : V → Prop} {ms ms' : List (Msg Loc V)} {v v' : TV Loc} {l : Loc} {op : Op V}
    {ord : MemOrd} {r : Res V} (F : Flag Q ms) (hk : Keeps Q op) (h : Access ms v l op ord ms' v' r) :
    Flag Q ms' := by
  cases h with
  | load o x v' h => exact F
  | store x o ms' v' h => cases h with | mk f t hv hf => exact F.pushQ hf _ _ hk
  | swap x o y ms' v' h => cases h with | mk m t hm hv hf => exact F.pushR hm hf _ _ fun _ => hk
  | rmw g o y ms' v' h => cases h with | mk m t hm hv hf => exact F.pushR hm hf _ _ (hk _)
  | casOk cur new s f ms' v' h => cases h with | mk m t hm hv hf => exact F.pushR hm hf _ _ hk
  | casErr cur new s f y v' h hy => exact F

theorem Flag.reads {Q : V → Prop} {ms ms' : List (Msg Loc V)} {v v' : TV Loc} {l : Loc} {op : Op V}
    {ord : MemOrd} {r : Res V} (F : Flag Q ms) (h : Access ms v l op ord ms' v' r) (hs : Sees Q ms (v.cur l))
    {y : V} (hy : Reads r y) : Q y := by
  obtain ⟨m, h1, h2, rfl, -, -⟩ := access_reads h hy
  obtain ⟨m', h3, h4, h5⟩ := hs
  by_contra hn
  exact absurd (F.ord m' h3 m h1 h4 hn) (not_lt.2 (h5.trans h2))

theorem sees_access {Q : V → Prop} {ms ms' : List (Msg Loc V)} {v v' : TV Loc} {l : Loc} {op : Op V}
    {ord : MemOrd} {r : Res V} (h : Access ms v l op ord ms' v' r) {x : V} (hx : Leaves op r x) (hq : Q x) :
    Sees Q ms' (v'.cur l) := by
  have wr : ∀ (u : TV Loc) (t : Ts), t ≤ (u.write l t).cur l := fun u t => by
    refine le_trans ?_ ((le_sup_right : single l t ≤ u.cur ⊔ single l t) l)
    simp [single]
  have h0 := h
  cases h with
  | load o x v' h =>
    obtain ⟨m, h1, -, h2, h3, -⟩ := access_reads h0 hx
    exact ⟨m, h1, h2 ▸ hq, h3⟩
  | store x o ms' v' h =>
    cases h with
    | mk f t hv hf => cases hx; exact ⟨_, List.mem_cons_self .., hq, wr _ t⟩
  | swap x o y ms' v' h =>
    cases h with
    | mk m t hm hv hf => cases hx; exact ⟨_, List.mem_cons_self .., hq, wr _ t⟩
  | rmw g o y ms' v' h =>
    cases h with
    | mk m t hm hv hf =>
      obtain ⟨y, hy, rfl⟩ := hx
      cases hy
      exact ⟨_, List.mem_cons_self .., hq, wr _ t⟩
  | casOk cur new s f ms' v' h =>
    generalize hc : cur = c at h
    cases h with
    | mk m t hm hv hf => cases hx; exact ⟨_, List.mem_cons_self .., hq, wr _ t⟩
  | casErr cur new s f y v' h hy =>
    obtain ⟨m, h1, -, h2, h3, -⟩ := access_reads h0 hx
    exact ⟨m, h1, h2 ▸ hq, h3⟩

theorem flag_inv {v0 : Obj → V} {x0 : Nat → X} {h : List (Ev V X)} {s : State V X} {o : Obj} {Q : V → Prop}
    (x : Exec Step (init v0 x0) h s) (hk : ∀ t op, Ev.inv t o op ∈ h → Keeps Q op) : Flag Q (s.mo o) := by
  generalize hi : init v0 x0 = i at x
  have x' := x
  induction x with
  | refl =>
    subst hi
    refine ⟨fun m hm hq => ?_, fun m hm m' hm' hq hq' => ?_, fun m hm => ?_⟩ <;>
      simp only [init, initMsgs, List.mem_singleton] at hm
    · subst hm; exact .zero
    · simp only [init, initMsgs, List.mem_singleton] at hm'
      subst hm hm'; exact absurd hq hq'
    · subst hm; exact .inr rfl
  | @tau h s s' x st ih =>
    have F := ih hk x
    cases st with
    | panic t o' op b hp ho => exact F
    | pre t o' op b hp => exact F
    | post t r b hp => exact F
    | access t o' op b ord ms v r hp ho ha hs =>
      simp only [State.goto]
      by_cases e : o = o'
      · subst e
        rw [Function.update_self]
        have : Ev.inv t o op ∈ h := (val_inv (by rw [hi]; exact x)).todo t o op b hp
        exact F.access (hk t op this) ha
      · rw [Function.update_of_ne e]; exact F
  | @ev h s e s' x st ih =>
    have F := ih (fun t op hm => hk t op (List.mem_append_left _ hm)) x
    have : s'.mo = s.mo := by cases st <;> rfl
    rw [this]; exact F

/-! ## Message passing -/

/-- The view covers a client write to `a` other than the initial value. -/
def Knows (a : Nat) (s : State V X) (v : View Loc) : Prop := ∃ m ∈ s.mx a, m.ts ≠ 0 ∧ m.ts ≤ v (.ext a)

theorem Knows.mono {a : Nat} {s s' : State V X} {v v' : View Loc} (h : Knows a s v) (hl : Le s s')
    (hv : v ≤ v') : Knows a s' v' := by
  obtain ⟨m, h1, h2, h3⟩ := h
  exact ⟨m, hl.mx a h1, h2, h3.trans (hv _)⟩

structure MP (a : Nat) (x1 : X) (o : Obj) (Q : V → Prop) (h : List (Ev V X)) (s : State V X) : Prop where
  vals : ∀ m ∈ s.mx a, m.ts ≠ 0 → m.val = x1
  did : ∀ t ow r, Ev.client t (.store a x1 ow) r ∈ h → Knows a s (s.tv t).cur
  msgs : ∀ m ∈ s.mo o, Q m.val → Knows a s m.view
  todo : ∀ t op b, s.pc t = .todo o op b → Keeps (fun y => ¬ Q y) op ∨
    (∃ w, wrOrd op = some w ∧ rels w = true) ∧ Knows a s (s.tv t).cur

/-- The view of a new write knows what the writer knew, if it is a release write, and what the write
it is based on knew, if it is a read-modify-write that did not create `Q`. -/
theorem access_new {Q : V → Prop} {ms ms' : List (Msg Loc V)} {v v' : TV Loc} {l : Loc} {op : Op V}
    {ord : MemOrd} {r : Res V} (h : Access ms v l op ord ms' v' r) {m : Msg Loc V} (hm : m ∈ ms')
    (hq : Q m.val) : m ∈ ms ∨ (∀ w, wrOrd op = some w → rels w = true → v.cur ≤ m.view) ∧
      (Keeps (fun y => ¬ Q y) op → ∃ m0 ∈ ms, Q m0.val ∧ m0.view ≤ m.view) := by
  cases h with
  | load o x v' h => exact .inl hm
  | store x o ms' v' h =>
    cases h with
    | mk f t hv hf =>
      rcases List.mem_cons.1 hm with rfl | hm
      · refine .inr ⟨fun w e hw => ?_, fun hk => absurd hq hk⟩
        cases e
        simp only [TV.msgView, hw, if_true]; exact le_sup_left
      · exact .inl hm
  | swap x o y ms' v' h =>
    cases h with
    | mk m0 t h0 hv hf =>
      rcases List.mem_cons.1 hm with rfl | hm
      · refine .inr ⟨fun w e hw => ?_, fun hk => absurd hq hk⟩
        cases e
        simp only [TV.msgView, hw, if_true]
        exact le_trans (le_trans (le_sup3 _ _ _) le_sup_left) le_sup_left
      · exact .inl hm
  | rmw g o y ms' v' h =>
    cases h with
    | mk m0 t h0 hv hf =>
      rcases List.mem_cons.1 hm with rfl | hm
      · refine .inr ⟨fun w e hw => ?_, fun hk => ⟨m0, h0, ?_, le_sup_right⟩⟩
        · cases e
          simp only [TV.msgView, hw, if_true]
          exact le_trans (le_trans (le_sup3 _ _ _) le_sup_left) le_sup_left
        · by_contra hn; exact hk _ hn hq
      · exact .inl hm
  | casOk cur new s f ms' v' h =>
    cases h with
    | mk m0 t h0 hv hf =>
      rcases List.mem_cons.1 hm with rfl | hm
      · refine .inr ⟨fun w e hw => ?_, fun hk => ⟨m0, h0, ?_, le_sup_right⟩⟩
        · cases e
          simp only [TV.msgView, hw, if_true]
          exact le_trans (le_trans (le_sup3 _ _ _) le_sup_left) le_sup_left
        · by_contra hn; exact hk hn hq
      · exact .inl hm
  | casErr cur new s f y v' h hy => exact .inl hm

theorem mp_inv {v0 : Obj → V} {x0 : Nat → X} {h : List (Ev V X)} {s : State V X} {a : Nat} {x1 : X} {o : Obj}
    {Q : V → Prop} (x : Exec Step (init v0 x0) h s) (h0 : ¬ Q (v0 o))
    (hw : ∀ t act r, Ev.client t act r ∈ h → WritesVar a act → ∃ ow, act = .store a x1 ow)
    (hc : ∀ p t op q, h = p ++ Ev.inv t o op :: q → Keeps (fun y => ¬ Q y) op ∨
      (∃ w, wrOrd op = some w ∧ rels w = true) ∧ ∃ ow r, Ev.client t (.store a x1 ow) r ∈ p) :
    MP a x1 o Q h s := by
  generalize hi : init v0 x0 = i at x
  induction x with
  | refl =>
    subst hi
    refine ⟨fun m hm hn => ?_, fun t ow r hm => by simp at hm, fun m hm hq => ?_,
      fun t op b hp => by simp [init] at hp⟩ <;> simp only [init, initMsgs, List.mem_singleton] at hm
    · subst hm; exact absurd rfl hn
    · subst hm; exact absurd hq h0
  | @tau h s s' x st ih =>
    have I := ih hw hc
    have wf := (exec_le (init_wf v0 x0) (by rw [hi]; exact x)).1
    have l := (step_le wf st).2
    have hmx : s'.mx = s.mx := by cases st <;> rfl
    refine ⟨by rw [hmx]; exact I.vals, fun t ow r hm => (I.did t ow r hm).mono l (l.cur t), ?_, fun t op b hp => ?_⟩
    · intro m hm hq
      have keep : m ∈ s.mo o → Knows a s' m.view := fun hm => (I.msgs m hm hq).mono l le_rfl
      cases st with
      | panic t o' op b hp ho => exact keep hm
      | pre t o' op b hp => exact keep hm
      | post t r b hp => exact keep hm
      | access t o' op b ord ms v r hp ho ha hs =>
        simp only [State.goto] at hm
        by_cases e : o = o'
        · subst e
          rw [Function.update_self] at hm
          rcases access_new ha hm hq with h1 | ⟨h1, h2⟩
          · exact keep h1
          · rcases I.todo t op b hp with h3 | ⟨⟨w, h3, h4⟩, h5⟩
            · obtain ⟨m0, h6, h7, h8⟩ := h2 h3
              exact (I.msgs m0 h6 h7).mono l h8
            · exact h5.mono l (h1 w h3 h4)
        · rw [Function.update_of_ne e] at hm; exact keep hm
    · rcases todo_step st hp with ⟨b', h1⟩ | h1
      · rcases I.todo t op b' h1 with h2 | ⟨h2, h3⟩
        · exact .inl h2
        · exact .inr ⟨h2, h3.mono l (l.cur t)⟩
      · cases h1
  | @ev h s e s' x st ih =>
    have I := ih (fun t act r hm => hw t act r (List.mem_append_left _ hm))
      (fun p t op q he => hc p t op (q ++ [e]) (by rw [he]; simp))
    have wf := (exec_le (init_wf v0 x0) (by rw [hi]; exact x)).1
    have l := (step_le wf st).2
    have hmo : s'.mo = s.mo := by cases st <;> rfl
    refine ⟨fun m hm hn => ?_, fun t ow r hm => ?_, fun m hm hq => ?_, fun t op b hp => ?_⟩
    · cases st with
      | inv t o op h => exact I.vals m hm hn
      | ret t r h => exact I.vals m hm hn
      | client t act r mx v sc hp hcl =>
        have hw' := hw t act r (by simp)
        simp only at hm
        cases hcl with
        | load b o x v' h => exact I.vals m hm hn
        | fence o => exact I.vals m hm hn
        | store b o x ms v' h =>
          by_cases e : a = b
          · subst e
            obtain ⟨ow, e⟩ := hw' rfl
            cases e
            rw [Function.update_self] at hm
            cases h with
            | mk f t hv hf =>
              rcases List.mem_cons.1 hm with rfl | hm
              · rfl
              · exact I.vals m hm hn
          · rw [Function.update_of_ne e] at hm; exact I.vals m hm hn
        | rmw b g o x ms v' h =>
          by_cases e : a = b
          · subst e
            obtain ⟨ow, e⟩ := hw' rfl
            cases e
          · rw [Function.update_of_ne e] at hm; exact I.vals m hm hn
    · rcases List.mem_append.1 hm with hm | hm
      · exact (I.did t ow r hm).mono l (l.cur t)
      · rw [List.mem_singleton] at hm
        subst hm
        cases st with
        | client _ _ _ mx v sc hp hcl =>
          cases hcl with
          | store b o x ms v' h =>
            cases h with
            | mk f τ hv hf =>
              refine ⟨_, by simp only [Function.update_self]; exact List.mem_cons_self .., ?_, ?_⟩
              · exact (lt_of_le_of_lt (show (0 : Ts) ≤ f from zero_le) hf.1).ne'
              · simp only [Function.update_self]
                refine le_trans ?_ ((le_sup_right : single (Loc.ext a) τ ≤ (s.tv t).cur ⊔ single (Loc.ext a) τ) _)
                simp [single]
    · rw [hmo] at hm
      exact (I.msgs m hm hq).mono l le_rfl
    · rcases todo_step st hp with ⟨b', h1⟩ | h1
      · rcases I.todo t op b' h1 with h2 | ⟨h2, h3⟩
        · exact .inl h2
        · exact .inr ⟨h2, h3.mono l (l.cur t)⟩
      · cases h1
        rcases hc h t op [] rfl with h2 | ⟨h2, ow, r, h3⟩
        · exact .inl h2
        · exact .inr ⟨h2, (I.did t ow r h3).mono l (l.cur t)⟩

end WM.Native
end Verif
