import Verif.WM.WrapSim
/-!
# Code over an atomic in weak memory: each operation is one access

`wrap_refines`: if `WSim` holds of the code, every history of the code over native atomics in weak memory
is a history of `Spec/Derived.lean`.
-/
set_option autoImplicit false
set_option linter.unusedSectionVars false
namespace Verif.WM.Derived
open Verif.WM.Native (Loc AllWf)
open Verif.Lf (Acc Next Code)

variable {V W O R L X : Type} [DecidableEq V] {c : Code V O R L} {S : Spec W O R}

theorem AtLeast.refl (o : MemOrd) : o.AtLeast o := fun _ h => h

/-! ## One access -/

/-- The effect on memory of an access that reads `rd` and writes `wr`. -/
def Eff (ms : List (Msg Loc V)) (v : TV Loc) (l : Loc) (ord : MemOrd) (ms' : List (Msg Loc V)) (v' : TV Loc) :
    Option V → Option V → Prop
  | some x, none => Load ms v l ord x v' ∧ ms' = ms
  | some x, some y => ∃ g : V → V, g x = y ∧ Rmw ms v l ord g x ms' v'
  | none, some y => Store ms v l ord y ms' v'
  | none, none => ms' = ms ∧ v' = v

theorem access_out {ms ms' : List (Msg Loc V)} {v v' : TV Loc} {l : Loc} {i : Op V} {ord : MemOrd} {r : Res V}
    (h : Native.Access ms v l i ord ms' v' r) (ho : i.ordOk = true) :
    ∃ rd wr, Out i rd wr ord r ∧ Eff ms v l ord ms' v' rd wr := by
  cases h with
  | load o x v' h => exact ⟨_, _, .load ord x ho, h, rfl⟩
  | store x o ms' v' h => exact ⟨_, _, .store x ord ho, h⟩
  | swap x o y ms' v' h => exact ⟨_, _, .swap x ord y, _, rfl, h⟩
  | rmw g o y ms' v' h => exact ⟨_, _, .rmw g ord y, g, rfl, h⟩
  | casOk cur new s f ms' v' h => exact ⟨_, _, .casOk cur new ord f ho, _, rfl, h⟩
  | casErr cur new s f y v' h hy => exact ⟨_, _, .casErr cur new s ord y ho hy, h, rfl⟩

variable {abs : V → W} {inv : V → Prop} {mi mi' : List (Msg Loc V)} {ms : List (Msg Loc W)} {vi v' vs : TV Loc}
  {l : Loc} {ord : MemOrd} {rd wr : Option V}

theorem eff_inv (M : MRel abs inv mi ms) (h : Eff mi vi l ord mi' v' rd wr) : ∀ x, rd = some x → inv x := by
  rintro x rfl
  cases wr with
  | none =>
    obtain ⟨h, -⟩ := h
    cases h with | mk m hm hr => exact M.inv m hm
  | some y =>
    obtain ⟨g, -, h⟩ := h
    cases h with | mk m t hm hr hf => exact M.inv m hm

/-- An access that leaves the contents as they were need not be made. -/
theorem mem_skip (M : MRel abs inv mi ms) (hv : TLe vs vi) (hp : ∃ s ∈ ms, s.ts = vs.cur l)
    (h : Eff mi vi l ord mi' v' rd wr) (hi : ∀ y, wr = some y → inv y) (hs : Skips abs rd wr) :
    MRel abs inv mi' ms ∧ TLe vs v' := by
  rcases hs with rfl | ⟨x, y, rfl, rfl, e⟩
  · cases rd with
    | none => obtain ⟨rfl, rfl⟩ := h; exact ⟨M, hv⟩
    | some x =>
      obtain ⟨h, rfl⟩ := h
      obtain ⟨-, vs', -, -, k⟩ := read_sim M hv hp h (AtLeast.refl ord)
      exact ⟨M, k⟩
  · obtain ⟨g, rfl, h⟩ := h
    obtain ⟨vs', -, k1, -, k2⟩ := dup_sim M hv hp h (AtLeast.refl ord) (hi _ rfl) e
    exact ⟨k1, k2⟩

/-- An access that does what `op` is to do is one of `op`. -/
theorem mem_fits (M : MRel abs inv mi ms) (hv : TLe vs vi) (w : vi.Wf) (hp : ∃ s ∈ ms, s.ts = vs.cur l)
    (h : Eff mi vi l ord mi' v' rd wr) (hi : ∀ y, wr = some y → inv y) {op : O} {r : R}
    (hf : Fits S abs op rd wr ord r) :
    ∃ ord' ms' vs', Access S ms vs l op ord' ms' vs' r ∧ MRel abs inv mi' ms' ∧ TLe vs' v' ∧
      (ord' = .seqCst → ord = .seqCst) := by
  cases rd with
  | none =>
    cases wr with
    | none =>
      obtain ⟨rfl, rfl⟩ := h
      exact ⟨_, _, _, .nothing r hf.1 hf.2, M, hv, by simp⟩
    | some y =>
      obtain ⟨k, hs, ho⟩ := hf
      obtain ⟨ms', vs', h1, h2, h3⟩ := store_sim M hv w h ho (hi _ rfl)
      exact ⟨_, _, _, .store _ _ _ r k h1 hs, h2, h3, sc_of ho⟩
  | some x =>
    cases wr with
    | none =>
      obtain ⟨k, hs, ho⟩ := hf
      obtain ⟨h, rfl⟩ := h
      obtain ⟨-, vs', h1, h2, -⟩ := read_sim M hv hp h ho
      exact ⟨_, _, _, .read _ _ r k h1 hs, M, h2, sc_of ho⟩
    | some y =>
      obtain ⟨g, rfl, h⟩ := h
      rcases hf with ⟨k, hs, ho⟩ | ⟨k, hs, ho⟩ | ⟨k, e, hs, ho⟩
      · obtain ⟨-, ms', vs', h1, h2, h3⟩ := rmw_sim M hv w hp (g' := fun _ => abs (g x)) h ho (hi _ rfl) rfl
        exact ⟨_, _, _, .write _ _ _ _ r k h1 hs, h2, h3, sc_of ho⟩
      · obtain ⟨ms', vs', h1, h2, h3⟩ := store_rmw_sim M hv w h ho (hi _ rfl)
        exact ⟨_, _, _, .store _ _ _ r k h1 hs, h2, h3, sc_of ho⟩
      · obtain ⟨vs', h1, h2, h3, -⟩ := dup_sim M hv hp h ho (hi _ rfl) e
        exact ⟨_, _, _, .read _ _ r k h1 hs, h2, h3, sc_of ho⟩

/-! ## The relation -/

/-- What the answer of the pending call of `i` will mean. -/
def Pend (Y : WSim c S) (op : O) (i : Op V) (g : Res V → L) : Prop :=
  ∀ rd wr ord r, Out i rd wr ord r → (∀ x, rd = some x → Y.inv x) →
    (∀ y, wr = some y → Y.inv y) ∧
      ((Skips Y.abs rd wr ∧ Y.at_ (g r) op) ∨ ∃ r', Fits S Y.abs op rd wr ord r' ∧ Y.dn (g r) r')

/-- A thread: where it is in the code, in its call of the underlying atomic, and in the specification. -/
inductive ThRel (Y : WSim c S) : Th V L → Native.Pc V → Pc O R → Prop where
  | idle : ThRel Y .idle .idle .idle
  | runAt (o l op b) (h : Y.at_ l op) : ThRel Y (.run o l) .idle (.todo o op b)
  | runDn (o l r) (h : Y.dn l r) : ThRel Y (.run o l) .idle (.fin r false)
  | wait (o i g op b b') (h : Pend Y op i g) (hb : b' = true → b = true) :
      ThRel Y (.wait o i g) (.todo o i b') (.todo o op b)
  | finAt (o i g r nd op b) (h : Y.at_ (g r) op) : ThRel Y (.wait o i g) (.fin r nd) (.todo o op b)
  | finDn (o i g r nd r' nd') (h : Y.dn (g r) r') (hb : nd' = true → nd = true) :
      ThRel Y (.wait o i g) (.fin r nd) (.fin r' nd')

structure Rel (Y : WSim c S) (s : Native.State V X) (w : Tid → Th V L) (b : State W X O R) : Prop where
  mo : ∀ o, MRel Y.abs Y.inv (s.mo o) (b.mo o)
  mx : ∀ a, MRel id (fun _ => True) (s.mx a) (b.mx a)
  tv : ∀ t, TLe (b.tv t) (s.tv t)
  sc : b.sc ≤ s.sc
  inv : SInv b
  wf : AllWf s
  th : ∀ t, ThRel Y (w t) (s.pc t) (b.pc t)

variable {Y : WSim c S}

theorem upd3 {w : Tid → Th V L} {p : Tid → Native.Pc V} {q : Tid → Pc O R} (h : ∀ t, ThRel Y (w t) (p t) (q t)) (t : Tid)
    {a : Th V L} {x : Native.Pc V} {y : Pc O R} (k : ThRel Y a x y) (u : Tid) :
    ThRel Y (Function.update w t a u) (Function.update p t x u) (Function.update q t y u) := by
  by_cases e : u = t
  · subst e; simpa using k
  · simpa [Function.update_of_ne e] using h u

/-- A thread moves in the code and in the specification. -/
theorem upd13 {w : Tid → Th V L} {p : Tid → Native.Pc V} {q : Tid → Pc O R} (h : ∀ t, ThRel Y (w t) (p t) (q t)) (t : Tid)
    {a : Th V L} {y : Pc O R} (k : ThRel Y a (p t) y) (u : Tid) :
    ThRel Y (Function.update w t a u) (p u) (Function.update q t y u) := by
  by_cases e : u = t
  · subst e; simpa using k
  · simpa [Function.update_of_ne e] using h u

theorem upd23 {w : Tid → Th V L} {p : Tid → Native.Pc V} {q : Tid → Pc O R} (h : ∀ t, ThRel Y (w t) (p t) (q t)) (t : Tid)
    {x : Native.Pc V} {y : Pc O R} (k : ThRel Y (w t) x y) (u : Tid) :
    ThRel Y (w u) (Function.update p t x u) (Function.update q t y u) := by
  by_cases e : u = t
  · subst e; simpa using k
  · simpa [Function.update_of_ne e] using h u

theorem upd1 {w : Tid → Th V L} {p : Tid → Native.Pc V} {q : Tid → Pc O R} (h : ∀ t, ThRel Y (w t) (p t) (q t)) (t : Tid)
    {a : Th V L} (k : ThRel Y a (p t) (q t)) (u : Tid) :
    ThRel Y (Function.update w t a u) (p u) (q u) := by
  by_cases e : u = t
  · subst e; simpa using k
  · simpa [Function.update_of_ne e] using h u

theorem upd12 {w : Tid → Th V L} {p : Tid → Native.Pc V} {q : Tid → Pc O R} (h : ∀ t, ThRel Y (w t) (p t) (q t)) (t : Tid)
    {a : Th V L} {x : Native.Pc V} (k : ThRel Y a x (q t)) (u : Tid) :
    ThRel Y (Function.update w t a u) (Function.update p t x u) (q u) := by
  by_cases e : u = t
  · subst e; simpa using k
  · simpa [Function.update_of_ne e] using h u

theorem upd2 {w : Tid → Th V L} {p : Tid → Native.Pc V} {q : Tid → Pc O R} (h : ∀ t, ThRel Y (w t) (p t) (q t)) (t : Tid)
    {x : Native.Pc V} (k : ThRel Y (w t) x (q t)) (u : Tid) :
    ThRel Y (w u) (Function.update p t x u) (q u) := by
  by_cases e : u = t
  · subst e; simpa using k
  · simpa [Function.update_of_ne e] using h u

theorem Rel.hp {s : Native.State V X} {w : Tid → Th V L} {b : State W X O R} (Z : Rel Y s w b) (t : Tid) (o : Obj) :
    ∃ m ∈ b.mo o, m.ts = (b.tv t).cur (.obj o) := (Z.inv.tv t).cur (.obj o)

/-- What the thread has to make of an access `op` is to make. -/
theorem commit {s : Native.State V X} {w : Tid → Th V L} {b : State W X O R} (Z : Rel Y s w b) {t : Tid} {o : Obj} {op : O}
    {bb : Bool} (hb : b.pc t = .todo o op bb) {ord : MemOrd} {ms : List (Msg Loc V)} {v : TV Loc} {rd wr : Option V} {r : R}
    (he : Eff (s.mo o) (s.tv t) (.obj o) ord ms v rd wr) (hi : ∀ y, wr = some y → Y.inv y)
    (hf : Fits S Y.abs op rd wr ord r) (hs : ord = .seqCst → bb = true) :
    ∃ b' nd, Step S b none b' ∧ (∀ o', MRel Y.abs Y.inv (Function.update s.mo o ms o') (b'.mo o')) ∧ b'.mx = b.mx ∧
      (∀ u, TLe (b'.tv u) (Function.update s.tv t v u)) ∧ b'.sc = b.sc ∧ SInv b' ∧
      b'.pc = Function.update b.pc t (.fin r nd) ∧ (nd = true → ord = .seqCst) := by
  obtain ⟨ord', ms', vs', h1, h2, h3, h4⟩ := mem_fits (Z.mo o) (Z.tv t) (Z.wf t) (Z.hp t o) he hi hf
  have st := Step.access b t o op bb ord' ms' vs' r hb h1 (fun e => hs (h4 e))
  refine ⟨_, decide (ord' = .seqCst), st, ?_, rfl, ?_, rfl, Z.inv.step st, rfl, fun e => h4 (of_decide_eq_true e)⟩
  · intro o'
    by_cases e : o' = o
    · subst e; simpa [State.goto] using h2
    · simpa [State.goto, Function.update_of_ne e] using Z.mo o'
  · intro u
    by_cases e : u = t
    · subst e; simpa [State.goto] using h3
    · simpa [State.goto, Function.update_of_ne e] using Z.tv u

/-- A fence made in both. -/
theorem fence2 {s : Native.State V X} {w : Tid → Th V L} {b b' : State W X O R} (Z : Rel Y s w b) (t : Tid) (p : Native.Pc V)
    (q : Pc O R) (e : b' = (b.scFence t).goto t q) (st : Step S b none b') (st' : Native.Step s none ((s.scFence t).goto t p))
    (h : ThRel Y (w t) p q) : Rel Y ((s.scFence t).goto t p) w b' := by
  subst e
  refine ⟨Z.mo, Z.mx, ?_, ?_, Z.inv.step st, (Native.step_le Z.wf st').1, upd23 Z.th t h⟩
  · intro u
    by_cases e : u = t
    · subst e
      simpa [State.goto, State.scFence, Native.State.goto, Native.State.scFence] using (Z.tv u).scFence Z.sc
    · simpa [State.goto, State.scFence, Native.State.goto, Native.State.scFence, Function.update_of_ne e] using Z.tv u
  · exact sup_le_sup (Z.tv t).acq Z.sc

theorem tau_step {s s' : Native.State V X} {w : Tid → Th V L} {b : State W X O R} (Z : Rel Y s w b)
    (st : Native.Step s none s') : ∃ b', Exec (Step S) b [] b' ∧ Rel Y s' w b' := by
  have wf' := (Native.step_le Z.wf st).1
  cases st with
  | panic t o i bb h ho =>
    have ht := Z.th t
    rw [h] at ht
    generalize hw : w t = x at ht
    generalize hb : b.pc t = y at ht
    cases ht with
    | wait _ _ g op b1 _ hP hbb =>
      have he : Eff (s.mo o) (s.tv t) (.obj o) .relaxed (s.mo o) (s.tv t) none none := ⟨rfl, rfl⟩
      rcases (hP none none .relaxed .panic (.panic i ho) (by simp)).2 with ⟨-, ha⟩ | ⟨r', hf, hd⟩
      · refine ⟨b, .refl _, Z.mo, Z.mx, Z.tv, Z.sc, Z.inv, wf', upd2 Z.th t ?_⟩
        rw [hw, hb]; exact .finAt _ _ _ _ _ _ _ ha
      · obtain ⟨b', nd, k1, k2, k3, k4, k5, k6, k7, k8⟩ := commit Z hb he (by simp) hf (by simp)
        refine ⟨b', .tau (.refl _) k1, ?_, ?_, ?_, ?_, k6, wf', ?_⟩
        · simpa [Native.State.goto] using k2
        · rw [k3]; exact Z.mx
        · simpa [Native.State.goto] using k4
        · rw [k5]; exact Z.sc
        · rw [k7]; refine upd23 Z.th t ?_
          rw [hw]; exact .finDn _ _ _ _ _ _ _ hd (fun e => by cases k8 e)
  | pre t o i bb h =>
    have ht := Z.th t
    rw [h] at ht
    generalize hw : w t = x at ht
    generalize hb : b.pc t = y at ht
    cases ht with
    | wait _ _ g op b1 _ hP hbb =>
      refine ⟨_, .tau (.refl _) (.pre b t o op b1 hb), ?_⟩
      exact fence2 Z t _ _ rfl (.pre b t o op b1 hb) (.pre s t o i bb h) (by rw [hw]; exact .wait _ _ _ _ _ _ hP id)
  | access t o i bb ord ms v r h ho ha hs =>
    have ht := Z.th t
    rw [h] at ht
    generalize hw : w t = x at ht
    generalize hb : b.pc t = y at ht
    cases ht with
    | wait _ _ g op b1 _ hP hbb =>
      obtain ⟨rd, wr, hO, hE⟩ := access_out ha ho
      obtain ⟨hi, hc⟩ := hP rd wr ord r hO (eff_inv (Z.mo o) hE)
      rcases hc with ⟨hsk, hat⟩ | ⟨r', hf, hd⟩
      · obtain ⟨k1, k2⟩ := mem_skip (Z.mo o) (Z.tv t) (Z.hp t o) hE hi hsk
        refine ⟨b, .refl _, ?_, Z.mx, ?_, Z.sc, Z.inv, wf', upd2 Z.th t ?_⟩
        · intro o'
          by_cases e : o' = o
          · subst e; simpa [Native.State.goto] using k1
          · simpa [Native.State.goto, Function.update_of_ne e] using Z.mo o'
        · intro u
          by_cases e : u = t
          · subst e; simpa [Native.State.goto] using k2
          · simpa [Native.State.goto, Function.update_of_ne e] using Z.tv u
        · rw [hw, hb]; exact .finAt _ _ _ _ _ _ _ hat
      · obtain ⟨b', nd, k1, k2, k3, k4, k5, k6, k7, k8⟩ := commit Z hb hE hi hf (fun e => hbb (hs e))
        refine ⟨b', .tau (.refl _) k1, k2, ?_, k4, ?_, k6, wf', ?_⟩
        · rw [k3]; exact Z.mx
        · rw [k5]; exact Z.sc
        · rw [k7]; refine upd23 Z.th t ?_
          rw [hw]; exact .finDn _ _ _ _ _ _ _ hd (fun e => decide_eq_true (k8 e))
  | post t r nd h =>
    have ht := Z.th t
    rw [h] at ht
    generalize hw : w t = x at ht
    generalize hb : b.pc t = y at ht
    cases ht with
    | finAt o i g _ _ op b1 ha =>
      refine ⟨_, .tau (.refl _) (.pre b t o op b1 hb), ?_⟩
      exact fence2 Z t _ _ rfl (.pre b t o op b1 hb) (.post s t r nd h) (by rw [hw]; exact .finAt _ _ _ _ _ _ _ ha)
    | finDn o i g _ _ r' nd' hd hbb =>
      refine ⟨_, .tau (.refl _) (.post b t r' nd' hb), ?_⟩
      exact fence2 Z t _ _ rfl (.post b t r' nd' hb) (.post s t r nd h) (by rw [hw]; exact .finDn _ _ _ _ _ _ _ hd id)

theorem tau_steps {s s' : Native.State V X} {w : Tid → Th V L} {b : State W X O R} (Z : Rel Y s w b)
    {h : List (WM.Ev V X)} (x : Exec Native.Step s h s') (e : h = []) :
    ∃ b', Exec (Step S) b [] b' ∧ Rel Y s' w b' := by
  induction x with
  | refl => exact ⟨b, .refl _, Z⟩
  | tau x st ih =>
    obtain ⟨b1, x1, Z1⟩ := ih e
    obtain ⟨b2, x2, Z2⟩ := tau_step Z1 st
    exact ⟨b2, x1.trans x2, Z2⟩
  | ev x st ih => simp at e

/-- The last event of an execution. -/
theorem last_ev {St E : Type} {step : St → Option E → St → Prop} {s s' : St} {h : List E} {e : E}
    (x : Exec step s (h ++ [e]) s') :
    ∃ m m' , Exec step s h m ∧ step m (some e) m' ∧ Exec step m' [] s' := by
  obtain ⟨m0, x1, x2⟩ := x.split rfl
  obtain ⟨m, m', y1, y2, y3⟩ := x2.cons_inv
  exact ⟨m, m', by simpa using x1.trans y1, y2, y3⟩

theorem client_step {s : Native.State V X} {w : Tid → Th V L} {b : State W X O R} (Z : Rel Y s w b) {t : Tid} {a : CAct X}
    {r : Option X} {mx : Nat → List (Msg Loc X)} {v : TV Loc} {sc : View Loc} (hs : s.pc t = .idle) (hb : b.pc t = .idle)
    (hc : Client .ext s.sc s.mx (s.tv t) a r mx v sc) :
    ∃ b', Step S b (some (.client t a r)) b' ∧ Rel Y { s with mx := mx, tv := Function.update s.tv t v, sc := sc } w b' := by
  have wf' := (Native.step_le Z.wf (.client s t a r mx v sc hs hc)).1
  have hp : ∀ a, ∃ m ∈ b.mx a, m.ts = (b.tv t).cur (.ext a) := fun a => (Z.inv.tv t).cur (.ext a)
  have fin : ∀ mx' v' sc', Client .ext b.sc b.mx (b.tv t) a r mx' v' sc' → (∀ a, MRel id (fun _ => True) (mx a) (mx' a)) →
      TLe v' v → sc' ≤ sc →
      ∃ b', Step S b (some (.client t a r)) b' ∧ Rel Y { s with mx := mx, tv := Function.update s.tv t v, sc := sc } w b' := by
    intro mx' v' sc' k1 k2 k3 k4
    have st := Step.client (S := S) b t a r mx' v' sc' hb k1
    refine ⟨_, st, Z.mo, k2, ?_, k4, Z.inv.step st, wf', Z.th⟩
    intro u
    by_cases e : u = t
    · subst e; simpa using k3
    · simpa [Function.update_of_ne e] using Z.tv u
  have upd : ∀ a ms ms', MRel id (fun _ => True) ms ms' →
      ∀ a', MRel id (fun _ => True) (Function.update s.mx a ms a') (Function.update b.mx a ms' a') := by
    intro a ms ms' k a'
    by_cases e : a' = a
    · subst e; simpa using k
    · simpa [Function.update_of_ne e] using Z.mx a'
  cases hc with
  | load a o x _ h =>
    obtain ⟨-, vs', h1, h2, -⟩ := read_sim (Z.mx a) (Z.tv t) (hp a) h (AtLeast.refl o)
    exact fin _ _ _ (.load a o x vs' h1) Z.mx h2 Z.sc
  | store a o x ms _ h =>
    obtain ⟨ms', vs', h1, h2, h3⟩ := store_sim (Z.mx a) (Z.tv t) (Z.wf t) h (AtLeast.refl o) trivial
    exact fin _ _ _ (.store a o x ms' vs' h1) (upd _ _ _ h2) h3 Z.sc
  | rmw a g o x ms _ h =>
    obtain ⟨-, ms', vs', h1, h2, h3⟩ := rmw_sim (Z.mx a) (Z.tv t) (Z.wf t) (hp a) (g' := g) h (AtLeast.refl o) trivial rfl
    exact fin _ _ _ (.rmw a g o x ms' vs' h1) (upd _ _ _ h2) h3 Z.sc
  | fence o =>
    obtain ⟨h1, h2⟩ := (Z.tv t).fence Z.sc o
    exact fin _ _ _ (.fence o) Z.mx h1 h2

theorem rel_init (Y : WSim c S) (v0 : Obj → V) (x0 : Nat → X) (h0 : ∀ o, Y.inv (v0 o)) :
    Rel Y (Native.init v0 x0) (fun _ => .idle) (init (fun o => Y.abs (v0 o)) x0) :=
  ⟨fun o => mrel_init (h0 o), fun _ => mrel_init trivial, fun _ => .rfl', le_rfl, sinv_init _ _, Native.init_wf _ _,
    fun _ => .idle⟩

/-- The simulation of a whole history. -/
theorem wrap_sim (Y : WSim c S) (v0 : Obj → V) (x0 : Nat → X) (h0 : ∀ o, Y.inv (v0 o)) {hi : List (WM.Ev V X)}
    {ho : List (Ev O R X)} {w : Tid → Th V L} (x : Wrap c hi ho w) :
    ∀ s, Exec Native.Step (Native.init v0 x0) hi s →
      ∃ b, Exec (Step S) (init (fun o => Y.abs (v0 o)) x0) ho b ∧ Rel Y s w b := by
  induction x with
  | nil => exact fun s hs => tau_steps (rel_init Y v0 x0 h0) hs rfl
  | call x t o op h ih =>
    intro s hs
    obtain ⟨b, xb, Z⟩ := ih s hs
    have ht := Z.th t
    rw [h] at ht
    generalize hp : s.pc t = p at ht
    generalize hb : b.pc t = q at ht
    cases ht
    have st := Step.inv (S := S) b t o op hb
    exact ⟨_, .ev xb st, Z.mo, Z.mx, Z.tv, Z.sc, Z.inv.step st, Z.wf,
      upd13 Z.th t (by rw [hp]; exact .runAt _ _ _ _ (Y.start op))⟩
  | tau x t o l k h hn ih =>
    intro s hs
    obtain ⟨b, xb, Z⟩ := ih s hs
    have ht := Z.th t
    rw [h] at ht
    generalize hp : s.pc t = p at ht
    generalize hb : b.pc t = q at ht
    cases ht with
    | runAt _ _ op bb ha =>
      rcases Y.tau l op k ha hn with ha' | ⟨r, k1, k2, hd⟩
      · exact ⟨b, xb, Z.mo, Z.mx, Z.tv, Z.sc, Z.inv, Z.wf, upd1 Z.th t (by rw [hp, hb]; exact .runAt _ _ _ _ ha')⟩
      · have st := Step.access (S := S) b t o op bb .relaxed _ _ r hb (.nothing r k1 k2) (by simp)
        refine ⟨_, .tau xb st, ?_, Z.mx, ?_, Z.sc, Z.inv.step st, Z.wf,
          upd13 Z.th t (by rw [hp]; exact .runDn _ _ _ hd)⟩
        · simpa [State.goto] using Z.mo
        · simpa [State.goto] using Z.tv
    | runDn _ _ r hd =>
      exact ⟨b, xb, Z.mo, Z.mx, Z.tv, Z.sc, Z.inv, Z.wf,
        upd1 Z.th t (by rw [hp, hb]; exact .runDn _ _ _ (Y.tau_dn l r k hd hn))⟩
  | peek x t o l f y h hn ih =>
    intro s hs
    obtain ⟨b, xb, Z⟩ := ih s hs
    have ht := Z.th t
    rw [h] at ht
    generalize hp : s.pc t = p at ht
    generalize hb : b.pc t = q at ht
    cases ht with
    | runAt _ _ op bb ha =>
      exact ⟨b, xb, Z.mo, Z.mx, Z.tv, Z.sc, Z.inv, Z.wf,
        upd1 Z.th t (by rw [hp, hb]; exact .runAt _ _ _ _ (Y.peek l op f y ha hn))⟩
    | runDn _ _ r hd => exact absurd hn (Y.acc_dn l r _ _ hd)
  | acc x t o l a f i g h hn hc ih =>
    intro s hs
    obtain ⟨m, m', x1, st, x2⟩ := last_ev hs
    obtain ⟨b, xb, Z⟩ := ih m x1
    have ht := Z.th t
    rw [h] at ht
    cases st with
    | inv _ _ _ hp =>
      rw [hp] at ht
      generalize hb : b.pc t = q at ht
      cases ht with
      | runAt _ _ op bb ha =>
        have hP : Pend Y op i g := fun rd wr ord r hO hi => Y.acc l op a f i g rd wr ord r ha hn hc hO hi
        have Z' : Rel Y (m.goto t (.todo o i false)) _ b := ⟨Z.mo, Z.mx, Z.tv, Z.sc, Z.inv, Z.wf,
          upd12 Z.th t (a := .wait o i g) (by rw [hb]; exact .wait _ _ _ _ _ _ hP (by simp))⟩
        obtain ⟨b', xb', Z2⟩ := tau_steps Z' x2 rfl
        exact ⟨b', by simpa using xb.trans xb', Z2⟩
      | runDn _ _ r hd => exact absurd hn (Y.acc_dn l r _ _ hd)
  | @res hi ho w x t o i g r h ih =>
    intro s hs
    obtain ⟨m, m', x1, st, x2⟩ := last_ev hs
    obtain ⟨b, xb, Z⟩ := ih m x1
    have ht := Z.th t
    rw [h] at ht
    cases st with
    | ret _ _ hp =>
      rw [hp] at ht
      generalize hb : b.pc t = q at ht
      have Z' : Rel Y (m.goto t .idle) (Function.update w t (.run o (g r))) b := by
        refine ⟨Z.mo, Z.mx, Z.tv, Z.sc, Z.inv, Z.wf, upd12 Z.th t ?_⟩
        cases ht with
        | finAt _ _ _ _ _ op bb ha => rw [hb]; exact .runAt _ _ _ _ ha
        | finDn _ _ _ _ _ r' nd' hd hbb =>
          rw [hb]
          cases nd' with
          | false => exact .runDn _ _ _ hd
          | true => cases hbb rfl
      obtain ⟨b', xb', Z2⟩ := tau_steps Z' x2 rfl
      exact ⟨b', by simpa using xb.trans xb', Z2⟩
  | ret x t o l r h hn ih =>
    intro s hs
    obtain ⟨b, xb, Z⟩ := ih s hs
    have ht := Z.th t
    rw [h] at ht
    generalize hp : s.pc t = p at ht
    generalize hb : b.pc t = q at ht
    cases ht with
    | runAt _ _ op bb ha => exact absurd hn (Y.ret l op r ha)
    | runDn _ _ r' hd =>
      obtain rfl := Y.ret_dn l r' r hd hn
      have st := Step.ret (S := S) b t r hb
      exact ⟨_, .ev xb st, Z.mo, Z.mx, Z.tv, Z.sc, Z.inv.step st, Z.wf, upd13 Z.th t (by rw [hp]; exact .idle)⟩
  | client x t a r h ih =>
    intro s hs
    obtain ⟨m, m', x1, st, x2⟩ := last_ev hs
    obtain ⟨b, xb, Z⟩ := ih m x1
    have ht := Z.th t
    rw [h] at ht
    cases st with
    | client _ _ _ mx v sc hp hc =>
      rw [hp] at ht
      generalize hb : b.pc t = q at ht
      cases ht
      obtain ⟨b1, st1, Z1⟩ := client_step Z hp hb hc
      obtain ⟨b', xb', Z2⟩ := tau_steps Z1 x2 rfl
      exact ⟨b', by simpa using (Exec.ev xb st1).trans xb', Z2⟩

/-- **The code in weak memory**: over native atomics, each operation is one access with the ordering asked
for. -/
theorem wrap_refines (Y : WSim c S) (v0 : Obj → V) (x0 : Nat → X) (h0 : ∀ o, Y.inv (v0 o)) {ho : List (Ev O R X)}
    (h : Over c (Native.Behaviour v0 x0) ho) : Behaviour S (fun o => Y.abs (v0 o)) x0 ho := by
  obtain ⟨hi, w, ⟨s, xs⟩, x⟩ := h
  obtain ⟨b, xb, -⟩ := wrap_sim Y v0 x0 h0 x s xs
  exact ⟨b, xb⟩

end Verif.WM.Derived
