import Verif.WM.Release
import Verif.WM.Fit
import Verif.Spec.Calls
/-!
# Every behaviour of the lock-based code in weak memory is one of native atomics (proof internals)
-/
set_option autoImplicit false
set_option linter.unusedSectionVars false
namespace Verif.WM.Lock
open Verif.Fallback
variable {V X : Type} [DecidableEq V] {c : Cfg V}
variable {lk : Nat → LG} {ob : Obj → OG V}

theorem checks_ok (op : Op V) : checks op = .ok ↔ op.ordOk = true := by
  cases op with
  | load o => cases o <;> simp [checks, MemOrd.assertLoad, Op.ordOk]
  | store v o => cases o <;> simp [checks, MemOrd.assertStore, Op.ordOk]
  | swap v o => simp [checks, Op.ordOk]
  | cas a b s f => cases f <;> simp [checks, MemOrd.assertCas, Op.ordOk]
  | rmw f o => simp [checks, Op.ordOk]

namespace Inv
variable {s : State c X} {a : Native.State V X} {N : Nat}

theorem scPre (I : Inv c lk ob s a N) {t : Tid} {k : Call V} (hpc : s.pc t = .scPre k)
    {x : BitVec c.W} {s' : State c X} (hd : Do s t (.fence .seqCst) x s') :
    Sim c a [] (s'.goto t (c.enter k)) N := by
  cases hd
  have hap := I.apc t
  rw [hpc] at hap
  obtain ⟨hok, b, hb⟩ := hap
  have hf := (I.wf t).scFence s.sc
  obtain ⟨h1, h2⟩ := (I.tle t).scFence I.sc
  exact ⟨lk, ob, _, .one_tau (.pre a t k.obj k.op b hb),
    I.stepLocal t (nr := s.nr) hf.2.cur hf.1 (by rw [hpc, owns_enter]; rfl)
      (.inl (by rw [hpc, Cfg.pcCall_enter]; rfl)) (hinv_enter ..) (rinv_enter ..) (lpc_enter ..)
      (apc_enter hok (fun _ => rfl)) h1 h2 fun _ _ _ => .inl rfl⟩

theorem scPost (I : Inv c lk ob s a N) {t : Tid} {k : Call V} {r : Res V} (hpc : s.pc t = .scPost k r)
    {x : BitVec c.W} {s' : State c X} (hd : Do s t (.fence .seqCst) x s') :
    Sim c a [] (s'.goto t (.ret r)) N := by
  cases hd
  have hap := I.apc t
  rw [hpc] at hap
  obtain ⟨b, hb⟩ := hap
  have hf := (I.wf t).scFence s.sc
  obtain ⟨h1, h2⟩ := (I.tle t).scFence I.sc
  exact ⟨lk, ob, _, .one_tau (.post a t r b hb),
    I.stepLocal t (nr := s.nr) hf.2.cur hf.1 (by rw [hpc]; rfl)
      (.inl (by rw [hpc]; rfl)) trivial trivial trivial rfl h1 h2 fun _ _ _ => .inl rfl⟩

theorem actStep (I : Inv c lk ob s a N) (ok : c.Sound)
    (hfit : ∀ o k, k ≤ (ob o).K → c.fits o ((ob o).val k)) (hN : N < c.maxOverlap) {t : Tid} {b : Act c.W}
    {x : BitVec c.W} {s' : State c X} (h : c.act (s.pc t) = some b) (hd : Do s t b x s') :
    Sim c a [] (s'.goto t (c.next (s.pc t) x)) N := by
  cases hpc : s.pc t <;> rw [hpc] at h <;> simp only [Cfg.act, Option.some.injEq, reduceCtorEq] at h <;>
    subst h
  case scPre => exact I.scPre hpc hd
  case optHi => exact I.optHi hpc hd
  case optLo => exact I.optLo ok hpc hd
  case optChunk => exact I.optChunk ok hpc hd
  case valFence => exact I.valFence hpc hd
  case valLo => exact I.valLo ok hfit hN hpc hd
  case valHi => exact I.valHi ok hfit hN hpc hd
  case swapLock => exact I.swapLock hpc hd
  case spin => exact I.spin hpc hd
  case relFence => exact I.relFence ok hpc hd
  case naRead => exact I.naRead ok hfit hpc hd
  case wrChunk => exact I.wrChunk ok hpc hd
  case hiLoad => exact I.hiLoad hpc hd
  case hiStore => exact I.hiStore ok hpc hd
  case dropStore => exact I.dropStore ok hpc hd
  case abortStore => exact I.abortStore hpc hd
  case scPost => exact I.scPost hpc hd

theorem vals_fit (I : Inv c lk ob s a N) (F : Native.Fit c.fits a) (o : Obj) (k : Nat)
    (hk : k ≤ (ob o).K) : c.fits o ((ob o).val k) :=
  F.mo o _ (((I.obj o).amem _).2 ⟨k, hk, rfl⟩)

theorem mono_N (I : Inv c lk ob s a N) {M : Nat} (h : N ≤ M) : Inv c lk ob s a M := by
  refine { I with cnt := ?_ }
  obtain ⟨P, nl, h1, h2, h3⟩ := I.cnt
  exact ⟨P, nl, h1, by omega, h3⟩

/-- A call. -/
theorem invStep (I : Inv c lk ob s a N) {t : Tid} {o : Obj} {op : Op V} (hpc : s.pc t = .idle) :
    Sim c a [.inv t o op] (s.goto t (c.start ⟨o, op⟩)) (N + 1) := by
  have hap := I.apc t
  rw [hpc] at hap
  have hst : Native.Step a (some (.inv t o op)) (a.goto t (.todo o op false)) := .inv a t o op hap
  -- one more pending call
  have cnt' : ∀ p : Pc V c.W, ∃ (P : Finset Tid) (nl : Nat),
      (∀ u, u ∈ P ↔ (Cfg.pcCall (Function.update s.pc t p u)).isSome) ∧
      nl + P.card ≤ N + 1 ∧ ∀ l, (lk l).wr (lk l).E ≤ nl := by
    intro p
    obtain ⟨P, nl, h1, h2, h3⟩ := I.cnt
    have ht : t ∉ P := by rw [h1, hpc]; simp [Cfg.pcCall]
    by_cases hp : (Cfg.pcCall p).isSome
    · refine ⟨insert t P, nl, fun u => ?_, ?_, h3⟩
      · rw [Finset.mem_insert]
        by_cases e : u = t
        · subst e; simp [hp]
        · simp only [Function.update_of_ne e, e, false_or]; exact h1 u
      · rw [Finset.card_insert_of_notMem ht]; omega
    · refine ⟨P, nl, fun u => ?_, by omega, h3⟩
      by_cases e : u = t
      · subst e; simp [hp, ht]
      · simp only [Function.update_of_ne e]; exact h1 u
  have gen : ∀ (p : Pc V c.W) (ap : Native.Pc V), c.owns p = none → (∀ lk ob v, HInv c lk ob v p) →
      (∀ lk mem v, RInv c lk mem v p) → LoadPc c p → APc c p ap →
      Inv c lk ob (s.goto t p) (a.goto t ap) (N + 1) := by
    intro p ap h1 h2 h3 h4 h5
    have K : Inv c lk ob s a (N + 1) := I.mono_N (Nat.le_succ N)
    refine ⟨K.lock, K.obj, K.objv, fun u l => ?_, fun u => ?_, fun u => ?_, fun u => ?_, K.free, K.markF, K.markH, K.ext,
      K.tle, K.sc, K.wf, fun u => ?_, cnt' p⟩
    · by_cases e : u = t
      · subst e; simp only [State.goto, Function.update_self]
        rw [← I.held, hpc, h1]; rfl
      · simp only [State.goto, Function.update_of_ne e]; exact I.held u l
    · by_cases e : u = t
      · subst e; simp only [State.goto, Function.update_self]; exact h2 _ _ _
      · simp only [State.goto, Function.update_of_ne e]; exact I.hinv u
    · by_cases e : u = t
      · subst e; simp only [State.goto, Function.update_self]; exact h3 _ _ _
      · simp only [State.goto, Function.update_of_ne e]; exact I.rinv u
    · by_cases e : u = t
      · subst e; simp only [State.goto, Function.update_self]; exact h4
      · simp only [State.goto, Function.update_of_ne e]; exact I.lpc u
    · by_cases e : u = t
      · subst e; simp only [State.goto, Native.State.goto, Function.update_self]; exact h5
      · simp only [State.goto, Native.State.goto, Function.update_of_ne e]; exact I.apc u
  unfold Cfg.start
  split
  · next hc =>
    have hno : op.ordOk = false := by
      cases h : op.ordOk with
      | false => rfl
      | true => rw [(checks_ok op).2 h] at hc; cases hc
    refine ⟨lk, ob, a.goto t (.fin .panic false), ?_, gen _ _ rfl (fun _ _ _ => trivial) (fun _ _ _ => trivial) trivial rfl⟩
    have e := Exec.tau (Exec.ev (Exec.refl a) hst)
      (Native.Step.panic _ t o op false (by simp [Native.State.goto]) hno)
    simpa [Native.State.goto] using e
  · next hc =>
    have hok := (checks_ok op).1 hc
    have ex : Exec Native.Step a [.inv t o op] (a.goto t (.todo o op false)) := by
      have := Exec.ev (Exec.refl a) hst
      simpa using this
    refine ⟨lk, ob, _, ex, ?_⟩
    split
    · exact gen _ _ rfl (fun _ _ _ => trivial) (fun _ _ _ => trivial) trivial ⟨hok, false, rfl⟩
    · next hs =>
      exact gen _ _ (owns_enter _) (fun _ _ _ => hinv_enter _) (fun _ _ _ => rinv_enter _) (lpc_enter _)
        (apc_enter hok fun h => absurd h hs)

theorem retStep (I : Inv c lk ob s a N) {t : Tid} {r : Res V} (hpc : s.pc t = .ret r) :
    Sim c a [.ret t r] (s.goto t .idle) N := by
  have hap := I.apc t
  rw [hpc] at hap
  have ex := Exec.ev (Exec.refl a) (Native.Step.ret a t r hap)
  refine ⟨lk, ob, _, by simpa using ex, ?_⟩
  have := I.stepLocal t (v := s.tv t) (av := a.tv t) (sc := s.sc) (asc := a.sc) (nr := s.nr) (p := .idle)
    (ap := .idle) le_rfl (I.wf t) (by rw [hpc]; rfl) (.inl (by rw [hpc]; rfl)) trivial trivial trivial rfl
    (I.tle t) I.sc (fun _ _ _ => .inl rfl)
  simp only [Function.update_eq_self] at this
  exact this

theorem clientStep (I : Inv c lk ob s a N) {t : Tid} {act : CAct X} {r : Option X}
    {mx : Nat → List (Msg CL X)} {v : TV CL} {sc : View CL} (hpc : s.pc t = .idle)
    (hc : Client Lock.ext s.sc s.mx (s.tv t) act r mx v sc) :
    Sim c a [.client t act r] { s with mx := mx, tv := Function.update s.tv t v, sc := sc } N := by
  have hap := I.apc t
  rw [hpc] at hap
  obtain ⟨amx, av, asc, h1, h2, h3, h4, h5, h6⟩ := client_sim I.h0 (I.tle t) (I.wf t) I.sc I.ext hc
  have ex := Exec.ev (Exec.refl a) (Native.Step.client a t act r amx av asc hap h1)
  refine ⟨lk, ob, _, by simpa using ex, ?_⟩
  have J := I.stepLocal t (v := v) (av := av) (sc := sc) (asc := asc) (nr := s.nr) (p := .idle)
    (ap := .idle) h4.cur h3 (by rw [hpc]) (.inl (by rw [hpc])) trivial trivial trivial rfl
    h2 h5 (fun _ _ _ => .inl rfl)
  have e1 : Function.update s.pc t .idle = s.pc := by rw [← hpc, Function.update_eq_self]
  have e2 : Function.update a.pc t .idle = a.pc := by
    have : a.pc t = .idle := hap
    rw [← this, Function.update_eq_self]
  rw [e1, e2] at J
  exact { J with ext := h6 }

end Inv

/-- Calls in a history. -/
def calls : List (Ev V X) → Nat
  | [] => 0
  | .inv .. :: h => calls h + 1
  | _ :: h => calls h

theorem calls_append (h h' : List (Ev V X)) : calls (h ++ h') = calls h + calls h' := by
  induction h with
  | nil => simp [calls]
  | cons e h ih => cases e <;> simp only [List.cons_append, calls, ih] <;> omega

theorem init_inv (v0 : Obj → V) (x0 : Nat → X) :
    ∃ lk ob, Inv c lk ob (init c v0 x0) (Native.init v0 x0) 0 := by
  refine ⟨fun _ => ⟨0, none, fun _ => 0, fun _ => 0, fun _ => 0, fun _ => ⊥, fun _ => 0, false⟩,
    fun o => ⟨0, fun _ => 0, fun _ _ => 0, fun _ => v0 o, fun _ => ⊥, 0⟩, ?_⟩
  have vb : ∀ vc : View CL, VLe c (fun _ => (⟨0, none, fun _ => 0, fun _ => 0, fun _ => 0, fun _ => ⊥, fun _ => 0, false⟩ : LG))
    (fun o => (⟨0, fun _ => 0, fun _ _ => 0, fun _ => v0 o, fun _ => ⊥, 0⟩ : OG V)) ⊥ vc := fun vc =>
    VLe.bot (fun _ => rfl) vc
  refine ⟨fun l => ?_, fun o => ?_, fun o k e _ _ _ => vb _, ?_, fun _ => trivial, fun _ => trivial,
    fun _ => trivial, ?_, ?_, ?_, ?_, fun t => ⟨vb _, vb _, vb _⟩, vb _, fun t => ⟨le_rfl, le_rfl⟩, fun t => rfl, ?_⟩
  · refine ⟨rfl, rfl, ?_, ?_, ?_, ?_, ?_, ?_, ?_, ?_, ?_, ?_, ?_, ?_, ?_⟩
    · intro e he; exact absurd he (Nat.not_lt_zero _)
    · intro m hm
      simp only [init, initMsgs, List.mem_singleton] at hm
      subst hm
      exact .inr ⟨0, le_rfl, rfl, by simp [Cfg.stamp], rfl⟩
    · intro m hm
      simp only [init, initMsgs, List.mem_singleton] at hm
      subst hm
      exact .inr rfl
    · exact ⟨_, List.mem_singleton_self _, rfl⟩
    · rintro e (h | ⟨-, h⟩)
      · exact absurd h (Nat.not_lt_zero _)
      · cases h
    · rintro e (h | ⟨-, h⟩)
      · exact absurd h (Nat.not_lt_zero _)
      · cases h
    · intro e he; exact absurd he (Nat.not_lt_zero _)
    · intro m hm
      simp only [init, initMsgs, List.mem_singleton] at hm
      subst hm
      intro h; exact absurd h (lt_irrefl _)
    · intro e _; rfl
    · intro h; cases h
    · intro _ m hm
      simp only [init, initMsgs, List.mem_singleton] at hm
      subst hm
      exact ⟨0, rfl, by simp, Nat.zero_le _, .inl rfl⟩
    · intro _ j hj
      simp [LG.hcount] at hj
    · intro _ e _; exact zero_le
  · refine ⟨rfl, ?_, ?_, ?_, ?_, ?_, ?_, ?_, ?_, ?_⟩
    · intro k hk; exact absurd hk (Nat.not_lt_zero _)
    · intro k _; exact le_rfl
    · intro k e _ h; cases h
    · intro i m hm
      simp only [init, initMsgs, List.mem_singleton] at hm
      subst hm
      exact ⟨0, rfl, .inl le_rfl, rfl, fun e h => by cases h⟩
    · intro i k _ hk; exact absurd hk (Nat.not_lt_zero _)
    · intro i _ hk; exact absurd hk (Nat.not_lt_zero _)
    · intro h; exact absurd rfl h
    · intro i k e _ _ _ _; exact zero_le
    · intro m
      simp only [Native.init, initMsgs, List.mem_singleton]
      constructor
      · rintro rfl; exact ⟨0, le_rfl, by simp⟩
      · rintro ⟨k, hk, rfl⟩
        obtain rfl := Nat.le_zero.1 hk
        simp
  · intro t l
    constructor
    · intro h; cases h
    · intro h; cases h
  · intro l _ o _; rfl
  · intro l _ o _ i u
    simp [init]
  · intro l t h; cases h
  · intro x
    exact .cons ⟨rfl, rfl, rfl, vb _⟩ .nil
  · exact ⟨∅, 0, fun t => by simp [init, Cfg.pcCall], by simp, fun l => le_rfl⟩

/-- The simulation. -/
theorem sim (ok : c.Sound) {v0 : Obj → V} (hv : ∀ o, c.fits o (v0 o)) {x0 : Nat → X} {h : List (Ev V X)} {s : State c X}
    (x : Exec Step (init c v0 x0) h s) (hb : calls h < c.maxOverlap) :
    ∃ lk ob a, Exec Native.Step (Native.init v0 x0) h a ∧ Inv c lk ob s a (calls h) ∧
      ∀ e ∈ h, Native.EvFits c.fits e := by
  generalize hi : init c v0 x0 = i at x
  induction x with
  | refl =>
    subst hi
    obtain ⟨lk, ob, I⟩ := init_inv (c := c) v0 x0
    exact ⟨lk, ob, _, .refl _, I, by simp⟩
  | tau x st ih =>
    obtain ⟨lk, ob, a, ex, I, hE⟩ := ih hb
    cases st with
    | act t b x s' h hd =>
      obtain ⟨lk', ob', a', ex', I'⟩ := I.actStep ok (I.vals_fit (.exec hv ex hE)) hb h hd
      exact ⟨lk', ob', a', by simpa using ex.trans ex', I', hE⟩
  | @ev h s' e s'' x st ih =>
    rw [calls_append] at hb
    obtain ⟨lk, ob, a, ex, I, hE⟩ := ih (by omega)
    cases st with
    | inv t o op hpc hf =>
      obtain ⟨lk', ob', a', ex', I'⟩ := I.invStep (o := o) (op := op) hpc
      exact ⟨lk', ob', a', ex.trans ex', by rw [calls_append]; exact I', by
        intro e he
        rcases List.mem_append.1 he with he | he
        · exact hE e he
        · obtain rfl := List.mem_singleton.1 he; exact hf⟩
    | ret t r hpc =>
      obtain ⟨lk', ob', a', ex', I'⟩ := I.retStep hpc
      exact ⟨lk', ob', a', ex.trans ex', by rw [calls_append]; exact I', by
        intro e he
        rcases List.mem_append.1 he with he | he
        · exact hE e he
        · obtain rfl := List.mem_singleton.1 he; trivial⟩
    | client t act r mx v sc hpc hc =>
      obtain ⟨lk', ob', a', ex', I'⟩ := I.clientStep hpc hc
      exact ⟨lk', ob', a', ex.trans ex', by rw [calls_append]; exact I', by
        intro e he
        rcases List.mem_append.1 he with he | he
        · exact hE e he
        · obtain rfl := List.mem_singleton.1 he; trivial⟩

end Verif.WM.Lock
