import Verif.Spec.Exclusive
import Verif.Fallback.Facts
import Verif.Fallback.Lin
import Verif.Fallback.Count
/-!
# Exclusive access to atomics of the lock-based fallback

`get_mut`, `into_inner`, `as_ptr` and `new` touch the value without the lock
(`src/imp/fallback/mod.rs` L275 `new`, L310 `as_ptr`; `src/lib.rs` L2978-2982 `get_mut` = `&mut *self.as_ptr()`, L3030-3035 `into_inner` = a transmute,
L2825 `new`; the same for floats at L4259, L4381, L4399, L4712).
-/
set_option autoImplicit false
set_option linter.unusedSectionVars false
namespace Verif
namespace Fallback
variable {V : Type} [DecidableEq V]

/-- State of the machine with exclusive access.  `on t`: the object of the call thread `t` has open.  `out o`: the object is in its
owner's hands (mutably borrowed, moved out, or not constructed).  Both are known to Rust's borrow checker, not to the program. -/
structure XState (V : Type) (W : Nat) where
  s : State V W
  on : Tid → Option Obj
  out : Obj → Bool

namespace Cfg
variable (c : Cfg V)

/-- Steps.  The guards on `on` and `out` are Rust's borrowing rules: an object can be taken out only when no call on it is
open, and no call on it can be made until it is put back.
* `take`: `get_mut` (`src/lib.rs` L2978) or `into_inner` (L3030): the words of the value are read, as its type;
* `raw`: the owner writes a word of it;
* `put`: the owner leaves a value of the type (end of the borrow; `new`, L2825). -/
inductive XStep : XState V c.W → Option (Excl.Ev (Ev V) Obj V) → XState V c.W → Prop where
  | act (x : XState V c.W) (s' : State V c.W) (h : c.Step x.s none s') : XStep x none { x with s := s' }
  | inv (x : XState V c.W) (s' : State V c.W) (t : Tid) (o : Obj) (op : Op V) (h : c.Step x.s (some (.inv t o op)) s')
      (ho : x.out o = false) :
      XStep x (some (.call (.inv t o op))) { x with s := s', on := Function.update x.on t (some o) }
  | ret (x : XState V c.W) (s' : State V c.W) (t : Tid) (r : Res V) (h : c.Step x.s (some (.ret t r)) s') :
      XStep x (some (.call (.ret t r))) { x with s := s', on := Function.update x.on t none }
  | take (x : XState V c.W) (o : Obj) (ho : x.out o = false) (hx : ∀ t, x.on t ≠ some o) :
      XStep x (some (.take o (c.join o fun i => x.s.mem (.chunk o i)))) { x with out := Function.update x.out o true }
  | raw (x : XState V c.W) (o : Obj) (i : Nat) (w : BitVec c.W) (ho : x.out o = true) :
      XStep x none { x with s := { x.s with mem := Function.update x.s.mem (.chunk o i) w } }
  | put (x : XState V c.W) (o : Obj) (v : V) (ho : x.out o = true) (hf : c.fits o v)
      (hm : ∀ i, i < c.n o → x.s.mem (.chunk o i) = c.split o v i) :
      XStep x (some (.put o v)) { x with out := Function.update x.out o false }

/-- Initial state: `out0` says which objects are not constructed yet. -/
def xinit (cells : Obj → V) (v0 : Nat → Nat) (ext : Nat → BitVec c.W) (out0 : Obj → Bool) : XState V c.W :=
  { s := c.init cells v0 ext, on := fun _ => none, out := out0 }

variable {c}

/-! ## Proof internals -/

/-- The pending observation of each thread resolved, one step at a time. -/
theorem _root_.Verif.Revisable.step_proj {s s' : Revisable.State V} {e : Option (Ev V)} (st : Revisable.Step s e s') (b : Tid → Bool) :
    ∃ b', (e = none ∧ Revisable.proj b' s = Revisable.proj b s') ∨
      Atomic.Step (Revisable.proj b' s) e (Revisable.proj b s') := by
  open Revisable in
  cases st with
  | obs t o op c r hp hr =>
    refine ⟨Function.update b t false, ?_⟩
    cases hb : b t with
    | true =>
      right
      have hs : (proj (Function.update b t false) s).th t = .pending o op := by
        simp only [proj, Function.update_self, hp]
        cases c <;> simp [resolve]
      have st := Atomic.Step.commit _ _ _ _ hs
      have e1 : (proj (Function.update b t false) s).cell = s.cell := rfl
      rw [e1, hr] at st
      simp only [Function.update_eq_self] at st
      refine st_eq st rfl (funext fun u => ?_)
      by_cases hu : u = t
      · subst hu; simp [proj, resolve, *]
      · simp [proj, Function.update_of_ne hu]
    | false =>
      left
      refine ⟨rfl, ?_⟩
      simp only [proj]
      congr 1
      funext u
      by_cases hu : u = t
      · subst hu; cases c <;> simp [proj, resolve, *]
      · simp [Function.update_of_ne hu]
  | commit t o op c hp =>
    refine ⟨Function.update b t false, .inr ?_⟩
    have hs : (proj (Function.update b t false) s).th t = .pending o op := by
      simp only [proj, Function.update_self, hp]
      cases c <;> simp [resolve]
    have st := Atomic.Step.commit _ _ _ _ hs
    refine st_eq st rfl (funext fun u => ?_)
    by_cases hu : u = t
    · subst hu; simp [proj, resolve, *]
    · simp [proj, Function.update_of_ne hu]
  | inv t o op hp =>
    refine ⟨b, .inr ?_⟩
    have hs : (proj b s).th t = .idle := by simp [proj, hp, resolve]
    have st := Atomic.Step.inv _ _ o op hs
    refine st_eq st rfl (funext fun u => ?_)
    by_cases hu : u = t
    · subst hu; simp [proj, resolve, *]
    · simp [proj, Function.update_of_ne hu]
  | ret t r hp =>
    refine ⟨b, .inr ?_⟩
    have hs : (proj b s).th t = .done r := by simp [proj, hp, resolve]
    have st := Atomic.Step.ret _ _ _ hs
    refine st_eq st rfl (funext fun u => ?_)
    by_cases hu : u = t
    · subst hu; simp [proj, resolve, *]
    · simp [proj, Function.update_of_ne hu]
  | retCand t o op r hp =>
    refine ⟨Function.update b t true, .inr ?_⟩
    have hs : (proj (Function.update b t true) s).th t = .done r := by
      simp [proj, hp, resolve]
    have st := Atomic.Step.ret _ _ _ hs
    refine st_eq st rfl (funext fun u => ?_)
    by_cases hu : u = t
    · subst hu; simp [proj, resolve, *]
    · simp [proj, Function.update_of_ne hu]

/-- Every resolution of `a` is reached in the specification with exclusive access. -/
def XReach (cells : Obj → V) (h : List (Excl.Ev (Ev V) Obj V)) (a : Revisable.State V) : Prop :=
  ∀ b, Exec Excl.AtomicStep (Atomic.init cells) h (Revisable.proj b a)

theorem XReach.exec {cells : Obj → V} {h : List (Excl.Ev (Ev V) Obj V)} {a a' : Revisable.State V} {es : List (Ev V)}
    (x : Exec Revisable.Step a es a') : XReach cells h a → XReach cells (h ++ es.map .call) a' := by
  induction x with
  | refl => intro R; simpa using R
  | tau _ st ih =>
    intro R b
    obtain ⟨b', ⟨-, e⟩ | h⟩ := Revisable.step_proj st b
    · rw [← e]; exact ih R b'
    · exact .tau (ih R b') (.tau _ _ h)
  | ev _ st ih =>
    intro R b
    obtain ⟨b', ⟨e, -⟩ | h⟩ := Revisable.step_proj st b
    · cases e
    · rw [List.map_append, ← List.append_assoc]
      exact .ev (ih R b') (.call _ _ _ h)

/-- The location an action touches. -/
def loc : Act c.W → Option Loc
  | .load l _ => some l
  | .naLoad l => some l
  | .store l _ _ => some l
  | .swap l _ _ => some l
  | .fence _ => none

theorem execSC_agree {m m' : Loc → BitVec c.W} {P : Loc → Prop} (h : ∀ l, P l → m l = m' l) {a : Act c.W}
    (ha : ∀ l, loc a = some l → P l) :
    (execSC m a).2 = (execSC m' a).2 ∧ ∀ l, P l → (execSC m a).1 l = (execSC m' a).1 l := by
  cases a with
  | load l o => exact ⟨h l (ha l rfl), h⟩
  | naLoad l => exact ⟨h l (ha l rfl), h⟩
  | fence o => exact ⟨rfl, h⟩
  | store l v o =>
    refine ⟨rfl, fun l' hl => ?_⟩
    by_cases e : l' = l
    · subst e; simp [execSC]
    · simp only [execSC, Function.update_of_ne e]; exact h _ hl
  | swap l v o =>
    refine ⟨h l (ha l rfl), fun l' hl => ?_⟩
    by_cases e : l' = l
    · subst e; simp [execSC]
    · simp only [execSC, Function.update_of_ne e]; exact h _ hl

/-- Chunks are touched only by calls on their object. -/
theorem act_touch {pc : Pc V c.W} {a : Act c.W} (h : c.act pc = some a) {o : Obj} {i : Nat} (hl : loc a = some (.chunk o i)) :
    ∃ k, pcCall pc = some k ∧ k.obj = o := by
  cases pc <;> simp only [act, Option.some.injEq, reduceCtorEq] at h <;> subst h <;> simp [loc] at hl <;>
    exact ⟨_, rfl, hl.1⟩

/-- Is this no chunk of an object that is out? -/
def Circ (out : Obj → Bool) : Loc → Prop
  | .chunk o _ => out o = false
  | _ => True

/-- A step that touches nothing that is out is one of any state that differs only there. -/
theorem step_agree {s s' : State V c.W} {e : Option (Ev V)} (st : c.Step s e s') {out : Obj → Bool} {m : Loc → BitVec c.W}
    (hm : ∀ l, Circ out l → m l = s.mem l) (hk : ∀ t k, pcCall (s.pc t) = some k → out k.obj = false) :
    ∃ m', (∀ l, Circ out l → m' l = s'.mem l) ∧ c.Step { s with mem := m } e { s' with mem := m' } := by
  cases st with
  | inv t o op h hf => exact ⟨m, hm, .inv _ t o op h hf⟩
  | ret t r h => exact ⟨m, hm, .ret _ t r h⟩
  | act t a h =>
    obtain ⟨h1, h2⟩ := execSC_agree (P := Circ out) hm (a := a) fun l hl => by
      cases l with
      | chunk o i =>
        obtain ⟨k, hk1, rfl⟩ := act_touch h hl
        exact hk _ _ hk1
      | _ => trivial
    refine ⟨(execSC m a).1, h2, ?_⟩
    have := Step.act (c := c) { s with mem := m } t a h
    simp only [doAct, h1] at this ⊢
    exact this

/-- What holds of a thread depends only on the contents of the cell it works on. -/
theorem TR.cell {ver : Nat → Nat} {cell cell' : Obj → V} {H : Nat → Nat} {D : Nat → Prop} {st : Nat} {pc : Pc V c.W}
    {x : Revisable.Th V} (h : c.TR ver cell H D st pc x) (e : ∀ k, pcCall pc = some k → cell' k.obj = cell k.obj) :
    c.TR ver cell' H D st pc x := by
  cases pc <;> first
    | exact h
    | (have e' := e _ rfl; simp only [TR, Good] at h ⊢; rw [e']; exact h)

/-- A thread holding a lock is in a call. -/
theorem holds_pcCall {pc : Pc V c.W} {k : Call V} {p : BitVec c.W} (h : c.holds pc = some (k, p)) : pcCall pc = some k := by
  cases pc <;> simp only [holds, Option.some.injEq, Prod.mk.injEq, reduceCtorEq] at h <;> simp [pcCall, h.1]

theorem memAt_other {pc : Pc V c.W} {o : Obj} (h : ∀ k, pcCall pc = some k → k.obj ≠ o) (i : Nat) (v : V) :
    c.memAt pc o i v = c.split o v i := by
  cases pc <;> first
    | rfl
    | (have := h _ rfl; simp [memAt, this])

/-- An object without open calls holds the specification's value. -/
theorem Rel.still {s : State V c.W} {a : Revisable.State V} {owner : Nat → Option Tid} (R : c.Rel s a owner) {o : Obj}
    (h : ∀ t k, pcCall (s.pc t) = some k → k.obj ≠ o) (i : Nat) (hi : i < c.n o) :
    s.mem (.chunk o i) = c.split o (a.cell o) i := by
  rw [R.mem o i hi]
  split
  · exact memAt_other (h _) i _
  · rfl

/-- The owner of an object without open calls replaces its value. -/
theorem Rel.put {s : State V c.W} {a : Revisable.State V} {owner : Nat → Option Tid} (R : c.Rel s a owner) {o : Obj}
    (h : ∀ t k, pcCall (s.pc t) = some k → k.obj ≠ o) {v : V} (hf : c.fits o v) {m : Loc → BitVec c.W}
    (hm : ∀ l, (∀ i, l ≠ .chunk o i) → m l = s.mem l) (hv : ∀ i, i < c.n o → m (.chunk o i) = c.split o v i) :
    c.Rel { s with mem := m } { a with cell := Function.update a.cell o v } owner := by
  refine ⟨R.own, ?_, ?_, R.prev, ?_, ?_, ?_, ?_⟩
  · intro l hl; rw [← R.free l hl]; exact hm _ (by simp)
  · intro l t hl; rw [← R.held l t hl]; exact hm _ (by simp)
  · intro hw l; rw [show c.H { s with mem := m } owner l = c.H s owner l from rfl, ← R.hi hw l]; exact hm _ (by simp)
  · intro o' i hi
    by_cases e : o' = o
    · subst e
      simp only [Function.update_self]
      rw [hv i hi]
      split
      · exact (memAt_other (h _) i _).symm
      · rfl
    · simp only [Function.update_of_ne e]
      rw [← R.mem o' i hi]
      exact hm _ (by simp [e])
  · intro t
    refine (R.th t).cell fun k hk => Function.update_of_ne (h t k hk) _ _
  · intro o'
    by_cases e : o' = o
    · subst e; simpa using hf
    · simpa [Function.update_of_ne e] using R.fit o'

/-- The invariant of the machine with exclusive access. -/
structure XInv (cells : Obj → V) (h : List (Excl.Ev (Ev V) Obj V)) (x : XState V c.W) : Prop where
  on : ∀ t k, pcCall (x.s.pc t) = some k → x.on t = some k.obj
  out : ∀ t o, x.on t = some o → x.out o = false
  fit : CallsFit x.s
  rel : ∃ m a owner, (∀ l, Circ x.out l → m l = x.s.mem l) ∧ c.Rel { x.s with mem := m } a owner ∧ XReach cells h a

theorem CallsFit.mem {s : State V c.W} (h : CallsFit s) (m : Loc → BitVec c.W) : CallsFit { s with mem := m } := h

theorem xinv_step (ok : c.Sound) {cells : Obj → V} {h : List (Excl.Ev (Ev V) Obj V)} {x x' : XState V c.W}
    {e : Option (Excl.Ev (Ev V) Obj V)} (I : XInv cells h x) (nw : c.NoWrap x.s) (st : c.XStep x e x') : XInv cells (h ++ e.toList) x' := by
  classical
  have prog : ∀ {e0 : Option (Ev V)} {s'}, c.Step x.s e0 s' → ∃ m a owner, (∀ l, Circ x.out l → m l = s'.mem l) ∧
      c.Rel { s' with mem := m } a owner ∧ XReach cells (h ++ e0.toList.map .call) a := by
    intro e0 s' hs
    obtain ⟨m, a, owner, h1, h2, h3⟩ := I.rel
    obtain ⟨m', h4, h5⟩ := step_agree hs h1 fun t k hk => I.out _ _ (I.on _ _ hk)
    obtain ⟨a', owner', h6, h7, -⟩ := sim_step ok h2 (I.fit.mem m) nw h5
    exact ⟨m', a', owner', h4, h7, XReach.exec h6 h3⟩
  cases st with
  | act s' hs =>
    refine ⟨fun t k hk => ?_, I.out, I.fit.step hs, by simpa using prog hs⟩
    generalize he : (none : Option (Ev V)) = e0 at hs
    cases hs with
    | act u b hb =>
      by_cases e : t = u
      · subst e
        simp only [doAct, Function.update_self] at hk
        exact I.on _ _ (pcCall_next _ _ _ hk)
      · simp only [doAct, Function.update_of_ne e] at hk
        exact I.on _ _ hk
    | _ => cases he
  | inv s' t o op hs ho =>
    refine ⟨fun u k hk => ?_, fun u o' hu => ?_, I.fit.step hs, by simpa using prog hs⟩
    · cases hs with
      | inv t o op h hf =>
        by_cases e : u = t
        · subst e
          simp only [Function.update_self] at hk ⊢
          rw [pcCall_start _ _ hk]
        · simp only [Function.update_of_ne e] at hk ⊢
          exact I.on _ _ hk
    · by_cases e : u = t
      · subst e; simp only [Function.update_self, Option.some.injEq] at hu; subst hu; exact ho
      · simp only [Function.update_of_ne e] at hu; exact I.out _ _ hu
  | ret s' t r hs =>
    refine ⟨fun u k hk => ?_, fun u o' hu => ?_, I.fit.step hs, by simpa using prog hs⟩
    · cases hs with
      | ret t r h =>
        by_cases e : u = t
        · subst e; simp [pcCall] at hk
        · simp only [Function.update_of_ne e] at hk ⊢
          exact I.on _ _ hk
    · by_cases e : u = t
      · subst e; simp at hu
      · simp only [Function.update_of_ne e] at hu; exact I.out _ _ hu
  | take o ho hx =>
    obtain ⟨m, a, owner, h1, h2, h3⟩ := I.rel
    refine ⟨I.on, fun t o' hu => ?_, I.fit, m, a, owner, fun l hl => ?_, h2, fun b => ?_⟩
    · have e : o' ≠ o := fun e => hx t (e ▸ hu)
      simpa [Function.update_of_ne e] using I.out t o' hu
    · refine h1 l ?_
      cases l with
      | chunk o' i =>
        by_cases e : o' = o
        · subst e; exact ho
        · simpa [Circ, Function.update_of_ne e] using hl
      | _ => trivial
    · have hv : c.join o (fun i => x.s.mem (.chunk o i)) = (Revisable.proj b a).cell o := by
        have hs := Rel.still h2 (o := o) fun t k hk e => hx t (by rw [← e]; exact I.on t k hk)
        refine Eq.trans (ok.join_congr o _ (c.split o (a.cell o)) fun i hi => ?_) (ok.join_split o _ (h2.fit o))
        rw [← hs i hi]
        exact (h1 (.chunk o i) ho).symm
      rw [hv]
      exact .ev (h3 b) (.take _ o)
  | raw o i w ho =>
    obtain ⟨m, a, owner, h1, h2, h3⟩ := I.rel
    refine ⟨I.on, I.out, I.fit, m, a, owner, fun l hl => ?_, h2, by simpa using h3⟩
    rw [h1 l hl]
    refine (Function.update_of_ne ?_ _ _).symm
    rintro rfl
    simp only [Circ] at hl
    rw [hl] at ho; cases ho
  | put o v ho hf hm =>
    obtain ⟨m, a, owner, h1, h2, h3⟩ := I.rel
    have hno : ∀ t, x.on t ≠ some o := fun t e => by rw [I.out t o e] at ho; cases ho
    refine ⟨I.on, fun t o' hu => ?_, I.fit,
      fun l => if ∃ i, l = Loc.chunk o i then x.s.mem l else m l, _, owner, fun l hl => ?_,
      Rel.put h2 (o := o) (fun t k hk e => hno t (by rw [← e]; exact I.on t k hk)) hf (fun l hl => ?_) (fun i hi => ?_),
      fun b => ?_⟩
    · have e : o' ≠ o := fun e => hno t (e ▸ hu)
      simpa [Function.update_of_ne e] using I.out t o' hu
    · dsimp only
      split
      · rfl
      · rename_i hn
        refine h1 l ?_
        cases l with
        | chunk o' i =>
          by_cases e : o' = o
          · subst e; exact absurd ⟨i, rfl⟩ hn
          · simpa [Circ, Function.update_of_ne e] using hl
        | _ => trivial
    · dsimp only
      rw [if_neg (fun ⟨i, e⟩ => hl i e)]
    · rw [if_pos ⟨i, rfl⟩]; exact hm i hi
    · exact .ev (h3 b) (.put _ o v)

/-- The calls and returns of a history. -/
def _root_.Verif.Excl.plain {E K W : Type} (h : List (Excl.Ev E K W)) : List E :=
  h.filterMap fun | .call e => some e | _ => none

theorem plain_append {E K W : Type} (h k : List (Excl.Ev E K W)) : Excl.plain (h ++ k) = Excl.plain h ++ Excl.plain k := by
  simp [Excl.plain]

/-- Exclusive accesses do not touch the lock, so short histories stay below the wrap-around bound. -/
theorem xci_step {v0 : Nat → Nat} {h : List (Excl.Ev (Ev V) Obj V)} {x x' : XState V c.W} {e : Option (Excl.Ev (Ev V) Obj V)}
    {T : Finset Tid} (I : CI c v0 (Excl.plain h) x.s T) (st : c.XStep x e x') :
    ∃ T', CI c v0 (Excl.plain (h ++ e.toList)) x'.s T' := by
  rw [plain_append]
  cases st with
  | act s' hs => exact I.step hs
  | inv s' t o op hs ho => exact I.step hs
  | ret s' t r hs => exact I.step hs
  | take o ho hx => exact ⟨T, by simpa [Excl.plain] using I⟩
  | raw o i w ho => exact ⟨T, ⟨I.idle, by simpa [Excl.plain] using I.count, I.mono, I.start⟩⟩
  | put o v ho hf hm => exact ⟨T, by simpa [Excl.plain] using I⟩

theorem xinv_exec (ok : c.Sound) {cells : Obj → V} (hf : ∀ o, c.fits o (cells o)) {v0 : Nat → Nat} {ext : Nat → BitVec c.W}
    {out0 : Obj → Bool} {h : List (Excl.Ev (Ev V) Obj V)} {x : XState V c.W}
    (hx : Exec c.XStep (c.xinit cells v0 ext out0) h x) :
    (∃ T, CI c v0 (Excl.plain h) x.s T) ∧ (calls (Excl.plain h) < c.maxOverlap → XInv cells h x) := by
  generalize hi : c.xinit cells v0 ext out0 = i at hx
  induction hx with
  | refl =>
    subst hi
    refine ⟨ci_exec (.refl _), fun _ => ?_⟩
    exact ⟨fun t k hk => by simp [xinit, init, pcCall] at hk, fun t o ht => by simp [xinit] at ht, CallsFit.init cells v0 ext,
      _, _, _, fun _ _ => rfl, rel_init cells hf v0 ext, fun b => by exact .refl _⟩
  | tau _ st ih =>
    obtain ⟨⟨T, h1⟩, h2⟩ := ih
    exact ⟨by simpa using xci_step h1 st, fun hb => by simpa using xinv_step ok (h2 hb) (h1.noWrap hb) st⟩
  | ev _ st ih =>
    obtain ⟨⟨T, h1⟩, h2⟩ := ih
    refine ⟨xci_step h1 st, fun hb => ?_⟩
    rw [plain_append] at hb
    have hb' : calls (Excl.plain _) < c.maxOverlap := lt_of_le_of_lt (by
      simp only [calls, List.filter_append, List.length_append]; exact Nat.le_add_right _ _) hb
    exact xinv_step ok (h2 hb') (h1.noWrap hb') st

/-! ## Concrete runs -/

/-- The open calls after a history. -/
def onAfter (on : Tid → Option Obj) (h : List (Ev V)) : Tid → Option Obj :=
  h.foldl (fun on e => match e with
    | .inv t o _ => Function.update on t (some o)
    | .ret t _ => Function.update on t none) on

/-- Calls on objects in circulation. -/
theorem lift_exec {s s' : State V c.W} {h : List (Ev V)} (x : Exec c.Step s h s') (on : Tid → Option Obj) (out : Obj → Bool)
    (ho : ∀ t o op, Ev.inv t o op ∈ h → out o = false) :
    Exec c.XStep ⟨s, on, out⟩ (h.map .call) ⟨s', onAfter on h, out⟩ := by
  induction x with
  | refl => exact .refl _
  | tau _ st ih => exact .tau (ih ho) (.act _ _ st)
  | @ev h' s1 e s2 _ st ih =>
    have := ih fun t o op hm => ho t o op (List.mem_append_left _ hm)
    rw [List.map_append]
    cases e with
    | inv t o op =>
      have h2 := Exec.ev this (XStep.inv ⟨s1, onAfter on h', out⟩ s2 t o op st (ho t o op (by simp)))
      simpa [onAfter] using h2
    | ret t r =>
      have h2 := Exec.ev this (XStep.ret ⟨s1, onAfter on h', out⟩ s2 t r st)
      simpa [onAfter] using h2

end Cfg
end Fallback
end Verif
