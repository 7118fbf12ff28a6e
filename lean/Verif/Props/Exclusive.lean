import Verif.Fallback.Exclusive
import Verif.Fallback.Run
import Verif.Lf.Exclusive
import Verif.Lf.Run
import Verif.Props.Fallback
import Verif.Props.Compose
import Verif.Props.Bool
import Verif.Props.Riscv
import Verif.Props.ArmLinux
import Verif.Props.Arm
import Verif.Props.Ppc
import Verif.Props.S390x
import Verif.Props.Rv64
import Verif.Props.Rv32
import Verif.Props.Kuser
import Verif.Props.X86
/-!
# Exclusive access: `get_mut`, `into_inner`, `new` (C68)

`Excl.Linearizable`, `Excl.LinearizableTo` (`Spec/Exclusive.lean`) are the specification.  The machines are those of the other
theorems, with the owner's accesses added: they are plain reads and writes of the value's memory, without the lock and without atomic
instructions, guarded only by Rust's borrowing rules.
-/
set_option autoImplicit false
set_option linter.unusedSectionVars false
namespace Verif

/-! ## What the specification says -/

namespace Excl
variable {V : Type} [DecidableEq V]

theorem exec_split {S E : Type} {step : S → Option E → S → Prop} {a b : S} {h k : List E} (x : Exec step a (h ++ k) b) :
    ∃ c, Exec step a h c ∧ Exec step c k b := by
  generalize hh : h ++ k = l at x
  induction x generalizing k with
  | refl =>
    obtain ⟨rfl, rfl⟩ := List.append_eq_nil_iff.1 hh
    exact ⟨_, .refl _, .refl _⟩
  | tau _ st ih =>
    obtain ⟨c, h1, h2⟩ := ih hh
    exact ⟨c, h1, .tau h2 st⟩
  | @ev l' s1 e s2 x st ih =>
    rcases List.eq_nil_or_concat k with rfl | ⟨k', e', rfl⟩
    · rw [List.append_nil] at hh
      subst hh
      exact ⟨_, .ev x st, .refl _⟩
    · rw [List.concat_eq_append, ← List.append_assoc] at hh
      obtain ⟨h1, h2⟩ := List.append_inj' hh rfl
      cases h2
      obtain ⟨c, h3, h4⟩ := ih h1
      exact ⟨c, h3, by rw [List.concat_eq_append]; exact .ev h4 st⟩

/-- The object a thread's latest call is on, if that call has not returned. -/
def openOn (h : List (Ev (Verif.Ev V) Obj V)) (t : Tid) : Option Obj :=
  (Fallback.openCall (plain h) t).map (·.1)

theorem pending_open {cells : Obj → V} {h : List (Ev (Verif.Ev V) Obj V)} {s : Atomic.State V}
    (x : Exec AtomicStep (Atomic.init cells) h s) :
    (∀ t o op, s.th t = .pending o op → Fallback.openCall (plain h) t = some (o, op)) := by
  generalize hi : Atomic.init cells = i at x
  induction x with
  | refl => subst hi; intro t o op h; simp [Atomic.init] at h
  | tau _ st ih =>
    intro t o op h
    cases st with
    | tau _ st =>
      cases st with
      | commit u o' op' hp =>
        by_cases e : t = u
        · subst e; simp at h
        · simp only [Function.update_of_ne e] at h; exact ih _ _ _ h
  | @ev h' s1 e s2 _ st ih =>
    intro t o op h
    have hp : plain (h' ++ [e]) = plain h' ++ plain [e] := by simp [plain]
    rw [hp]
    cases st with
    | call _ e st =>
      cases st with
      | inv u o' op' hq =>
        change Fallback.openCall (plain h' ++ [.inv u o' op']) t = _
        rw [Fallback.openCall_inv]
        by_cases e : t = u
        · subst e
          simp only [Function.update_self, Atomic.Th.pending.injEq] at h
          rw [if_pos rfl, h.1, h.2]
        · simp only [Function.update_of_ne e] at h
          rw [if_neg (Ne.symm e)]; exact ih _ _ _ h
      | ret u r hq =>
        change Fallback.openCall (plain h' ++ [.ret u r]) t = _
        rw [Fallback.openCall_ret]
        by_cases e : t = u
        · subst e; simp at h
        · simp only [Function.update_of_ne e] at h
          rw [if_neg (Ne.symm e)]; exact ih _ _ _ h
    | take o' => simpa [plain] using ih _ _ _ h
    | put o' v => simpa [plain] using ih _ _ _ h

/-- Steps without events keep a cell nobody has a call on. -/
theorem quiet_cell {s s' : Atomic.State V} {h : List (Ev (Verif.Ev V) Obj V)} (x : Exec AtomicStep s h s') (hn : h = []) {o : Obj} :
    (∀ u op, s.th u ≠ .pending o op) → s'.cell o = s.cell o ∧ ∀ u op, s'.th u ≠ .pending o op := by
  induction x with
  | refl => exact fun h => ⟨rfl, h⟩
  | ev => simp at hn
  | tau _ st ih =>
    intro h0
    obtain ⟨h1, h2⟩ := ih hn h0
    cases st with
    | tau _ st =>
      cases st with
      | commit u o' op' hp =>
        have e : o ≠ o' := fun e => h2 u op' (e ▸ hp)
        refine ⟨by simp only [Function.update_of_ne e]; exact h1, fun w op => ?_⟩
        by_cases ew : w = u
        · subst ew; simp
        · simp only [Function.update_of_ne ew]; exact h2 w op

end Excl

namespace Excl

theorem exec_one {S E : Type} {step : S → Option E → S → Prop} {a b : S} {e : E} (x : Exec step a [e] b) :
    ∃ a1 a2, Exec step a [] a1 ∧ step a1 (some e) a2 ∧ Exec step a2 [] b := by
  generalize hk : [e] = k at x
  induction x with
  | refl => cases hk
  | tau _ st ih =>
    obtain ⟨a1, a2, h1, h2, h3⟩ := ih hk
    exact ⟨a1, a2, h1, h2, .tau h3 st⟩
  | @ev k' _ e' _ x st ih =>
    obtain ⟨rfl, h2⟩ := List.append_eq_singleton_iff.1 hk.symm |>.resolve_right (by simp)
    cases h2
    exact ⟨_, _, x, st, .refl _⟩

variable {V : Type} [DecidableEq V]

/-- After the owner has put a value and nothing else has happened, the cell holds it and nobody has a call on it. -/
theorem after_put {cells : Obj → V} {h : List (Ev (Verif.Ev V) Obj V)} {o : Obj} {v : V} {c : Atomic.State V}
    (x : Exec AtomicStep (Atomic.init cells) (h ++ [.put o v]) c) (hno : ∀ u, openOn h u ≠ some o) :
    c.cell o = v ∧ ∀ u op, c.th u ≠ .pending o op := by
  obtain ⟨b, h1, h2⟩ := exec_split x
  obtain ⟨b1, b2, h3, h4, h5⟩ := exec_one h2
  have hp := pending_open h1
  have q1 := (quiet_cell h3 rfl (o := o) fun u op e => hno u (by simp [openOn, hp u o op e])).2
  generalize he : (Ev.put o v : Ev (Verif.Ev V) Obj V) = e0 at h4
  cases h4 with
  | call => cases he
  | take => cases he
  | put o' v' =>
    cases he
    obtain ⟨q2, q3⟩ := quiet_cell h5 rfl (o := o) q1
    exact ⟨q2.trans (by simp), q3⟩

/-- **C68a.** What linearizability with exclusive accesses means.  If the owner takes out an object right after putting it back (no
event in between; nobody has a call open on it), it sees what it put. -/
theorem take_after_put {cells : Obj → V} {h : List (Ev (Verif.Ev V) Obj V)} {o : Obj} {v w : V}
    (hl : Linearizable cells (h ++ [.put o v] ++ [.take o w])) (hno : ∀ u, openOn h u ≠ some o) : w = v := by
  obtain ⟨s, hx⟩ := hl
  obtain ⟨c, h1, h2⟩ := exec_split hx
  obtain ⟨q1, q2⟩ := after_put h1 hno
  obtain ⟨b1, b2, h3, h4, -⟩ := exec_one h2
  generalize he : (Ev.take o w : Ev (Verif.Ev V) Obj V) = e0 at h4
  cases h4 with
  | call => cases he
  | put => cases he
  | take o' => cases he; exact (quiet_cell h3 rfl q2).1.trans q1

/-- **C68a**, second: an operation called right after that, and returning before anything else happens, works on what was put. -/
theorem call_after_put {cells : Obj → V} {h : List (Ev (Verif.Ev V) Obj V)} {o : Obj} {v : V} {t : Tid} {op : Op V} {r : Res V}
    (hl : Linearizable cells (h ++ [.put o v] ++ [.call (.inv t o op)] ++ [.call (.ret t r)])) (hno : ∀ u, openOn h u ≠ some o) :
    r = (op.onCell v).2 := by
  obtain ⟨s, hx⟩ := hl
  obtain ⟨d, hd, h6⟩ := exec_split hx
  obtain ⟨c, h1, h2⟩ := exec_split hd
  obtain ⟨q1, q2⟩ := after_put h1 hno
  obtain ⟨b1, b2, h3, h4, h5⟩ := exec_one h2
  obtain ⟨b3, b4, h7, h8, -⟩ := exec_one h6
  obtain ⟨q3, q4⟩ := quiet_cell h3 rfl q2
  have hi : b2.th t = .pending o op ∧ b2.cell o = v ∧ ∀ u op', u ≠ t → b2.th u ≠ .pending o op' := by
    generalize he : (Ev.call (.inv t o op) : Ev (Verif.Ev V) Obj V) = e0 at h4
    cases h4 with
    | take => cases he
    | put => cases he
    | call _ e st =>
      cases he
      cases st with
      | inv _ _ _ hp =>
        refine ⟨by simp, q3.trans q1, fun u op' hu => ?_⟩
        simp only [Function.update_of_ne hu]; exact q4 u op'
  have hj := h5.trans h7
  have key : ∀ {k : List (Ev (Verif.Ev V) Obj V)} {a b : Atomic.State V}, Exec AtomicStep a k b → k = [] →
      (a.th t = .pending o op ∧ a.cell o = v ∧ ∀ u op', u ≠ t → a.th u ≠ .pending o op') →
      (b.th t = .pending o op ∧ b.cell o = v ∧ ∀ u op', u ≠ t → b.th u ≠ .pending o op') ∨ b.th t = .done (op.onCell v).2 := by
    intro k a b x
    induction x with
    | refl => exact fun _ h => .inl h
    | ev => intro hk; simp at hk
    | tau _ st ih =>
      intro hk ha
      cases st with
      | tau _ st =>
        cases st with
        | commit u o' op' hp =>
          rcases ih hk ha with ⟨i1, i2, i3⟩ | i1
          · by_cases e : u = t
            · subst e
              rw [i1] at hp
              cases hp
              right
              simp [i2]
            · left
              have eo : o ≠ o' := fun eo => i3 u op' e (eo ▸ hp)
              refine ⟨by simp only [Function.update_of_ne (Ne.symm e)]; exact i1, by simp only [Function.update_of_ne eo]; exact i2,
                fun w op' hw => ?_⟩
              by_cases ew : w = u
              · subst ew; simp
              · simp only [Function.update_of_ne ew]; exact i3 w op' hw
          · right
            have e : t ≠ u := fun e => by rw [e, hp] at i1; cases i1
            simp only [Function.update_of_ne e]; exact i1
  generalize he : (Ev.call (.ret t r) : Ev (Verif.Ev V) Obj V) = e0 at h8
  cases h8 with
  | take => cases he
  | put => cases he
  | call _ e st =>
    cases he
    cases st with
    | ret _ _ hp =>
      rcases key hj rfl hi with ⟨i1, -⟩ | i1
      · rw [i1] at hp; cases hp
      · rw [i1] at hp; cases hp; rfl

end Excl

/-! ## The lock-based fallback -/

namespace Fallback
open Cfg
variable {V : Type} [DecidableEq V] {c : Cfg V} {cells : Obj → V} {v0 : Nat → Nat} {ext : Nat → BitVec c.W}

/-- **C68b.** Fallback: every history of calls and exclusive accesses, of any number of threads and objects sharing locks, is one of
plain cells: what `get_mut` or `into_inner` finds is what the calls have left, although it ignores the lock, and calls after the
borrow (or after `new`) find what the owner left, although its writes do not change the lock's version.
(`maxOverlap` is at least 2^62 in the real configurations.) -/
theorem fallback_exclusive (ok : c.Sound) (hc : ∀ o, c.fits o (cells o)) {out0 : Obj → Bool}
    {h : List (Excl.Ev (Ev V) Obj V)} {x : XState V c.W} (hx : Exec c.XStep (c.xinit cells v0 ext out0) h x)
    (hb : calls (Excl.plain h) < c.maxOverlap) : Excl.Linearizable cells h := by
  obtain ⟨m, a, owner, -, -, h3⟩ := ((xinv_exec ok hc hx).2 hb).rel
  exact ⟨_, h3 fun _ => false⟩

/-- **C68c.** And every object in circulation with no call open on it holds a value of its type, whole. -/
theorem fallback_exclusive_valid (ok : c.Sound) (hc : ∀ o, c.fits o (cells o)) {out0 : Obj → Bool}
    {h : List (Excl.Ev (Ev V) Obj V)} {x : XState V c.W} (hx : Exec c.XStep (c.xinit cells v0 ext out0) h x)
    (hb : calls (Excl.plain h) < c.maxOverlap) {o : Obj} (ho : x.out o = false) (hn : ∀ t, x.on t ≠ some o) :
    ∃ v, c.fits o v ∧ ∀ i, i < c.n o → x.s.mem (.chunk o i) = c.split o v i := by
  obtain ⟨h1, -, -, m, a, owner, h3, h4, -⟩ := (xinv_exec ok hc hx).2 hb
  refine ⟨a.cell o, h4.fit o, fun i hi => ?_⟩
  rw [← Rel.still h4 (fun t k hk e => hn t (by rw [← e]; exact h1 t k hk)) i hi]
  exact (h3 (.chunk o i) ho).symm

set_option maxRecDepth 100000 in
/-- **C68d.** If nobody respects the borrow, it all breaks: the guards are needed. An owner that writes while a load is running makes
the load return a value that is neither the old nor the new one, although the lock's version says nothing has happened. -/
theorem unguarded_write_tears :
    ∃ (s1 s2 : State (BitVec 128) Demo.cfg.W) (h2 : List (Ev (BitVec 128))),
      Exec Demo.cfg.Step (Demo.cfg.init (fun _ => 0) (fun _ => 0) (fun _ => 0)) [.inv 0 0 (.load .acquire)] s1 ∧
      (∀ t, t ≠ 0 → s1.pc t = .idle) ∧
      Exec Demo.cfg.Step
        { s1 with mem := fun | .chunk 0 i => Demo.cfg.split 0 (2 ^ 64 + 1) i | l => s1.mem l } h2 s2 ∧
      h2 = [.ret 0 (.val (2 ^ 64))] := by
  have x1 := Demo.cfg.run_exec (Demo.cfg.init (fun _ => 0) (fun _ => 0) (fun _ => 0))
    [.call 0 0 (.load .acquire), .go 0, .go 0] (Demo.ok.cmds _) (by decide +kernel)
  have x2 := Demo.cfg.run_exec
    { Demo.cfg.final! (Demo.cfg.init (fun _ => 0) (fun _ => 0) (fun _ => 0)) [.call 0 0 (.load .acquire), .go 0, .go 0] with
      mem := fun
        | .chunk 0 i => Demo.cfg.split 0 (2 ^ 64 + 1) i
        | l => (Demo.cfg.final! (Demo.cfg.init (fun _ => 0) (fun _ => 0) (fun _ => 0))
            [.call 0 0 (.load .acquire), .go 0, .go 0]).mem l }
    [.go 0, .go 0, .go 0, .ret 0] (Demo.ok.cmds _) (by decide +kernel)
  exact ⟨_, _, _, x1, fun t ht => by
    match t, ht with
    | t + 1, _ => rfl, x2, rfl⟩

namespace ExclDemo

/-- Thread 0 swaps 9 into object 0. -/
def swap : List (Cmd (BitVec 128)) :=
  [.call 0 0 (.swap 9 .seqCst)] ++ List.replicate 9 (.go 0) ++ [.ret 0]
/-- Thread 1 loads object 0. -/
def load : List (Cmd (BitVec 128)) := [.call 1 0 (.load .acquire)] ++ List.replicate 5 (.go 1) ++ [.ret 1]

def s0 : State (BitVec 128) Demo.cfg.W := Demo.cfg.init (fun _ => 5) (fun _ => 2 ^ 63 - 1) (fun _ => 0)
def s1 : State (BitVec 128) Demo.cfg.W := Demo.cfg.final! s0 swap
/-- What the owner writes. -/
def w : BitVec 128 := 2 ^ 64 + 7
def s2 : State (BitVec 128) Demo.cfg.W :=
  { s1 with mem := Function.update (Function.update s1.mem (.chunk 0 0) (Demo.cfg.split 0 w 0)) (.chunk 0 1) (Demo.cfg.split 0 w 1) }

def hist : List (Excl.Ev (Ev (BitVec 128)) Obj (BitVec 128)) :=
  [.call (.inv 0 0 (.swap 9 .seqCst)), .call (.ret 0 (.val 5)), .take 0 9, .put 0 w, .call (.inv 1 0 (.load .acquire)),
    .call (.ret 1 (.val w))]

set_option maxRecDepth 100000 in
/-- Non-vacuity of C68b, c: a swap, then the owner takes the object out, sees what the swap left, writes both words, and a later load
sees them. -/
theorem runs : ∃ x, Exec Demo.cfg.XStep (Demo.cfg.xinit (fun _ => 5) (fun _ => 2 ^ 63 - 1) (fun _ => 0) fun _ => false) hist x := by
  have a1 : Exec Demo.cfg.Step s0 (Demo.cfg.hist s0 swap) s1 := Demo.cfg.run_exec s0 swap (Demo.ok.cmds _) (by decide +kernel)
  have a2 := Demo.cfg.run_exec s2 load (Demo.ok.cmds _) (by decide +kernel)
  have e1 : Demo.cfg.hist s0 swap = [.inv 0 0 (.swap 9 .seqCst), .ret 0 (.val 5)] := rfl
  have e2 : Demo.cfg.hist s2 load = [.inv 1 0 (.load .acquire), .ret 1 (.val w)] := rfl
  have hv : Demo.cfg.join 0 (fun i => s1.mem (.chunk 0 i)) = (9 : BitVec 128) := by decide +kernel
  rw [e1] at a1
  rw [e2] at a2
  generalize hs3 : Demo.cfg.final! s2 load = s3 at a2
  have hs2 : s2 = State.mk (Function.update (Function.update s1.mem (.chunk 0 0) (Demo.cfg.split 0 w 0)) (.chunk 0 1)
    (Demo.cfg.split 0 w 1)) s1.pc s1.ver s1.start := rfl
  generalize s2 = s2 at *
  generalize s1 = s1 at *
  have b1 := lift_exec a1 (fun _ => none) (fun _ => false) fun _ _ _ _ => rfl
  generalize hon : onAfter (fun _ => none) [Ev.inv 0 0 (Op.swap (9 : BitVec 128) .seqCst), .ret 0 (.val 5)] = on at b1
  have hon' : ∀ t, on t ≠ some 0 := fun t => by
    rw [← hon]
    simp only [onAfter, List.foldl_cons, List.foldl_nil]
    by_cases e : t = 0
    · subst e; simp
    · simp [Function.update_of_ne e]
  have b2 := XStep.take (c := Demo.cfg) ⟨s1, on, fun _ => false⟩ 0 rfl hon'
  have b3 := XStep.raw (c := Demo.cfg) ⟨s1, on, Function.update (fun _ => false) 0 true⟩
    0 0 (Demo.cfg.split 0 w 0) (by simp)
  have b4 := XStep.raw (c := Demo.cfg) ⟨{ s1 with mem := Function.update s1.mem (.chunk 0 0) (Demo.cfg.split 0 w 0) },
    on, Function.update (fun _ => false) 0 true⟩ 0 1 (Demo.cfg.split 0 w 1) (by simp)
  dsimp only at b2 b3 b4
  rw [hv] at b2
  rw [← hs2] at b4
  have b5 := XStep.put (c := Demo.cfg) ⟨s2, on, Function.update (fun _ => false) 0 true⟩
    0 w (by simp) trivial (fun i hi => by
      change i < 2 at hi
      match i, hi with
      | 0, _ => simp [hs2]
      | 1, _ => simp [hs2])
  have b6 := lift_exec a2 on
    (Function.update (Function.update (fun _ => false) 0 true) 0 false) fun _ _ _ _ => by simp [Function.update_apply]
  have c1 := b1.ev b2
  have c2 := c1.tau b3
  have c3 := c2.tau b4
  have c4 := c3.ev b5
  exact ⟨_, c4.trans b6⟩

example : Excl.Linearizable (fun _ => (5 : BitVec 128)) hist := by
  obtain ⟨x, hx⟩ := runs
  exact fallback_exclusive Demo.ok.toSound (fun _ => trivial) hx (by rw [show Demo.cfg.maxOverlap = 2 ^ 63 from rfl]; decide +kernel)

/-- The consequences apply to it: the load's result is forced. -/
example : (.val w : Res (BitVec 128)) = ((Op.load .acquire).onCell w).2 := by
  obtain ⟨x, hx⟩ := runs
  refine Excl.call_after_put (cells := fun _ => (5 : BitVec 128))
    (h := [.call (.inv 0 0 (.swap 9 .seqCst)), .call (.ret 0 (.val 5)), .take 0 9]) (t := 1) (o := 0)
    (fallback_exclusive Demo.ok.toSound (fun _ => trivial) hx (by rw [show Demo.cfg.maxOverlap = 2 ^ 63 from rfl]; decide +kernel)) ?_
  intro u
  simp only [Excl.openOn, Excl.plain, openCall, List.filterMap_cons, List.filterMap_nil, List.foldl_cons, List.foldl_nil]
  by_cases e : 0 = u <;> simp [e]

end ExclDemo

end Fallback

/-! ## Without a lock -/

namespace Lf
open Verif.Object

variable {K : Type} [DecidableEq K]

/-- The memory is the value. -/
def Bits {V : Type} (x w : V) : Prop := x = w

/-- The memory holds the value (the number of writes beside it is not part of the program). -/
def CellIs {V : Type} (x : LlSc.Cell V) (w : V) : Prop := x.val = w

/-- The byte is a valid `bool`. -/
def BoolIs (x : BitVec 8) (b : Bool) : Prop := Verif.Bool.asBool x = some b

/-- **C68e.** Integer atomics. -/
theorem int_exclusive (e : Nat) (signed : Bool) (k : Int.Backend) {m : K → BitVec (2 ^ e)} {out0 h x}
    (hx : XRuns ((Int.codeOf (2 ^ e) signed k).sys K) Prod.fst Bits m out0 h x) :
    ∃ c', Excl.LinearizableTo (Int.specOf (2 ^ e) signed k) m h c' ∧ ∀ o, x.out o = false → x.s.mem o = c' o :=
  (Compose.intSim e signed k).keyed.xlinearizable (is := Bits) (fun _ _ => ⟨fun h => ⟨trivial, h⟩, fun h => h.2⟩) (fun _ => trivial) hx

/-- **C68f.** Pointer atomics. -/
theorem ptr_exclusive (e size : Nat) (k : Ptr.Backend) {m : K → BitVec (2 ^ e)} {out0 h x}
    (hx : XRuns ((Ptr.codeOf (2 ^ e) size k).sys K) Prod.fst Bits m out0 h x) :
    ∃ c', Excl.LinearizableTo (Ptr.specOf (2 ^ e) size k) m h c' ∧ ∀ o, x.out o = false → x.s.mem o = c' o :=
  (Compose.ptrSim e size k).keyed.xlinearizable (is := Bits) (fun _ _ => ⟨fun h => ⟨trivial, h⟩, fun h => h.2⟩) (fun _ => trivial) hx

/-- **C68g.** Float atomics (values as their bits). -/
theorem float_exclusive (e : Nat) (signed : Bool) (A : Float.Arith (2 ^ e)) (f : Float.FBackend) {m : K → BitVec (2 ^ e)} {out0 h x}
    (hx : XRuns ((Float.codeOf signed A f).sys K) Prod.fst Bits m out0 h x) :
    ∃ c', Excl.LinearizableTo (Float.specOf signed A f) m h c' ∧ ∀ o, x.out o = false → x.s.mem o = c' o :=
  (Compose.floatSim e signed A f).keyed.xlinearizable (is := Bits) (fun _ _ => ⟨fun h => ⟨trivial, h⟩, fun h => h.2⟩) (fun _ => trivial) hx

theorem boolIs_iff (x : BitVec 8) (b : Bool) : BoolIs x b ↔ Verif.Bool.Valid x ∧ Verif.Bool.ofByte x = b := by
  unfold BoolIs Verif.Bool.asBool Verif.Bool.Valid Verif.Bool.ofByte
  by_cases h0 : x = 0
  · subst h0; cases b <;> simp
  · by_cases h1 : x = 1
    · subst h1; cases b <;> simp
    · rw [if_neg h0, if_neg h1]
      constructor
      · intro h; cases h
      · rintro ⟨h | h, -⟩
        · exact absurd h h0
        · exact absurd h h1

/-- **C68h.** `AtomicBool`: in particular the byte of every object in circulation is a valid `bool` at every moment, so `get_mut` is
always defined; and it and `into_inner` agree. -/
theorem bool_exclusive (amo : Bool) {m : K → BitVec 8} (hm : ∀ o, m o = 0 ∨ m o = 1) {out0 h x}
    (hx : XRuns ((Verif.Bool.code amo).sys K) Prod.fst BoolIs m out0 h x) :
    ∃ c', Excl.LinearizableTo Verif.Bool.spec (fun o => m o != 0) h c' ∧ ∀ o, x.out o = false →
      Verif.Bool.asBool (x.s.mem o) = some (c' o) ∧ Verif.Bool.intoInner (x.s.mem o) = c' o := by
  obtain ⟨c', h1, h2⟩ := (Verif.Bool.sim amo).keyed.xlinearizable (is := BoolIs) boolIs_iff (fun o => hm o) hx
  exact ⟨c', h1, fun o ho => ⟨h2 o ho, ((boolIs_iff _ _).1 (h2 o ho)).2⟩⟩

/-- **C68i.** 128-bit atomics on x86-64. -/
theorem x86_exclusive {m : K → BitVec 128} {out0 h x} (hx : XRuns (X86.code.sys K) Prod.fst Bits m out0 h x) :
    ∃ c', Excl.LinearizableTo X86.spec m h c' ∧ ∀ o, x.out o = false → x.s.mem o = c' o :=
  X86.sim.keyed.xlinearizable (is := Bits) (fun _ _ => ⟨fun h => ⟨trivial, h⟩, fun h => h.2⟩) (fun _ => trivial) hx

/-- Blocks of assembly whose accesses are all correct. -/
theorem asm_exclusive {C ι St V W R : Type} [DecidableEq V] {A : Asm.Blocks C ι St V W R} {S : Spec V C (Option R)}
    (Y : ∀ c, Asm.Points A S c) {m : K → LlSc.Cell V} {out0 h x} (hx : XRuns (A.code.sys K) Prod.fst CellIs m out0 h x) :
    ∃ c', Excl.LinearizableTo S (fun k => (m k).val) h c' ∧ ∀ o, x.out o = false → (x.s.mem o).val = c' o :=
  (Asm.rsim A S fun c => (Y c).local_).keyed.xlinearizable (is := CellIs) (fun _ _ => ⟨fun h => ⟨trivial, h⟩, fun h => h.2⟩)
    (fun _ => trivial) hx

/-- **C68j.** 128-bit atomics on AArch64. -/
theorem arm_exclusive {E : Arm.Env} (hE : E.Ok) (order : Arm.Call → Nat → Bool) {m : K → LlSc.Cell (BitVec 128)} {out0 h x}
    (hx : XRuns ((Arm.blocks E order).code.sys K) Prod.fst CellIs m out0 h x) :
    ∃ c', Excl.LinearizableTo (Arm.spec E) (fun k => (m k).val) h c' ∧ ∀ o, x.out o = false → (x.s.mem o).val = c' o :=
  asm_exclusive (fun c => (Classical.choice (Arm.correct_exist hE order c)).toPoints) hx

/-- **C68k.** 128-bit atomics on powerpc64, where the processor has the instructions. -/
theorem ppc_exclusive {E : Ppc.Env} (hE : E.Ok) (hq : E.Quad) {m : K → LlSc.Cell (BitVec 128)} {out0 h x}
    (hx : XRuns ((Ppc.blocks E).code.sys K) Prod.fst CellIs m out0 h x) :
    ∃ c', Excl.LinearizableTo (Ppc.spec E) (fun k => (m k).val) h c' ∧ ∀ o, x.out o = false → (x.s.mem o).val = c' o :=
  asm_exclusive (fun c => (Classical.choice (Ppc.correct_exist hE hq c)).toPoints) hx

/-- **C68l.** 128-bit atomics on s390x. -/
theorem s390x_exclusive {E : S390x.Env} (hE : E.Ok) {m : K → LlSc.Cell (BitVec 128)} {out0 h x}
    (hx : XRuns ((S390x.blocks E).code.sys K) Prod.fst CellIs m out0 h x) :
    ∃ c', Excl.LinearizableTo (S390x.spec E) (fun k => (m k).val) h c' ∧ ∀ o, x.out o = false → (x.s.mem o).val = c' o :=
  asm_exclusive (fun c => (Classical.choice (S390x.correct_exist hE c)).toPoints) hx

/-- **C68m.** 128-bit atomics on riscv64 with Zacas. -/
theorem rv64_exclusive {E : Rv64.Env} (hE : E.Ok) (hq : E.Zacas) {m : K → LlSc.Cell (BitVec 128)} {out0 h x}
    (hx : XRuns ((Rv64.blocks E).code.sys K) Prod.fst CellIs m out0 h x) :
    ∃ c', Excl.LinearizableTo (Rv64.spec E) (fun k => (m k).val) h c' ∧ ∀ o, x.out o = false → (x.s.mem o).val = c' o :=
  asm_exclusive (fun c => (Classical.choice (Rv64.correct_exist hE hq c)).toPoints) hx

/-- **C68n.** 64-bit atomics on riscv32 with Zacas. -/
theorem rv32_exclusive {E : Rv32.Env} (hE : E.Ok) (hq : E.Zacas) {m : K → LlSc.Cell (BitVec 64)} {out0 h x}
    (hx : XRuns ((Rv32.blocks E).code.sys K) Prod.fst CellIs m out0 h x) :
    ∃ c', Excl.LinearizableTo (Rv32.spec E) (fun k => (m k).val) h c' ∧ ∀ o, x.out o = false → (x.s.mem o).val = c' o :=
  asm_exclusive (fun c => (Classical.choice (Rv32.correct_exist hE hq c)).toPoints) hx

/-- **C68o.** 64-bit atomics on pre-v6 Arm Linux, where the kernel has the helper. -/
theorem kuser_exclusive {E : Kuser.Env} (hE : E.Ok) (hk : E.hasKuser = true) {m : K → LlSc.Cell (BitVec 64)} {out0 h x}
    (hx : XRuns ((Kuser.blocks E).code.sys K) Prod.fst CellIs m out0 h x) :
    ∃ c', Excl.LinearizableTo Kuser.spec (fun k => (m k).val) h c' ∧ ∀ o, x.out o = false → (x.s.mem o).val = c' o :=
  asm_exclusive (Kuser.points hE hk) hx

/-- **C68p.** Pre-v6 Arm Linux, and RISC-V without the A extension: small integers. -/
theorem armLinux_exclusive {V : Type} [DecidableEq V] (up : Bool) {m : K → V} {out0 h x}
    (hx : XRuns ((ArmLinux.code (V := V) up).sys K) Prod.fst Bits m out0 h x) :
    ∃ c', Excl.LinearizableTo ArmLinux.spec m h c' ∧ ∀ o, x.out o = false → x.s.mem o = c' o :=
  (Stmt.sim (ArmLinux.prog_pending up)).keyed.xlinearizable (is := Bits) (fun _ _ => ⟨fun h => ⟨trivial, h⟩, fun h => h.2⟩)
    (fun _ => trivial) hx

theorem riscv_exclusive {L n : Nat} (hn : n ≤ L) {m : K → BitVec n} {out0 h x}
    (hx : XRuns ((Riscv.code L n).sys K) Prod.fst Bits m out0 h x) :
    ∃ c', Excl.LinearizableTo Riscv.spec m h c' ∧ ∀ o, x.out o = false → x.s.mem o = c' o :=
  (Stmt.sim (Riscv.prog_pending hn)).keyed.xlinearizable (is := Bits) (fun _ _ => ⟨fun h => ⟨trivial, h⟩, fun h => h.2⟩)
    (fun _ => trivial) hx

/-! Non-vacuity: a run of `AtomicBool` with an owner. -/

theorem lift_exec {X L O R W : Type} {I : Sys (K → X) L (K × O) R} {key : L → K} {is : X → W → Prop} {a b : State (K → X) L}
    {h : List (Object.Ev (K × O) R)} (x : Exec (Step I) a h b) {out : K → Bool}
    (ho : ∀ t op, Object.Ev.inv t op ∈ h → out op.1 = false) : Exec (XStep I key is) ⟨a, out⟩ (h.map .call) ⟨b, out⟩ := by
  induction x with
  | refl => exact .refl _
  | tau _ st ih => exact .tau (ih ho) (.act _ _ st)
  | @ev h' s1 e s2 x st ih =>
    rw [List.map_append]
    refine .ev (ih fun t op hm => ho t op (by simp [hm])) ?_
    cases e with
    | inv t op => exact .inv ⟨s1, out⟩ _ t op st (ho t op (by simp))
    | ret t r => exact .ret ⟨s1, out⟩ _ t r st

/-- The owner sees what a swap left, writes `false`, and a later `fetch_or` finds `false`. -/
theorem bool_runs : ∃ x, XRuns ((Verif.Bool.code true).sys Obj) Prod.fst BoolIs (fun _ => 0) (fun _ => false)
    [.call (.inv 0 (7, .swap true .seqCst)), .call (.ret 0 (.val false)), .take 7 true, .put 7 false,
      .call (.inv 1 (7, .fetchOr true .seqCst)), .call (.ret 1 (.val false))] x ∧ x.s.mem 7 = 1 := by
  obtain ⟨h1, s1, r1, m1, e1⟩ : ∃ h s, Exec (Step ((Verif.Bool.code true).sys Obj)) (idle fun _ => 0) h s ∧ s.mem 7 = 1 ∧
      h = [.inv 0 (7, .swap true .seqCst), .ret 0 (.val false)] ∧ s.th = fun _ => none := by
    refine ⟨_, _, Code.run_exec (Verif.Bool.code true) [.call 0 7 (.swap true .seqCst), .go 0, .ret 0] _ _ _ rfl, rfl, rfl, ?_⟩
    funext t
    by_cases e : t = 0
    · subst e; simp
    · simp [Function.update_of_ne e, idle]
  obtain ⟨h2, s2, r2, m2, e2⟩ : ∃ h s, Exec (Step ((Verif.Bool.code true).sys Obj))
      { s1 with mem := Function.update s1.mem 7 0 } h s ∧ s.mem 7 = 1 ∧
      h = [.inv 1 (7, .fetchOr true .seqCst), .ret 1 (.val false)] := by
    rw [show s1 = ⟨s1.mem, fun _ => none⟩ by rw [← e1.2]]
    generalize s1.mem = m
    have e : ∃ h s, (Verif.Bool.code true).run [.call 1 7 (.fetchOr true .seqCst), .go 1, .ret 1]
        { mem := Function.update m 7 0, th := fun _ => none } = some (h, s) ∧ s.mem 7 = 1 ∧
        h = [.inv 1 (7, .fetchOr true .seqCst), .ret 1 (.val false)] := by
      refine ⟨_, _, rfl, ?_, ?_⟩
      · simp [Acc.exec, Op.onCell, Op.ordOk, Verif.Bool.byte]
      · simp [Acc.exec, Op.onCell, Op.ordOk, Verif.Bool.byte, Verif.Bool.decVal, Verif.Bool.ofByte]
    obtain ⟨h, s, e, e2, e3⟩ := e
    exact ⟨h, s, Code.run_exec _ _ _ _ _ e, e2, e3⟩
  obtain ⟨rfl, hth⟩ := e1
  subst e2
  refine ⟨⟨s2, Function.update (Function.update (fun _ => false) 7 true) 7 false⟩, ?_, m2⟩
  have a1 := lift_exec (key := Prod.fst) (is := BoolIs) r1 (out := fun _ => false) fun _ _ _ => rfl
  have a2 := a1.ev (XStep.take ⟨s1, fun _ => false⟩ 7 true rfl (fun t l hl => by simp [hth] at hl) (by rw [BoolIs]; simp only [m1]; rfl))
  have a3 := a2.tau (XStep.raw ⟨s1, Function.update (fun _ => false) 7 true⟩ 7 0 (by simp))
  have a4 := a3.ev (XStep.put ⟨{ s1 with mem := Function.update s1.mem 7 0 }, Function.update (fun _ => false) 7 true⟩ 7 false (by simp)
    (by simp [BoolIs, Verif.Bool.asBool]))
  exact a4.trans (lift_exec r2 fun _ op _ => by dsimp only; by_cases e : op.1 = 7 <;> simp [e, Function.update_of_ne])

example : ∃ c', Excl.LinearizableTo Verif.Bool.spec (fun _ => false)
    [.call (.inv 0 (7, .swap true .seqCst)), .call (.ret 0 (.val false)), .take 7 true, .put 7 false,
      .call (.inv 1 (7, .fetchOr true .seqCst)), .call (.ret 1 (.val false))] c' := by
  obtain ⟨x, hx, -⟩ := bool_runs
  obtain ⟨c', h, -⟩ := bool_exclusive true (fun _ => .inl rfl) hx
  exact ⟨c', h⟩

end Lf
end Verif
