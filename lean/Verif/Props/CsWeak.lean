import Verif.Cs.WeakOrder
import Verif.Cs.WeakRun
import Verif.WM.NativeProps
/-!
# Critical sections in weak memory: feature `critical-section`, external RAM on ESP32 (C65)

Every operation is plain accesses inside a critical section, whatever its ordering argument; the
critical section itself orders like a lock, not like a fence.
-/
set_option autoImplicit false
set_option linter.unusedSectionVars false
namespace Verif.WM.Crit
open Verif.Irq (Val)

variable {n : Nat} {C X : Type} [DecidableEq C] {v0 : Obj → Val n C} {x0 : Nat → X} {h : List (Ev (Val n C) X)}

/-- **C65 (one total order).**  Even in weak memory, and whatever orderings the operations ask for
(`Relaxed` included), the calls and returns are those of plain cells: there is one total order of all
operations on all objects that respects real time. -/
theorem cs_weak_linearizable (hx : Behaviour v0 x0 h) : Atomic.Linearizable v0 (callHistory h) := by
  obtain ⟨s, x⟩ := hx
  obtain ⟨_, _, as, _, _, _, h2⟩ := sim_exec unSc_reorders x
  exact ⟨as, h2⟩

/-- **C65 (at least acquire and release).**  The whole history, including everything the client sees of
its own variables, is one that native atomics show when the operations are called with *any* other
(non-`SeqCst`) orderings in place of the given ones; in particular with the strongest. -/
theorem cs_weak_refines_native {g : Op (Val n C) → Op (Val n C)} (hg : Reorders g) (hx : Behaviour v0 x0 h) :
    Native.Behaviour v0 x0 (h.map (Ev.reord g)) := by
  obtain ⟨s, x⟩ := hx
  obtain ⟨_, ns, _, _, _, h1, _⟩ := sim_exec hg x
  exact ⟨ns, h1⟩

/-- **C65 (refinement).**  A client that does not use `SeqCst` operations on these objects cannot tell
them from native atomics. -/
theorem cs_weak_native (hx : Behaviour v0 x0 h) (hn : NoSeqCstCalls h) : Native.Behaviour v0 x0 h := by
  have := cs_weak_refines_native unSc_reorders hx
  rwa [reord_unSc hn] at this

/-- **C65 (synchronisation in real time).**  If `A` completes any operation on any object before `B`
calls any operation on any (perhaps another) object, then what `A` stored before its operation is
visible to `B` after its own. -/
theorem cs_weak_sync (hx : Behaviour v0 x0 h) {A B : Tid} {i k i' k' : Nat} {o o' : Obj} {op op' : Op (Val n C)}
    {r r' : Res (Val n C)} (c : Called h i k A o op r) (c' : Called h i' k' B o' op' r') (hn : r ≠ .panic)
    (hn' : r' ≠ .panic) (hlt : k < i') : Visible h A i B k' := by
  obtain ⟨s, x⟩ := hx
  obtain ⟨T, _⟩ := trace_of x
  obtain ⟨p, m, q, hp, hq, cp, cq, lp, lq, h1, h2, h3⟩ := called_holds T c hn
  obtain ⟨p', m', q', hp', hq', cp', cq', lp', lq', h1', h2', h3'⟩ := called_holds T c' hn'
  have hlt' : q < p' := T.lt_of (by omega)
  exact visible_of T cp cq' hq' (by omega) (by omega) h2' h3 h3'

/-- **C65 (synchronisation, overlapping operations).**  Of any two completed operations, on whatever
objects and with whatever orderings, one synchronises with the other. -/
theorem cs_weak_total (hx : Behaviour v0 x0 h) {A B : Tid} {i k i' k' : Nat} {o o' : Obj} {op op' : Op (Val n C)}
    {r r' : Res (Val n C)} (c : Called h i k A o op r) (c' : Called h i' k' B o' op' r') (hn : r ≠ .panic)
    (hn' : r' ≠ .panic) : Visible h A i B k' ∨ Visible h B i' A k := by
  obtain ⟨s, x⟩ := hx
  obtain ⟨T, _⟩ := trace_of x
  obtain ⟨p, m, q, hp, hq, cp, cq, lp, lq, h1, h2, h3⟩ := called_holds T c hn
  obtain ⟨p', m', q', hp', hq', cp', cq', lp', lq', h1', h2', h3'⟩ := called_holds T c' hn'
  rcases Nat.le_total m m' with hle | hle
  · exact .inl (visible_of T cp cq' hq' (by omega) hle h2' h3 h3')
  · exact .inr (visible_of T cp' cq hq (by omega) hle h2 h3' h3)

/-- **C65 (message passing without orderings).**  If every operation that can make the object's value
satisfy `Q` is called after a store of `x1` to the variable by the same thread, then a thread that has
read a value satisfying `Q` sees the store, even if all operations are `Relaxed`. -/
theorem cs_weak_message_passing (hx : Behaviour v0 x0 h) {a : Nat} {x1 : X} {o : Obj} {Q : Val n C → Prop}
    (h0 : ¬ Q (v0 o)) (hw : OnlyStores h a x1)
    (hc : ∀ (l : Nat) (t : Tid) (op : Op (Val n C)), h[l]? = some (.inv t o op) → Keeps (fun y => ¬ Q y) op ∨
      ∃ m < l, ∃ ow r, h[m]? = some (.client t (.store a x1 ow) r))
    {i k j : Nat} {t : Tid} {op : Op (Val n C)} {r : Res (Val n C)} (c : Called h i k t o op r)
    (hns : ∀ v ord, op ≠ .store v ord) {y : Val n C} (hy : Reads r y) (hq : Q y) (hj : k < j) {ol : MemOrd}
    {z : Option X} (hz : h[j]? = some (.client t (.load a ol) z)) : z = some x1 := by
  have hb := cs_weak_refines_native acqRelOp_reorders hx
  have get : ∀ (l : Nat), (h.map (Ev.reord acqRelOp))[l]? = (h[l]?).map (Ev.reord acqRelOp) :=
    fun l => List.getElem?_map ..
  have keep : ∀ op : Op (Val n C), Keeps (fun y => ¬ Q y) op → Keeps (fun y => ¬ Q y) (acqRelOp op) := by
    intro op hk; cases op <;> exact hk
  have hC : Called (h.map (Ev.reord acqRelOp)) i k t o (acqRelOp op) r := by
    obtain ⟨h1, h2, h3, h4⟩ := c
    refine ⟨h1, by rw [get, h2]; rfl, by rw [get, h3]; rfl, fun j hj1 hj2 r' e => ?_⟩
    rw [get] at e
    cases he : h[j]? with
    | none => rw [he] at e; cases e
    | some ev =>
      rw [he] at e
      cases ev with
      | inv t' o' op' => simp [Ev.reord] at e
      | ret t' r'' =>
        simp only [Option.map_some, Ev.reord, Option.some.injEq] at e
        cases e
        exact h4 j hj1 hj2 _ he
      | client t' a' r'' => simp [Ev.reord] at e
  have client : ∀ (l : Nat) (t : Tid) (act : CAct X) (r : Option X),
      (h.map (Ev.reord acqRelOp))[l]? = some (.client t act r) ↔ h[l]? = some (.client t act r) := by
    intro l t act r
    rw [get]
    constructor
    · intro e
      cases he : h[l]? with
      | none => rw [he] at e; cases e
      | some ev =>
        rw [he] at e
        cases ev with
        | client t' a' r'' => exact e
        | _ => simp [Ev.reord] at e
    · intro e; rw [e]; rfl
  have hd : acqs (effOrd (acqRelOp op) r) = true := by
    cases op with
    | load ord => simp only [acqRelOp, effOrd]; split <;> rfl
    | store v ord => exact absurd rfl (hns v ord)
    | swap v ord => rfl
    | cas cc d sc fl => cases r <;> simp only [acqRelOp, effOrd] <;> first | rfl | (split <;> rfl)
    | rmw f ord => rfl
  refine Native.message_passing (o := o) (Q := Q) hb h0 (fun l t act r e => hw l t act r ((client l t act r).1 e)) ?_ hC hd hy hq hj
    ((client j t _ _).2 hz)
  intro l t' op' e
  rw [get] at e
  cases he : h[l]? with
  | none => rw [he] at e; cases e
  | some ev =>
    rw [he] at e
    cases ev with
    | inv t'' o'' op'' =>
      simp only [Option.map_some, Ev.reord, Option.some.injEq, Ev.inv.injEq] at e
      obtain ⟨rfl, rfl, rfl⟩ := e
      rcases hc l t'' op'' he with hk | ⟨m, hm, ow, r0, hs⟩
      · exact .inl (keep op'' hk)
      · have hs' := (client m t'' _ _).2 hs
        cases op'' with
        | load ord => exact .inl trivial
        | store v ord =>
          refine .inr ⟨⟨_, rfl, ?_⟩, m, hm, ow, r0, hs'⟩
          split <;> rfl
        | swap v ord => exact .inr ⟨⟨_, rfl, rfl⟩, m, hm, ow, r0, hs'⟩
        | cas cc d sc fl => exact .inr ⟨⟨_, rfl, rfl⟩, m, hm, ow, r0, hs'⟩
        | rmw f ord => exact .inr ⟨⟨_, rfl, rfl⟩, m, hm, ow, r0, hs'⟩
    | ret => simp [Ev.reord] at e
    | client => simp [Ev.reord] at e

/-! ## No data races -/

/-- **C65 (no races).**  When a context makes a plain read of a word, it knows every write ever made to
it: no write races with the read, and the only value it can return is the latest. -/
theorem cs_plain_read_knows_writes {s : State n C X} (x : Exec Step (init v0 x0) h s) {t : Tid} {o : Obj}
    {op : Op (Val n C)} {buf : Fin n → Option C} (hp : s.pc t = .rd o op buf) (o' : Obj) (i : Fin n) :
    ∀ m ∈ s.mem o' i, m.ts ≤ (s.tv t).cur (.word o' i) := by
  have I := exec_inv x
  exact fun m hm => (I.know _ (.held t (I.ins t (by rw [hp]; rfl)))).wr o' i m hm

/-- **C65 (no races).**  When a context makes a plain write of a word, it knows every write ever made to
it and every plain read ever made of it, by any context `u`. -/
theorem cs_plain_write_knows_all {s : State n C X} (x : Exec Step (init v0 x0) h s) {t : Tid} {o : Obj}
    {op : Op (Val n C)} {new : Val n C} {wrote : Fin n → Bool} {r : Res (Val n C)}
    (hp : s.pc t = .wr o op new wrote r) (o' : Obj) (i : Fin n) :
    (∀ m ∈ s.mem o' i, m.ts ≤ (s.tv t).cur (.word o' i)) ∧
    ∀ u, (s.nr o' i u : Ts) ≤ (s.tv t).cur (.rd o' i u) := by
  have I := exec_inv x
  have K := I.know _ (.held t (I.ins t (by rw [hp]; rfl)))
  exact ⟨fun m hm => K.wr o' i m hm, fun u => K.rd o' i u⟩

/-- **C65 (mutual exclusion).**  Two contexts are never between `acquire` and `release` at once, whether
in operations or in critical sections of their own. -/
theorem cs_weak_exclusive {s : State n C X} (x : Exec Step (init v0 x0) h s) {t u : Tid} (ht : s.held t ≠ 0)
    (hu : s.held u ≠ 0) : t = u := (exec_inv x).excl t u ht hu

/-! ## The hypotheses are met -/

namespace Demo

def one (x : Nat) : Val 2 Nat := fun i => if i = 0 then x else x + 1

/-- Thread 0 stores 7 to its variable and then, with `Relaxed`, adds to object 0; thread 1, with
`Relaxed`, reads object 1 (another object), and then the variable. -/
def mp : List (Cmd 2 Nat Nat) :=
  [.store 0 0 7 .relaxed,
   .call 0 0 (.rmw (fun v i => v i + 10) .relaxed), .go 0, .go 0, .word 0 1, .word 0 0, .go 0, .word 0 0, .word 0 1,
   .go 0, .go 0, .ret 0 (.val (one 5)),
   .call 1 1 (.load .relaxed), .go 1, .go 1, .word 1 0, .word 1 1, .go 1, .go 1, .ret 1 (.val (one 5)),
   .load 1 0 .relaxed 0 7]

theorem mp_runs : (run 2 (init (fun _ => one 5) (fun _ => 0)) mp).isSome = true := by decide +kernel

def mpHist : List (Ev (Val 2 Nat) Nat) := [.client 0 (.store 0 7 .relaxed) none,
    .inv 0 0 (.rmw (fun v i => v i + 10) .relaxed), .ret 0 (.val (one 5)), .inv 1 1 (.load .relaxed),
    .ret 1 (.val (one 5)), .client 1 (.load 0 .relaxed) (some 7)]

theorem mp_hist : Behaviour (fun _ => one 5) (fun _ => 0) mpHist := run_behaviour mp_runs

/-- Everything `cs_weak_sync` and `Visible` ask for holds of this run. -/
example (z : Option Nat) (hz : mpHist[5]? = some (.client 1 (.load 0 .relaxed) z)) : z = some 7 := by
  refine cs_weak_sync (A := 0) (B := 1) (i := 1) (k := 2) (i' := 3) (k' := 4) mp_hist
    ⟨by omega, rfl, rfl, fun j h1 h2 => by omega⟩ ⟨by omega, rfl, rfl, fun j h1 h2 => by omega⟩ (by simp) (by simp)
    (by omega) 0 7 0 5 .relaxed .relaxed none z ?_ rfl (by omega) hz (by omega)
  intro l t act r hl hw
  match l with
  | 0 => cases hl; exact ⟨_, rfl⟩
  | 1 | 2 | 3 | 4 => cases hl
  | 5 => cases hl; cases hw
  | l + 6 => simp [mpHist] at hl

/-- Without the operations in between, the old value of the variable can be read: the memory is weak. -/
def weak : List (Cmd 2 Nat Nat) := [.store 0 0 7 .relaxed, .load 1 0 .relaxed 1 0]

theorem weak_runs : (run 2 (init (fun _ => one 5) (fun _ => 0)) weak).isSome = true := by decide +kernel

/-- Thread 0 publishes through object 0 with `Relaxed`, from inside a critical section of its own. -/
def pub : List (Cmd 2 Nat Nat) :=
  [.store 0 0 7 .relaxed, .enter 0,
   .call 0 0 (.store (one 9) .relaxed), .go 0, .go 0, .word 0 1, .word 0 0, .go 0, .go 0, .ret 0 .unit, .leave 0,
   .call 1 0 (.cas (one 9) (one 2) .relaxed .relaxed), .go 1, .go 1, .word 1 0, .word 1 1, .go 1, .word 1 0, .word 1 1,
   .go 1, .go 1, .ret 1 (.ok (one 9)), .load 1 0 .relaxed 0 7]

theorem pub_runs : (run 2 (init (fun _ => one 5) (fun _ => 0)) pub).isSome = true := by decide +kernel

def pubHist : List (Ev (Val 2 Nat) Nat) := [.client 0 (.store 0 7 .relaxed) none, .inv 0 0 (.store (one 9) .relaxed),
  .ret 0 .unit, .inv 1 0 (.cas (one 9) (one 2) .relaxed .relaxed), .ret 1 (.ok (one 9)),
  .client 1 (.load 0 .relaxed) (some 7)]

theorem pub_hist : Behaviour (fun _ => one 5) (fun _ => 0) pubHist := run_behaviour pub_runs

/-- All hypotheses of `cs_weak_message_passing` hold of it. -/
example (z : Option Nat) (hz : pubHist[5]? = some (.client 1 (.load 0 .relaxed) z)) : z = some 7 := by
  refine cs_weak_message_passing (a := 0) (o := 0) (Q := fun y => y = one 9) (i := 3) (k := 4) (j := 5) (t := 1)
    (y := one 9) pub_hist (by decide) ?_ ?_ ⟨by omega, rfl, rfl, fun j h1 h2 => by omega⟩ (by simp) rfl rfl
    (by omega) hz
  · intro l t act r hl hw
    match l with
    | 0 => cases hl; exact ⟨_, rfl⟩
    | 1 | 2 | 3 | 4 => cases hl
    | 5 => cases hl; cases hw
    | l + 6 => simp [pubHist] at hl
  · intro l t op hl
    match l with
    | 0 | 2 | 4 | 5 => cases hl
    | 1 => cases hl; exact .inr ⟨0, by omega, _, _, rfl⟩
    | 3 => cases hl; exact .inl (fun h => absurd rfl h)
    | l + 6 => simp [pubHist] at hl

/-- `cs_weak_native` applies: no `SeqCst`. -/
example : Native.Behaviour (fun _ => one 5) (fun _ => 0) pubHist :=
  cs_weak_native pub_hist (by
    intro t o op hm
    simp only [pubHist, List.mem_cons, List.not_mem_nil, or_false, reduceCtorEq, Ev.inv.injEq, false_or] at hm
    rcases hm with ⟨-, -, rfl⟩ | ⟨-, -, rfl⟩ <;> simp [NoSeqCst])

/-- Store buffering with two overlapping `Relaxed` loads of different objects as the only
synchronisation: both hypotheses of `cs_weak_total` are met, and one thread does see the other. -/
def sb : List (Cmd 2 Nat Nat) :=
  [.store 0 0 1 .relaxed, .store 1 1 1 .relaxed, .call 0 0 (.load .relaxed), .call 1 1 (.load .relaxed),
   .go 0, .go 1, .go 0, .word 0 0, .word 0 1, .go 0, .go 0, .go 1, .word 1 0, .word 1 1, .go 1, .go 1,
   .ret 0 (.val (one 5)), .ret 1 (.val (one 5)), .load 0 1 .relaxed 1 0, .load 1 0 .relaxed 0 1]

theorem sb_runs : (run 2 (init (fun _ => one 5) (fun _ => 0)) sb).isSome = true := by decide +kernel

def sbHist : List (Ev (Val 2 Nat) Nat) := [.client 0 (.store 0 1 .relaxed) none, .client 1 (.store 1 1 .relaxed) none,
  .inv 0 0 (.load .relaxed), .inv 1 1 (.load .relaxed), .ret 0 (.val (one 5)), .ret 1 (.val (one 5)),
  .client 0 (.load 1 .relaxed) (some 0), .client 1 (.load 0 .relaxed) (some 1)]

theorem sb_hist : Behaviour (fun _ => one 5) (fun _ => 0) sbHist := run_behaviour sb_runs

example : Visible sbHist 0 2 1 5 ∨ Visible sbHist 1 3 0 4 :=
  cs_weak_total (o := 0) (o' := 1) (r := .val (one 5)) (r' := .val (one 5)) sb_hist
    ⟨by omega, rfl, rfl, fun j h1 h2 r' => by obtain rfl : j = 3 := by omega
                                              simp [sbHist]⟩
    ⟨by omega, rfl, rfl, fun j h1 h2 r' => by obtain rfl : j = 4 := by omega
                                              simp [sbHist]⟩ (by simp) (by simp)

end Demo

end Verif.WM.Crit
