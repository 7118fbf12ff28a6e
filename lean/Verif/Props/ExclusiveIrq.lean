import Verif.Cs.Exclusive
import Verif.Irq.Exclusive
import Verif.Props.Irq
/-!
# Exclusive access: `get_mut`, `into_inner`, `new` where operations disable interrupts or enter a critical section (C68)

The rest of C68 is in `Props/Exclusive.lean`.  The owner's accesses are plain reads and writes: interrupts stay enabled, no critical
section is entered.
-/
set_option autoImplicit false
set_option linter.unusedSectionVars false
namespace Verif

namespace Cs
open Verif.Object Verif.Irq
variable {n : Nat} {C : Type} [DecidableEq C]

/-- **C68 (critical sections).** Calls from any number of contexts, and owners' accesses: what an owner takes out is what the calls so
far have left, and calls find what owners put back; memory agrees for every object in circulation on which no call is in progress. -/
theorem cs_exclusive_access (K : Cfg n C) (m : Mem n C) (out0 : Obj → Bool) {h} {x : XState n C} (hx : XRuns K m out0 h x) :
    ∃ c', Excl.MemLinearizableTo (spec K) m h c' ∧
      ∀ o, x.out o = false → (∀ t pc, x.s.th t = some pc → pc.ref ≠ some o) → x.s.mem o = c' o := by
  obtain ⟨-, m', a, h2, h3, h4⟩ := xinv hx
  refine ⟨a.obj, ⟨a, h3, rfl⟩, fun o ho hp => ?_⟩
  rw [← h2 o ho]
  refine h4.mem o fun t hw => ?_
  cases e : x.s.th t with
  | none => dsimp only at hw; rw [e] at hw; exact hw
  | some pc => dsimp only at hw; rw [e] at hw; exact hp t pc e (writing_ref hw)

/-- While an object is in its owner's hands no call reads or writes it: nobody else's step changes it. -/
theorem cs_owner_undisturbed (K : Cfg n C) (m : Mem n C) (out0 : Obj → Bool) {h} {x : XState n C} (hx : XRuns K m out0 h x)
    {e s'} (st : Step K x.s e s') {o : Obj} (ho : x.out o = true) : s'.mem o = x.s.mem o := by
  obtain ⟨h1, -⟩ := xinv hx
  cases st with
  | act t pc m' held' pc' h ha =>
    have hr : pc.ref ≠ some o := fun e => by
      have := h1 t pc h o e
      rw [ho] at this; cases this
    cases ha with
    | @nat o' op => exact Function.update_of_ne (fun e => hr (by rw [e]; rfl)) _ _
    | @wr o' op new wrote r i hb => exact Function.update_of_ne (fun e => hr (by rw [e]; rfl)) _ _
    | _ => rfl
  | _ => rfl

/-- The run below. -/
def exclHistory : List (Excl.Ev (Object.Ev (Obj × Op (Val 1 Nat) × Nat) (Res (Val 1 Nat) × Nat)) Obj (Val 1 Nat)) :=
  [.call (.inv 0 (0, .store ![9] .seqCst, 0)), .call (.ret 0 (.unit, 0)), .take 0 ![9], .put 0 ![7],
   .call (.inv 1 (0, .load .seqCst, 0)), .call (.ret 1 (.val ![7], 0))]

/-- Context 0 stores 9; the owner sees 9, writes 7; context 1 loads 7. -/
theorem excl_runs : ∃ x, XRuns (Cfg.feature (n := 1) (C := Nat)) (fun _ => ![4]) (fun _ => false) exclHistory x ∧ x.s.mem 0 0 = 7 ∧
    x.out 0 = false ∧ ∀ t, x.s.th t = none := by
  have one : ∀ i : Fin 1, i = 0 := fun i => Subsingleton.elim _ _
  let K := Cfg.feature (n := 1) (C := Nat)
  have A : ∃ s : State 1 Nat, Exec (XStep K) ⟨init fun _ => ![4], fun _ => false⟩
      [.call (.inv 0 (0, .store ![9] .seqCst, 0)), .call (.ret 0 (.unit, 0))] ⟨s, fun _ => false⟩ ∧
      s.mem 0 = ![9] ∧ s.held = (fun _ => 0) ∧ s.th = fun _ => none := by
    have x0 := Exec.refl (step := XStep K) ⟨init fun _ => ![4], fun _ => false⟩
    have x2 := Exec.ev x0 (.inv _ _ 0 _ (.inv _ 0 0 (.store ![9] .seqCst) rfl) rfl)
    have x3 := Exec.tau x2 (.act _ _ (.act _ 0 (.start 0 _) _ _ _ rfl (.goAcq rfl rfl rfl)))
    have x4 := Exec.tau x3 (.act _ _ (.act _ 0 (.acq 0 _) _ _ _ rfl (.acqWr (fun u hu => rfl))))
    have x5 := Exec.tau x4 (.act _ _ (.act _ 0 (.wr 0 _ _ _ _) _ _ _ rfl (.wr 0 rfl)))
    have x6 := Exec.tau x5 (.act _ _ (.act _ 0 (.wr 0 _ _ _ _) _ _ _ rfl (.wrRel (by intro i; rw [one i]; rfl))))
    have x7 := Exec.tau x6 (.act _ _ (.act _ 0 (.rel _) _ _ _ rfl .rel))
    have x8 := Exec.ev x7 (.ret _ _ 0 _ (.ret _ 0 .unit rfl))
    refine ⟨_, x8, ?_, ?_, ?_⟩
    · funext i; rw [one i]; rfl
    · funext t
      by_cases e : t = 0
      · subst e; rfl
      · simp [init, Function.update_of_ne e]
    · funext t
      by_cases e : t = 0
      · subst e; simp
      · simp [init, Function.update_of_ne e]
  obtain ⟨s, r1, hm, hh, ht⟩ := A
  have r2 := r1.ev (XStep.take ⟨s, fun _ => false⟩ 0 rfl (by intro t pc h; simp [ht] at h))
  have r3 := r2.tau (XStep.raw ⟨s, Function.update (fun _ => false) 0 true⟩ 0 ![7] (by simp))
  have r4 := r3.ev (XStep.put ⟨{ s with mem := Function.update s.mem 0 ![7] }, Function.update (fun _ => false) 0 true⟩ 0 (by simp))
  dsimp only at r4
  rw [hm, Function.update_self, Function.update_idem] at r4
  rw [show Function.update (fun _ : Obj => false) 0 false = fun _ => false from Function.update_eq_self _ _] at r4
  obtain ⟨m, hd, th⟩ := s
  obtain rfl : hd = fun _ => 0 := hh
  obtain rfl : th = fun _ => none := ht
  dsimp only at r4
  have r5 := r4.ev (.inv _ _ 1 _ (.inv _ 1 0 (.load .seqCst) rfl) rfl)
  have r6 := r5.tau (.act _ _ (.act _ 1 (.start 0 _) _ _ _ rfl (.goAcq rfl rfl rfl)))
  have r7 := r6.tau (.act _ _ (.act _ 1 (.acq 0 _) _ _ _ rfl (.acqRd (fun u hu => rfl) (by simp))))
  have r8 := r7.tau (.act _ _ (.act _ 1 (.rd 0 _ _) _ _ _ rfl (.rd 0 rfl)))
  have r9 := r8.tau (.act _ _ (.act _ 1 (.rd 0 _ _) _ _ _ rfl (.rdRel (x := ![7]) (r := .val ![7]) (by intro i; rw [one i]; rfl) rfl)))
  have r10 := r9.tau (.act _ _ (.act _ 1 (.rel _) _ _ _ rfl .rel))
  have r11 := r10.ev (.ret _ _ 1 _ (.ret _ 1 (.val ![7]) rfl))
  refine ⟨_, r11, rfl, rfl, fun t => ?_⟩
  by_cases e : t = 1
  · subst e; simp
  · simp [Function.update_of_ne e]

example : ∃ c', Excl.MemLinearizableTo (spec (Cfg.feature (n := 1) (C := Nat))) (fun _ => ![4]) exclHistory c' ∧ c' 0 0 = 7 := by
  obtain ⟨x, hx, h7, ho, hp⟩ := excl_runs
  obtain ⟨c', h, hm⟩ := cs_exclusive_access _ _ _ hx
  exact ⟨_, h, by rw [← hm 0 ho (by intro t pc h; simp [hp] at h)]; exact h7⟩

end Cs

namespace Irq
open Verif.Object
variable {n : Nat} {C : Type} [DecidableEq C]

/-- **C68 (interrupts).** The same on a single core, where calls and owners' accesses can be interrupted at any instruction at which
interrupts are enabled. -/
theorem irq_exclusive_access (K : Cfg n C) (hK : Supported K.arch) (t : Tid) (m : Mem n C) (sr : BitVec K.arch.w) (win : Bool)
    (out0 : Obj → Bool) {h} {x : XState K.arch.w n C} (hx : XRuns K t m sr win out0 h x) :
    ∃ c', Excl.MemLinearizableTo (spec K) m h c' ∧ ∀ o, x.out o = false → ¬ x.s.refers o → x.s.mem o = c' o := by
  obtain ⟨-, m', a, h2, h3, h4⟩ := xinv hK.ok hx
  refine ⟨a.obj, ⟨a, h3, rfl⟩, fun o ho hp => ?_⟩
  rw [← h2 o ho]
  have hm := h4.mem
  dsimp only at hm
  cases e : x.s.top.pc with
  | none => rw [e] at hm; exact congrFun hm o
  | some pc =>
    rw [e] at hm
    cases pc with
    | wr o' op p t new wrote r =>
      refine hm.1 o fun he => hp ⟨x.s.top, by simp, _, e, ?_⟩
      rw [he]; rfl
    | rd => exact congrFun hm.1 o
    | _ => exact congrFun hm o

/-- While an object is in its owner's hands, calls (of handlers, or of the owner on other objects) do not change it. -/
theorem irq_owner_undisturbed (K : Cfg n C) (hK : Supported K.arch) (t : Tid) (m : Mem n C) (sr : BitVec K.arch.w) (win : Bool)
    (out0 : Obj → Bool) {h} {x : XState K.arch.w n C} (hx : XRuns K t m sr win out0 h x)
    {e s'} (st : Step K x.s e s') {o : Obj} (ho : x.out o = true) : s'.mem o = x.s.mem o := by
  obtain ⟨h1, -⟩ := xinv hK.ok hx
  cases st with
  | act pc m' sr' win' pc' h ha =>
    have hr : pc.ref ≠ some o := fun e => by
      have := h1 o ⟨x.s.top, by simp, pc, h, e⟩
      rw [ho] at this; cases this
    cases ha with
    | @nat o' op _ hf => exact Function.update_of_ne (fun e => hr (by rw [e]; rfl)) _ _
    | @wr o' op p t new wrote r _ i hf hb => exact Function.update_of_ne (fun e => hr (by rw [e]; rfl)) _ _
    | _ => rfl
  | _ => rfl

/-! Non-vacuity: schedules with owners. -/

/-- Commands of a schedule. -/
inductive XCmd (w n : Nat) (C : Type) where
  | cmd (c : Cmd w n C)
  | take (o : Obj)
  | raw (o : Obj) (v : Val n C)
  | put (o : Obj)

/-- One command. -/
def xstep? (K : Cfg n C) (x : XState K.arch.w n C) : XCmd K.arch.w n C → Option
    (Option (Excl.Ev (Object.Ev (Obj × Req (Val n C) × BitVec K.arch.w) (Res (Val n C) × BitVec K.arch.w)) Obj (Val n C)) ×
      XState K.arch.w n C)
  | .cmd c => match step? K x.s c with
    | none => none
    | some (none, s') => some (none, { x with s := s' })
    | some (some (.inv t op), s') => if x.out op.1 = false then some (some (.call (.inv t op)), { x with s := s' }) else none
    | some (some (.ret t r), s') => some (some (.call (.ret t r)), { x with s := s' })
  | .take o => if x.s.top.pc.isNone = true ∧ x.out o = false ∧
        ((x.s.top :: x.s.below).all fun f => f.pc.bind Pc.ref != some o) = true then
      some (some (.take o (x.s.mem o)), { x with out := Function.update x.out o true }) else none
  | .raw o v => if x.s.top.pc.isNone = true ∧ x.out o = true then
      some (none, { x with s := { x.s with mem := Function.update x.s.mem o v } }) else none
  | .put o => if x.s.top.pc.isNone = true ∧ x.out o = true then
      some (some (.put o (x.s.mem o)), { x with out := Function.update x.out o false }) else none

theorem xstep?_sound {K : Cfg n C} {x x' : XState K.arch.w n C} {c e} (h : xstep? K x c = some (e, x')) : XStep K x e x' := by
  cases c with
  | cmd c =>
    simp only [xstep?] at h
    cases hs : step? K x.s c with
    | none => rw [hs] at h; cases h
    | some y =>
      obtain ⟨e0, s'⟩ := y
      have st := step?_sound hs
      rw [hs] at h
      cases e0 with
      | none => cases h; exact .act x s' st
      | some ev =>
        cases ev with
        | inv t op =>
          by_cases ho : x.out op.1 = false
          · simp only [if_pos ho] at h; cases h; exact .inv x s' t op st ho
          · simp only [if_neg ho] at h; cases h
        | ret t r => cases h; exact .ret x s' t r st
  | take o =>
    simp only [xstep?] at h
    by_cases hc : x.s.top.pc.isNone = true ∧ x.out o = false ∧
        ((x.s.top :: x.s.below).all fun f => f.pc.bind Pc.ref != some o) = true
    · rw [if_pos hc] at h
      cases h
      refine .take x o (by simpa using hc.1) hc.2.1 ?_
      rintro ⟨f, hf, pc, hp, hr⟩
      have := List.all_eq_true.1 hc.2.2 f hf
      rw [hp] at this
      simp [hr] at this
    · rw [if_neg hc] at h; cases h
  | raw o v =>
    simp only [xstep?] at h
    by_cases hc : x.s.top.pc.isNone = true ∧ x.out o = true
    · rw [if_pos hc] at h; cases h; exact .raw x o v (by simpa using hc.1) hc.2
    · rw [if_neg hc] at h; cases h
  | put o =>
    simp only [xstep?] at h
    by_cases hc : x.s.top.pc.isNone = true ∧ x.out o = true
    · rw [if_pos hc] at h; cases h; exact .put x o (by simpa using hc.1) hc.2
    · rw [if_neg hc] at h; cases h

/-- Run a schedule. -/
def xsched (K : Cfg n C) : List (XCmd K.arch.w n C) → XState K.arch.w n C → Option
    (List (Excl.Ev (Object.Ev (Obj × Req (Val n C) × BitVec K.arch.w) (Res (Val n C) × BitVec K.arch.w)) Obj (Val n C)) ×
      XState K.arch.w n C)
  | [], x => some ([], x)
  | c :: cs, x => (xstep? K x c).bind fun y => (xsched K cs y.2).map fun z => (y.1.toList ++ z.1, z.2)

theorem xsched_sound {K : Cfg n C} : ∀ (cs : List (XCmd K.arch.w n C)) (x) {h x'},
    xsched K cs x = some (h, x') → Exec (XStep K) x h x'
  | [], x, h, x', hh => by cases hh; exact .refl _
  | c :: cs, x, h, x', hh => by
    simp only [xsched, Option.bind_eq_some_iff, Option.map_eq_some_iff] at hh
    obtain ⟨⟨e, x1⟩, h1, ⟨h2, x2⟩, h3, h4⟩ := hh
    cases h4
    have st := xstep?_sound h1
    refine Exec.trans ?_ (xsched_sound cs x1 h3)
    cases e with
    | none => exact .tau (.refl _) st
    | some e => exact .ev (.refl _) st

/-- What an event shows: what it is, the context or object, and the value or result. -/
def xshow {w : Nat} : Excl.Ev (Object.Ev (Obj × Req (Val n C) × BitVec w) (Res (Val n C) × BitVec w)) Obj (Val n C) →
    String × Nat × Option (Res (List C))
  | .call (.inv t _) => ("call", t, none)
  | .call (.ret t (r, _)) => ("ret", t, some (listed r))
  | .take o v => ("take", o, some (listed (.val v)))
  | .put o v => ("put", o, some (listed (.val v)))

/-- The main program stores `[5, 6]` in object 0, takes it out (`get_mut`) and writes `[9, 6]`; a handler interrupts it and stores
`[3, 3]` in object 1; the main program writes `[9, 8]`, ends the borrow, and loads. -/
def ownerRun : List (XCmd 8 2 (BitVec 8)) :=
  [.cmd (.call 0 (.store ![5, 6] .relaxed)), .cmd (.go 0), .cmd (.go 0), .cmd (.go 0), .cmd (.go 0), .cmd (.go 1), .cmd (.go 0),
   .cmd (.go 0), .cmd (.go 0), .cmd (.go 0), .cmd .ret,
   .take 0, .raw 0 ![9, 6],
   .cmd (.irq 1 0x00), .cmd (.call 1 (.store ![3, 3] .relaxed)), .cmd (.go 0), .cmd (.go 0), .cmd (.go 0), .cmd (.go 0),
   .cmd (.go 1), .cmd (.go 0), .cmd (.go 0), .cmd (.go 0), .cmd (.go 0), .cmd .ret, .cmd .iret,
   .raw 0 ![9, 8], .put 0,
   .cmd (.call 0 (.load .seqCst)), .cmd (.go 0), .cmd (.go 0), .cmd (.go 0), .cmd (.go 0), .cmd (.go 0), .cmd (.go 1), .cmd (.go 0),
   .cmd (.go 0), .cmd (.go 0), .cmd .ret]

set_option synthInstance.maxSize 1000 in
/-- The run exists: the owner sees `[5, 6]`, the load `[9, 8]`. -/
theorem ownerRun_outcome : (xsched avr16 ownerRun ⟨init 0 (fun _ => ![1, 2]) 0x82 false, fun _ => false⟩).map
    (fun y => (y.1.map xshow, List.ofFn (y.2.s.mem 0), List.ofFn (y.2.s.mem 1))) =
    some ([("call", 0, none), ("ret", 0, some .unit), ("take", 0, some (.val [5, 6])), ("call", 1, none), ("ret", 1, some .unit),
      ("put", 0, some (.val [9, 8])), ("call", 0, none), ("ret", 0, some (.val [9, 8]))], [9, 8], [3, 3]) := by decide +kernel

/-- The handler cannot use the object while the main program has it. -/
example : (xsched avr16 (ownerRun.take 14) ⟨init 0 (fun _ => ![1, 2]) 0x82 false, fun _ => false⟩).isSome = true ∧
    xsched avr16 (ownerRun.take 14 ++ [.cmd (.call 0 (.load .relaxed))]) ⟨init 0 (fun _ => ![1, 2]) 0x82 false, fun _ => false⟩ = none :=
  by constructor <;> decide +kernel

/-- `irq_exclusive_access` applies to the run above. -/
example : ∃ h x, xsched avr16 ownerRun ⟨init 0 (fun _ => ![1, 2]) 0x82 false, fun _ => false⟩ = some (h, x) ∧
    ∃ c, Excl.MemLinearizableTo (spec avr16) (fun _ => ![1, 2]) h c := by
  cases hs : xsched avr16 ownerRun ⟨init 0 (fun _ => ![1, 2]) 0x82 false, fun _ => false⟩ with
  | none => exact absurd hs (by decide +kernel)
  | some y =>
    obtain ⟨c, h, -⟩ := irq_exclusive_access avr16 .avr 0 _ _ _ _ (xsched_sound _ _ hs)
    exact ⟨y.1, y.2, rfl, c, h⟩

end Irq

end Verif
