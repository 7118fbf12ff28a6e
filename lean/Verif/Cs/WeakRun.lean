import Verif.Cs.Weak
import Verif.WM.Run
/-!
# Concrete weak-memory executions of the critical-section code

An interpreter that follows a script; used only to exhibit executions.
-/
set_option autoImplicit false
namespace Verif.WM.Crit
open Verif.Irq (Val)
open Verif.WM.Lock (top fresh_top)

variable {n : Nat} {C X : Type} [DecidableEq C] [DecidableEq X]

/-- One line of a script. `word t i`: thread `t` reads or writes word `i`; `go t`: it makes its next step
otherwise; loads of the client's variables return the `i`-th newest write. -/
inductive Cmd (n : Nat) (C X : Type) where
  | call (t : Tid) (o : Obj) (op : Op (Val n C))
  | word (t : Tid) (i : Fin n)
  | go (t : Tid)
  | ret (t : Tid) (r : Res (Val n C))
  | enter (t : Tid)
  | leave (t : Tid)
  | store (t : Tid) (a : Nat) (x : X) (o : MemOrd)
  | load (t : Tid) (a : Nat) (o : MemOrd) (i : Nat) (x : X)
  | fence (t : Tid) (o : MemOrd)

def Cmd.ev : Cmd n C X → Option (Ev (Val n C) X)
  | .call t o op => some (.inv t o op)
  | .ret t r => some (.ret t r)
  | .store t a x o => some (.client t (.store a x o) none)
  | .load t a o _ x => some (.client t (.load a o) (some x))
  | .fence t o => some (.client t (.fence o) none)
  | _ => none

/-- Threads `0 … k-1` only. -/
def freeB (k : Nat) (s : State n C X) (t : Tid) : Bool := (List.range k).all fun u => u == t || s.held u == 0

/-- Equality of results, in a form the kernel can compute. -/
def sameRes : Res (Val n C) → Res (Val n C) → Bool
  | .unit, .unit | .panic, .panic => true
  | .val v, .val w | .ok v, .ok w | .err v, .err w => decide (v = w)
  | _, _ => false

theorem sameRes_eq {r r' : Res (Val n C)} (h : sameRes r r' = true) : r = r' := by
  cases r <;> cases r' <;> simp_all [sameRes]

/-- Perform one line; `k` threads. -/
def exec1 (k : Nat) (s : State n C X) : Cmd n C X → Option (State n C X)
  | .call t o op => match s.pc t with
    | .idle => some (s.goto t (.start o op))
    | _ => none
  | .word t i => match s.pc t with
    | .rd o op buf => match s.mem o i with
      | m :: _ => if (s.tv t).cur (.word o i) ≤ m.ts then
          some ({ s with
            tv := Function.update s.tv t (mark ((s.tv t).read (.word o i) .relaxed m) o i t (s.nr o i t + 1))
            nr := Function.update s.nr o (Function.update (s.nr o) i
              (Function.update (s.nr o i) t (s.nr o i t + 1))) }.goto t
            (.rd o op (Function.update buf i (some m.val))))
        else none
      | [] => none
    | .wr o op new wrote r => if (s.tv t).cur (.word o i) ≤ top (s.mem o i) then
        some ({ s with
          mem := Function.update s.mem o (Function.update (s.mem o) i
            (⟨top (s.mem o i), top (s.mem o i) + 1, new i,
              (s.tv t).msgView (.word o i) (top (s.mem o i) + 1) .relaxed⟩ :: s.mem o i))
          tv := Function.update s.tv t ((s.tv t).write (.word o i) (top (s.mem o i) + 1)) }.goto t
          (.wr o op new (Function.update wrote i true) r))
      else none
    | _ => none
  | .go t => match s.pc t with
    | .start o op => if op.ordOk then some (s.goto t (.acq o op)) else some (s.goto t (.fin .panic))
    | .acq o op => if freeB k s t then some ((s.enter t).goto t (entered o op)) else none
    | .rd o op buf => if h : ∀ i, (buf i).isSome then
        match Irq.after op (fun i => (buf i).get (h i)) with
        | (none, r) => some (s.goto t (.rel o op r))
        | (some v, r) => some (s.goto t (.wr o op v (fun _ => false) r))
      else none
    | .wr o op _ wrote r => if ∀ i, wrote i = true then some (s.goto t (.rel o op r)) else none
    | .rel _ _ r => some ((s.leave t).goto t (.fin r))
    | _ => none
  | .ret t r => match s.pc t with
    | .fin r' => if sameRes r' r then some (s.goto t .idle) else none
    | _ => none
  | .enter t => match s.pc t with
    | .idle => if freeB k s t then some (s.enter t) else none
    | _ => none
  | .leave t => match s.pc t with
    | .idle => if s.held t ≠ 0 then some (s.leave t) else none
    | _ => none
  | .store t a x o => match s.pc t with
    | .idle => if (s.tv t).cur (.ext a) ≤ top (s.mx a) then
        some { s with
          mx := Function.update s.mx a
            (⟨top (s.mx a), top (s.mx a) + 1, x, (s.tv t).msgView (.ext a) (top (s.mx a) + 1) o⟩ :: s.mx a)
          tv := Function.update s.tv t ((s.tv t).write (.ext a) (top (s.mx a) + 1)) }
      else none
    | _ => none
  | .load t a o i x => match s.pc t with
    | .idle => match (s.mx a)[i]? with
      | some m => if (s.tv t).cur (.ext a) ≤ m.ts ∧ m.val = x then
          some { s with tv := Function.update s.tv t ((s.tv t).read (.ext a) o m) }
        else none
      | none => none
    | _ => none
  | .fence t o => match s.pc t with
    | .idle => some { s with
        tv := Function.update s.tv t (WM.fence (s.tv t) s.sc o).1, sc := (WM.fence (s.tv t) s.sc o).2 }
    | _ => none

/-- Threads from `k` on stay out. -/
def Few (k : Nat) (s : State n C X) : Prop := ∀ u, k ≤ u → s.held u = 0

theorem free_of {k : Nat} {s : State n C X} {t : Tid} (f : Few k s) (h : freeB k s t = true) : s.free t := by
  intro u hu
  rcases Nat.lt_or_ge u k with hlt | hge
  · have := List.all_eq_true.1 h u (List.mem_range.2 hlt)
    simp only [Bool.or_eq_true, beq_iff_eq] at this
    exact this.resolve_left hu
  · exact f u hge

/-- The thread of the line. -/
def Cmd.tid : Cmd n C X → Tid
  | .call t _ _ | .word t _ | .go t | .ret t _ | .enter t | .leave t | .store t _ _ _ | .load t _ _ _ _ | .fence t _ => t

theorem exec1_sound {k : Nat} {s s' : State n C X} {c : Cmd n C X} (f : Few k s) (ht : c.tid < k)
    (h : exec1 k s c = some s') : Step s c.ev s' ∧ Few k s' := by
  have fe : ∀ t, t < k → Few k (s.enter t) := by
    intro t ht u hu
    simp only [State.enter]
    rw [Function.update_of_ne (Nat.ne_of_gt (Nat.lt_of_lt_of_le ht hu))]; exact f u hu
  have fl : ∀ t, t < k → Few k (s.leave t) := by
    intro t ht u hu
    simp only [State.leave]
    rw [Function.update_of_ne (Nat.ne_of_gt (Nat.lt_of_lt_of_le ht hu))]; exact f u hu
  cases c with
  | call t o op =>
    simp only [exec1] at h
    split at h
    · next hp => cases h; exact ⟨.inv s t o op hp, f⟩
    · cases h
  | word t i =>
    simp only [exec1] at h
    split at h
    · next o op buf hp =>
      split at h
      · next m ms hm =>
        split at h
        · next hv =>
          cases h
          exact ⟨.rd s t o op buf i _ _ hp (.mk m (by rw [hm]; exact List.mem_cons_self) hv), f⟩
        · cases h
      · cases h
    · next o op new wrote r hp =>
      split at h
      · next hv =>
        cases h
        exact ⟨.wr s t o op new wrote r i _ _ hp (.mk _ _ (lt_of_le_of_lt hv (fresh_top _).1) (fresh_top _)), f⟩
      · cases h
    · cases h
  | go t =>
    simp only [exec1] at h
    split at h
    · next o op hp =>
      split at h
      · next ho => cases h; exact ⟨.check s t o op hp ho, f⟩
      · next ho => cases h; exact ⟨.panic s t o op hp (by simpa using ho), f⟩
    · next o op hp =>
      split at h
      · next hf => cases h; exact ⟨.acq s t o op hp (free_of f hf), fe t ht⟩
      · cases h
    · next o op buf hp =>
      split at h
      · next hall =>
        split at h
        · next r hr =>
          cases h
          exact ⟨.rdRel s t o op buf _ r hp (fun i => (Option.some_get (hall i)).symm) hr, f⟩
        · next v r hr =>
          cases h
          exact ⟨.rdWr s t o op buf _ v r hp (fun i => (Option.some_get (hall i)).symm) hr, f⟩
      · cases h
    · next o op new wrote r hp =>
      split at h
      · next hw => cases h; exact ⟨.wrRel s t o op new wrote r hp hw, f⟩
      · cases h
    · next o op r hp => cases h; exact ⟨.rel s t o op r hp, fl t ht⟩
    · cases h
  | ret t r =>
    simp only [exec1] at h
    split at h
    · next r' hp =>
      split at h
      · next e => cases h; cases sameRes_eq e; exact ⟨.ret s t _ hp, f⟩
      · cases h
    · cases h
  | enter t =>
    simp only [exec1] at h
    split at h
    · next hp =>
      split at h
      · next hf => cases h; exact ⟨.enter s t hp (free_of f hf), fe t ht⟩
      · cases h
    · cases h
  | leave t =>
    simp only [exec1] at h
    split at h
    · next hp =>
      split at h
      · next hh => cases h; exact ⟨.leave s t hp hh, fl t ht⟩
      · cases h
    · cases h
  | store t a x o =>
    simp only [exec1] at h
    split at h
    · next hp =>
      split at h
      · next hv =>
        cases h
        exact ⟨.client s t _ _ _ _ _ hp
          (.store a o x _ _ (.mk _ _ (lt_of_le_of_lt hv (fresh_top _).1) (fresh_top _))), f⟩
      · cases h
    · cases h
  | load t a o i x =>
    simp only [exec1] at h
    split at h
    · next hp =>
      split at h
      · next m hm =>
        split at h
        · next hv =>
          cases h
          obtain ⟨h1, rfl⟩ := hv
          exact ⟨.client s t _ _ _ _ _ hp (.load a o _ _ (.mk m (List.mem_of_getElem? hm) h1)), f⟩
        · cases h
      · cases h
    · cases h
  | fence t o =>
    simp only [exec1] at h
    split at h
    · next hp => cases h; exact ⟨.client s t _ _ _ _ _ hp (.fence o), f⟩
    · cases h

def run (k : Nat) (s : State n C X) : List (Cmd n C X) → Option (State n C X)
  | [] => some s
  | c :: cs => if c.tid < k then match exec1 k s c with
      | some s' => run k s' cs
      | none => none
    else none

theorem run_sound {k : Nat} {s s' : State n C X} (f : Few k s) {cs : List (Cmd n C X)} (h : run k s cs = some s') :
    Exec Step s (cs.filterMap Cmd.ev) s' := by
  induction cs generalizing s with
  | nil => cases h; exact .refl _
  | cons c cs ih =>
    simp only [run] at h
    split at h
    · next ht =>
      split at h
      · next s1 h1 =>
        obtain ⟨st, f'⟩ := exec1_sound f ht h1
        have x := ih f' h
        cases he : c.ev with
        | none =>
          rw [he] at st
          rw [List.filterMap_cons_none he]
          simpa using (Exec.tau (.refl s) st).trans x
        | some e =>
          rw [he] at st
          rw [List.filterMap_cons_some he]
          simpa using (Exec.ev (.refl s) st).trans x
      · cases h
    · cases h

theorem run_behaviour {k : Nat} {v0 : Obj → Val n C} {x0 : Nat → X} {cs : List (Cmd n C X)}
    (h : (run k (init v0 x0) cs).isSome = true) : Behaviour v0 x0 (cs.filterMap Cmd.ev) := by
  obtain ⟨s, hs⟩ := Option.isSome_iff_exists.1 h
  exact ⟨s, run_sound (fun _ _ => rfl) hs⟩

end Verif.WM.Crit
