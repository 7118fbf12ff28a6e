import Verif.WM.Code
/-!
# Concrete weak-memory executions of the lock-based code

An interpreter that follows a script (which thread moves, which write a load returns); used only to
exhibit executions, so that the hypotheses of the theorems in `Props/WeakMemory.lean` are seen to be
met.
-/
set_option autoImplicit false
namespace Verif.WM.Lock
open Verif.Fallback

variable {V X : Type} [DecidableEq V] [DecidableEq X] {c : Cfg V}

/-- One line of a script. `go t i`: thread `t` makes its next action, loads return the `i`-th newest
write. -/
inductive Cmd (V X : Type) where
  | call (t : Tid) (o : Obj) (op : Op V)
  | go (t : Tid) (i : Nat)
  | ret (t : Tid) (r : Res V)
  | store (t : Tid) (a : Nat) (x : X) (o : MemOrd)
  | load (t : Tid) (a : Nat) (o : MemOrd) (i : Nat) (x : X)
  | fence (t : Tid) (o : MemOrd)

def Cmd.ev : Cmd V X → Option (Ev V X)
  | .call t o op => some (.inv t o op)
  | .go _ _ => none
  | .ret t r => some (.ret t r)
  | .store t a x o => some (.client t (.store a x o) none)
  | .load t a o _ x => some (.client t (.load a o) (some x))
  | .fence t o => some (.client t (.fence o) none)

/-- A place after every write. -/
def top {L Y : Type} : List (Msg L Y) → Ts
  | [] => 0
  | m :: ms => max m.ts (top ms)

theorem le_top {L Y : Type} {ms : List (Msg L Y)} {m : Msg L Y} (h : m ∈ ms) : m.ts ≤ top ms := by
  induction ms with
  | nil => cases h
  | cons a ms ih =>
    rcases List.mem_cons.1 h with rfl | h
    · exact le_max_left _ _
    · exact (ih h).trans (le_max_right _ _)

theorem fresh_top {L Y : Type} (ms : List (Msg L Y)) : Fresh ms (top ms) (top ms + 1) :=
  ⟨lt_add_of_pos_right _ zero_lt_one, fun _ h => .inr (le_top h)⟩

/-- Perform an action. -/
def doAct (s : State c X) (t : Tid) (i : Nat) : Act c.W → Option (BitVec c.W × State c X)
  | .load l o =>
      match (s.mem l)[i]? with
      | some m => if (s.tv t).cur (.mem l) ≤ m.ts then
          some (m.val, { s with tv := Function.update s.tv t ((s.tv t).read (.mem l) o m) }) else none
      | none => none
  | .naLoad l =>
      match (s.mem l)[i]? with
      | some m => if (s.tv t).cur (.mem l) ≤ m.ts then
          some (m.val, { s with
            tv := Function.update s.tv t (mark ((s.tv t).read (.mem l) .relaxed m) l t (s.nr l t + 1)),
            nr := Function.update s.nr l (Function.update (s.nr l) t (s.nr l t + 1)) }) else none
      | none => none
  | .store l y o =>
      if (s.tv t).cur (.mem l) ≤ top (s.mem l) then
        some (0, { s with
          mem := Function.update s.mem l
            (⟨top (s.mem l), top (s.mem l) + 1, y, (s.tv t).msgView (.mem l) (top (s.mem l) + 1) o⟩ :: s.mem l),
          tv := Function.update s.tv t ((s.tv t).write (.mem l) (top (s.mem l) + 1)) })
      else none
  | .swap l y o =>
      match (s.mem l)[i]? with
      | some m => if (s.tv t).cur (.mem l) ≤ m.ts ∧ top (s.mem l) = m.ts then
          some (m.val, { s with
            mem := Function.update s.mem l (⟨m.ts, m.ts + 1, y,
              ((s.tv t).read (.mem l) o m).msgView (.mem l) (m.ts + 1) o ⊔ m.view⟩ :: s.mem l),
            tv := Function.update s.tv t (((s.tv t).read (.mem l) o m).write (.mem l) (m.ts + 1)) }) else none
      | none => none
  | .fence o => some (0, { s with
      tv := Function.update s.tv t (fence (s.tv t) s.sc o).1, sc := (fence (s.tv t) s.sc o).2 })

theorem doAct_sound {s s' : State c X} {t : Tid} {i : Nat} {a : Act c.W} {x : BitVec c.W}
    (h : doAct s t i a = some (x, s')) : Do s t a x s' := by
  cases a with
  | load l o =>
    simp only [doAct] at h
    split at h
    · next m hm =>
      split at h
      · next hv =>
        cases h
        exact .load l o _ _ (.mk m (List.mem_of_getElem? hm) hv)
      · cases h
    · cases h
  | naLoad l =>
    simp only [doAct] at h
    split at h
    · next m hm =>
      split at h
      · next hv =>
        cases h
        exact .naLoad l _ _ (.mk m (List.mem_of_getElem? hm) hv)
      · cases h
    · cases h
  | store l y o =>
    simp only [doAct] at h
    split at h
    · next hv =>
      cases h
      exact .store l y o _ _ (.mk _ _ (lt_of_le_of_lt hv (fresh_top _).1) (fresh_top _))
    · cases h
  | swap l y o =>
    simp only [doAct] at h
    split at h
    · next m hm =>
      split at h
      · next hv =>
        cases h
        exact .swap l y o _ _ _ (.mk m _ (List.mem_of_getElem? hm) hv.1 (hv.2 ▸ fresh_top _))
      · cases h
    · cases h
  | fence o =>
    simp only [doAct] at h
    cases h
    exact .fence o

/-- Perform one line. -/
def exec1 (s : State c X) : Cmd V X → Option (State c X)
  | .call t o op => match s.pc t with
    | .idle => some (s.goto t (c.start ⟨o, op⟩))
    | _ => none
  | .go t i => match c.act (s.pc t) with
    | some a => match doAct s t i a with
      | some (x, s') => some (s'.goto t (c.next (s.pc t) x))
      | none => none
    | none => none
  | .ret t r => match s.pc t with
    | .ret r' => if r' = r then some (s.goto t .idle) else none
    | _ => none
  | .store t a x o => match s.pc t with
    | .idle => if (s.tv t).cur (ext a) ≤ top (s.mx a) then
        some { s with
          mx := Function.update s.mx a
            (⟨top (s.mx a), top (s.mx a) + 1, x, (s.tv t).msgView (ext a) (top (s.mx a) + 1) o⟩ :: s.mx a)
          tv := Function.update s.tv t ((s.tv t).write (ext a) (top (s.mx a) + 1)) }
      else none
    | _ => none
  | .load t a o i x => match s.pc t with
    | .idle => match (s.mx a)[i]? with
      | some m => if (s.tv t).cur (ext a) ≤ m.ts ∧ m.val = x then
          some { s with tv := Function.update s.tv t ((s.tv t).read (ext a) o m) }
        else none
      | none => none
    | _ => none
  | .fence t o => match s.pc t with
    | .idle => some { s with
        tv := Function.update s.tv t (fence (s.tv t) s.sc o).1, sc := (fence (s.tv t) s.sc o).2 }
    | _ => none

/-- The calls of the script are well typed. -/
def Cmd.Fits (c : Cfg V) : Cmd V X → Prop
  | .call _ o op => op.Fits (c.fits o)
  | _ => True

theorem cmds_fit (ok : c.Ok) (ks : List (Cmd V X)) : ∀ k ∈ ks, k.Fits c := by
  intro k _
  cases k
  case call => exact ok.fits _ _
  all_goals trivial

theorem exec1_sound {s s' : State c X} {k : Cmd V X} (hf : k.Fits c) (h : exec1 s k = some s') : Step s k.ev s' := by
  cases k with
  | call t o op =>
    simp only [exec1] at h
    split at h
    · next hp => cases h; exact .inv s t o op hp hf
    · cases h
  | go t i =>
    simp only [exec1] at h
    split at h
    · next a ha =>
      split at h
      · next x s1 hd => cases h; exact .act s t a x s1 ha (doAct_sound hd)
      · cases h
    · cases h
  | ret t r =>
    simp only [exec1] at h
    split at h
    · next r' hp =>
      split at h
      · next e => cases h; subst e; exact .ret s t r' hp
      · cases h
    · cases h
  | store t a x o =>
    simp only [exec1] at h
    split at h
    · next hp =>
      split at h
      · next hv =>
        cases h
        exact .client s t _ _ _ _ _ hp
          (.store a o x _ _ (.mk _ _ (lt_of_le_of_lt hv (fresh_top _).1) (fresh_top _)))
      · cases h
    · cases h
  | load t a o i x =>
    simp only [exec1] at h
    split at h
    · next hp =>
      split at h
      · next m hm =>
        split at h
        · next hv =>
          cases h
          obtain ⟨h1, rfl⟩ := hv
          exact .client s t _ _ _ _ _ hp (.load a o _ _ (.mk m (List.mem_of_getElem? hm) h1))
        · cases h
      · cases h
    · cases h
  | fence t o =>
    simp only [exec1] at h
    split at h
    · next hp => cases h; exact .client s t _ _ _ _ _ hp (.fence o)
    · cases h

def run (s : State c X) : List (Cmd V X) → Option (State c X)
  | [] => some s
  | k :: ks => match exec1 s k with
    | some s' => run s' ks
    | none => none

theorem run_sound {s s' : State c X} {ks : List (Cmd V X)} (hf : ∀ k ∈ ks, k.Fits c) (h : run s ks = some s') :
    Exec Step s (ks.filterMap Cmd.ev) s' := by
  induction ks generalizing s with
  | nil => cases h; exact .refl _
  | cons k ks ih =>
    simp only [run] at h
    split at h
    · next s1 h1 =>
      have st := exec1_sound (hf k (by simp)) h1
      have x := ih (fun k hk => hf k (by simp [hk])) h
      cases he : k.ev with
      | none =>
        rw [he] at st
        rw [List.filterMap_cons_none he]
        simpa using (Exec.tau (.refl s) st).trans x
      | some e =>
        rw [he] at st
        rw [List.filterMap_cons_some he]
        simpa using (Exec.ev (.refl s) st).trans x
    · cases h

end Verif.WM.Lock
