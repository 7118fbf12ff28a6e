import Verif.Spec.WeakMemory
import Verif.WM.Run
/-!
# Concrete weak-memory executions of native atomics

An interpreter that follows a script, as `WM/Run.lean`; used only to exhibit executions.
-/
set_option autoImplicit false
namespace Verif.WM.Native
open Verif.WM.Lock (Cmd top le_top fresh_top)

variable {V X : Type} [DecidableEq V] [DecidableEq X]

/-- An access that reads the `i`-th newest write and puts its own write last. -/
def doAcc (ms : List (Msg Loc V)) (v : TV Loc) (l : Loc) (i : Nat) : Op V → Option (MemOrd × List (Msg Loc V) × TV Loc × Res V)
  | .load o =>
    match ms[i]? with
    | some m => if v.cur l ≤ m.ts then some (o, ms, v.read l o m, .val m.val) else none
    | none => none
  | .store x o =>
    if v.cur l ≤ top ms then
      some (o, ⟨top ms, top ms + 1, x, v.msgView l (top ms + 1) o⟩ :: ms, v.write l (top ms + 1), .unit)
    else none
  | .swap x o =>
    match ms[i]? with
    | some m => if v.cur l ≤ m.ts ∧ top ms = m.ts then
        some (o, ⟨m.ts, m.ts + 1, x, (v.read l o m).msgView l (m.ts + 1) o ⊔ m.view⟩ :: ms,
          (v.read l o m).write l (m.ts + 1), .val m.val) else none
    | none => none
  | .rmw g o =>
    match ms[i]? with
    | some m => if v.cur l ≤ m.ts ∧ top ms = m.ts then
        some (o, ⟨m.ts, m.ts + 1, g m.val, (v.read l o m).msgView l (m.ts + 1) o ⊔ m.view⟩ :: ms,
          (v.read l o m).write l (m.ts + 1), .val m.val) else none
    | none => none
  | .cas c n s f =>
    match ms[i]? with
    | some m =>
      if m.val = c then
        if v.cur l ≤ m.ts ∧ top ms = m.ts then
          some (s, ⟨m.ts, m.ts + 1, n, (v.read l s m).msgView l (m.ts + 1) s ⊔ m.view⟩ :: ms,
            (v.read l s m).write l (m.ts + 1), .ok c) else none
      else if v.cur l ≤ m.ts then some (f, ms, v.read l f m, .err m.val) else none
    | none => none

theorem doAcc_sound {ms ms' : List (Msg Loc V)} {v v' : TV Loc} {l : Loc} {i : Nat} {op : Op V} {ord : MemOrd} {r : Res V}
    (h : doAcc ms v l i op = some (ord, ms', v', r)) : Access ms v l op ord ms' v' r := by
  cases op with
  | load o =>
    simp only [doAcc] at h
    split at h
    · next m hm =>
      split at h
      · next hv => cases h; exact .load _ _ _ (.mk m (List.mem_of_getElem? hm) hv)
      · cases h
    · cases h
  | store x o =>
    simp only [doAcc] at h
    split at h
    · next hv => cases h; exact .store _ _ _ _ (.mk _ _ (lt_of_le_of_lt hv (fresh_top _).1) (fresh_top _))
    · cases h
  | swap x o =>
    simp only [doAcc] at h
    split at h
    · next m hm =>
      split at h
      · next hv => cases h; exact .swap _ _ _ _ _ (.mk m _ (List.mem_of_getElem? hm) hv.1 (hv.2 ▸ fresh_top _))
      · cases h
    · cases h
  | rmw g o =>
    simp only [doAcc] at h
    split at h
    · next m hm =>
      split at h
      · next hv => cases h; exact .rmw _ _ _ _ _ (.mk m _ (List.mem_of_getElem? hm) hv.1 (hv.2 ▸ fresh_top _))
      · cases h
    · cases h
  | cas c n s f =>
    simp only [doAcc] at h
    split at h
    · next m hm =>
      split at h
      · next hc =>
        split at h
        · next hv =>
          cases h
          subst hc
          exact .casOk _ _ _ _ _ _ (.mk m _ (List.mem_of_getElem? hm) hv.1 (hv.2 ▸ fresh_top _))
        · cases h
      · next hc =>
        split at h
        · next hv => cases h; exact .casErr _ _ _ _ _ _ (.mk m (List.mem_of_getElem? hm) hv) hc
        · cases h
    · cases h

/-- Perform one line.  `go t i`: the next fence or access of `t`. -/
def exec1 (s : State V X) : Cmd V X → Option (State V X)
  | .call t o op => match s.pc t with
    | .idle => some (s.goto t (.todo o op false))
    | _ => none
  | .go t i => match s.pc t with
    | .todo o op b =>
      if op.ordOk = true then
        match doAcc (s.mo o) (s.tv t) (.obj o) i op with
        | some (ord, ms, v, r) =>
          if ord = MemOrd.seqCst ∧ b = false then some ((s.scFence t).goto t (.todo o op true))
          else some ({ s with mo := Function.update s.mo o ms, tv := Function.update s.tv t v }.goto t
            (.fin r (decide (ord = MemOrd.seqCst))))
        | none => none
      else some (s.goto t (.fin .panic false))
    | .fin r true => some ((s.scFence t).goto t (.fin r false))
    | _ => none
  | .ret t r => match s.pc t with
    | .fin r' false => if r' = r then some (s.goto t .idle) else none
    | _ => none
  | .store t a x o => match s.pc t with
    | .idle => if (s.tv t).cur (.ext a) ≤ top (s.mx a) then
        some { s with
          mx := Function.update s.mx a
            (⟨top (s.mx a), top (s.mx a) + 1, x, (s.tv t).msgView (.ext a) (top (s.mx a) + 1) o⟩ :: s.mx a)
          tv := Function.update s.tv t ((s.tv t).write (.ext a) (top (s.mx a) + 1)) }
      else none
    | _ => none
  | .load t a o i x => match s.pc t with
    | .idle => match (s.mx a)[i]? with
      | some m => if (s.tv t).cur (.ext a) ≤ m.ts ∧ m.val = x then
          some { s with tv := Function.update s.tv t ((s.tv t).read (.ext a) o m) }
        else none
      | none => none
    | _ => none
  | .fence t o => match s.pc t with
    | .idle => some { s with
        tv := Function.update s.tv t (fence (s.tv t) s.sc o).1, sc := (fence (s.tv t) s.sc o).2 }
    | _ => none

theorem exec1_sound {s s' : State V X} {k : Cmd V X} (h : exec1 s k = some s') : Step s k.ev s' := by
  cases k with
  | call t o op =>
    simp only [exec1] at h
    split at h
    · next hp => cases h; exact .inv s t o op hp
    · cases h
  | go t i =>
    simp only [exec1] at h
    split at h
    · next o op b hp =>
      split at h
      · next ho =>
        split at h
        · next ord ms v r hd =>
          split at h
          · cases h; exact .pre s t o op b hp
          · next hn =>
            cases h
            exact .access s t o op b ord ms v r hp ho (doAcc_sound hd) fun e => by
              cases b
              · exact absurd ⟨e, rfl⟩ hn
              · rfl
        · cases h
      · next ho =>
        cases h
        exact .panic s t o op b hp (by simpa using ho)
    · next r hp => cases h; exact .post s t r true hp
    · cases h
  | ret t r =>
    simp only [exec1] at h
    split at h
    · next r' hp =>
      split at h
      · next e => cases h; subst e; exact .ret s t r' hp
      · cases h
    · cases h
  | store t a x o =>
    simp only [exec1] at h
    split at h
    · next hp =>
      split at h
      · next hv =>
        cases h
        exact .client s t _ _ _ _ _ hp
          (.store a o x _ _ (.mk _ _ (lt_of_le_of_lt hv (fresh_top _).1) (fresh_top _)))
      · cases h
    · cases h
  | load t a o i x =>
    simp only [exec1] at h
    split at h
    · next hp =>
      split at h
      · next m hm =>
        split at h
        · next hv =>
          cases h
          obtain ⟨h1, rfl⟩ := hv
          exact .client s t _ _ _ _ _ hp (.load a o _ _ (.mk m (List.mem_of_getElem? hm) h1))
        · cases h
      · cases h
    · cases h
  | fence t o =>
    simp only [exec1] at h
    split at h
    · next hp => cases h; exact .client s t _ _ _ _ _ hp (.fence o)
    · cases h

def run (s : State V X) : List (Cmd V X) → Option (State V X)
  | [] => some s
  | k :: ks => match exec1 s k with
    | some s' => run s' ks
    | none => none

theorem run_sound {s s' : State V X} {ks : List (Cmd V X)} (h : run s ks = some s') :
    Exec Step s (ks.filterMap Cmd.ev) s' := by
  induction ks generalizing s with
  | nil => cases h; exact .refl _
  | cons k ks ih =>
    simp only [run] at h
    split at h
    · next s1 h1 =>
      have st := exec1_sound h1
      have x := ih h
      cases he : k.ev with
      | none =>
        rw [he] at st
        rw [List.filterMap_cons_none he]
        simpa using (Exec.tau (.refl s) st).trans x
      | some e =>
        rw [he] at st
        rw [List.filterMap_cons_some he]
        simpa using (Exec.ev (.refl s) st).trans x
    · cases h

/-- A script that runs gives a behaviour. -/
theorem behaviour_of_run {v0 : Obj → V} {x0 : Nat → X} {ks : List (Cmd V X)} (h : (run (init v0 x0) ks).isSome = true) :
    Behaviour v0 x0 (ks.filterMap Cmd.ev) := by
  obtain ⟨s, hs⟩ := Option.isSome_iff_exists.1 h
  exact ⟨s, run_sound hs⟩

end Verif.WM.Native
