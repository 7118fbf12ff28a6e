import Verif.WM.Wrap
/-!
# Concrete runs of code over an atomic

An interpreter that follows a script; used only to exhibit histories, so that the hypotheses of the
theorems in `Props/Derived.lean` are seen to be met.
-/
set_option autoImplicit false
namespace Verif.WM.Derived
open Verif.Lf (Acc Next Code)

variable {V O R L X : Type}

/-- One line of a script.  `acc t s`: thread `t` makes its next access (`s`: a weak compare-exchange is to
fail for no reason). -/
inductive WCmd (V O X : Type) where
  | call (t : Tid) (o : Obj) (op : O)
  | tau (t : Tid)
  | peek (t : Tid) (y : V)
  | acc (t : Tid) (s : Bool)
  | res (t : Tid) (r : Res V)
  | ret (t : Tid)
  | client (t : Tid) (a : CAct X) (r : Option X)

/-- Inner history, outer history, threads. -/
structure WSt (V O R L X : Type) where
  hi : List (WM.Ev V X)
  ho : List (Ev O R X)
  th : Tid → Th V L

/-- The call an access makes. -/
def callFor (s : Bool) (f : Res V → L) : Acc V → Option (Op V × (Res V → L))
  | .op o => if s then none else some (o, f)
  | .casWeak c n a b => if s then some (.load b, fun r => f (spurious r)) else some (.cas c n a b, f)
  | .peek => none

theorem callFor_sound {s : Bool} {f g : Res V → L} {a : Acc V} {i : Op V} (h : callFor s f a = some (i, g)) :
    Calls a f i g := by
  cases a <;> simp only [callFor] at h
  · split at h <;> cases h; exact .op _ _
  · split at h <;> cases h
    · exact .spur _ _ _ _ _
    · exact .cas _ _ _ _ _
  · cases h

def wstep (c : Code V O R L) (w : WSt V O R L X) : WCmd V O X → Option (WSt V O R L X)
  | .call t o op =>
    match w.th t with
    | .idle => some ⟨w.hi, w.ho ++ [.inv t o op], Function.update w.th t (.run o (c.start op))⟩
    | _ => none
  | .tau t =>
    match w.th t with
    | .run o l =>
      match c.next l with
      | .tau k => some ⟨w.hi, w.ho, Function.update w.th t (.run o k)⟩
      | _ => none
    | _ => none
  | .peek t y =>
    match w.th t with
    | .run o l =>
      match c.next l with
      | .acc .peek f => some ⟨w.hi, w.ho, Function.update w.th t (.run o (f (.val y)))⟩
      | _ => none
    | _ => none
  | .acc t s =>
    match w.th t with
    | .run o l =>
      match c.next l with
      | .acc a f =>
        match callFor s f a with
        | some (i, g) => some ⟨w.hi ++ [.inv t o i], w.ho, Function.update w.th t (.wait o i g)⟩
        | none => none
      | _ => none
    | _ => none
  | .res t r =>
    match w.th t with
    | .wait o _ g => some ⟨w.hi ++ [.ret t r], w.ho, Function.update w.th t (.run o (g r))⟩
    | _ => none
  | .ret t =>
    match w.th t with
    | .run _ l =>
      match c.next l with
      | .ret r => some ⟨w.hi, w.ho ++ [.ret t r], Function.update w.th t .idle⟩
      | _ => none
    | _ => none
  | .client t a r =>
    match w.th t with
    | .idle => some ⟨w.hi ++ [.client t a r], w.ho ++ [.client t a r], w.th⟩
    | _ => none

def wrun (c : Code V O R L) (w : WSt V O R L X) : List (WCmd V O X) → Option (WSt V O R L X)
  | [] => some w
  | k :: ks => match wstep c w k with
    | some w' => wrun c w' ks
    | none => none

theorem wstep_sound {c : Code V O R L} {w w' : WSt V O R L X} {k : WCmd V O X} (h : wstep c w k = some w')
    (x : Wrap c w.hi w.ho w.th) : Wrap c w'.hi w'.ho w'.th := by
  cases k with
  | call t o op =>
    simp only [wstep] at h
    split at h
    · next e => cases h; exact .call x t o op e
    · cases h
  | tau t =>
    simp only [wstep] at h
    split at h
    · next o l e =>
      split at h
      · next k e2 => cases h; exact .tau x t o l k e e2
      · cases h
    · cases h
  | peek t y =>
    simp only [wstep] at h
    split at h
    · next o l e =>
      split at h
      · next f e2 => cases h; exact .peek x t o l f y e e2
      · cases h
    · cases h
  | acc t s =>
    simp only [wstep] at h
    split at h
    · next o l e =>
      split at h
      · next a f e2 =>
        split at h
        · next i g e3 => cases h; exact .acc x t o l a f i g e e2 (callFor_sound e3)
        · cases h
      · cases h
    · cases h
  | res t r =>
    simp only [wstep] at h
    split at h
    · next o i g e => cases h; exact .res x t o i g r e
    · cases h
  | ret t =>
    simp only [wstep] at h
    split at h
    · next o l e =>
      split at h
      · next r e2 => cases h; exact .ret x t o l r e e2
      · cases h
    · cases h
  | client t a r =>
    simp only [wstep] at h
    split at h
    · next e => cases h; exact .client x t a r e
    · cases h

theorem wrun_sound {c : Code V O R L} {ks : List (WCmd V O X)} {w w' : WSt V O R L X} (h : wrun c w ks = some w')
    (x : Wrap c w.hi w.ho w.th) : Wrap c w'.hi w'.ho w'.th := by
  induction ks generalizing w with
  | nil => cases h; exact x
  | cons k ks ih =>
    simp only [wrun] at h
    split at h
    · next e => exact ih h (wstep_sound e x)
    · cases h

/-- A script that runs gives a history. -/
theorem over_of_run {c : Code V O R L} {B : List (WM.Ev V X) → Prop} {ks : List (WCmd V O X)} {w : WSt V O R L X}
    (h : wrun c ⟨[], [], fun _ => .idle⟩ ks = some w) (hb : B w.hi) : Over c B w.ho :=
  ⟨w.hi, w.th, hb, wrun_sound h .nil⟩

end Verif.WM.Derived
