import Verif.Compose.Cells
import Verif.Fallback.Config
import Verif.Fallback.SC
import Verif.Spec.Local
/-!
# Atomics of different widths over one table of locks

The objects of the fallback hold integers of various numbers of words; each call is made with a value of its object's
type.  Here: what a call of a given type looks like there, and that the objects of one type behave as cells of it.
-/
set_option autoImplicit false
set_option linter.unusedSectionVars false
namespace Verif.Compose
open Verif.Object Verif.Lf Verif.Fallback

section
variable {W : Nat} (n : Nat)

/-- The value, if of the given width. -/
def downVal (v : Words W) : BitVec (W * n) := if h : v.1 = n then h ▸ v.2 else 0

/-- A function on integers of `n` words; others are left alone. -/
def upFn (f : BitVec (W * n) → BitVec (W * n)) (v : Words W) : Words W :=
  if v.1 = n then ⟨n, f (downVal n v)⟩ else v

/-- An operation on an integer of `n` words. -/
def upOp : Op (BitVec (W * n)) → Op (Words W)
  | .load o => .load o
  | .store v o => .store ⟨n, v⟩ o
  | .swap v o => .swap ⟨n, v⟩ o
  | .cas c x s f => .cas ⟨n, c⟩ ⟨n, x⟩ s f
  | .rmw f o => .rmw (upFn n f) o

/-- The answer for a caller that asked for `n` words. -/
def downRes : Res (Words W) → Res (BitVec (W * n))
  | .unit => .unit
  | .val v => .val (downVal n v)
  | .ok v => .ok (downVal n v)
  | .err v => .err (downVal n v)
  | .panic => .panic

@[simp] theorem downVal_mk (x : BitVec (W * n)) : downVal n (⟨n, x⟩ : Words W) = x := by simp [downVal]

theorem upOp_fits (o : Op (BitVec (W * n))) : (upOp n o).Fits fun v => v.1 = n := by
  cases o with
  | load => trivial
  | store => rfl
  | swap => rfl
  | cas => rfl
  | rmw f o =>
    intro x hx
    simp [upFn, hx]

/-- On a cell that holds an integer of `n` words, the operation is the one asked for. -/
theorem up_onCell (o : Op (BitVec (W * n))) (x : BitVec (W * n)) :
    ((upOp n o).onCell (⟨n, x⟩ : Words W)).1 = ⟨n, (o.onCell x).1⟩ ∧
      downRes n ((upOp n o).onCell (⟨n, x⟩ : Words W)).2 = (o.onCell x).2 := by
  cases o with
  | load o => cases o <;> simp [Op.onCell, upOp, Op.ordOk, downRes]
  | store v o => cases o <;> simp [Op.onCell, upOp, Op.ordOk, downRes]
  | swap v o => simp [Op.onCell, upOp, Op.ordOk, downRes]
  | rmw f o => simp [Op.onCell, upOp, Op.ordOk, downRes, upFn]
  | cas c y s f =>
    have h1 : (Op.cas (⟨n, c⟩ : Words W) ⟨n, y⟩ s f).ordOk = (Op.cas c y s f).ordOk := rfl
    have h2 : ((⟨n, x⟩ : Words W) = ⟨n, c⟩) ↔ x = c := by simp
    simp only [Op.onCell, upOp, h1]
    by_cases h : (Op.cas c y s f).ordOk = true
    · simp only [h, if_true]
      by_cases hy : x = c
      · subst hy; simp [downRes]
      · rw [if_neg (fun e => hy (h2.1 e)), if_neg hy]; simp [downRes]
    · simp [h, downRes]

end

variable {V : Type} [DecidableEq V]

/-- Cells that hold values of their types. -/
def fitSpec (P : Obj → V → Prop) : Spec (Obj → V) (Obj × Op V) (Res V) where
  sem op x x' r := (∀ o, P o (x o)) ∧ ((opSpec V).many (K := Obj)).sem op x x' r

/-- Well-typed calls keep cells of their types. -/
theorem fit_linearizable {P : Obj → V → Prop} {cells : Obj → V} {h : List (Verif.Ev V)} (hl : Atomic.Linearizable cells h)
    (hc : ∀ o, P o (cells o)) (hf : ∀ t o op, Verif.Ev.inv t o op ∈ h → op.Fits (P o)) :
    Object.Linearizable (fitSpec P) cells (h.map toObj) := by
  obtain ⟨s, hx⟩ := hl
  suffices key : Exec (Object.Step (fitSpec P)) { obj := cells, th := fun _ => .idle } (h.map toObj)
      { obj := s.cell, th := fun t => thObj (s.th t) } ∧ (∀ o, P o (s.cell o)) ∧
      (∀ t o op, s.th t = .pending o op → op.Fits (P o)) from ⟨_, _, key.1, rfl⟩
  generalize hi : Atomic.init cells = i at hx
  induction hx with
  | refl => subst hi; exact ⟨.refl _, hc, fun t o op h => by simp [Atomic.init] at h⟩
  | @tau h s s' _ st ih =>
    subst hi
    obtain ⟨ih, h1, h2⟩ := ih hf
    cases st with
    | commit t o op hp =>
      refine ⟨Exec.tau ih ?_, fun o' => ?_, fun u o' op' hu => ?_⟩
      · have := Object.Step.commit (S := fitSpec P) { obj := s.cell, th := fun t => thObj (s.th t) } t
          (o, op) (Function.update s.cell o (op.onCell (s.cell o)).1) (op.onCell (s.cell o)).2 (by simp [hp, thObj])
          ⟨h1, _, rfl, rfl⟩
        rw [thObj_update]; exact this
      · by_cases e : o' = o
        · subst e; simp only [Function.update_self]; exact (h2 _ _ _ hp).onCell (h1 _)
        · simp only [Function.update_of_ne e]; exact h1 o'
      · by_cases e : u = t
        · subst e; simp at hu
        · simp only [Function.update_of_ne e] at hu; exact h2 _ _ _ hu
  | @ev h s e s' _ st ih =>
    subst hi
    obtain ⟨ih, h1, h2⟩ := ih fun t o op hm => hf t o op (by simp [hm])
    rw [List.map_append]
    cases st with
    | inv t o op hp =>
      refine ⟨Exec.ev ih ?_, h1, fun u o' op' hu => ?_⟩
      · have := Object.Step.inv (S := fitSpec P) { obj := s.cell, th := fun t => thObj (s.th t) } t
          (o, op) (by simp [hp, thObj])
        rw [thObj_update]; exact this
      · by_cases e : u = t
        · subst e
          simp only [Function.update_self, Atomic.Th.pending.injEq] at hu
          obtain ⟨rfl, rfl⟩ := hu
          exact hf u o op (by simp)
        · simp only [Function.update_of_ne e] at hu; exact h2 _ _ _ hu
    | ret t r hp =>
      refine ⟨Exec.ev ih ?_, h1, fun u o' op' hu => ?_⟩
      · have := Object.Step.ret (S := fitSpec P) { obj := s.cell, th := fun t => thObj (s.th t) } t
          r (by simp [hp, thObj])
        rw [thObj_update]; exact this
      · by_cases e : u = t
        · subst e; simp at hu
        · simp only [Function.update_of_ne e] at hu; exact h2 _ _ _ hu

/-- The calls of a run are well typed. -/
theorem calls_fit {c : Cfg V} {s0 s : Fallback.State V c.W} {h : List (Verif.Ev V)} (hx : Exec c.Step s0 h s) :
    ∀ t o op, Verif.Ev.inv t o op ∈ h → op.Fits (c.fits o) := by
  induction hx with
  | refl => intro t o op h; cases h
  | tau _ _ ih => exact ih
  | @ev h s e s' _ st ih =>
    intro t o op hm
    rcases List.mem_append.1 hm with hm | hm
    · exact ih t o op hm
    · simp only [List.mem_singleton] at hm
      subst hm
      cases st with | inv _ _ _ _ hf => exact hf

/-- A restriction has no other events. -/
theorem mem_restrictBy {P : Obj → Prop} [DecidablePred P] {h : List (Verif.Ev V)} {e : Verif.Ev V}
    (hm : e ∈ restrictBy P h) : e ∈ h := by
  suffices key : ∀ (h : List (Verif.Ev V)) (p : (Tid → Bool) × List (Verif.Ev V)),
      e ∈ (h.foldl (restrictStep P) p).2 → e ∈ p.2 ∨ e ∈ h by
    rcases key h _ hm with h | h
    · cases h
    · exact h
  intro h
  induction h with
  | nil => intro p hp; exact .inl hp
  | cons a h ih =>
    intro p hp
    rcases ih _ hp with hp | hp
    · cases a <;> simp only [restrictStep] at hp <;> split at hp <;> simp at hp ⊢ <;> grind
    · exact .inr (by simp [hp])

section
variable {W : Nat}

/-- Calls on the objects of one type: `name i` is the `i`th object of the type. -/
def UpCalls (n : Nat) (name : Obj → Obj) (a : Obj × Acc (BitVec (W * n))) (i : Obj × Op (Words W))
    (d : Res (Words W) → Res (BitVec (W * n))) : Prop :=
  i.1 = name a.1 ∧ (∃ o, AccOp a.2 o ∧ i.2 = upOp n o) ∧ d = downRes n

/-- The objects of one type are cells of it. -/
def upBridge (n : Nat) (name : Obj → Obj) (hinj : Function.Injective name) (P : Obj → Words W → Prop)
    (hP : ∀ i v, P (name i) v → v.1 = n) :
    Bridge (fitSpec P) ((cell (BitVec (W * n))).many (K := Obj)) (UpCalls n name) where
  abs m := fun i => downVal n (m (name i))
  sem := by
    rintro ⟨k, a⟩ ⟨k', op⟩ d x x' p ⟨h1, ⟨o, ho, h2⟩, rfl⟩ ⟨hf, y, hs, rfl⟩
    simp only at h1 h2 ho
    subst h1 h2
    have hn := hP k _ (hf (name k))
    obtain ⟨v, hv⟩ : ∃ v : BitVec (W * n), x (name k) = ⟨n, v⟩ := by
      rcases hxk : x (name k) with ⟨m, v⟩
      rw [hxk] at hn
      simp only at hn
      subst hn
      exact ⟨v, rfl⟩
    obtain ⟨e1, e2⟩ := up_onCell n o v
    simp only [opSpec, hv] at hs
    rw [← hs] at e1 e2
    refine ⟨(o.onCell v).1, ?_, ?_⟩
    · rw [e2]
      simp only [hv, downVal_mk]
      exact ho.sem v
    · funext u
      by_cases hu : u = k
      · subst hu; simp only [Function.update_self]; simp only at e1; rw [e1, downVal_mk]
      · rw [Function.update_of_ne hu, Function.update_of_ne (fun e => hu (hinj e))]

end
end Verif.Compose
