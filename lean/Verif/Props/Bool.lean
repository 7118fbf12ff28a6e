import Verif.Bool.Sim
import Verif.Lf.Run
import Verif.Spec.Ordering
/-!
# Properties of `AtomicBool` (C17, C18)

`(code amo).sys Obj` runs the modelled code of `AtomicBool` for any number of objects and threads,
in any interleaving, with any spurious failures of weak compare-exchanges.
-/
namespace Verif.Bool
open Verif.Lf Verif.Object

/-- **C17.** If every byte starts as 0 or 1 then at every moment of every execution every byte is 0
or 1; so reading it as `bool` (`as_ptr`, `get_mut`) is valid, and gives what `into_inner` gives. -/
theorem bool_byte_valid (amo : Bool) (m : Obj → BitVec 8) (hm : ∀ o, m o = 0 ∨ m o = 1)
    (h : List (Object.Ev (Obj × BOp) (Res Bool))) (s : State (Obj → BitVec 8) (Obj × Pc))
    (hx : Runs ((code amo).sys Obj) m h s) :
    ∀ o, (s.mem o = 0 ∨ s.mem o = 1) ∧ asBool (s.mem o) = some (intoInner (s.mem o)) := by
  intro o
  have := (sim amo).inv_mem (m := m) hm hx o
  refine ⟨this, ?_⟩
  rcases this with e | e <;> rw [e] <;> decide

/-- **C18a.** Every history of `AtomicBool` operations is linearizable: each call takes effect at
one moment as the boolean operation it names; and at the end memory holds the resulting booleans. -/
theorem bool_linearizable (amo : Bool) (m : Obj → BitVec 8) (hm : ∀ o, m o = 0 ∨ m o = 1)
    (h : List (Object.Ev (Obj × BOp) (Res Bool))) (s : State (Obj → BitVec 8) (Obj × Pc))
    (hx : Runs ((code amo).sys Obj) m h s) :
    LinearizableTo (spec.many (K := Obj)) (fun o => m o != 0) h (fun o => s.mem o != 0) :=
  (sim amo).linearizable (m := m) hm hx

/-- The operation is not the `fetch_update` loop. -/
def BOp.simple : BOp → Prop
  | .fetchUpdate _ _ _ => False
  | _ => True

/-- **C18b.** Every operation but `fetch_update` performs at most one atomic access, and only a
rejected one performs none: the code either panics at once, in which case the specification says
that it must, or makes one access and returns. -/
theorem bool_single_access (amo : Bool) (op : BOp) (hop : op.simple) :
    (∃ a k, (code amo).next ((code amo).start op) = .acc a k ∧
        ∀ r, ∃ r', (code amo).next (k r) = .ret r') ∨
      (∃ l, (code amo).next ((code amo).start op) = .tau l ∧ (code amo).next l = .ret .panic ∧
        ∀ x, Sem op x x .panic) := by
  have key : ∃ p, start amo op = .one p := by
    cases op <;> first | exact ⟨_, rfl⟩ | exact absurd hop (by simp [BOp.simple])
  obtain ⟨p, hp⟩ := key
  have hok := one_ok amo op p hp
  show (∃ a k, next amo (start amo op) = _ ∧ _) ∨ (∃ l, next amo (start amo op) = _ ∧ _)
  rw [hp]
  cases p with
  | panic => exact Or.inr ⟨.fin .panic, rfl, rfl, hok⟩
  | acc a dec => exact Or.inl ⟨a, _, rfl, fun r => ⟨dec r, rfl⟩⟩

/-- The ordering requested for the case that the operation writes (for `load`: its ordering). -/
def BOp.succ : BOp → MemOrd
  | .load o | .store _ o | .swap _ o | .fetchAnd _ o | .and _ o | .fetchNand _ o | .fetchOr _ o
  | .or _ o | .fetchXor _ o | .xor _ o | .fetchNot o | .not o => o
  | .compareExchange _ _ s _ | .compareExchangeWeak _ _ s _ => s
  | .fetchUpdate s _ _ => s

/-- The ordering requested for the case that the operation does not write. -/
def BOp.fail : BOp → MemOrd
  | .load o | .store _ o | .swap _ o | .fetchAnd _ o | .and _ o | .fetchNand _ o | .fetchOr _ o
  | .or _ o | .fetchXor _ o | .xor _ o | .fetchNot o | .not o => o
  | .compareExchange _ _ _ f | .compareExchangeWeak _ _ _ f => f
  | .fetchUpdate _ g _ => g

theorem atLeast_refl (o : MemOrd) : o.AtLeast o := fun _ h => h

theorem upgrade_atLeast {s f : MemOrd} (h : MemOrd.assertCas s f = .ok) :
    (MemOrd.upgradeSuccess s f).AtLeast s ∧ (MemOrd.upgradeSuccess s f).AtLeast f := by
  refine ⟨?_, ?_⟩ <;> intro g <;> cases s <;> cases f <;> cases g <;>
    simp [MemOrd.upgradeSuccess, MemOrd.gives, MemOrd.assertCas] at h ⊢

theorem cas_order (amo : Bool) (c n : Bool) (s f : MemOrd) (a dec)
    (h : compareExchange amo c n s f = .acc a dec ∨ compareExchangeWeak amo c n s f = .acc a dec) :
    a.succ.AtLeast s ∧ a.fail.AtLeast f := by
  cases amo
  · simp only [compareExchange, compareExchangeWeak, Bool.false_eq_true, if_false, One.acc.injEq] at h
    rcases h with ⟨rfl, _⟩ | ⟨rfl, _⟩ <;> exact ⟨atLeast_refl _, atLeast_refl _⟩
  · have h : compareExchange true c n s f = .acc a dec := h.elim id id
    cases hf : MemOrd.assertCas s f with
    | panic => simp [compareExchange, hf] at h
    | ok =>
      have hu := upgrade_atLeast hf
      simp only [compareExchange, hf, if_true, swap] at h
      split at h
      · simp only [fetchOr, One.map, One.acc.injEq] at h
        obtain ⟨rfl, _⟩ := h
        exact hu
      · cases n <;> simp [fetchOr, fetchAnd, One.map] at h <;> obtain ⟨rfl, _⟩ := h <;> exact hu

/-- **C18c.** The access made uses at least the orderings the caller asked for (also where one
read-modify-write stands in for a compare-exchange, and in the `fetch_update` loop). -/
theorem bool_ordering_kept (amo : Bool) (op : BOp) (hop : op.simple) (a : Acc (BitVec 8))
    (k : Res (BitVec 8) → Pc) (h : (code amo).next ((code amo).start op) = .acc a k) :
    a.succ.AtLeast op.succ ∧ a.fail.AtLeast op.fail := by
  cases op <;> simp only [code, start, next, One.next] at h
  case compareExchange c n s f =>
    cases hc : compareExchange amo c n s f with
    | panic => simp [hc] at h
    | acc a' dec =>
      simp only [hc, Next.acc.injEq] at h
      obtain ⟨rfl, _⟩ := h
      exact cas_order amo c n s f _ _ (Or.inl hc)
  case compareExchangeWeak c n s f =>
    cases hc : compareExchangeWeak amo c n s f with
    | panic => simp [hc] at h
    | acc a' dec =>
      simp only [hc, Next.acc.injEq] at h
      obtain ⟨rfl, _⟩ := h
      exact cas_order amo c n s f _ _ (Or.inr hc)
  case fetchUpdate => exact absurd hop (by simp [BOp.simple])
  case swap v o =>
    cases amo <;> cases v <;> simp [swap, fetchOr, fetchAnd] at h <;>
      obtain ⟨rfl, _⟩ := h <;> exact ⟨atLeast_refl _, atLeast_refl _⟩
  case fetchNand v o =>
    cases amo <;> cases v <;> simp [fetchNand, fetchXor, swap, fetchOr, fetchAnd] at h <;>
      obtain ⟨rfl, _⟩ := h <;> exact ⟨atLeast_refl _, atLeast_refl _⟩
  all_goals
    simp [load, store, fetchAnd, fetchOr, fetchXor, and, or, xor, fetchNot, not] at h
    obtain ⟨rfl, _⟩ := h
    exact ⟨atLeast_refl _, atLeast_refl _⟩

/-- **C18d.** `fetch_update` reads with at least its fetch ordering and updates with at least its
set ordering (success) and fetch ordering (failure). -/
theorem bool_update_ordering_kept (amo : Bool) (s g : MemOrd) (f : Closure Bool) (hist : List Bool)
    (prev : Bool) (a : Acc (BitVec 8)) (k : Res (BitVec 8) → Pc) :
    ((code amo).next (.updStart s g f) = .acc a k → a = .op (.load g)) ∧
    ((code amo).next (.updLoop s g f hist prev) = .acc a k → a.succ.AtLeast s ∧ a.fail.AtLeast g) := by
  refine ⟨fun h => ?_, fun h => ?_⟩
  · simp only [code, next, load, One.next, Next.acc.injEq] at h
    exact h.1.symm
  · cases hf : f hist prev with
    | none => simp [code, next, hf] at h
    | some w =>
      simp only [code, next, hf, One.next] at h
      cases hc : compareExchangeWeak amo prev w s g with
      | panic => simp [hc] at h
      | acc a' dec =>
        simp only [hc, Next.acc.injEq] at h
        obtain ⟨rfl, _⟩ := h
        exact cas_order amo prev w s g _ _ (Or.inr hc)

/-! ## A concrete run

Two threads on one object, AMO variant and plain variant: `fetch_update(|x| Some(!x))` of thread 0
races with `compare_exchange(false, true)` of thread 1, which gets in between; the update retries. -/

def demo : List (Cmd Obj BOp) :=
  [.call 0 7 (.fetchUpdate .acqRel .acquire fun _ x => some (!x)), .go 0,
   .call 1 7 (.compareExchange false true .seqCst .relaxed), .go 1, .ret 1,
   .go 0, .go 0, .ret 0,
   .call 1 7 (.fetchNand false .relaxed), .go 1, .ret 1]

example : (code false).outcome demo (fun _ => 0) 7 =
    some ([(1, .ok false), (0, .ok true), (1, .val false)], 1) := by decide +kernel

/-- On the AMO variant the same schedule: the failed compare-exchange of `fetch_update` is one `OR`. -/
example : (code true).outcome demo (fun _ => 0) 7 =
    some ([(1, .ok false), (0, .ok true), (1, .val false)], 1) := by decide +kernel

/-- The theorems apply to it. -/
example : ∃ h s, Runs ((code true).sys Obj) (fun _ => 0) h s ∧ s.mem 7 = 1 ∧
    LinearizableTo (spec.many (K := Obj)) (fun _ => false) h (fun o => s.mem o != 0) := by
  have e : (code true).outcome demo (fun _ => 0) 7 =
    some ([(1, .ok false), (0, .ok true), (1, .val false)], 1) := by decide +kernel
  obtain ⟨h, s, hr, hv, _⟩ := Code.outcome_runs e
  exact ⟨h, s, hr, hv, bool_linearizable true _ (fun _ => Or.inl rfl) h s hr⟩

end Verif.Bool
