import Verif.Lf.LockFree
import Verif.Lf.LlSc
import Verif.Lf.Run
/-!
# Lock-freedom of code made of accesses and load-linked/store-conditional
-/
set_option autoImplicit false
set_option linter.unusedSectionVars false
namespace Verif.Lf
open Verif.Object

variable {V O R L K : Type} [DecidableEq V] [DecidableEq K]

/-- The weak compare-exchange failed although the value was the expected one. -/
def Acc.Spurious (a : Acc V) (x : V) (r : Res V) : Prop :=
  match a with
  | .casWeak cur _ _ _ => x = cur ∧ r = .err x
  | _ => False

/-- The access turned out to be a read only. -/
def Acc.Reads (a : Acc V) (r : Res V) : Prop :=
  match a with
  | .op (.load _) | .peek => True
  | .op (.cas ..) | .casWeak .. => ∃ x, r = .err x
  | _ => False

theorem Acc.exec_not_spurious (a : Acc V) (x : V) : ¬ a.Spurious x (a.exec false x).2 := by
  cases a with
  | op o => exact id
  | peek => exact id
  | casWeak cur new s f =>
    rintro ⟨rfl, h⟩
    simp only [Acc.exec, Bool.false_and, Bool.false_eq_true, if_false, Op.onCell] at h
    split at h <;> simp at h

theorem Acc.Reads.same {a : Acc V} {x x' : V} {r : Res V} (hr : a.Reads r) (h : a.sem x x' r) : x' = x := by
  cases a with
  | op o =>
    cases o with
    | load o => simp only [Acc.sem, Op.onCell] at h; split at h <;> simp_all
    | cas c d s f =>
      obtain ⟨y, rfl⟩ := hr
      simp only [Acc.sem, Op.onCell] at h
      repeat' split at h
      all_goals simp_all
    | store | swap | rmw => exact hr.elim
  | peek => exact h.1
  | casWeak c d s f =>
    obtain ⟨y, rfl⟩ := hr
    rcases h with h | h
    · simp only [Op.onCell] at h
      repeat' split at h
      all_goals simp_all
    · exact h.2.1

theorem Acc.Spurious.reads {a : Acc V} {x : V} {r : Res V} (h : a.Spurious x r) : a.Reads r := by
  cases a with
  | casWeak c d s f => exact ⟨x, h.2⟩
  | _ => exact h.elim

/-- Spurious steps of code made of accesses: a weak compare-exchange fails for no reason. -/
def Code.Spurious (c : Code V O R L) (l : K × L) (m : K → V) (l' : K × L) (_ : K → V) : Prop :=
  ∃ a f r, c.next l.2 = .acc a f ∧ a.sem (m l.1) (m l.1) r ∧ a.Spurious (m l.1) r ∧ l' = (l.1, f r)

namespace LlSc

/-- Spurious steps: a store-conditional fails although nobody has written the object since the load-linked; a
weak compare-exchange fails for no reason; an access that only reads counts as a write. -/
def Code.Spurious (c : Code V O R L) (l : K × L × Option Nat) (m : K → Cell V) (l' : K × L × Option Nat)
    (m' : K → Cell V) : Prop :=
  (∃ v f, c.next l.2.1 = .sc v f ∧ l.2.2 = some (m l.1).ver ∧ m' = m) ∨
  (∃ a f r, c.next l.2.1 = .acc a f ∧ l' = (l.1, f r, l.2.2) ∧ a.sem (m l.1).val (m' l.1).val r ∧
    (a.Spurious (m l.1).val r ∨ (a.Reads r ∧ (m' l.1).ver ≠ (m l.1).ver)))

/-- Running on while nobody writes, without spurious failures, the call returns or writes. The flag says whether the
reservation is held. -/
inductive Code.Stops (c : Code V O R L) : L → Bool → V → Prop where
  | ret {l ρ x r} (h : c.next l = .ret r) : Code.Stops c l ρ x
  | tau {l ρ x l'} (h : c.next l = .tau l') (t : Code.Stops c l' ρ x) : Code.Stops c l ρ x
  | acc {l ρ x a f} (h : c.next l = .acc a f)
      (t : ∀ r, a.sem x x r → ¬ a.Spurious x r → Code.Stops c (f r) ρ x) : Code.Stops c l ρ x
  | ll {l ρ x f} (h : c.next l = .ll f) (t : Code.Stops c (f x) true x) : Code.Stops c l ρ x
  | sc {l x v f} (h : c.next l = .sc v f) : Code.Stops c l true x
  | scFail {l x v f} (h : c.next l = .sc v f) (t : Code.Stops c (f false) false x) : Code.Stops c l false x

theorem Code.Adv.stops {c : Code V O R L} {l l' : L} {ρ : Bool} {x : V}
    (h : c.Adv l l') (t : c.Stops l' ρ x) : c.Stops l ρ x := by
  induction h with
  | refl => exact t
  | head e _ ih => exact .tau e (ih t)

theorem Code.step_cases {c : Code V O R L} {l l' : K × L × Option Nat} {m m' : K → Cell V} (h : c.Step l m l' m') :
    (∃ l1, c.next l.2.1 = .tau l1 ∧ l' = (l.1, l1, l.2.2) ∧ m' = m) ∨
    (∃ a f x r n, c.next l.2.1 = .acc a f ∧ a.sem (m l.1).val x r ∧
      ((x = (m l.1).val ∧ n = (m l.1).ver) ∨ n = (m l.1).ver + 1) ∧ l' = (l.1, f r, l.2.2) ∧
      m' = Function.update m l.1 ⟨x, n⟩) ∨
    (∃ f, c.next l.2.1 = .ll f ∧ l' = (l.1, f (m l.1).val, some (m l.1).ver) ∧ m' = m) ∨
    (∃ v f, c.next l.2.1 = .sc v f ∧ l' = (l.1, f true, none) ∧
      m' = Function.update m l.1 ⟨v, (m l.1).ver + 1⟩) ∨
    (∃ v f, c.next l.2.1 = .sc v f ∧ l' = (l.1, f false, none) ∧ m' = m) := by
  cases h with
  | tau k l ρ m l1 h => exact .inl ⟨l1, h, rfl, rfl⟩
  | acc k l ρ m a f x r n h hs hn => exact .inr (.inl ⟨a, f, x, r, n, h, hs, hn, rfl, rfl⟩)
  | ll k l ρ m f h => exact .inr (.inr (.inl ⟨f, h, rfl, rfl⟩))
  | scOk k l m v f h => exact .inr (.inr (.inr (.inl ⟨v, f, h, rfl, rfl⟩)))
  | scFail k l ρ m v f h => exact .inr (.inr (.inr (.inr ⟨v, f, h, rfl, rfl⟩)))

theorem not_bump {m : K → Cell V} {k : K} {v : V} : m ≠ Function.update m k ⟨v, (m k).ver + 1⟩ := by
  intro e
  have := congrArg Cell.ver (congrFun e k)
  rw [Function.update_self] at this
  simp at this

theorem Code.Stops.acc_ {c : Code V O R L} {l : L} {b : Bool} {x : V} (h : c.Stops l b x) :
    ∀ (m : K → Cell V) (k : K) (ρ : Option Nat), (m k).val = x → b = decide (ρ = some (m k).ver) →
      _root_.Acc (fun l' l => ∃ t : Tid, (c.sys K).step t l m l' m ∧ ¬ c.Spurious l m l' m) (k, l, ρ) := by
  induction h with
  | @ret l b x r h =>
    intro m k ρ hx hb
    refine ⟨_, fun l' ⟨_, hs, _⟩ => ?_⟩
    rcases Code.step_cases hs with ⟨_, h', _⟩ | ⟨_, _, _, _, _, h', _⟩ | ⟨_, h', _⟩ | ⟨_, _, h', _⟩ | ⟨_, _, h', _⟩ <;>
      (simp only [h] at h'; cases h')
  | @tau l b x l1 h _ ih =>
    intro m k ρ hx hb
    refine ⟨_, fun l' ⟨_, hs, _⟩ => ?_⟩
    rcases Code.step_cases hs with ⟨_, h', rfl, _⟩ | ⟨_, _, _, _, _, h', _⟩ | ⟨_, h', _⟩ | ⟨_, _, h', _⟩ | ⟨_, _, h', _⟩ <;>
      (simp only [h] at h'; cases h')
    exact ih m k ρ hx hb
  | @acc l b x a f h _ ih =>
    intro m k ρ hx hb
    refine ⟨_, fun l' ⟨_, hs, hn⟩ => ?_⟩
    rcases Code.step_cases hs with ⟨_, h', _⟩ | ⟨_, _, y, r, n, h', hs', hv, rfl, hm⟩ | ⟨_, h', _⟩ | ⟨_, _, h', _⟩ | ⟨_, _, h', _⟩ <;>
      (simp only [h] at h'; cases h')
    have hk : m k = ⟨y, n⟩ := by
      have := congrFun hm k
      rwa [Function.update_self] at this
    have hy : y = x := by rw [← hx, hk]
    subst hy
    simp only [hx] at hs'
    exact ih r hs' (fun hsp => hn (.inr ⟨a, f, r, h, rfl, by simp only [hx]; exact hs', .inl (by simp only [hx]; exact hsp)⟩)) m k ρ hx hb
  | @ll l b x f h _ ih =>
    intro m k ρ hx hb
    refine ⟨_, fun l' ⟨_, hs, hn⟩ => ?_⟩
    rcases Code.step_cases hs with ⟨_, h', _⟩ | ⟨_, _, _, _, _, h', _⟩ | ⟨_, h', rfl, _⟩ | ⟨_, _, h', _⟩ | ⟨_, _, h', _⟩ <;>
      (simp only [h] at h'; cases h')
    simp only [hx]
    exact ih m k _ hx (by simp)
  | @sc l x v f h =>
    intro m k ρ hx hb
    refine ⟨_, fun l' ⟨_, hs, hn⟩ => ?_⟩
    rcases Code.step_cases hs with ⟨_, h', _⟩ | ⟨_, _, _, _, _, h', _⟩ | ⟨_, h', rfl, _⟩ | ⟨_, _, h', _, hm⟩ | ⟨_, _, h', _⟩ <;>
      (simp only [h] at h'; cases h')
    · exact absurd hm not_bump
    · exact absurd (Or.inl ⟨v, f, h, by simpa using hb.symm, rfl⟩) hn
  | @scFail l x v f h _ ih =>
    intro m k ρ hx hb
    refine ⟨_, fun l' ⟨_, hs, hn⟩ => ?_⟩
    rcases Code.step_cases hs with ⟨_, h', _⟩ | ⟨_, _, _, _, _, h', _⟩ | ⟨_, h', rfl, _⟩ | ⟨_, _, h', _, hm⟩ | ⟨_, _, h', rfl, _⟩ <;>
      (simp only [h] at h'; cases h')
    · exact absurd hm not_bump
    · exact ih m k none hx (by simp)

/-- The code looks whether a weak compare-exchange has succeeded. -/
def Code.Looks (c : Code V O R L) : Prop :=
  ∀ l cur new s g f, c.next l = .acc (.casWeak cur new s g) f → f (.ok cur) ≠ f (.err cur)

/-- A call of the code can always go on. -/
theorem Code.goes_on {c : Code V O R L} (hl : c.Looks) (t : Tid) (l : K × L × Option Nat) (m : K → Cell V) :
    (∃ r, (c.sys K).ret l = some r) ∨ ∃ l' m', (c.sys K).step t l m l' m' ∧ ¬ c.Spurious l m l' m' := by
  obtain ⟨k, l, ρ⟩ := l
  cases h : c.next l with
  | ret r => exact .inl ⟨r, by simp [Code.sys, h]⟩
  | tau l1 =>
    refine .inr ⟨_, _, .tau k l ρ m l1 h, ?_⟩
    rintro (⟨_, _, h', _⟩ | ⟨_, _, _, h', _⟩) <;> (simp only [h] at h'; cases h')
  | ll f =>
    refine .inr ⟨_, _, .ll k l ρ m f h, ?_⟩
    rintro (⟨_, _, h', _⟩ | ⟨_, _, _, h', _⟩) <;> (simp only [h] at h'; cases h')
  | sc v f =>
    by_cases hρ : ρ = some (m k).ver
    · subst hρ
      refine .inr ⟨_, _, .scOk k l m v f h, ?_⟩
      rintro (⟨_, _, h', _, e⟩ | ⟨_, _, _, h', _⟩) <;> (simp only [h] at h'; cases h')
      exact not_bump e.symm
    · refine .inr ⟨_, _, .scFail k l ρ m v f h, ?_⟩
      rintro (⟨_, _, h', e, _⟩ | ⟨_, _, _, h', _⟩) <;> (simp only [h] at h'; cases h')
      exact hρ e
  | acc a f =>
    -- a read leaves everything as it was; anything else may count as a write
    have hs := a.exec_sem false (m k).val
    have hsp := a.exec_not_spurious (m k).val
    by_cases he : (a.exec false (m k).val).1 = (m k).val
    · refine .inr ⟨(k, f (a.exec false (m k).val).2, ρ), _, .acc k l ρ m a f _ _ (m k).ver h hs (.inl ⟨he, rfl⟩), ?_⟩
      rintro (⟨_, _, h', _⟩ | ⟨a', f', r, h', e, hs', hr⟩)
      · simp only [h] at h'; cases h'
      simp only [h] at h'; cases h'
      simp only [Function.update_self, ne_eq, not_true_eq_false, and_false, or_false] at hr
      cases a with
      | casWeak cur new s g =>
        obtain ⟨hc, rfl⟩ := hr
        simp only [Prod.mk.injEq, true_and, and_true] at e
        simp only [Acc.exec, Bool.false_and, Bool.false_eq_true, if_false, Op.onCell, hc, if_true] at e hs' he
        split at e
        · exact hl _ _ _ _ _ _ h e
        · next ho =>
          rcases hs' with hs' | hs'
          · simp [Op.onCell, ho] at hs'
          · exact ho hs'.1
      | _ => exact hr.elim
    · refine .inr ⟨(k, f (a.exec false (m k).val).2, ρ), _, .acc k l ρ m a f _ _ _ h hs (.inr rfl), ?_⟩
      rintro (⟨_, _, h', _⟩ | ⟨a', f', r, h', e, hs', hr⟩)
      · simp only [h] at h'; cases h'
      simp only [h] at h'; cases h'
      simp only [Function.update_self] at hs'
      refine he ?_
      rcases hr with hr | hr
      · exact hr.reads.same hs'
      · exact hr.1.same hs'

end LlSc
end Verif.Lf
