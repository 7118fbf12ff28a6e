import Verif.Asm.Points
import Verif.Lf.LlScRun
/-!
# Event lists of a block's executions

For blocks whose instructions access the object as a whole or not at all (no load-linked or
store-conditional).
-/
set_option autoImplicit false
set_option linter.unusedSectionVars false
namespace Verif.Asm
open Verif.Object Verif.Lf

variable {C ι St V W R E : Type} [DecidableEq V]

/-- A call can go from `(pc, s)` to its end in state `s'` in `n` steps with the given events, whatever
other threads do (every access may find any value). `ev i v` are the events of instruction `i` when its
access returned `v` (`.unit` when it has none). -/
inductive Trace (A : Blocks C ι St V W R) (ev : ι → Res V → List E) (c : C) : Nat → Nat → St → List E → St → Prop where
  | done {pc s} (h : (A.prog c)[pc]? = none) : Trace A ev c 0 pc s [] s
  | go {n pc s i s1 t s'} (hp : (A.prog c)[pc]? = some i)
      (h : A.sem c i s = .go s1) (r : Trace A ev c n (pc + 1) s1 t s') :
      Trace A ev c (n + 1) pc s (ev i .unit ++ t) s'
  | br {n pc s i b k t s'} (hp : (A.prog c)[pc]? = some i)
      (h : A.sem c i s = .br b k) (r : Trace A ev c n (if b then k else pc + 1) s t s') :
      Trace A ev c (n + 1) pc s (ev i .unit ++ t) s'
  | acc {n pc s i a k x x' v t s'} (hp : (A.prog c)[pc]? = some i)
      (h : A.sem c i s = .acc a k) (hs : a.sem x x' v)
      (r : Trace A ev c n (pc + 1) (k v) t s') : Trace A ev c (n + 1) pc s (ev i v ++ t) s'

namespace Trace
variable {A : Blocks C ι St V W R} {ev : ι → Res V → List E} {c : C} {n pc : Nat} {s s' : St} {t : List E}

theorem inv_done (h : Trace A ev c n pc s t s') (hp : (A.prog c)[pc]? = none) : t = [] ∧ s' = s := by
  cases h with
  | done => exact ⟨rfl, rfl⟩
  | go hp' | br hp' | acc hp' => rw [hp] at hp'; cases hp'

theorem inv_go (h : Trace A ev c n pc s t s') {i : ι} {s1 : St} (hp : (A.prog c)[pc]? = some i)
    (hs : A.sem c i s = .go s1) :
    ∃ n' t', n = n' + 1 ∧ t = ev i .unit ++ t' ∧ Trace A ev c n' (pc + 1) s1 t' s' := by
  cases h with
  | done hp' => rw [hp] at hp'; cases hp'
  | go hp' hs' r =>
    rw [hp] at hp'; cases hp'
    rw [hs] at hs'; cases hs'
    exact ⟨_, _, rfl, rfl, r⟩
  | br hp' hs' | acc hp' hs' =>
    rw [hp] at hp'; cases hp'
    rw [hs] at hs'; cases hs'

theorem inv_br (h : Trace A ev c n pc s t s') {i : ι} {b : Bool} {k : Nat}
    (hp : (A.prog c)[pc]? = some i) (hs : A.sem c i s = .br b k) :
    ∃ n' t', n = n' + 1 ∧ t = ev i .unit ++ t' ∧ Trace A ev c n' (if b then k else pc + 1) s t' s' := by
  cases h with
  | done hp' => rw [hp] at hp'; cases hp'
  | br hp' hs' r =>
    rw [hp] at hp'; cases hp'
    rw [hs] at hs'; cases hs'
    exact ⟨_, _, rfl, rfl, r⟩
  | go hp' hs' | acc hp' hs' =>
    rw [hp] at hp'; cases hp'
    rw [hs] at hs'; cases hs'

theorem inv_acc (h : Trace A ev c n pc s t s') {i : ι} {a : Acc V} {k : Res V → St}
    (hp : (A.prog c)[pc]? = some i) (hs : A.sem c i s = .acc a k) :
    ∃ n' t' x x' v, n = n' + 1 ∧ a.sem x x' v ∧ t = ev i v ++ t' ∧ Trace A ev c n' (pc + 1) (k v) t' s' := by
  cases h with
  | done hp' => rw [hp] at hp'; cases hp'
  | acc hp' hs' ha r =>
    rw [hp] at hp'; cases hp'
    rw [hs] at hs'; cases hs'
    exact ⟨_, _, _, _, _, rfl, ha, rfl, r⟩
  | br hp' hs' | go hp' hs' =>
    rw [hp] at hp'; cases hp'
    rw [hs] at hs'; cases hs'

end Trace

/-- A block that ends when left alone has a trace. -/
theorem trace_exists {A : Blocks C ι St V W R} (ev : ι → Res V → List E) {c : C}
    (hno : ∀ i s, (∀ w k, A.sem c i s ≠ .ll2 w k) ∧ (∀ k, A.sem c i s ≠ .ll k) ∧ ∀ v k, A.sem c i s ≠ .sc v k)
    {Q : Option R → V → Prop} (hQ : ∀ y, ¬ Q none y) {pc : Nat} {s : St} {ρ : Bool} {x : V}
    (h : Ends A c Q pc s ρ x) : ∃ n t s', Trace A ev c n pc s t s' := by
  have key : ∀ (l : Loc C St W) (ρ : Bool) (x : V), A.code.Ends Q l ρ x → l.call = c → l.half = none →
      ∃ n t s', Trace A ev c n l.pc l.st t s' := by
    intro l ρ x h
    induction h with
    | @ret l ρ x r h hq' =>
      intro hc hh
      simp only [Blocks.code, Blocks.next, hc] at h
      cases hp : (A.prog c)[l.pc]? with
      | none => exact ⟨_, _, _, .done hp⟩
      | some i =>
        simp only [hp] at h
        cases hs : A.sem c i l.st with
        | fault => simp only [hs] at h; cases h; exact absurd hq' (hQ _)
        | ll2 w k => exact absurd hs ((hno _ _).1 _ _)
        | _ => simp [hs] at h
    | @tau l ρ x l' h _ ih =>
      intro hc hh
      simp only [Blocks.code, Blocks.next, hc] at h
      cases hp : (A.prog c)[l.pc]? with
      | none => simp [hp] at h
      | some i =>
        simp only [hp] at h
        cases hs : A.sem c i l.st with
        | go s' =>
          simp only [hs, LlSc.Next.tau.injEq] at h
          subst h
          obtain ⟨n, t, s', ht⟩ := ih hc hh
          exact ⟨_, _, _, .go hp hs ht⟩
        | br b n =>
          simp only [hs, LlSc.Next.tau.injEq] at h
          subst h
          obtain ⟨n, t, s', ht⟩ := ih rfl hh
          exact ⟨_, _, _, .br hp hs ht⟩
        | ll2 w k => exact absurd hs ((hno _ _).1 _ _)
        | _ => simp [hs] at h
    | @acc l ρ x a f h _ ih =>
      intro hc hh
      simp only [Blocks.code, Blocks.next, hc] at h
      cases hp : (A.prog c)[l.pc]? with
      | none => simp [hp] at h
      | some i =>
        simp only [hp] at h
        cases hs : A.sem c i l.st with
        | acc a' k =>
          simp only [hs, LlSc.Next.acc.injEq] at h
          obtain ⟨rfl, rfl⟩ := h
          obtain ⟨n, t, s', ht⟩ := ih _ _ (a'.exec_sem false x) hc hh
          exact ⟨_, _, _, .acc hp hs (a'.exec_sem false x) ht⟩
        | ll2 w k => exact absurd hs ((hno _ _).1 _ _)
        | _ => simp [hs] at h
    | @ll l ρ x f h _ ih =>
      intro hc hh
      simp only [Blocks.code, Blocks.next, hc] at h
      cases hp : (A.prog c)[l.pc]? with
      | none => simp [hp] at h
      | some i =>
        simp only [hp] at h
        cases hs : A.sem c i l.st with
        | ll k => exact absurd hs ((hno _ _).2.1 _)
        | ll2 w k => exact absurd hs ((hno _ _).1 _ _)
        | _ => simp [hs] at h
    | @sc l x v f h _ ih =>
      intro hc hh
      simp only [Blocks.code, Blocks.next, hc] at h
      cases hp : (A.prog c)[l.pc]? with
      | none => simp [hp] at h
      | some i =>
        simp only [hp] at h
        cases hs : A.sem c i l.st with
        | sc v' k => exact absurd hs ((hno _ _).2.2 _ _)
        | ll2 w k => exact absurd hs ((hno _ _).1 _ _)
        | _ => simp [hs] at h
  exact key ⟨c, pc, none, 0, s⟩ ρ x (h 0) rfl rfl

end Verif.Asm
