import Verif.Spec.Bounded
import Verif.Irq.Sim
import Mathlib.Data.Fintype.Card
/-!
# Steps left in an operation
-/
set_option autoImplicit false
namespace Verif.Irq
open Verif.Object

variable {n : Nat} {C : Type} [DecidableEq C]

/-- Chunks not read yet. -/
def unread (buf : Fin n → Option C) : Nat := (Finset.univ.filter fun i => buf i = none).card
/-- Chunks not written yet. -/
def unwritten (wrote : Fin n → Bool) : Nat := (Finset.univ.filter fun i => wrote i = false).card

theorem unread_le (buf : Fin n → Option C) : unread buf ≤ n := by
  simpa [unread] using Finset.card_filter_le (Finset.univ : Finset (Fin n)) (fun i => buf i = none)

theorem unwritten_le (wrote : Fin n → Bool) : unwritten wrote ≤ n := by
  simpa [unwritten] using Finset.card_filter_le (Finset.univ : Finset (Fin n)) (fun i => wrote i = false)

theorem unread_update {buf : Fin n → Option C} {i : Fin n} (h : buf i = none) (x : C) :
    unread (Function.update buf i (some x)) < unread buf := by
  refine Finset.card_lt_card (Finset.ssubset_iff_of_subset ?_ |>.2 ⟨i, by simp [h], by simp⟩)
  intro j hj
  simp only [Finset.mem_filter, Finset.mem_univ, true_and] at hj ⊢
  by_cases hji : j = i
  · subst hji; exact h
  · rwa [Function.update_of_ne hji] at hj

theorem unwritten_update {wrote : Fin n → Bool} {i : Fin n} (h : wrote i = false) :
    unwritten (Function.update wrote i true) < unwritten wrote := by
  refine Finset.card_lt_card (Finset.ssubset_iff_of_subset ?_ |>.2 ⟨i, by simp [h], by simp⟩)
  intro j hj
  simp only [Finset.mem_filter, Finset.mem_univ, true_and] at hj ⊢
  by_cases hji : j = i
  · subst hji; exact h
  · rwa [Function.update_of_ne hji] at hj

/-- At most this many steps are left. -/
def left (K : Cfg n C) : Pc K.arch.w n C → Nat
  | .start .. => K.arch.dis.length + K.arch.res.length + 2 * n + 5
  | .native .. => 1
  | .dis _ _ k _ _ => (K.arch.dis.length - k) + K.arch.res.length + 2 * n + 4
  | .rd _ _ _ _ buf => unread buf + K.arch.res.length + n + 3
  | .wr _ _ _ _ _ wrote _ => unwritten wrote + K.arch.res.length + 2
  | .res k _ _ _ => (K.arch.res.length - k) + 1
  | .fin _ => 0

theorem left_act {K : Cfg n C} {m sr win pc m' sr' win' pc'} (h : Act K m sr win pc m' sr' win' pc') :
    left K pc' < left K pc := by
  cases h with
  | panic => simp [left]
  | goNative => simp only [left]; omega
  | goDis => simp only [left]; omega
  | nat => simp [left]
  | dis hi =>
    have := (List.getElem?_eq_some_iff.1 hi).1
    simp only [left]; omega
  | disRd => simp only [left]; have := unread_le (fun _ => none : Fin n → Option C); omega
  | disWr => simp only [left]; have := unwritten_le (fun _ => false : Fin n → Bool); omega
  | rd i hf hb => simp only [left]; have := unread_update hb; grind
  | rdRes => simp only [left]; omega
  | rdWr => simp only [left]; have := unwritten_le (fun _ => false : Fin n → Bool); omega
  | wr i hf hb => simp only [left]; have := unwritten_update hb; omega
  | wrRes => simp only [left]; omega
  | res hi =>
    have := (List.getElem?_eq_some_iff.1 hi).1
    simp only [left]; omega
  | resFin => simp [left]

/-- The contexts' names stay distinct. -/
theorem step_nodup {K : Cfg n C} {s e s'} (st : Step K s e s') (h : ((s.top :: s.below).map Frame.tid).Nodup) :
    ((s'.top :: s'.below).map Frame.tid).Nodup := by
  cases st with
  | irq t sr' _ ht => exact List.nodup_cons.2 ⟨ht, h⟩
  | iret f rest _ hb => rw [hb] at h; exact (List.nodup_cons.1 h).2
  | user => exact h
  | inv => exact h
  | act => exact h
  | ret => exact h

/-- An operation in progress can go on. -/
theorem can_go {K : Cfg n C} {m : Mem n C} {sr win pc st} (hat : At K sr (some pc) st) :
    (∃ r, pc = .fin r) ∨ ∃ m' sr' win' pc', Act K m sr win pc m' sr' win' pc' := by
  cases pc with
  | fin r => exact Or.inl ⟨r, rfl⟩
  | start o q =>
    obtain ⟨op, nat⟩ := q
    refine Or.inr ?_
    by_cases ho : op.ordOk = true
    · cases nat
      · exact ⟨_, _, _, _, .goDis (p := 0) (t := 0) rfl ho⟩
      · exact ⟨_, _, _, _, .goNative rfl (Or.inl ho)⟩
    · cases nat
      · exact ⟨_, _, _, _, .panic rfl (Or.inl rfl) (by simpa using ho)⟩
      · cases hc : K.checked
        · exact ⟨_, _, _, _, .goNative rfl (Or.inr hc)⟩
        · exact ⟨_, _, _, _, .panic rfl (Or.inr hc) (by simpa using ho)⟩
  | native o op => exact Or.inr ⟨_, _, _, _, .nat rfl⟩
  | dis o op k p t =>
    obtain ⟨_, _, _, hk, _⟩ := hat
    refine Or.inr ?_
    by_cases h : k < K.arch.dis.length
    · exact ⟨_, _, _, _, .dis (List.getElem?_eq_getElem h)⟩
    · obtain rfl : k = K.arch.dis.length := by omega
      cases op with
      | store v ord => exact ⟨_, _, _, _, .disWr⟩
      | _ => exact ⟨_, _, _, _, .disRd (by simp)⟩
  | rd o op p t buf =>
    refine Or.inr ?_
    by_cases h : ∃ i, buf i = none
    · obtain ⟨i, hi⟩ := h
      exact ⟨_, _, _, _, .rd i rfl hi⟩
    · have h' : ∀ i, ∃ x, buf i = some x := fun i => Option.ne_none_iff_exists'.1 fun e => h ⟨i, e⟩
      choose x hx using h'
      cases ha : after op x with
      | mk v r =>
        cases v with
        | none => exact ⟨_, _, _, _, .rdRes rfl hx ha⟩
        | some v => exact ⟨_, _, _, _, .rdWr rfl hx ha⟩
  | wr o op p t new wrote r =>
    refine Or.inr ?_
    by_cases h : ∃ i, wrote i = false
    · obtain ⟨i, hi⟩ := h
      exact ⟨_, _, _, _, .wr i rfl hi⟩
    · exact ⟨_, _, _, _, .wrRes rfl fun i => by
        cases hi : wrote i
        · exact absurd ⟨i, hi⟩ h
        · rfl⟩
  | res k p t r =>
    obtain ⟨_, _, _, _, _, _, hk⟩ := hat
    refine Or.inr ?_
    by_cases h : k < K.arch.res.length
    · exact ⟨_, _, _, _, .res (List.getElem?_eq_getElem h)⟩
    · obtain rfl : k = K.arch.res.length := by omega
      exact ⟨_, _, _, _, .resFin⟩

end Verif.Irq
