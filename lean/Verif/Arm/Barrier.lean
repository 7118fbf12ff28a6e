import Verif.Arm.OrderProof
/-!
# Orderings from full barriers alone
-/
set_option autoImplicit false
namespace Verif.Arm

/-- The `i`-th event has a full barrier after it. -/
def Fenced (t : List Ev) (i : Nat) : Prop := ∃ k, i < k ∧ t[k]? = some .full

theorem acquire_of_full {t : List Ev} (h : ∃ (i : Nat) (a : Acq) (m : Bool), t[i]? = some (Ev.rd a m))
    (hf : ∀ i, Mem t i → Fenced t i) : IsAcquire t := by
  refine isAcquire (exists_lastRead h) ?_
  rintro i ⟨⟨a, m, hr⟩, -⟩
  exact Or.inr (Or.inr ⟨mem_rd hr, hf i (mem_rd hr)⟩)

theorem release_of_full {t : List Ev} (h : ∀ j, Write t j → ∃ k, k < j ∧ t[k]? = some .full) : IsRelease t := by
  refine isRelease ?_
  rintro i ⟨r, m, hr⟩
  exact Or.inr ⟨mem_wr hr, h i ⟨r, m, hr⟩⟩

theorem kept_of_full {t u : List Ev} (hf : ∀ i, Mem t i → Fenced t i) : KeptInOrder t u := by
  intro pre mid post i j hi hj
  have hmi : Mem t i := by
    rcases hi with ⟨⟨a, m, h⟩, -⟩ | ⟨a, m, h⟩
    · exact mem_rd h
    · exact mem_wr h
  have hmj : Mem u j := by
    rcases hj with ⟨⟨a, m, h⟩, -⟩ | ⟨a, m, h⟩
    · exact mem_rd h
    · exact mem_wr h
  have e1 : pre ++ t ++ mid ++ u ++ post = pre ++ t ++ (mid ++ u ++ post) := by simp
  have el : pre.length + t.length + mid.length + j = (pre ++ t ++ mid).length + j := by simp; omega
  have hMj : Mem ((pre ++ t ++ mid) ++ u ++ post) ((pre ++ t ++ mid).length + j) := hmj.mid
  have ho : Out t i := Or.inr (Or.inr ⟨hmi, hf i hmi⟩)
  refine .one ?_
  rw [e1, el]
  refine ho.bob (by simp; omega) ?_
  rw [← e1]; exact hMj

/-- Everything is before a final barrier. -/
theorem fenced_last {a : List Ev} (i : Nat) (h : Mem (a ++ [.full]) i) : Fenced (a ++ [.full]) i := by
  refine ⟨a.length, ?_, by simp⟩
  obtain ⟨e, h, h'⟩ := h
  have := lt_of h
  simp only [List.length_append, List.length_cons, List.length_nil] at this
  rcases Nat.lt_or_ge i a.length with h1 | h1
  · exact h1
  · obtain rfl : i = a.length := by omega
    simp at h
    subst h
    simp [Ev.isRd, Ev.isWr] at h'

/-- No writes, then a barrier, then whatever. -/
theorem release_after {a b : List Ev} (h : ∀ e ∈ a, e.isWr = false) : IsRelease (a ++ .full :: b) := by
  refine release_of_full ?_
  rintro j ⟨r, m, hj⟩
  refine ⟨a.length, ?_, by simp⟩
  rcases Nat.lt_or_ge j a.length with h1 | h1
  · rw [List.getElem?_append_left h1] at hj
    have := h _ (List.mem_of_getElem? hj)
    simp [Ev.isWr] at this
  · rcases Nat.eq_or_lt_of_le h1 with rfl | h1
    · simp at hj
    · exact h1

end Verif.Arm
