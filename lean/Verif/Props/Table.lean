import Mathlib.Data.Nat.ModEq
import Mathlib.Data.Nat.Prime.Basic
import Mathlib.Tactic.NormNum.Prime
import Mathlib.Data.Fintype.EquivFin
import Verif.Fallback.Table
import Verif.Fallback.Code
/-!
# Properties of the lock table and of the back-off (C26, C27)
-/
namespace Verif
namespace Fallback
namespace Table

/-- **C26a.** For every address, indexing the table does not panic and yields the lock at position
`addr mod 67`, which is in range. -/
theorem lock_in_range (addr : Nat) : ∃ l, lock addr = some l ∧ l < 67 ∧ l = addr % 67 := by
  refine ⟨addr % 67, ?_, Nat.mod_lt _ (by omega), rfl⟩
  simp [lock, LOCKS, LEN, Nat.mod_lt]

/-- **C26b.** It is the lock the automaton model uses for every operation on the object. -/
theorem lock_same {V : Type} (c : Cfg V) (o : Obj) : lock (c.addr o) = some (c.lockOf o) := by
  obtain ⟨l, h1, -, h3⟩ := lock_in_range (c.addr o)
  rw [h1, h3]; rfl

/-- **C26c.** Any 67 consecutive array elements whose size is not a multiple of 67 (in particular 8
or 16 bytes) use 67 different locks: every lock is used by exactly one of them. -/
theorem locks_spread (base stride : Nat) (hs : stride % 67 ≠ 0) (l : Nat) (hl : l < 67) :
    ∃ i, i < 67 ∧ lock (base + i * stride) = some l ∧
      ∀ j, j < 67 → lock (base + j * stride) = some l → j = i := by
  have hinj : ∀ i j, i < 67 → j < 67 →
      (base + i * stride) % 67 = (base + j * stride) % 67 → i = j := by
    intro i j hi hj h
    have h1 : i * stride ≡ j * stride [MOD 67] := Nat.ModEq.add_left_cancel' base h
    have hc : Nat.Coprime 67 stride := by
      have hp : Nat.Prime 67 := by norm_num
      exact (Nat.Prime.coprime_iff_not_dvd hp).2 (fun hd => hs (Nat.mod_eq_zero_of_dvd hd))
    have h2 : i ≡ j [MOD 67] := Nat.ModEq.cancel_right_of_coprime hc h1
    have h3 : i % 67 = j % 67 := h2
    rwa [Nat.mod_eq_of_lt hi, Nat.mod_eq_of_lt hj] at h3
  have hlock : ∀ a, lock a = some l ↔ a % 67 = l := by
    intro a
    obtain ⟨m, h1, -, h3⟩ := lock_in_range a
    rw [h1, h3]; simp
  -- surjectivity on a finite set of the same size
  let f : Fin 67 → Fin 67 := fun i => ⟨(base + i.1 * stride) % 67, Nat.mod_lt _ (by omega)⟩
  have hf : Function.Injective f := by
    intro i j h
    apply Fin.ext
    exact hinj _ _ i.2 j.2 (congrArg Fin.val h)
  obtain ⟨i, hi⟩ := (Finite.injective_iff_surjective.1 hf) ⟨l, hl⟩
  have hi' : (base + i.1 * stride) % 67 = l := congrArg Fin.val hi
  refine ⟨i.1, i.2, (hlock _).2 hi', ?_⟩
  intro j hj h
  exact hinj _ _ hj i.2 (by rw [(hlock _).1 h, hi'])

example : (8 : Nat) % 67 ≠ 0 ∧ (16 : Nat) % 67 ≠ 0 := by decide

/-- **C27.** However often `snooze` is called, nothing overflows: the step counter is the number of
calls capped at 5; call number `i` spins `2^min(i,5)` times (at most 32), except that with `std` it
yields from the sixth call on. -/
theorem backoff_bounded (std : Bool) (n : Nat) :
    ∃ log, run std n = some (min n 5, log) ∧ log.length = n ∧
      ∀ i, i < n → log[i]? = some (if std ∧ 5 ≤ i then .yield else .spin (2 ^ min i 5)) := by
  induction n with
  | zero => exact ⟨[], rfl, rfl, by simp⟩
  | succ n ih =>
    obtain ⟨log, h1, h2, h3⟩ := ih
    have key : ∀ a, (∀ i, i < n + 1 → (log ++ [a])[i]?
        = some (if i < n then (if std ∧ 5 ≤ i then .yield else .spin (2 ^ min i 5)) else a)) := by
      intro a i hi
      by_cases hin : i < n
      · rw [List.getElem?_append_left (by omega), h3 i hin, if_pos hin]
      · have : i = log.length := by omega
        subst this; simp [h2]
    by_cases h : n ≤ 4
    · have hmin : min n 5 = n := by omega
      have hmin' : min (n + 1) 5 = n + 1 := by omega
      refine ⟨log ++ [.spin (2 ^ n)], ?_, by simp [h2], ?_⟩
      · simp only [run, h1, hmin, snooze, SPIN_LIMIT, h, if_true, shl1, hmin']
        rw [if_pos (by omega), if_pos (by omega)]
      · intro i hi
        rw [key _ i hi]
        by_cases hin : i < n
        · rw [if_pos hin]
        · have : i = n := by omega
          subst this
          rw [if_neg hin, if_neg (by omega), hmin]
    · have hmin : min n 5 = 5 := by omega
      have hmin' : min (n + 1) 5 = 5 := by omega
      refine ⟨log ++ [if std then .yield else .spin (2 ^ 5)], ?_, by simp [h2], ?_⟩
      · simp only [run, h1, hmin, snooze, SPIN_LIMIT, shl1, hmin']
        simp
      · intro i hi
        rw [key _ i hi]
        by_cases hin : i < n
        · rw [if_pos hin]
        · have : i = n := by omega
          subst this
          rw [if_neg hin, hmin]
          have h5 : 5 ≤ i := by omega
          simp [h5]

example : run false 7 = some (5, [.spin 1, .spin 2, .spin 4, .spin 8, .spin 16, .spin 32, .spin 32]) := by
  decide

end Table
end Fallback
end Verif
