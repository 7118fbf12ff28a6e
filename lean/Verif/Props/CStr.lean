import Verif.Detect.CStr
set_option autoImplicit false
/-!
# Names handed to the operating system arrive unchanged (C53)
-/
namespace Verif.Detect.CStr

/-- What C reads at a pointer to these bytes: everything before the first NUL; `none` if it would run
past the end. -/
def readC : List (BitVec 8) → Option (List (BitVec 8))
  | [] => none
  | b :: bs => if b = 0 then some [] else (readC bs).map (b :: ·)

theorem loop_eq (bytes : List Byte) (i : Nat) (hi : i ≤ bytes.length) :
    loop bytes i = some (decide (0 ∉ bytes.take i)) := by
  induction i with
  | zero => simp [loop]
  | succ i ih =>
    have hlt : i < bytes.length := hi
    have e : bytes[i]? = some bytes[i] := List.getElem?_eq_getElem hlt
    rw [loop, e, List.take_succ, e]
    by_cases hb : bytes[i] = 0
    · simp [hb]
    · have hb' : (0 : BitVec 8) ≠ bytes[i] := fun h => hb h.symm
      simp only [Option.bind_eq_bind, Option.bind_some, hb, if_false]
      refine (ih (by omega)).trans ?_
      congr 1
      apply decide_eq_decide.2
      simp only [Option.toList_some, List.mem_append, List.mem_singleton, hb', or_false]

/-- **C53.** The check never panics and accepts exactly the byte strings that end in NUL and have no other. -/
theorem is_c_str_iff (bytes : List (BitVec 8)) :
    ∃ b, isCStr bytes = some b ∧ (b = true ↔ ∃ s, bytes = s ++ [0] ∧ 0 ∉ s) := by
  rcases List.eq_nil_or_concat bytes with rfl | ⟨s, x, rfl⟩
  · exact ⟨false, rfl, by simp⟩
  · rw [List.concat_eq_append]
    have hne : (s ++ [x]).isEmpty = false := by simp
    have hlast : (s ++ [x])[(s ++ [x]).length - 1]? = some x := by simp
    have ht : (s ++ [x]).take ((s ++ [x]).length - 1) = s := by simp
    unfold isCStr
    rw [hne]
    dsimp only
    rw [hlast]
    by_cases hx : x = 0
    · subst hx
      refine ⟨decide (0 ∉ s), ?_, ?_⟩
      · refine (loop_eq _ _ (by omega)).trans ?_
        rw [ht]
      · simp
    · refine ⟨false, by simp; exact fun h => absurd h hx, ?_⟩
      simp only [Bool.false_eq_true, false_iff, not_exists, not_and]
      intro s' e
      exact absurd (List.cons.inj (List.append_inj' e rfl).2).1 hx

theorem readC_append (s : List (BitVec 8)) (h : 0 ∉ s) : readC (s ++ [0]) = some s := by
  induction s with
  | nil => rfl
  | cons b bs ih =>
    have hb : b ≠ 0 := fun e => h (e ▸ List.mem_cons_self)
    have hbs : 0 ∉ bs := fun e => h (List.mem_cons_of_mem _ e)
    show (if b = 0 then some [] else (readC (bs ++ [0])).map (b :: ·)) = _
    rw [if_neg hb, ih hbs]; rfl

/-- **C53.** A name that gets through compilation is the name the system reads, with no read past its
end; and only names containing a NUL do not get through. -/
theorem c_macro (s : List (BitVec 8)) :
    (∀ bytes, c s = some bytes → readC bytes = some s) ∧ (c s = none ↔ 0 ∈ s) := by
  obtain ⟨b, hb, hiff⟩ := is_c_str_iff (s ++ [0])
  have key : b = true ↔ 0 ∉ s := by
    rw [hiff]
    constructor
    · rintro ⟨s', e, h⟩
      rw [(List.append_inj' e rfl).1]; exact h
    · exact fun h => ⟨s, rfl, h⟩
  unfold c
  dsimp only
  rw [hb]
  cases b with
  | true =>
    have h0 := key.1 rfl
    refine ⟨fun bytes e => ?_, ⟨fun e => by simp at e, fun e => absurd e h0⟩⟩
    simp only [if_true, Option.some.injEq] at e
    subst e
    exact readC_append s h0
  | false =>
    have h0 : 0 ∈ s := Classical.byContradiction fun h => by cases key.2 h
    exact ⟨fun bytes e => by simp at e, ⟨fun _ => h0, fun _ => by simp⟩⟩

/-- The bytes of an ASCII literal. -/
def ascii (s : String) : List (BitVec 8) := s.toList.map fun ch => BitVec.ofNat 8 ch.toNat

/-- Names the probes use (`imp/detect/auxv.rs`, `aarch64_apple.rs`, `aarch64_aa64reg.rs`). -/
example : ∀ n ∈ ["getauxval", "elf_aux_info", "ro.arch", "machdep.cpu0.cpu_id",
    "hw.optional.arm.FEAT_LSE", "hw.optional.armv8_1_atomics", "hw.optional.arm.FEAT_LSE2"],
    (c (ascii n)).bind readC = some (ascii n) := by decide +kernel

/-- One with an interior NUL is refused. -/
example : c [0x61, 0, 0x62] = none := by decide +kernel

end Verif.Detect.CStr
