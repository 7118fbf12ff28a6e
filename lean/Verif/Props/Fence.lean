import Verif.Fence.Code
/-!
# Fences (C50)
-/
set_option autoImplicit false
namespace Verif.Fence

theorem works_single (o : MemOrd) (f : List Ev) : Works .single o f := by
  intro pre post i j a b hi hj ha hb _
  have := (List.getElem?_eq_some_iff.1 hb).1
  exact ⟨by omega, this, trivial⟩

theorem works_sync (w : Hw) (o : MemOrd) : Works w o [.sync] := by
  intro pre post i j a b hi hj ha hb _
  have hl := (List.getElem?_eq_some_iff.1 hb).1
  simp only [List.length_cons, List.length_nil] at hj
  have hk : (pre ++ [Ev.sync] ++ post)[pre.length]? = some .sync := by simp
  refine ⟨by omega, hl, ?_⟩
  cases w with
  | single => trivial
  | x86 => exact Or.inr ⟨pre.length, by omega, by omega, hk⟩
  | barriers => exact ⟨pre.length, by omega, by omega, hk⟩

theorem works_x86 {o : MemOrd} (ho : o ≠ .seqCst) : Works .x86 o [] := by
  intro pre post i j a b hi hj ha hb hn
  have hl := (List.getElem?_eq_some_iff.1 hb).1
  simp only [List.length_nil] at hj
  have hi' : (pre ++ [] ++ post)[i]? = some a := by
    rw [List.append_nil, List.getElem?_append_left hi, ha]
  refine ⟨by omega, hl, Or.inl ?_⟩
  rw [hi', hb]
  rintro ⟨h1, h2⟩
  cases h1; cases h2
  cases o <;> simp [Needs] at hn ho

/-- **C50a.** Whatever the target, `fence` panics exactly for `Relaxed`. (`core`'s fence: assumed.) -/
theorem fence_panics (c : Cfg) (core : MemOrd → Option (List Ev)) (hc : ∀ o, core o = none ↔ o = .relaxed) (o : MemOrd) :
    c.impl.fence core o = none ↔ o = .relaxed := by
  cases c.impl <;> cases o <;> simp [Impl.fence, msp430Fence, msp430CompilerFence, x86Fence, coreX86, armLinuxFence, hc]

/-- **C50b.** A fence that returns has ordered what its ordering promises, on the target's hardware: after an acquire fence
nothing moves before earlier loads, before a release fence nothing moves after later stores, and a `SeqCst` fence keeps
everything before it before everything after it. (`core`'s fence: assumed.) -/
theorem fence_works (c : Cfg) (core : MemOrd → Option (List Ev)) (hc : ∀ o f, core o = some f → Works c.hw o f)
    (o : MemOrd) (f : List Ev) (h : c.impl.fence core o = some f) : Works c.hw o f := by
  obtain ⟨m, x, a, mi, as, l, v⟩ := c
  cases m with
  | true => exact works_single o f
  | false =>
    cases x with
    | true =>
      cases hi : (⟨false, true, a, mi, as, l, v⟩ : Cfg).impl with
      | msp430 =>
        exfalso
        revert hi
        clear h hc
        cases a <;> cases mi <;> cases as <;> cases l <;> cases v <;> decide
      | core => rw [hi] at h; exact hc o f h
      | armLinux =>
        rw [hi] at h
        simp only [Impl.fence, armLinuxFence] at h
        cases o <;> simp at h <;> subst h <;> exact works_sync _ _
      | x86 =>
        rw [hi] at h
        simp only [Impl.fence, x86Fence] at h
        split at h
        · cases h; exact works_sync _ _
        · rename_i ho
          cases o <;> simp [coreX86] at h <;> subst h <;> exact works_x86 ho
    | false =>
      cases hi : (⟨false, false, a, mi, as, l, v⟩ : Cfg).impl with
      | msp430 =>
        exfalso
        revert hi
        clear h hc
        cases a <;> cases mi <;> cases as <;> cases l <;> cases v <;> decide
      | core => rw [hi] at h; exact hc o f h
      | armLinux =>
        rw [hi] at h
        simp only [Impl.fence, armLinuxFence] at h
        cases o <;> simp at h <;> subst h <;> exact works_sync _ _
      | x86 => simp [Cfg.impl] at hi; split at hi <;> simp_all

/-- **C50c.** The `compiler_fence` of MSP430 panics exactly for `Relaxed`; on that single core it orders what an ordinary
fence does. -/
theorem msp430_compiler_fence (o : MemOrd) :
    (msp430CompilerFence o = none ↔ o = .relaxed) ∧ ∀ f, msp430CompilerFence o = some f → Works .single o f :=
  ⟨by cases o <;> simp [msp430CompilerFence], fun f _ => works_single o f⟩

/-- **C50d.** The locked instruction of a `SeqCst` fence on x86 is necessary: without one a store before the fence may be
delayed past a load after it. -/
theorem x86_needs_locked (f : List Ev) (hf : Works .x86 .seqCst f) : .sync ∈ f := by
  have h := hf [.wr] [.rd] 0 (1 + f.length) .wr .rd (by simp) (by simp) rfl
    (by
      rw [List.getElem?_append_right (by simp; omega)]
      simp; rw [Nat.add_comm, Nat.sub_self]; rfl) trivial
  obtain ⟨-, -, h | ⟨k, h1, h2, h3⟩⟩ := h
  · exfalso
    refine h ⟨rfl, ?_⟩
    rw [List.getElem?_append_right (by simp; omega)]
    simp; rw [Nat.add_comm, Nat.sub_self]; rfl
  · have hk : ([Ev.wr] ++ f ++ [Ev.rd])[k]? = f[k - 1]? := by
      rw [List.append_assoc, List.getElem?_append_right (by simp; omega)]
      rw [List.getElem?_append_left (by simp; omega)]
      simp
    rw [hk] at h3
    exact List.mem_of_getElem? h3

/-! ## Concrete cases -/

/-- Ordinary x86_64 Linux uses the crate's own fence; pre-v6 Arm Linux the kernel helper. -/
example : (⟨false, true, false, false, true, true, false⟩ : Cfg).impl = .x86 := by decide
example : (⟨false, false, true, false, true, true, false⟩ : Cfg).impl = .armLinux := by decide
example : (⟨true, false, false, false, true, false, false⟩ : Cfg).impl = .msp430 := by decide
/-- `core`'s fence may be anything that meets the assumptions, e.g. a full barrier. -/
example : (∀ o, armLinuxFence o = none ↔ o = .relaxed) ∧ ∀ w o f, armLinuxFence o = some f → Works w o f :=
  ⟨by intro o; cases o <;> simp [armLinuxFence], by
    intro w o f h
    cases o <;> simp [armLinuxFence] at h <;> subst h <;> exact works_sync _ _⟩
/-- On hardware that only respects barriers an acquire fence without instruction would not work. -/
example : ¬ Works .barriers .acquire [] := by
  intro h
  obtain ⟨-, -, k, h1, h2, h3⟩ := h [.rd] [.rd] 0 1 .rd .rd (by decide) (by decide) rfl rfl rfl
  match k with
  | 0 => simp at h3
  | 1 => simp at h3
  | k + 2 => omega

end Verif.Fence
