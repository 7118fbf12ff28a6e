import Verif.Fallback.Facts
import Verif.Fallback.Run
/-!
# The wrap-around bound is exact (proof internals)

With the narrow lock and two chunks, a load overtaken by exactly `2^(W-1)` stores can return a torn
value.
-/
namespace Verif
namespace Fallback
set_option linter.unusedSectionVars false
variable {V : Type} [DecidableEq V]

namespace Cfg
variable {c : Cfg V}

/-- One action of a thread, by its effect. -/
theorem adv {s : State V c.W} {t : Tid} {pc pc' : Pc V c.W} {a : Act c.W} (hpc : s.pc t = pc)
    (ha : c.act pc = some a) (hn : c.next pc (execSC s.mem a).2 = pc') :
    ∃ s', c.Step s none s' ∧ s'.mem = (execSC s.mem a).1 ∧ s'.pc = Function.update s.pc t pc' := by
  subst hpc
  exact ⟨_, .act s t a ha, rfl, by simp only [doAct, hn]⟩

/-- One complete store by an idle thread when the lock is free (narrow lock, two chunks). -/
theorem one_store (ok : c.Ok) (hw : c.wide = false) (hn : ∀ o, c.n o = 2) (s : State V c.W) (t : Tid) (o : Obj) (v : V)
    (h1 : s.pc t = .idle) (hlo : s.mem (.lo (c.lockOf o)) ≠ 1) :
    ∃ s' : State V c.W,
      Exec c.Step s [.inv t o (.store v .relaxed), .ret t .unit] s' ∧
      s'.pc = s.pc ∧ s'.mem (.lo (c.lockOf o)) = s.mem (.lo (c.lockOf o)) + 2 ∧
      (∀ i, i < 2 → s'.mem (.chunk o i) = c.split o v i) := by
  have e1 := Step.inv (c := c) s t o (.store v .relaxed) h1 (ok.fits _ _)
  generalize hs1 : ({ s with pc := Function.update s.pc t (c.start ⟨o, .store v .relaxed⟩)
                             start := Function.update s.start t (s.ver (c.lockOf o)) } :
                             State V c.W) = s1 at e1
  have m1 : s1.mem = s.mem := by rw [← hs1]
  have p1 : s1.pc = Function.update s.pc t (.swapLock ⟨o, .store v .relaxed⟩) := by rw [← hs1]; rfl
  obtain ⟨s2, e2, m2, p2⟩ := adv (s := s1) (t := t) (pc := .swapLock ⟨o, .store v .relaxed⟩)
    (pc' := .relFence ⟨o, .store v .relaxed⟩ (s.mem (.lo (c.lockOf o)))) (by rw [p1]; simp) rfl
    (by simp only [execSC, m1, next]; exact if_neg hlo)
  obtain ⟨s3, e3, m3, p3⟩ := adv (s := s2) (t := t)
    (pc := .relFence ⟨o, .store v .relaxed⟩ (s.mem (.lo (c.lockOf o)))) (by rw [p2]; simp) rfl rfl
  obtain ⟨s4, e4, m4, p4⟩ := adv (s := s3) (t := t)
    (pc := .wrChunk ⟨o, .store v .relaxed⟩ (s.mem (.lo (c.lockOf o))) 0 (c.split o v) .unit)
    (pc' := .wrChunk ⟨o, .store v .relaxed⟩ (s.mem (.lo (c.lockOf o))) 1 (c.split o v) .unit)
    (by rw [p3]; simp [next, locked, startWrite]) rfl (by simp [next, hn])
  obtain ⟨s5, e5, m5, p5⟩ := adv (s := s4) (t := t)
    (pc := .wrChunk ⟨o, .store v .relaxed⟩ (s.mem (.lo (c.lockOf o))) 1 (c.split o v) .unit)
    (pc' := .dropStore ⟨o, .store v .relaxed⟩ (s.mem (.lo (c.lockOf o))) .unit)
    (by rw [p4]; simp) rfl (by simp [next, hn, dropGuard, hw])
  obtain ⟨s6, e6, m6, p6⟩ := adv (s := s5) (t := t)
    (pc := .dropStore ⟨o, .store v .relaxed⟩ (s.mem (.lo (c.lockOf o))) .unit)
    (pc' := .ret .unit) (by rw [p5]; simp) rfl (by simp [next, finish, wantsSc])
  have e7 := Step.ret (c := c) s6 t .unit (by rw [p6]; simp)
  refine ⟨{ s6 with pc := Function.update s6.pc t .idle }, (Exec.ev (Exec.tau (Exec.tau (Exec.tau
    (Exec.tau (Exec.tau (Exec.ev (.refl s) e1) e2) e3) e4) e5) e6) e7), ?_, ?_, ?_⟩
  · simp only [p6, p5, p4, p3, p2, p1, Function.update_idem]
    rw [← h1]; exact Function.update_eq_self _ _
  · simp only [m6, execSC, Function.update_self]
  · intro i hi
    simp only [m6, m5, m4, execSC]
    rcases (by omega : i = 0 ∨ i = 1) with rfl | rfl
    · rw [Function.update_of_ne (by simp), Function.update_of_ne (by simp), Function.update_self]
    · rw [Function.update_of_ne (by simp), Function.update_self]

/-- The history of `m` such stores. -/
def storesHist (t : Tid) (o : Obj) (v : V) : Nat → List (Ev V)
  | 0 => []
  | m + 1 => storesHist t o v m ++ [.inv t o (.store v .relaxed), .ret t .unit]

theorem many_stores (ok : c.Ok) (hw : c.wide = false) (hn : ∀ o, c.n o = 2) (s : State V c.W) (t : Tid) (o : Obj)
    (v : V) (h1 : s.pc t = .idle) (w : Nat) (hlo : s.mem (.lo (c.lockOf o)) = c.stamp w) (m : Nat) :
    ∃ s' : State V c.W, Exec c.Step s (storesHist t o v (m + 1)) s' ∧ s'.pc = s.pc ∧
      s'.mem (.lo (c.lockOf o)) = c.stamp (w + (m + 1)) ∧
      (∀ i, i < 2 → s'.mem (.chunk o i) = c.split o v i) := by
  induction m with
  | zero =>
    obtain ⟨s', x, p, l, ch⟩ := one_store ok hw hn s t o v h1 (by rw [hlo]; exact stamp_ne_one ok.toSound _)
    exact ⟨s', x, p, by rw [l, hlo, stamp_add], ch⟩
  | succ m ih =>
    obtain ⟨s1, x1, p1, l1, -⟩ := ih
    obtain ⟨s', x, p, l, ch⟩ := one_store ok hw hn s1 t o v (by rw [p1]; exact h1)
      (by rw [l1]; exact stamp_ne_one ok.toSound _)
    exact ⟨s', x1.trans x, by rw [p, p1], by rw [l, l1, stamp_add]; rfl, ch⟩

/-- A load overtaken between its two word reads by `2^(W-1)` stores of `v` returns the first word of
the old value and the second word of `v`. -/
theorem torn_load (ok : c.Ok) (hw : c.wide = false) (hn : ∀ o, c.n o = 2) (cells : Obj → V)
    (v0 : Nat → Nat) (ext : Nat → BitVec c.W) (o : Obj) (v : V) :
    ∃ s, Exec c.Step (c.init cells v0 ext)
      ([.inv 0 o (.load .acquire)] ++ storesHist 1 o v (2 ^ (c.W - 1)) ++
        [.ret 0 (.val (c.join o fun i => if i = 0 then c.split o (cells o) 0 else c.split o v i))]) s := by
  let i0 := c.init cells v0 ext
  have hl0 : i0.mem (.lo (c.lockOf o)) = c.stamp (v0 (c.lockOf o)) := rfl
  have e1 := Step.inv (c := c) i0 0 o (.load .acquire) rfl trivial
  generalize hs1 : ({ i0 with pc := Function.update i0.pc 0 (c.start ⟨o, .load .acquire⟩)
                              start := Function.update i0.start 0 (i0.ver (c.lockOf o)) } :
                             State V c.W) = s1 at e1
  have m1 : s1.mem = i0.mem := by rw [← hs1]
  have p1 : s1.pc = Function.update i0.pc 0 (.optLo ⟨o, .load .acquire⟩ 0) := by
    rw [← hs1]; simp [start, enter, checks, MemOrd.assertLoad, wantsSc, hw]
  obtain ⟨s2, e2, m2, p2⟩ := adv (s := s1) (t := 0) (pc := .optLo ⟨o, .load .acquire⟩ 0)
    (pc' := .optChunk ⟨o, .load .acquire⟩ 0 (c.stamp (v0 (c.lockOf o))) 0 (fun _ => 0))
    (by rw [p1]; simp) rfl
    (by simp only [execSC, m1, next, hl0]; exact if_neg (stamp_ne_one ok.toSound _))
  obtain ⟨s3, e3, m3, p3⟩ := adv (s := s2) (t := 0)
    (pc := .optChunk ⟨o, .load .acquire⟩ 0 (c.stamp (v0 (c.lockOf o))) 0 (fun _ => 0))
    (pc' := .optChunk ⟨o, .load .acquire⟩ 0 (c.stamp (v0 (c.lockOf o))) 1
      (Function.update (fun _ => 0) 0 (c.split o (cells o) 0)))
    (by rw [p2]; simp) rfl
    (by simp only [execSC, m2, m1, next, hn]; rfl)
  have hlo3 : s3.mem (.lo (c.lockOf o)) = c.stamp (v0 (c.lockOf o)) := by
    simp only [m3, m2, m1, execSC]; rfl
  have hp31 : s3.pc 1 = .idle := by
    rw [p3, p2, p1]; simp [Function.update_of_ne]; rfl
  obtain ⟨b, hb⟩ : ∃ b, 2 ^ (c.W - 1) = b + 1 := ⟨2 ^ (c.W - 1) - 1, by
    have := Nat.two_pow_pos (c.W - 1); omega⟩
  obtain ⟨s4, x4, p4, l4, ch4⟩ := many_stores ok hw hn s3 1 o v hp31 _ hlo3 b
  have hp40 : s4.pc 0 = .optChunk ⟨o, .load .acquire⟩ 0 (c.stamp (v0 (c.lockOf o))) 1
      (Function.update (fun _ => 0) 0 (c.split o (cells o) 0)) := by rw [p4, p3]; simp
  obtain ⟨s5, e5, m5, p5⟩ := adv (s := s4) (t := 0) (pc' := .valFence ⟨o, .load .acquire⟩ 0
      (c.stamp (v0 (c.lockOf o))) (Function.update (Function.update (fun _ => 0) 0
        (c.split o (cells o) 0)) 1 (c.split o v 1))) hp40 rfl
    (by simp only [execSC, next, hn, ch4 1 (by omega)]; rfl)
  obtain ⟨s6, e6, m6, p6⟩ := adv (s := s5) (t := 0) (pc := .valFence ⟨o, .load .acquire⟩ 0
      (c.stamp (v0 (c.lockOf o))) (Function.update (Function.update (fun _ => 0) 0
        (c.split o (cells o) 0)) 1 (c.split o v 1))) (by rw [p5]; simp) rfl rfl
  have hl6 : s6.mem (.lo (c.lockOf o)) = c.stamp (v0 (c.lockOf o)) := by
    simp only [m6, m5, execSC]; rw [l4, ← hb]
    rw [stamp_inj ok.toSound]; show (_ + c.B) % c.B = _; simp
  obtain ⟨s7, e7, m7, p7⟩ := adv (s := s6) (t := 0) (pc := .valLo ⟨o, .load .acquire⟩ 0
      (c.stamp (v0 (c.lockOf o))) (Function.update (Function.update (fun _ => 0) 0
        (c.split o (cells o) 0)) 1 (c.split o v 1)))
    (pc' := .ret (.val (c.join o (Function.update (Function.update (fun _ => 0) 0
        (c.split o (cells o) 0)) 1 (c.split o v 1))))) (by rw [p6]; simp [next]) rfl
    (by simp only [execSC, next, hw, hl6]; simp [finish, wantsSc])
  have hj : c.join o (Function.update (Function.update (fun _ => 0) 0 (c.split o (cells o) 0)) 1
      (c.split o v 1)) = c.join o (fun i => if i = 0 then c.split o (cells o) 0 else c.split o v i) := by
    apply ok.join_congr
    intro i hi
    rw [hn] at hi
    rcases (by omega : i = 0 ∨ i = 1) with rfl | rfl <;> simp
  rw [hj] at p7
  have e8 := Step.ret (c := c) s7 0 _ (by rw [p7]; simp; rfl)
  have xa := Exec.tau (Exec.tau (Exec.ev (.refl i0) e1) e2) e3
  have xb := Exec.ev (Exec.tau (Exec.tau (Exec.tau (xa.trans x4) e5) e6) e7) e8
  rw [hb]
  exact ⟨_, xb⟩

/-- In a history of loads and stores of `v` on cells holding `x`, the specification only ever
returns `x` or `v`. -/
theorem spec_values {cells : Obj → V} {o : Obj} {v : V} {h : List (Ev V)}
    (hev : ∀ e ∈ h, (∃ t, e = .inv t o (.load .acquire)) ∨ (∃ t, e = .inv t o (.store v .relaxed)) ∨
      ∃ t r, e = .ret t r)
    (x : Atomic.Linearizable cells h) {t : Tid} {w : V} (hw : .ret t (.val w) ∈ h) :
    w = cells o ∨ w = v := by
  obtain ⟨s, x⟩ := x
  suffices H : (s.cell o = cells o ∨ s.cell o = v) ∧
      (∀ t, match s.th t with
        | .idle => True
        | .pending o' op => o' = o ∧ (op = .load .acquire ∨ op = .store v .relaxed)
        | .done r => ∀ w, r = .val w → w = cells o ∨ w = v) ∧
      (∀ t w, .ret t (.val w) ∈ h → w = cells o ∨ w = v) from H.2.2 t w hw
  clear hw
  generalize hi : Atomic.init cells = i at x
  induction x with
  | refl => subst hi; exact ⟨Or.inl rfl, fun t => trivial, by simp⟩
  | tau _ st ih =>
    obtain ⟨i1, i2, i3⟩ := ih hev
    cases st with
    | commit u o' op hp =>
      have hu := i2 u
      rw [hp] at hu
      obtain ⟨rfl, hop⟩ := hu
      refine ⟨?_, ?_, i3⟩
      · rcases hop with rfl | rfl <;> simp [Op.onCell, Op.ordOk, i1]
      · intro t
        by_cases e : t = u
        · subst e
          simp only [Function.update_self]
          rcases hop with rfl | rfl
          · intro w hw
            simp [Op.onCell, Op.ordOk] at hw
            subst hw; exact i1
          · intro w hw; simp [Op.onCell, Op.ordOk] at hw
        · simp only [Function.update_of_ne e]; exact i2 t
  | @ev h s1 ev s2 _ st ih =>
    obtain ⟨i1, i2, i3⟩ := ih (fun e he => hev e (by simp [he]))
    have hlast := hev ev (by simp)
    cases st with
    | inv u o' op hp =>
      refine ⟨i1, ?_, ?_⟩
      · intro t
        by_cases e : t = u
        · subst e
          simp only [Function.update_self]
          rcases hlast with ⟨t', h⟩ | ⟨t', h⟩ | ⟨t', r, h⟩
          · injection h with _ h1 h2; exact ⟨h1, Or.inl h2⟩
          · injection h with _ h1 h2; exact ⟨h1, Or.inr h2⟩
          · cases h
        · simp only [Function.update_of_ne e]; exact i2 t
      · intro t w hm
        simp at hm
        exact i3 t w hm
    | ret u r hp =>
      have hu := i2 u
      rw [hp] at hu
      refine ⟨i1, ?_, ?_⟩
      · intro t
        by_cases e : t = u
        · subst e; simp
        · simp only [Function.update_of_ne e]; exact i2 t
      · intro t w hm
        simp at hm
        rcases hm with hm | ⟨rfl, rfl⟩
        · exact i3 t w hm
        · exact hu w rfl

theorem storesHist_mem {t : Tid} {o : Obj} {v : V} {m : Nat} {e : Ev V}
    (h : e ∈ storesHist t o v m) : e = .inv t o (.store v .relaxed) ∨ e = .ret t .unit := by
  induction m with
  | zero => simp [storesHist] at h
  | succ m ih =>
    simp only [storesHist, List.mem_append] at h
    rcases h with h | h
    · exact ih h
    · simpa using h

end Cfg
end Fallback
end Verif
