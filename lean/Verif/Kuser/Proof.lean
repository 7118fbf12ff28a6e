import Verif.Spec.Kuser
import Verif.Wide.Ops
/-!
# The 64-bit back end of pre-v6 Arm Linux implements the operations (C47): proof
-/
set_option autoImplicit false
namespace Verif.Kuser
open Verif.Object Verif.Lf Verif.Asm Verif.Wide

theorem hi_lo (x : BitVec 64) : hi x ++ lo x = x := by
  apply BitVec.eq_of_toNat_eq
  simp only [hi, lo, BitVec.toNat_append, BitVec.extractLsb'_toNat, Nat.shiftRight_eq_div_pow, Nat.shiftLeft_eq]
  have := x.isLt
  have h := Nat.two_pow_add_eq_or_of_lt (b := x.toNat / 2 ^ 0 % 2 ^ 32) (i := 32) (by omega) (x.toNat / 2 ^ 32 % 2 ^ 32)
  rw [Nat.mul_comm] at h
  rw [← h]
  omega

theorem join_words (e : Pair.Endian) (x : BitVec 64) : join e (word0 e x) (word1 e x) = x := by
  cases e <;> exact hi_lo x

/-- What `Call.result` makes of the value found. -/
def ret : Op64 → BitVec 64 → Res (BitVec 64)
  | .store _, _ => .unit
  | .cas old _, x | .casWeak old _, x => if x == old then .ok x else .err x
  | _, x => .val x

theorem result_eq (c : Call) (s : St) : c.result s = ret c.op s.prev := by
  unfold Call.result ret; cases c.op <;> rfl

/-- The new values are the specified ones. -/
theorem next_sem (op : Op64) (x : BitVec 64) : op.Sem x (next op x) (ret op x) := by
  cases op with
  | load => exact ⟨rfl, rfl⟩
  | store v => exact ⟨rfl, rfl⟩
  | swap v => exact ⟨rfl, rfl⟩
  | cas old new =>
    by_cases h : x = old
    · exact Or.inl ⟨h, by simp [next, h], by simp [ret, h]⟩
    · exact Or.inr ⟨h, by simp [next, h], by simp [ret, h]⟩
  | casWeak old new =>
    by_cases h : x = old
    · exact Or.inl ⟨h, by simp [next, h], by simp [ret, h]⟩
    · exact Or.inr ⟨by simp [next, h], by simp [ret, h]⟩
  | rmw3 p v => exact rmw3_sem p v x _ (by cases p <;> rfl)
  | rmw2 p =>
    have := rmw2_sem p x
    cases p <;> exact this

variable {E : Env} {c : Call}

theorem wordAt0 (e : Pair.Endian) (a : BitVec 32) : wordAt e a (a + 0) = some (word0 e) := by
  simp [wordAt]

theorem wordAt4 (e : Pair.Endian) (a : BitVec 32) : wordAt e a (a + 4) = some (word1 e) := by
  have h1 : ¬ a + 4 = a := by
    intro h
    have := congrArg BitVec.toNat h
    have h4 : (4 : BitVec 32).toNat = 4 := rfl
    rw [BitVec.toNat_add, h4] at this
    have := a.isLt
    omega
  simp [wordAt, h1]

theorem sem_ldrLo {s : St} (h : s.src = c.addr) :
    (blocks E).sem c (.ldrLo 0) s = .acc (.op (.load .relaxed)) (s.gotLo (word0 E.endian)) := by
  simp only [blocks, Ins.sem, h, wordAt0]

theorem sem_ldrHi {s : St} (h : s.src = c.addr) :
    (blocks E).sem c (.ldrHi 4) s = .acc (.op (.load .relaxed)) (s.gotHi (word1 E.endian)) := by
  simp only [blocks, Ins.sem, h, wordAt4]

/-- The helper's access. -/
def kuserAcc (E : Env) (s : St) : Acc (BitVec 64) :=
  if E.spurious then .casWeak s.prev s.next .relaxed .relaxed else .op (.cas s.prev s.next .relaxed .relaxed)

theorem sem_kuser {s : St} (hh : E.helper = true) (h : s.src = c.addr) :
    (blocks E).sem c .kuser s = .acc (kuserAcc E s) s.called := by
  simp only [blocks, Ins.sem, hh, h, kuserAcc, and_self, if_true]
  cases E.spurious <;> rfl

theorem kuserAcc_sem {s : St} {x x' : BitVec 64} {r : Res (BitVec 64)} (h : (kuserAcc E s).sem x x' r) :
    (x = s.prev ∧ x' = s.next ∧ r = .ok x) ∨ (x' = x ∧ r = .err x ∧ (E.spurious = false → x ≠ s.prev)) := by
  unfold kuserAcc at h
  cases hsp : E.spurious
  · rw [hsp, if_neg (by simp)] at h
    rcases sem_cas h with h | ⟨h1, h2, h3⟩
    · exact Or.inl h
    · exact Or.inr ⟨h2, h3, fun _ => h1⟩
  · rw [hsp, if_pos rfl] at h
    rcases h with h | ⟨-, h2, h3⟩
    · rcases sem_cas h with h | ⟨h1, h2, h3⟩
      · exact Or.inl h
      · exact Or.inr ⟨h2, h3, by simp⟩
    · exact Or.inr ⟨h2, h3, by simp⟩

theorem block_loop (hk : E.hasKuser = true) (c : Call) : c.block E = .loop := by
  unfold Call.block select; rw [if_pos hk]

theorem helper_of (hE : E.Ok) (hk : E.hasKuser = true) : E.helper = true := by
  unfold Env.hasKuser at hk
  cases h : E.detectFalse
  · rw [h] at hk; simp at hk; exact hE hk
  · rw [h] at hk; simp at hk

theorem prog_loop (hk : E.hasKuser = true) (c : Call) :
    (blocks E).prog c = [.ldrLo 0, .ldrHi 4, .setPrev, .setNext (next c.op), .kuser, .ifFailed 0] := by
  show (c.block E).code c.op = _
  rw [block_loop hk]; rfl

/-- State when the helper is called. -/
def Ready (c : Call) (s : St) : Prop := s.src = c.addr ∧ s.next = next c.op s.prev

theorem ready (hk : E.hasKuser = true) {s : St} (h : s.src = c.addr) :
    ∃ s', Go (blocks E) c 2 s 4 s' ∧ Ready c s' ∧ s'.prev = join E.endian s.outLo s.outHi := by
  refine ⟨{ s with prev := join E.endian s.outLo s.outHi, next := next c.op (join E.endian s.outLo s.outHi) },
    ?_, ⟨h, rfl⟩, rfl⟩
  exact .go (i := .setPrev) (by rw [prog_loop hk]; rfl) rfl
    (.go (i := .setNext (next c.op)) (by rw [prog_loop hk]; rfl) rfl (.refl _ _))

/-- After the helper. -/
theorem after_kuser (hk : E.hasKuser = true) {s : St} (hr : Ready c s) {x x' : BitVec 64} {r : Res (BitVec 64)}
    (h : (kuserAcc E s).sem x x' r) :
    (∃ s', Go (blocks E) c 5 (s.called r) 6 s' ∧ spec.sem c x x' (some ((blocks E).out c s'))) ∨
    (x' = x ∧ (E.spurious = false → x ≠ s.prev) ∧
      ∃ s', Go (blocks E) c 5 (s.called r) 0 s' ∧ s'.src = c.addr) := by
  rcases kuserAcc_sem h with ⟨h1, h2, rfl⟩ | ⟨h1, rfl, h3⟩
  · refine Or.inl ⟨{ s with changed := true }, ?_, _, rfl, ?_⟩
    · exact .br (i := .ifFailed 0) (b := false) (n := 0) (by rw [prog_loop hk]; rfl) rfl (.refl _ _)
    · have e : (blocks E).out c { s with changed := true } = ret c.op s.prev := result_eq c _
      rw [e, h2, hr.2, ← h1]
      exact next_sem _ _
  · refine Or.inr ⟨h1, h3, { s with changed := false }, ?_, hr.1⟩
    exact .br (i := .ifFailed 0) (b := true) (n := 0) (by rw [prog_loop hk]; rfl) rfl (.refl _ _)

theorem gotLo_src (s : St) (f) (r) : (s.gotLo f r).src = s.src := by cases r <;> rfl
theorem gotHi_src (s : St) (f) (r) : (s.gotHi f r).src = s.src := by cases r <;> rfl

theorem p0 (hk : E.hasKuser = true) : ((blocks E).prog c)[0]? = some (.ldrLo 0) := by rw [prog_loop hk]; rfl
theorem p1 (hk : E.hasKuser = true) : ((blocks E).prog c)[1]? = some (.ldrHi 4) := by rw [prog_loop hk]; rfl
theorem p4 (hk : E.hasKuser = true) : ((blocks E).prog c)[4]? = some .kuser := by rw [prog_loop hk]; rfl
theorem p6 (hk : E.hasKuser = true) : ((blocks E).prog c)[6]? = none := by rw [prog_loop hk]; rfl

/-- Correct at every access. -/
def points (hE : E.Ok) (hk : E.hasKuser = true) (c : Call) : Points (blocks E) spec c where
  P pc s e := e = none ∧ ((pc = 0 ∧ s.src = c.addr) ∨ (pc = 1 ∧ s.src = c.addr) ∨ (pc = 4 ∧ Ready c s))
  G _ _ _ := True
  start := ⟨0, (blocks E).entry c, .refl _ _, rfl, Or.inl ⟨rfl, rfl⟩⟩
  ok := by
    rintro pc s e ⟨rfl, ⟨rfl, hs⟩ | ⟨rfl, hs⟩ | ⟨rfl, hs⟩⟩
    · refine ⟨_, p0 hk, ?_⟩
      rw [sem_ldrLo hs]
      intro x x' r hr
      obtain ⟨rfl, rfl⟩ := Points.load_relaxed hr
      exact Or.inl ⟨1, _, none, .refl _ _, ⟨rfl, Or.inr (Or.inl ⟨rfl, hs⟩)⟩, rfl, fun _ => trivial, by simp⟩
    · refine ⟨_, p1 hk, ?_⟩
      rw [sem_ldrHi hs]
      intro x x' r hr
      obtain ⟨rfl, rfl⟩ := Points.load_relaxed hr
      obtain ⟨s', h1, h2, -⟩ := ready hk (s := s.gotHi (word1 E.endian) (.val x')) hs
      exact Or.inl ⟨4, s', none, h1, ⟨rfl, Or.inr (Or.inr ⟨rfl, h2⟩)⟩, rfl, fun _ => trivial, by simp⟩
    · refine ⟨_, p4 hk, ?_⟩
      rw [sem_kuser (helper_of hE hk) hs.1]
      intro x x' r hr
      rcases after_kuser hk hs hr with ⟨s', h1, h2⟩ | ⟨rfl, -, s', h1, h2⟩
      · exact Or.inr ⟨6, s', h1, p6 hk, Or.inl h2⟩
      · exact Or.inl ⟨0, s', none, h1, ⟨rfl, Or.inl ⟨rfl, h2⟩⟩, rfl, fun _ => trivial, by simp⟩

/-- Left alone, with a helper that does not fail for no reason, a call ends. -/
theorem ends (hE : E.Ok) (hk : E.hasKuser = true) (hsp : E.spurious = false) (c : Call) (x : BitVec 64) :
    Ends (blocks E) c (fun r y => spec.sem c x y r) 0 ((blocks E).entry c) false x := by
  refine Ends.acc (p0 hk) (sem_ldrLo rfl) fun x' r hr => ?_
  obtain ⟨rfl, rfl⟩ := Points.load_relaxed hr
  refine Ends.acc (p1 hk) (sem_ldrHi rfl) fun x'' r hr => ?_
  obtain ⟨rfl, rfl⟩ := Points.load_relaxed hr
  generalize hs1 : (((blocks E).entry c).gotLo (word0 E.endian) (.val x'')).gotHi (word1 E.endian) (.val x'') = s1
  have hsrc : s1.src = c.addr := by rw [← hs1]; rfl
  have hj : join E.endian s1.outLo s1.outHi = x'' := by rw [← hs1]; exact join_words _ _
  obtain ⟨s', h1, h2, h3⟩ := ready (E := E) (c := c) hk hsrc
  refine Ends.go h1 (Ends.acc (p4 hk) (sem_kuser (helper_of hE hk) h2.1) fun y r hr => ?_)
  rcases after_kuser hk h2 hr with ⟨s2, k1, k2⟩ | ⟨rfl, h, -⟩
  · exact Ends.go k1 (Ends.done (p6 hk) k2)
  · exact absurd (by rw [h3, hj]) (h hsp)

end Verif.Kuser
