import Verif.Irq.Bound
import Verif.Props.Irq
import Verif.Cs.Sim
/-!
# Operations that disable interrupts are short (C71)

`n` is the number of pieces (bytes, words) in which a value is read and written.
-/
set_option autoImplicit false
set_option linter.unusedSectionVars false
namespace Verif.Irq
open Verif.Object

variable {n : Nat} {C : Type} [DecidableEq C]

theorem Supported.short {a : Arch} (h : Supported a) : a.dis.length + a.res.length ≤ 6 := by
  cases h <;> first | decide | exact Nat.le_of_ble_eq_true rfl

/-- The context `t` is in an operation with at most `j` steps left. -/
def Left (K : Cfg n C) (t : Tid) (s : State K.arch.w n C) (j : Nat) : Prop :=
  ((s.top :: s.below).map Frame.tid).Nodup ∧
    ∃ f ∈ s.top :: s.below, f.tid = t ∧ ∃ pc, f.pc = some pc ∧ left K pc ≤ j

theorem Left.top {K : Cfg n C} {t s j} (h : Left K t s j) (ht : s.top.tid = t) :
    ∃ pc, s.top.pc = some pc ∧ left K pc ≤ j := by
  obtain ⟨h1, f, hf, hft, pc, hpc, hl⟩ := h
  rcases List.mem_cons.1 hf with rfl | hf
  · exact ⟨pc, hpc, hl⟩
  · exact absurd (List.mem_map.2 ⟨f, hf, hft.trans ht.symm⟩) (List.nodup_cons.1 h1).1

theorem Left.own {K : Cfg n C} {t s s' j} (h : Left K t s j) (h1 : s.top.tid = t) (h2 : s'.top.tid = t)
    (st : Step K s none s') : ∃ j', j' < j ∧ Left K t s' j' := by
  obtain ⟨pc, hpc, hl⟩ := h.top h1
  have hn := step_nodup st h.1
  generalize he : (none : Option (Object.Ev (Obj × Req (Val n C) × BitVec K.arch.w) (Res (Val n C) × BitVec K.arch.w))) = e at st
  cases st with
  | irq t' sr' _ ht =>
    simp only [List.map_cons, List.mem_cons, not_or] at ht
    exact absurd (h2.trans h1.symm) ht.1
  | iret f rest h' => rw [hpc] at h'; cases h'
  | user _ _ h' => rw [hpc] at h'; cases h'
  | inv => cases he
  | ret => cases he
  | act pc0 m' sr' win' pc' h' ha =>
    obtain rfl : pc0 = pc := by rw [hpc] at h'; exact (Option.some.inj h').symm
    exact ⟨left K pc', Nat.lt_of_lt_of_le (left_act ha) hl, hn, _, List.mem_cons_self .., h2, pc', rfl, Nat.le_refl _⟩

theorem Left.other {K : Cfg n C} {t s e s' j} (h : Left K t s j) (ho : s.top.tid ≠ t ∨ s'.top.tid ≠ t)
    (st : Step K s e s') : Left K t s' j := by
  refine ⟨step_nodup st h.1, ?_⟩
  obtain ⟨-, f, hf, hft, pc, hpc, hl⟩ := h
  have low : s.top.pc = none ∨ s.top.tid ≠ t → f ∈ s.below := by
    intro hh
    rcases List.mem_cons.1 hf with rfl | hf
    · rcases hh with hh | hh
      · rw [hpc] at hh; cases hh
      · exact absurd hft hh
    · exact hf
  cases st with
  | irq t' sr' _ ht => exact ⟨f, List.mem_cons_of_mem _ hf, hft, pc, hpc, hl⟩
  | iret g rest h' hb =>
    have := low (Or.inl h')
    rw [hb] at this
    exact ⟨f, this, hft, pc, hpc, hl⟩
  | user sr' win' h' => exact ⟨f, List.mem_cons_of_mem _ (low (Or.inl h')), hft, pc, hpc, hl⟩
  | inv o q h' => exact ⟨f, List.mem_cons_of_mem _ (low (Or.inl h')), hft, pc, hpc, hl⟩
  | act => exact ⟨f, List.mem_cons_of_mem _ (low (Or.inr (by simpa using ho))), hft, pc, hpc, hl⟩
  | ret => exact ⟨f, List.mem_cons_of_mem _ (low (Or.inr (by simpa using ho))), hft, pc, hpc, hl⟩

theorem Left.during {K : Cfg n C} {t s k s' j} (h : Left K t s j) (x : During K t s k s') :
    ∃ j', j' + k ≤ j ∧ Left K t s' j' := by
  induction x with
  | refl => exact ⟨j, by omega, h⟩
  | own _ h1 h2 st ih =>
    obtain ⟨j1, h3, h4⟩ := ih
    obtain ⟨j2, h5, h6⟩ := h4.own h1 h2 st
    exact ⟨j2, by omega, h6⟩
  | other _ ho st ih =>
    obtain ⟨j1, h3, h4⟩ := ih
    exact ⟨j1, h3, h4.other ho st⟩

theorem called {K : Cfg n C} (hK : Supported K.arch) {s t o q x s1} (hn : ((s.top :: s.below).map Frame.tid).Nodup)
    (st : Step K s (some (.inv t (o, q, x))) s1) : Left K t s1 (2 * n + 11) ∧ s1.top.tid = t := by
  have hn1 := step_nodup st hn
  have := hK.short
  generalize he : some (Object.Ev.inv t (o, q, x)) = e at st
  cases st with
  | irq => cases he
  | iret => cases he
  | user => cases he
  | act => cases he
  | ret => cases he
  | inv o' q' h' =>
    cases he
    exact ⟨⟨hn1, _, List.mem_cons_self .., rfl, _, rfl, by simp only [left]; omega⟩, rfl⟩

/-- **C71a.** On every supported architecture, an operation takes at most `2 * n + 11` steps of its own, whatever its
arguments, however often it is interrupted and whatever the interrupt handlers do to the same object: no operation
has a loop or waits. -/
theorem op_bounded (K : Cfg n C) (hK : Supported K.arch) (t0 : Tid) (m : Mem n C) (sr : BitVec K.arch.w) (win : Bool)
    (h s) (hx : Exec (Step K) (init t0 m sr win) h s) (t o q x s1) (hc : Step K s (some (.inv t (o, q, x))) s1)
    (k s2) (hd : During K t s1 k s2) : k ≤ 2 * n + 11 := by
  obtain ⟨a, _, hr⟩ := sim_exec hK.ok t0 m sr win hx
  obtain ⟨j, h1, _⟩ := (called hK hr.nodup hc).1.during hd
  omega

/-- **C71b.** And it never blocks: whenever the running context is in an operation, it can do the next step of it, or
return. -/
theorem op_never_blocks (K : Cfg n C) (hK : Supported K.arch) (t0 : Tid) (m : Mem n C) (sr : BitVec K.arch.w)
    (win : Bool) (h s) (hx : Exec (Step K) (init t0 m sr win) h s) (hp : s.top.pc ≠ none) :
    (∃ s', Step K s none s' ∧ s'.top.tid = s.top.tid ∧ s'.below = s.below ∧ s'.top.pc ≠ none) ∨
      ∃ r s', Step K s (some (.ret s.top.tid r)) s' ∧ s'.top.pc = none := by
  obtain ⟨a, _, hr⟩ := sim_exec hK.ok t0 m sr win hx
  have hat := hr.top
  cases hpc : s.top.pc with
  | none => exact absurd hpc hp
  | some pc =>
    rw [hpc] at hat
    rcases can_go (m := s.mem) (win := s.win) hat with ⟨r, rfl⟩ | ⟨m', sr', win', pc', ha⟩
    · exact Or.inr ⟨_, _, .ret s r hpc, rfl⟩
    · exact Or.inl ⟨_, .act s pc m' sr' win' pc' hpc ha, rfl, rfl, by simp⟩

/-- **C71c.** Hence the running operation, left alone, returns after at most `2 * n + 11` steps. -/
theorem op_returns (K : Cfg n C) (hK : Supported K.arch) (t0 : Tid) (m : Mem n C) (sr : BitVec K.arch.w) (win : Bool)
    (h s) (hx : Exec (Step K) (init t0 m sr win) h s) (t o q x s1) (hc : Step K s (some (.inv t (o, q, x))) s1) :
    ∃ k s2 r s3, k ≤ 2 * n + 11 ∧ During K t s1 k s2 ∧ Exec (Step K) s1 [] s2 ∧ s2.below = s1.below ∧
      Step K s2 (some (.ret t r)) s3 := by
  obtain ⟨a, _, hr⟩ := sim_exec hK.ok t0 m sr win hx
  obtain ⟨hl, ht⟩ := called hK hr.nodup hc
  have hx1 : Exec (Step K) (init t0 m sr win) (h ++ [.inv t (o, q, x)]) s1 := .ev hx hc
  suffices key : ∀ j k s2, Left K t s2 j → During K t s1 k s2 → Exec (Step K) s1 [] s2 → s2.top.tid = t →
      s2.below = s1.below → ∃ k' s3 r s4, During K t s1 k' s3 ∧ Exec (Step K) s1 [] s3 ∧ s3.below = s1.below ∧
        Step K s3 (some (.ret t r)) s4 by
    obtain ⟨k, s2, r, s3, h1, h2, h3, h4⟩ := key _ 0 s1 hl (.refl _) (.refl _) ht rfl
    exact ⟨k, s2, r, s3, op_bounded K hK t0 m sr win h s hx t o q x s1 hc k s2 h1, h1, h2, h3, h4⟩
  intro j
  induction j using Nat.strongRecOn with
  | ind j ih =>
    intro k s2 hl hd he ht hb
    have hx2 : Exec (Step K) (init t0 m sr win) (h ++ [.inv t (o, q, x)]) s2 := by
      have := Exec.trans hx1 he
      simpa using this
    obtain ⟨pc, hpc, _⟩ := hl.top ht
    rcases op_never_blocks K hK t0 m sr win _ s2 hx2 (by rw [hpc]; simp) with ⟨s', st, h1, h2, h3⟩ | ⟨r, s', st, h1⟩
    · obtain ⟨j', hj, hl'⟩ := hl.own ht (h1.trans ht) st
      exact ih j' hj (k + 1) s' hl' (.own hd ht (h1.trans ht) st) (.tau he st) (h1.trans ht) (h2.trans hb)
    · rw [ht] at st
      exact ⟨k, s2, r, s', hd, he, hb, st⟩

/-- **C71d.** Interrupt latency.  If interrupts are enabled when an operation is called, then from the call on there
are never more than `2 * n + 11` steps in a row before, between or after which no interrupt is taken: the operation
is over by then and interrupts are enabled again. -/
theorem latency_bounded (K : Cfg n C) (hK : Supported K.arch) (t0 : Tid) (m : Mem n C) (sr : BitVec K.arch.w)
    (win : Bool) (h s) (hx : Exec (Step K) (init t0 m sr win) h s) (hon : K.arch.enabled s.sr = true) (t o q x s1)
    (hc : Step K s (some (.inv t (o, q, x))) s1) (j s2) (hd : During K t s1 j s2) (ht2 : s2.top.tid = t)
    (k s3) (hm : Refused K s2 k s3) : k ≤ 2 * n + 11 ∧ s3.top.tid = t ∧ s3.top.pc ≠ none := by
  obtain ⟨a, _, hr⟩ := sim_exec hK.ok t0 m sr win hx
  obtain ⟨hl, ht⟩ := called hK hr.nodup hc
  obtain ⟨j', hj, hl2⟩ := hl.during hd
  -- what has happened so far
  have hx2 : ∃ h2, Exec (Step K) (init t0 m sr win) (h ++ [.inv t (o, q, x)] ++ h2) s2 ∧ ∀ e ∈ h2, ¬ e.of t := by
    clear hm ht2 hl2 hj
    induction hd with
    | refl => exact ⟨[], by simpa using Exec.ev hx hc, by simp⟩
    | own x' h1 h2 st ih =>
      obtain ⟨hh, h3, h4⟩ := ih
      exact ⟨hh, .tau h3 st, h4⟩
    | @other k0 s' e s'' x' ho st ih =>
      obtain ⟨hh, h3, h4⟩ := ih
      cases e with
      | none => exact ⟨hh, .tau h3 st, h4⟩
      | some e =>
        refine ⟨hh ++ [e], by rw [← List.append_assoc]; exact .ev h3 st, fun e' he' => ?_⟩
        rcases List.mem_append.1 he' with he' | he'
        · exact h4 e' he'
        · obtain rfl := List.mem_singleton.1 he'
          generalize hee : some e' = e0 at st
          cases st with
          | irq => cases hee
          | iret => cases hee
          | user => cases hee
          | act => cases hee
          | inv => cases hee; simpa [Object.Ev.of] using ho
          | ret => cases hee; simpa [Object.Ev.of] using ho
  obtain ⟨hh, hx2, hh2⟩ := hx2
  have hxx : x = s.sr &&& ~~~K.arch.flags := by
    generalize he : some (Object.Ev.inv t (o, q, x)) = e at hc
    cases hc <;> cases he
    rfl
  -- along the stretch
  suffices key : s3.top.tid = t ∧ Exec (Step K) (init t0 m sr win) (h ++ [.inv t (o, q, x)] ++ hh) s3 ∧
      ∃ i, i + k ≤ j' ∧ Left K t s3 i by
    obtain ⟨h1, _, i, h2, h3⟩ := key
    obtain ⟨pc, hpc, _⟩ := h3.top h1
    exact ⟨by omega, h1, by rw [hpc]; simp⟩
  have off : ∀ {s' k'}, Refused K s2 k' s' → K.arch.enabled s'.sr = false ∧ s'.win = false := by
    intro s' k' hr
    cases hr with
    | refl h hw => exact ⟨h, hw⟩
    | step _ _ h hw => exact ⟨h, hw⟩
  induction hm with
  | refl => exact ⟨ht2, hx2, j', by omega, hl2⟩
  | @step k' s' e s'' hm st hoff hw ih =>
    obtain ⟨h1, h2, i, h3, h4⟩ := ih
    obtain ⟨pc, hpc, _⟩ := h4.top h1
    obtain ⟨o1, o2⟩ := off hm
    have hst := st
    cases st with
    | irq t' sr' hen => rw [o1, o2] at hen; simp at hen
    | iret f rest h' => rw [hpc] at h'; cases h'
    | user _ _ h' => rw [hpc] at h'; cases h'
    | inv _ _ h' => rw [hpc] at h'; cases h'
    | act pc0 m' sr' win' pc' h' ha =>
      obtain ⟨i', h5, h6⟩ := h4.own (s' := _) h1 (by exact h1) hst
      exact ⟨h1, .tau h2 hst, i', by omega, h6⟩
    | ret r h' =>
      exfalso
      have ha : Answered (h ++ [.inv t (o, q, x)] ++ hh ++ [.ret t (r, s'.sr &&& ~~~K.arch.flags)]) t (o, q, x)
          (r, s'.sr &&& ~~~K.arch.flags) := ⟨h, hh, [], by simp, hh2⟩
      rw [h1] at hst
      have e := (status_restored K hK t0 m sr win _ _ (.ev h2 hst) t o q x _ r ha).2
      rw [masked_enabled hK.ok, hxx, masked_enabled hK.ok, hon, o1] at e
      cases e

/-! ## Concrete runs -/

/-- Do the next steps of the running operation. -/
def goes (K : Cfg n C) : List (Fin n) → State K.arch.w n C → Option (State K.arch.w n C)
  | [], s => some s
  | i :: is, s => (step? K s (.go i)).bind fun x => goes K is x.2

theorem goes_sound {K : Cfg n C} : ∀ (is : List (Fin n)) {s0 : State K.arch.w n C} {k s s'}, During K s.top.tid s0 k s →
    goes K is s = some s' → During K s.top.tid s0 (k + is.length) s' ∧ s'.top.tid = s.top.tid
  | [], _, _, _, _, x, h => by cases h; exact ⟨x, rfl⟩
  | i :: is, s0, k, s, s', x, h => by
    simp only [goes, Option.bind_eq_some_iff] at h
    obtain ⟨⟨e, s1⟩, h1, h2⟩ := h
    have st := step?_sound h1
    have he : e = none ∧ s1.top.tid = s.top.tid := by
      simp only [step?] at h1
      cases hp : s.top.pc with
      | none => simp [hp] at h1
      | some pc =>
        simp only [hp, Option.map_eq_some_iff] at h1
        obtain ⟨y, _, h3⟩ := h1
        cases h3
        exact ⟨rfl, rfl⟩
    obtain ⟨rfl, ht⟩ := he
    have x1 : During K s1.top.tid s0 (k + 1) s1 := by rw [ht]; exact .own x rfl ht st
    obtain ⟨h3, h4⟩ := goes_sound is x1 h2
    refine ⟨?_, h4.trans ht⟩
    rw [ht] at h3
    simpa [Nat.add_assoc, Nat.add_comm 1] using h3

/-- 16-bit objects on MSP430, in two bytes. -/
def msp16 : Cfg 2 (BitVec 8) where
  arch := msp430
  checked := true

def msp0 : State 16 2 (BitVec 8) := init 0 (fun _ => ![1, 2]) 0x8 false
def mspReq : Req (Val 2 (BitVec 8)) := ⟨.rmw (fun x => ![x 0 + 1, x 1]) .seqCst, false⟩
def mspCalled : State 16 2 (BitVec 8) := { msp0 with top := { msp0.top with pc := some (.start 0 mspReq) } }
/-- Start, three instructions of `disable`, enter, two reads, compute, two writes, leave, three instructions of
`restore`, end. -/
def mspGo : List (Fin 2) := [0, 0, 0, 0, 0, 0, 1, 0, 0, 1, 0, 0, 0, 0, 0]

/-- **The bound is reached:** on MSP430 a read-modify-write of a value in two pieces takes exactly `2 * 2 + 11` steps.
All hypotheses of C71a hold. -/
theorem bound_reached : ∃ s2, Step msp16 msp0 (some (.inv 0 (0, mspReq, 0x8#16))) mspCalled ∧
    During msp16 0 mspCalled (2 * 2 + 11) s2 ∧ ∃ r, s2.top.pc = some (.fin r) := by
  have h : ∃ s2, goes msp16 mspGo mspCalled = some s2 ∧ ∃ r, s2.top.pc = some (.fin r) := ⟨_, rfl, _, rfl⟩
  obtain ⟨s2, h1, h2⟩ := h
  have hc : Step msp16 msp0 (some (.inv 0 (0, mspReq, 0x8#16))) mspCalled := by
    have := Step.inv (K := msp16) msp0 0 mspReq rfl
    have e : (0x8#16 &&& ~~~0x107#16) = 0x8#16 := by decide
    rw [← e]
    exact this
  exact ⟨s2, hc, (goes_sound mspGo (.refl _) h1).1, h2⟩

/-- Is the interrupt refused at each of the next states? -/
def off (K : Cfg n C) : List (Fin n) → State K.arch.w n C → Bool
  | [], s => !K.arch.enabled s.sr && !s.win
  | i :: is, s => !K.arch.enabled s.sr && !s.win && match step? K s (.go i) with
    | some x => off K is x.2
    | none => false

theorem off_head {K : Cfg n C} {is : List (Fin n)} {s : State K.arch.w n C} (h : off K is s = true) :
    K.arch.enabled s.sr = false ∧ s.win = false := by
  cases is <;> simp [off] at h
  · exact h
  · exact h.1

theorem off_sound {K : Cfg n C} : ∀ (is : List (Fin n)) {s0 : State K.arch.w n C} {k s s'}, Refused K s0 k s →
    off K is s = true → goes K is s = some s' → Refused K s0 (k + is.length) s'
  | [], _, _, _, _, x, _, h => by cases h; exact x
  | i :: is, s0, k, s, s', x, ho, h => by
    simp only [goes, Option.bind_eq_some_iff] at h
    obtain ⟨⟨e, s1⟩, h1, h2⟩ := h
    simp only [off, h1, Bool.and_eq_true] at ho
    obtain ⟨h3, h4⟩ := off_head ho.2
    have := off_sound is (.step x (step?_sound h1) h3 h4) ho.2 h2
    simpa [Nat.add_assoc, Nat.add_comm 1] using this

/-- The same run has a stretch of eight steps during which no interrupt is taken, ended by the second instruction of
`restore`: the hypotheses of C71d hold. -/
theorem masked_stretch : ∃ s2 s3, msp16.arch.enabled msp0.sr = true ∧ During msp16 0 mspCalled 4 s2 ∧
    s2.top.tid = 0 ∧ Refused msp16 s2 8 s3 := by
  have h : ∃ s2 s3, goes msp16 (mspGo.take 4) mspCalled = some s2 ∧ off msp16 ((mspGo.drop 4).take 8) s2 = true ∧
      goes msp16 ((mspGo.drop 4).take 8) s2 = some s3 := ⟨_, _, rfl, by decide +kernel, rfl⟩
  obtain ⟨s2, s3, h1, h2, h3⟩ := h
  obtain ⟨h4, h5⟩ := goes_sound (mspGo.take 4) (.refl _) h1
  obtain ⟨h6, h7⟩ := off_head h2
  exact ⟨s2, s3, by decide, h4, h5, off_sound _ (.refl s2 h6 h7) h2 h3⟩

end Verif.Irq

namespace Verif.Cs
open Verif.Object Verif.Irq

variable {n : Nat} {C : Type} [DecidableEq C]

/-- At most this many steps are left. -/
def left : Pc n C → Nat
  | .start .. => 2 * n + 5
  | .native .. => 1
  | .acq .. => 2 * n + 4
  | .rd _ _ buf => unread buf + n + 3
  | .wr _ _ _ wrote _ => unwritten wrote + 2
  | .rel _ => 1
  | .fin _ => 0

theorem left_act {K : Cfg n C} {t s pc m' held' pc'} (h : Act K t s pc m' held' pc') : left pc' < left pc := by
  cases h with
  | panic => simp [left]
  | refuse => simp [left]
  | goNative => simp only [left]; omega
  | goAcq => simp [left]
  | nat => simp [left]
  | acqRd => simp only [left]; have := unread_le (fun _ => none : Fin n → Option C); omega
  | acqWr => simp only [left]; have := unwritten_le (fun _ => false : Fin n → Bool); omega
  | rd i hb => simp only [left]; have := unread_update hb; grind
  | rdRel => simp only [left]; omega
  | rdWr => simp only [left]; have := unwritten_le (fun _ => false : Fin n → Bool); omega
  | wr i hb => simp only [left]; have := unwritten_update hb; omega
  | wrRel => simp only [left]; omega
  | rel => simp [left]

theorem during_left {K : Cfg n C} {t s k s'} (x : During K t s k s') {pc} (h : s.th t = some pc) :
    ∃ pc', s'.th t = some pc' ∧ left pc' + k ≤ left pc := by
  induction x with
  | refl => exact ⟨pc, h, by omega⟩
  | own pc0 m' held' pc1 _ h1 ha hs ih =>
    obtain ⟨pc2, h2, h3⟩ := ih
    obtain rfl : pc0 = pc2 := by rw [h1] at h2; exact Option.some.inj h2
    have := left_act ha
    exact ⟨pc1, by rw [hs]; simp, by omega⟩
  | other _ h1 _ ih =>
    obtain ⟨pc2, h2, h3⟩ := ih
    exact ⟨pc2, h1.trans h2, h3⟩

/-- **C71e.** In a critical section an operation takes at most `2 * n + 5` steps of its own, at most `2 * n + 3` of
them inside. -/
theorem cs_op_bounded (K : Cfg n C) (t : Tid) (s : State n C) :
    (∀ o op, s.th t = some (.start o op) → ∀ k s', During K t s k s' → k ≤ 2 * n + 5) ∧
      (inside (s.th t) = true → ∀ k s', During K t s k s' → k ≤ 2 * n + 3) := by
  refine ⟨fun o op h k s' hd => ?_, fun h k s' hd => ?_⟩
  · obtain ⟨_, _, h2⟩ := during_left hd h
    simp only [left] at h2
    omega
  · cases hp : s.th t with
    | none => simp [hp, inside] at h
    | some pc =>
      obtain ⟨_, _, h2⟩ := during_left hd hp
      cases pc with
      | rd o op buf => simp only [left] at h2; have := unread_le buf; omega
      | wr o op new wrote r => simp only [left] at h2; have := unwritten_le wrote; omega
      | rel r => simp only [left] at h2; omega
      | _ => simp [hp, inside] at h

/-- **C71f.** The only place where it can wait is the entry, and only while some other context is in the critical
section. -/
theorem cs_waits_only_at_entry (K : Cfg n C) (s : State n C) (t : Tid) (hp : s.th t ≠ none) :
    (∃ pc m' held' pc', s.th t = some pc ∧ Act K t s pc m' held' pc') ∨
      (∃ r s', Step K s (some (.ret t r)) s') ∨
      (∃ o op, s.th t = some (.acq o op)) ∧ ∃ u, u ≠ t ∧ s.held u ≠ 0 := by
  cases hpc : s.th t with
  | none => exact absurd hpc hp
  | some pc =>
    cases pc with
    | fin r => exact Or.inr (Or.inl ⟨_, _, .ret s t r hpc⟩)
    | start o op =>
      refine Or.inl ⟨.start o op, ?_⟩
      by_cases ho : op.ordOk = true
      · cases hr : K.refuse o op
        · cases hc : K.inCs o
          · exact ⟨_, _, _, rfl, .goNative ho hr hc⟩
          · exact ⟨_, _, _, rfl, .goAcq ho hr hc⟩
        · exact ⟨_, _, _, rfl, .refuse ho hr⟩
      · exact ⟨_, _, _, rfl, .panic (by simpa using ho)⟩
    | native o op => exact Or.inl ⟨_, _, _, _, rfl, .nat⟩
    | acq o op =>
      by_cases hf : s.free t
      · cases op with
        | store v ord => exact Or.inl ⟨_, _, _, _, rfl, .acqWr hf⟩
        | _ => exact Or.inl ⟨_, _, _, _, rfl, .acqRd hf (by simp)⟩
      · refine Or.inr (Or.inr ⟨⟨o, op, rfl⟩, ?_⟩)
        simp only [State.free, Classical.not_forall] at hf
        obtain ⟨u, h1, h2⟩ := hf
        exact ⟨u, h1, h2⟩
    | rd o op buf =>
      refine Or.inl ⟨.rd o op buf, ?_⟩
      by_cases h : ∃ i, buf i = none
      · obtain ⟨i, hi⟩ := h
        exact ⟨_, _, _, rfl, .rd i hi⟩
      · have h' : ∀ i, ∃ x, buf i = some x := fun i => Option.ne_none_iff_exists'.1 fun e => h ⟨i, e⟩
        choose x hx using h'
        cases ha : after op x with
        | mk v r =>
          cases v with
          | none => exact ⟨_, _, _, rfl, .rdRel hx ha⟩
          | some v => exact ⟨_, _, _, rfl, .rdWr hx ha⟩
    | wr o op new wrote r =>
      refine Or.inl ⟨.wr o op new wrote r, ?_⟩
      by_cases h : ∃ i, wrote i = false
      · obtain ⟨i, hi⟩ := h
        exact ⟨_, _, _, rfl, .wr i hi⟩
      · exact ⟨_, _, _, rfl, .wrRel fun i => by
          cases hi : wrote i
          · exact absurd ⟨i, hi⟩ h
          · rfl⟩
    | rel r => exact Or.inl ⟨_, _, _, _, rfl, .rel⟩

end Verif.Cs
