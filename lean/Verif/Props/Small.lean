import Verif.Small.Sim
/-!
# One core without compare-exchange (C61)

`Irq.Step (T.cfg n C)`: the core of target `T` with a main program and nested interrupt handlers, one instruction per
step.  The methods run the code their target selects (`Small/Code.lean`); an access of a method is one instruction
or disables interrupts, as the target selects.
-/
set_option autoImplicit false
set_option linter.unusedSectionVars false
namespace Verif.Small
open Verif.Object Verif.Lf Verif.Int Verif.Compose

/-- The ordering of an integer `load` or `store`, and of the load in `fetch_update`, is a valid one. -/
def OrdValid {w : Nat} : IOp w → Prop
  | .load o => o ≠ .release ∧ o ≠ .acqRel
  | .store _ o => o ≠ .acquire ∧ o ≠ .acqRel
  | .fetchUpdate _ g _ => g ≠ .release ∧ g ≠ .acqRel
  | _ => True

def PtrOrdValid {w : Nat} : Ptr.POp w → Prop
  | .load o => o ≠ .release ∧ o ≠ .acqRel
  | .store _ o => o ≠ .acquire ∧ o ≠ .acqRel
  | .fetchUpdate _ g _ => g ≠ .release ∧ g ≠ .acqRel
  | _ => True

theorem load_ok {V : Type} {o : MemOrd} (h : o ≠ .release ∧ o ≠ .acqRel) : (Op.load o : Op V).ordOk = true := by
  cases o <;> simp_all [Op.ordOk]

theorem store_ok {V : Type} {v : V} {o : MemOrd} (h : o ≠ .acquire ∧ o ≠ .acqRel) : (Op.store v o).ordOk = true := by
  cases o <;> simp_all [Op.ordOk]

theorem via_ordOk {V W : Type} (e : V ≃ W) (o : Op V) : (viaOp e o).ordOk = o.ordOk := by cases o <;> rfl

/-- Where single instructions do not check orderings, the only ones that have any to check are loads and stores. -/
theorem single_ok {w : Nat} {T : Target} (hT : T.checked = false) {signed : Bool} {op : IOp w} (hv : OrdValid op)
    {a : Acc (BitVec w)} (hm : Makes (T.prog signed op) a) (hs : T.single signed op a = true) {o : Op (BitVec w)}
    (ho : AccOp a o) : o.ordOk = true := by
  cases T with
  | armPre6 fiq =>
    by_cases hn : Target.native (.armPre6 fiq) w = true
    · cases op with
      | load d =>
        simp [Target.prog, Target.instr, hn, Int.prog, one] at hm
        cases hm; cases ho; exact load_ok hv
      | store v d =>
        simp [Target.prog, Target.instr, hn, Int.prog, one] at hm
        cases hm; cases ho; exact store_ok hv
      | fetchUpdate s g f =>
        simp [Target.prog, Target.instr, Int.prog, Backend.hasCas] at hm
        cases hm with
        | load => cases ho; exact load_ok hv
        | cas => simp [Target.single, Target.instr] at hs
      | _ => simp [Target.single, Target.instr] at hs
    · simp only [Bool.not_eq_true] at hn
      unfold Target.single at hs
      split at hs <;> simp [Target.instr, hn] at hs
  | _ => simp [Target.checked] at hT

theorem ptrSingle_ok {w size : Nat} {T : Target} (hT : T.checked = false) {op : Ptr.POp w} (hv : PtrOrdValid op)
    {a : Acc (BitVec w)} (hm : Makes (T.ptrProg size op) a) (hs : T.ptrSingle size op a = true) {o : Op (BitVec w)}
    (ho : AccOp a o) : o.ordOk = true := by
  cases T with
  | armPre6 fiq =>
    cases op with
    | load d =>
      simp [Target.ptrProg, Target.ptrInstr, Ptr.prog, one] at hm
      cases hm; cases ho; exact load_ok hv
    | store v d =>
      simp [Target.ptrProg, Target.ptrInstr, Ptr.prog, one] at hm
      cases hm; cases ho; exact store_ok hv
    | fetchUpdate s g f =>
      simp [Target.ptrProg, Target.ptrInstr, Ptr.prog, Ptr.Backend.hasCas] at hm
      cases hm with
      | load => cases ho; exact load_ok hv
      | cas => simp [Target.ptrSingle, Target.ptrInstr] at hs
    | _ => simp [Target.ptrSingle, Target.ptrInstr] at hs
  | _ => simp [Target.checked] at hT

/-- The integer methods of target `T`. -/
abbrev ints (T : Target) (w : Nat) (signed : Bool) :=
  (ofCode (T.code w signed)).tagged (T.single signed)

/-- The pointer methods of target `T`. -/
abbrev ptrs (T : Target) (w size : Nat) :=
  (ofCode (T.ptrCode w size)).tagged (T.ptrSingle size)

variable {n : Nat} {C : Type} [DecidableEq C]

/-- **C61a.** On every single-core target without compare-exchange, every history of integer methods of the main
program and of interrupt handlers nested to any depth is linearizable with respect to plain integers with the
documented operations and panics; values of one or more chunks.  On Arm before v6, provided loads and stores are
given valid orderings. -/
theorem small_int (T : Target) {b : Nat} (e : BitVec (2 ^ b) ≃ Irq.Val n C) (signed : Bool) (t : Tid) (m : Irq.Mem n C)
    (sr : BitVec T.arch.w) (win : Bool) {hi s} (hx : Exec (Irq.Step (T.cfg n C)) (Irq.init t m sr win) hi s) {ho w}
    (hw : Run ((ints T (2 ^ b) signed).many Obj) (ReqCalls e) hi ho w)
    (hv : T.checked = true ∨ ∀ u o op, Object.Ev.inv u (o, op) ∈ ho → OrdValid op) :
    ∃ m', LinearizableTo ((Int.spec signed).many (K := Obj)) (fun o => e.symm (m o)) ho (fun o => e.symm (m' o)) ∧
      (s.top.pc = none → s.mem = m') := by
  obtain ⟨m', hl, hm⟩ := Irq.irq_linearizable (T.cfg n C) T.supported t m sr win hi s hx
  have hw' : Run ((ints T (2 ^ b) signed).many Obj) (ReqOk e (T.cfg n C).checked) hi ho w := by
    refine hw.restrict fun u op hmem l a k i d hr hn hc => ⟨hc, ?_⟩
    rcases hv with hv | hv
    · exact Or.inl hv
    · by_cases hck : T.checked = true
      · exact Or.inl hck
      · obtain ⟨_, hr⟩ := hr.many
        obtain ⟨a', g, hn', rfl, rfl⟩ := Compose.Next.at_call hn
        obtain ⟨hmk, htag⟩ := reach_tagged hr hn'
        obtain ⟨h1, ⟨o, ho', h2⟩, _⟩ := hc
        rw [h2]
        cases hb : a'.2 with
        | false => exact Or.inr (Or.inl rfl)
        | true =>
          rw [htag] at hb
          refine Or.inr (Or.inr ?_)
          rw [via_ordOk]
          exact single_ok (by simpa using hck) (hv u op.1 op.2 hmem) hmk hb ho'
  exact ⟨m', ((ofSim (intSimOn T b signed)).tagged (T.single signed)).over (reqBridge e (T.cfg n C)) (fun _ => trivial) hl hw', hm⟩

/-- **C61b.** The same for pointers. -/
theorem small_ptr (T : Target) {b : Nat} (e : BitVec (2 ^ b) ≃ Irq.Val n C) (size : Nat) (t : Tid) (m : Irq.Mem n C)
    (sr : BitVec T.arch.w) (win : Bool) {hi s} (hx : Exec (Irq.Step (T.cfg n C)) (Irq.init t m sr win) hi s) {ho w}
    (hw : Run ((ptrs T (2 ^ b) size).many Obj) (ReqCalls e) hi ho w)
    (hv : T.checked = true ∨ ∀ u o op, Object.Ev.inv u (o, op) ∈ ho → PtrOrdValid op) :
    ∃ m', LinearizableTo ((ptrSpec (2 ^ b) size).many (K := Obj)) (fun o => e.symm (m o)) ho (fun o => e.symm (m' o)) ∧
      (s.top.pc = none → s.mem = m') := by
  obtain ⟨m', hl, hm⟩ := Irq.irq_linearizable (T.cfg n C) T.supported t m sr win hi s hx
  have hw' : Run ((ptrs T (2 ^ b) size).many Obj) (ReqOk e (T.cfg n C).checked) hi ho w := by
    refine hw.restrict fun u op hmem l a k i d hr hn hc => ⟨hc, ?_⟩
    rcases hv with hv | hv
    · exact Or.inl hv
    · by_cases hck : T.checked = true
      · exact Or.inl hck
      · obtain ⟨_, hr⟩ := hr.many
        obtain ⟨a', g, hn', rfl, rfl⟩ := Compose.Next.at_call hn
        obtain ⟨hmk, htag⟩ := reach_tagged hr hn'
        obtain ⟨h1, ⟨o, ho', h2⟩, _⟩ := hc
        rw [h2]
        cases hb : a'.2 with
        | false => exact Or.inr (Or.inl rfl)
        | true =>
          rw [htag] at hb
          refine Or.inr (Or.inr ?_)
          rw [via_ordOk]
          exact ptrSingle_ok (by simpa using hck) (hv u op.1 op.2 hmem) hmk hb ho'
  exact ⟨m', ((ofSim (ptrSimOn T b size)).tagged (T.ptrSingle size)).over (reqBridge e (T.cfg n C)) (fun _ => trivial) hl hw', hm⟩

/-- **C61c.** Floats, booleans and whatever else is made of integer methods, over those. -/
theorem small_over (T : Target) {b : Nat} (e : BitVec (2 ^ b) ≃ Irq.Val n C) (signed : Bool)
    {W O R L : Type} [DecidableEq W] {c : Code (BitVec (2 ^ b)) O R L} {S : Spec W O R} (X : CodeSim c S) (t : Tid) (m : Irq.Mem n C)
    (hinv : ∀ o, X.inv (e.symm (m o)))
    (sr : BitVec T.arch.w) (win : Bool) {hi s} (hx : Exec (Irq.Step (T.cfg n C)) (Irq.init t m sr win) hi s) {hm w}
    (hw : Run ((ints T (2 ^ b) signed).many Obj) (ReqCalls e) hi hm w)
    (hv : T.checked = true ∨ ∀ u o op, Object.Ev.inv u (o, op) ∈ hm → OrdValid op)
    {ho v} (hw2 : Run ((ofCode c).many Obj) (IntCalls signed) hm ho v) :
    ∃ m', LinearizableTo (S.many (K := Obj)) (fun o => X.abs (e.symm (m o))) ho (fun o => X.abs (e.symm (m' o))) ∧
      (s.top.pc = none → s.mem = m') := by
  obtain ⟨m', hl, hq⟩ := small_int T e signed t m sr win hx hw hv
  exact ⟨m', over_int signed X hinv hl hw2, hq⟩

/-! ## MSP430 instructions -/

theorem withFlags_mask (sr : BitVec 16) (v n z c : Bool) :
    withFlags sr v n z c &&& ~~~0x107#16 = sr &&& ~~~0x107#16 := by
  apply BitVec.eq_of_getLsbD_eq
  intro i hi
  have : i = 0 ∨ i = 1 ∨ i = 2 ∨ i = 3 ∨ i = 4 ∨ i = 5 ∨ i = 6 ∨ i = 7 ∨ i = 8 ∨ i = 9 ∨ i = 10 ∨ i = 11 ∨ i = 12 ∨
      i = 13 ∨ i = 14 ∨ i = 15 := by omega
  rcases this with h | h | h | h | h | h | h | h | h | h | h | h | h | h | h | h <;> subst h <;>
    cases v <;> cases n <;> cases z <;> cases c <;> simp [withFlags]

example : Irq.msp430.flags = 0x107#16 := rfl

/-- Every instruction leaves all of the status register but V, N, Z, C alone. -/
theorem alu_mask {w : Nat} (op : Alu) (src dst : BitVec w) (sr : BitVec 16) :
    (op.exec src dst sr).2 &&& ~~~0x107#16 = sr &&& ~~~0x107#16 := by
  cases op <;> first | rfl | exact withFlags_mask ..

/-- What a method answers: the output register if there is one. -/
def answer {w : Nat} : Option (BitVec w) → IRes w
  | some v => .res (.val v)
  | none => .res .unit

/-- **C61d.** Each single-instruction method of MSP430 does with its one instruction what the operation is documented
to do, changes nothing in the status register but the computation flags (so not the interrupt enable bit), and
changes nothing at all in it where its `asm!` says `preserves_flags`. -/
theorem msp430_block {w : Nat} (signed : Bool) (op : IOp w) (b : Block w) (hb : msp430Block op = some b)
    (hv : OrdValid op) (m : BitVec w) (sr : BitVec 16) :
    Sem signed op m (b.ins.exec m sr).1 (answer (b.ins.exec m sr).2.2) ∧
      (b.ins.exec m sr).2.1 &&& ~~~0x107#16 = sr &&& ~~~0x107#16 ∧
      Irq.msp430.enabled (b.ins.exec m sr).2.1 = Irq.msp430.enabled sr ∧
      (b.flagsKept = true → (b.ins.exec m sr).2.1 = sr) := by
  have hmask : (b.ins.exec m sr).2.1 &&& ~~~0x107#16 = sr &&& ~~~0x107#16 := by
    unfold Ins.exec
    split
    · rfl
    · exact alu_mask ..
    · exact alu_mask ..
  refine ⟨?_, hmask, Irq.msp430_ok.flags_irrelevant _ _ hmask, ?_⟩
  · cases op with
    | load o =>
      cases hb
      refine ⟨rfl, ?_⟩
      rw [if_neg (by rintro (h | h) <;> [exact hv.1 h; exact hv.2 h])]
      rfl
    | store v o =>
      cases hb
      simp only [Sem]
      rw [if_neg (by rintro (h | h) <;> [exact hv.1 h; exact hv.2 h])]
      exact ⟨rfl, rfl⟩
    | bin c v o =>
      cases c <;> cases hb <;> refine ⟨?_, rfl⟩
      · show (v + m).toNat = _
        rw [BitVec.add_comm]
        exact bin_post .add m v
      · show ((~~~v + 1 + m).toNat + v.toNat) % 2 ^ w = m.toNat
        have : ~~~v + 1 + m = m - v := by
          rw [BitVec.add_comm, BitVec.sub_eq_add_neg, BitVec.neg_eq_not_add]; rfl
        rw [this]
        exact bin_post .sub m v
      · show Bin.Post .and m v (v &&& m)
        rw [BitVec.and_comm]; exact bin_post .and m v
      · show Bin.Post .or m v (v ||| m)
        rw [BitVec.or_comm]; exact bin_post .or m v
      · show Bin.Post .xor m v (v ^^^ m)
        rw [BitVec.xor_comm]; exact bin_post .xor m v
    | un u o =>
      cases u <;> cases hb
      refine ⟨?_, rfl⟩
      show Un.Post .not m (~~~0 ^^^ m)
      rw [BitVec.xor_comm, xor_ones]; exact not_post m
    | _ => cases hb
  · intro hk
    cases op with
    | load o => cases hb; rfl
    | store v o => cases hb; rfl
    | bin c v o => cases c <;> cases hb <;> first | rfl | cases hk
    | un u o => cases u <;> cases hb; cases hk
    | _ => cases hb

/-- The methods that are single instructions on MSP430 are exactly those of `msp430.rs`, for integers of up to 16 bits. -/
theorem msp430_methods {w : Nat} (signed : Bool) (op : IOp w) :
    (Target.instr .msp430 signed op).isSome = (decide (w ≤ 16) && (msp430Block op).isSome) := by
  by_cases h : w ≤ 16
  · have hn : Target.native .msp430 w = true := by simpa [Target.native] using h
    cases op with
    | bin b => cases b <;> simp [Target.instr, hn, h, msp430Block, Int.prog, Int.bin, Int.fetchBin]
    | un u => cases u <;> simp [Target.instr, hn, h, msp430Block, Int.prog, Int.un, Int.fetchUn]
    | _ => simp [Target.instr, hn, h, msp430Block, Int.prog]
  · have hn : Target.native .msp430 w = false := by simpa [Target.native] using h
    simp [Target.instr, hn, h]

/-- One chunk. -/
def word (w : Nat) : BitVec w ≃ Irq.Val 1 (BitVec w) where
  toFun x := fun _ => x
  invFun v := v 0
  left_inv _ := rfl
  right_inv v := by funext i; rw [Subsingleton.elim i 0]

/-- The instruction of the method is the machine's single-instruction step of its access, with the method's answer. -/
theorem msp430_step {w : Nat} (hw : w ≤ 16) (signed : Bool) (op : IOp w) (b : Block w) (hb : msp430Block op = some b)
    (hv : OrdValid op) (m : Irq.Mem 1 (BitVec w)) (sr : BitVec 16) (win : Bool) (o : Obj) :
    ∃ a r dec, Target.prog .msp430 signed op = .one (.op a) dec ∧
      Irq.Act (Target.cfg .msp430 1 (BitVec w)) m sr win (.native o (viaOp (word w) a))
        (Function.update m o (word w (b.ins.exec (m o 0) sr).1)) (b.ins.exec (m o 0) sr).2.1 false (.fin r) ∧
      dec (viaRes (word w) r) = answer (b.ins.exec (m o 0) sr).2.2 := by
  have hn : Target.native .msp430 w = true := by simpa [Target.native] using hw
  have hmask := (msp430_block signed op b hb hv (m o 0) sr).2.1
  have key : ∀ (a : Op (BitVec w)) (dec : Res (BitVec w) → IRes w), Target.prog .msp430 signed op = .one (.op a) dec →
      ((Irq.force (viaOp (word w) a)).onCell (m o)).1 = word w (b.ins.exec (m o 0) sr).1 →
      dec (viaRes (word w) ((Irq.force (viaOp (word w) a)).onCell (m o)).2) = answer (b.ins.exec (m o 0) sr).2.2 →
      ∃ a r dec, Target.prog .msp430 signed op = .one (.op a) dec ∧
      Irq.Act (Target.cfg .msp430 1 (BitVec w)) m sr win (.native o (viaOp (word w) a))
        (Function.update m o (word w (b.ins.exec (m o 0) sr).1)) (b.ins.exec (m o 0) sr).2.1 false (.fin r) ∧
      dec (viaRes (word w) r) = answer (b.ins.exec (m o 0) sr).2.2 := by
    intro a dec hp h1 h2
    refine ⟨a, _, dec, hp, ?_, h2⟩
    rw [← h1]
    exact Irq.Act.nat (K := Target.cfg .msp430 1 (BitVec w)) hmask
  have hid : word w (m o 0) = m o := (word w).right_inv (m o)
  cases op with
  | load d =>
    refine key (.load d) .res (by simp [Target.prog, Target.instr, hn, Int.prog, one]) ?_ ?_ <;> cases hb
    · exact hid.symm
    · rfl
  | store v d =>
    refine key (.store v d) .res (by simp [Target.prog, Target.instr, hn, Int.prog, one]) ?_ ?_ <;> cases hb <;> rfl
  | bin c v d =>
    refine key (.rmw (c.fn v) d) (fun r => dropVal (.res r))
      (by simp [Target.prog, Target.instr, hn, Int.prog, Int.bin, Int.fetchBin, rmw, one, drop]) ?_ ?_
    · show word w (c.fn v (m o 0)) = _
      congr 1
      cases c <;> cases hb
      · exact BitVec.add_comm ..
      · show m o 0 - v = ~~~v + 1 + m o 0
        rw [BitVec.add_comm, BitVec.sub_eq_add_neg, BitVec.neg_eq_not_add]; rfl
      · exact BitVec.and_comm ..
      · exact BitVec.or_comm ..
      · exact BitVec.xor_comm ..
    · cases c <;> cases hb <;> rfl
  | un u d =>
    cases u with
    | neg => cases hb
    | not =>
      refine key (.rmw (fun x => ~~~x) d) (fun r => dropVal (.res r))
        (by simp [Target.prog, Target.instr, hn, Int.prog, Int.un, Int.fetchUn, rmw, one, drop]) ?_ ?_ <;> cases hb
      · show word w (~~~(m o 0)) = word w (~~~0 ^^^ m o 0)
        rw [BitVec.xor_comm, xor_ones]
      · rfl
  | _ => cases hb

end Verif.Small
