import Verif.Props.Small
/-!
# Single instructions exist (C61)
-/
set_option autoImplicit false
namespace Verif.Small
open Verif.Object Verif.Lf Verif.Int Verif.Compose

/-! ## The single instructions are ones the target has -/

/-- The widest plain load and store (AVR: none without inline assembly). -/
def wordBits : Target → Nat
  | .msp430 => 16
  | .avr true _ => 8
  | .avr false _ => 0
  | .riscv true .. => 64
  | _ => 32

/-- The instruction set, as effects on a memory operand of `w` bits (`w = 8, 16, 32, 64`):

* loads and stores of up to a machine word (AVR: only through inline assembly);
* MSP430: `add`, `sub`, `and`, `bis`, `xor`, `inv` on memory;
* AVR with RMW: `xch`, `lac` (`x & !r`), `las` (`x | r`), `lat` (`x ^ r`), bytes;
* RISC-V with Zaamo: `amoswap`, `amoadd`, `amoand`, `amoor`, `amoxor`, `amomax[u]`, `amomin[u]` on words (and bytes and
  half-words with Zabha); `amoand`, `amoor`, `amoxor` on the containing word act as the same on the part (C14). -/
inductive Has (signed : Bool) {w : Nat} : Target → Acc (BitVec w) → Prop where
  | load (T o) (h : w ≤ wordBits T) :
      Has signed T (.op (.load o))
  | store (T v o) (h : w ≤ wordBits T) :
      Has signed T (.op (.store v o))
  | msp430 (v f o) (h : w ≤ 16)
      (hf : f = (· + v) ∨ f = (· - v) ∨ f = (· &&& v) ∨ f = (· ||| v) ∨ f = (· ^^^ v) ∨ f = (fun x => ~~~x)) :
      Has signed .msp430 (.op (.rmw f o))
  | xch (v o) (h : w ≤ 8) : Has signed (.avr true true) (.op (.swap v o))
  | avr (r f o) (h : w ≤ 8) (hf : f = (· &&& ~~~r) ∨ f = (· ||| r) ∨ f = (· ^^^ r)) :
      Has signed (.avr true true) (.op (.rmw f o))
  | amoswap (wide s zabha v o) (h : 32 ≤ w ∨ zabha = true) (h' : w ≤ if wide then 64 else 32) :
      Has signed (.riscv wide s true zabha) (.op (.swap v o))
  | amo (wide s zabha v f o) (h : 32 ≤ w ∨ zabha = true) (h' : w ≤ if wide then 64 else 32)
      (hf : f = (· + v) ∨ f = (fun x => if (if signed then x.slt v else x.ult v) then v else x) ∨
        f = (fun x => if (if signed then v.slt x else v.ult x) then v else x)) :
      Has signed (.riscv wide s true zabha) (.op (.rmw f o))
  | amobit (wide s zabha v f o) (h' : w ≤ if wide then 64 else 32) (hf : f = (· &&& v) ∨ f = (· ||| v) ∨ f = (· ^^^ v)) :
      Has signed (.riscv wide s true zabha) (.op (.rmw f o))

theorem max_fn {w : Nat} (signed : Bool) (v : BitVec w) :
    BinF.fn signed .max v = fun x => if (if signed then x.slt v else x.ult v) then v else x := by
  funext x
  cases signed <;> simp only [BinF.fn, cmpMax, Bool.false_eq_true, if_false, if_true] <;> repeat' split
  all_goals first
    | rfl
    | (simp only [BitVec.slt, BitVec.ult, decide_eq_true_eq] at *
       first
        | exact BitVec.eq_of_toInt_eq (by omega)
        | exact BitVec.eq_of_toNat_eq (by omega))

theorem min_fn {w : Nat} (signed : Bool) (v : BitVec w) :
    BinF.fn signed .min v = fun x => if (if signed then v.slt x else v.ult x) then v else x := by
  funext x
  cases signed <;> rfl

/-- What an AMO-only or RMW-only program does is one access. -/
theorem makes_rmw {w : Nat} {f : BitVec w → BitVec w} {o : MemOrd} {a : Acc (BitVec w)} (h : Makes (Int.rmw f o) a) :
    a = .op (.rmw f o) := by cases h; rfl

theorem makes_drop {w : Nat} {p : P w} {a : Acc (BitVec w)} (h : Makes (drop p) a) : Makes p a := by
  cases p <;> cases h <;> constructor

theorem makes_map {w : Nat} {g : IRes w → IRes w} {p : P w} {a : Acc (BitVec w)} (h : Makes (mapRes g p) a) : Makes p a := by
  cases p <;> cases h <;> constructor

/-- The `fetch_` operation whose access a method makes. -/
theorem amo_bit {w : Nat} {b : Bin} (hb : b ≠ .add ∧ b ≠ .sub) {v : BitVec w} {o : MemOrd} {p : P w}
    (hp : fetchBin .riscvAmo b v o = some p) {a : Acc (BitVec w)} (hm : Makes p a) :
    ∃ f, a = .op (.rmw f o) ∧ (f = (· &&& v) ∨ f = (· ||| v) ∨ f = (· ^^^ v)) := by
  cases b <;> simp at hb <;> cases hp <;> exact ⟨_, makes_rmw hm, by simp [Bin.fn, funext_iff]⟩

theorem amo_any {w : Nat} {signed : Bool} {wide s zabha : Bool} (h : 32 ≤ w ∨ zabha = true) (h' : w ≤ if wide then 64 else 32)
    {op : IOp w} (hl : ∀ o, op ≠ .load o) (hs : ∀ v o, op ≠ .store v o) {p : P w} (hp : Int.prog signed .riscvAmo op = some p)
    {a : Acc (BitVec w)} (hm : Makes p a) : Has signed (.riscv wide s true zabha) a := by
  have bin : ∀ {b : Bin} {v o} {p : P w}, fetchBin .riscvAmo b v o = some p → Makes p a → Has signed (.riscv wide s true zabha) a := by
    intro b v o p hp hm
    by_cases hb : b ≠ .add ∧ b ≠ .sub
    · obtain ⟨f, rfl, hf⟩ := amo_bit hb hp hm
      exact .amobit _ _ _ v f o h' hf
    · cases b <;> simp at hb <;> cases hp <;> cases makes_rmw hm
      · exact .amo _ _ _ v _ o h h' (Or.inl rfl)
      · exact .amo _ _ _ (-v) _ o h h' (Or.inl rfl)
  cases op with
  | load o => exact absurd rfl (hl o)
  | store v o => exact absurd rfl (hs v o)
  | swap v o => cases hp; cases hm; exact .amoswap _ _ _ _ _ h h'
  | compareExchange => simp [Int.prog, Int.Backend.hasCas] at hp
  | compareExchangeWeak => simp [Int.prog, Int.Backend.hasCas] at hp
  | fetchBin b v o => exact bin hp hm
  | bin b v o =>
    simp only [Int.prog, Int.bin, Option.map_eq_some_iff] at hp
    obtain ⟨q, hq, rfl⟩ := hp
    exact bin hq (makes_drop hm)
  | fetchBinF b v o =>
    cases b <;> cases hp <;> cases makes_rmw hm
    · exact .amo _ _ _ v _ o h h' (Or.inr (Or.inl (max_fn ..)))
    · exact .amo _ _ _ v _ o h h' (Or.inr (Or.inr (min_fn ..)))
  | fetchUn u o =>
    cases u
    · exact bin (b := .xor) (v := ~~~0) (o := o) hp hm
    · cases hp
  | un u o =>
    cases u
    · simp only [Int.prog, Int.un, Option.map_eq_some_iff] at hp
      obtain ⟨q, hq, rfl⟩ := hp
      exact bin (b := .xor) (v := ~~~0) (o := o) hq (makes_drop hm)
    · cases hp
  | bit b n o =>
    cases b <;> simp only [Int.prog, Int.bit, Int.bitDefault, Option.map_eq_some_iff] at hp <;>
      obtain ⟨q, hq, rfl⟩ := hp <;> exact bin hq (makes_map hm)
  | fetchUpdate => simp [Int.prog, Int.Backend.hasCas] at hp

theorem avr_any {w : Nat} {signed : Bool} (h : w ≤ 8)
    {op : IOp w} (hl : ∀ o, op ≠ .load o) (hs : ∀ v o, op ≠ .store v o) {p : P w} (hp : Int.prog signed .avrRmw op = some p)
    {a : Acc (BitVec w)} (hm : Makes p a) : Has signed (.avr true true) a := by
  have bin : ∀ {b : Bin} {v o} {p : P w}, fetchBin .avrRmw b v o = some p → Makes p a → Has signed (.avr true true) a := by
    intro b v o p hp hm
    cases b <;> cases hp <;> cases makes_rmw hm
    · exact .avr (~~~v) _ o h (Or.inl rfl)
    · exact .avr v _ o h (Or.inr (Or.inl rfl))
    · exact .avr v _ o h (Or.inr (Or.inr rfl))
  cases op with
  | load o => exact absurd rfl (hl o)
  | store v o => exact absurd rfl (hs v o)
  | swap v o => cases hp; cases hm; exact .xch _ _ h
  | compareExchange => simp [Int.prog, Int.Backend.hasCas] at hp
  | compareExchangeWeak => simp [Int.prog, Int.Backend.hasCas] at hp
  | fetchBin b v o => exact bin hp hm
  | bin b v o =>
    simp only [Int.prog, Int.bin, Option.map_eq_some_iff] at hp
    obtain ⟨q, hq, rfl⟩ := hp
    exact bin hq (makes_drop hm)
  | fetchBinF b v o => cases b <;> cases hp
  | fetchUn u o =>
    cases u
    · exact bin (b := .xor) (v := ~~~0) (o := o) hp hm
    · cases hp
  | un u o =>
    cases u
    · simp only [Int.prog, Int.un, Option.map_eq_some_iff] at hp
      obtain ⟨q, hq, rfl⟩ := hp
      exact bin (b := .xor) (v := ~~~0) (o := o) hq (makes_drop hm)
    · cases hp
  | bit b n o =>
    cases b <;> simp only [Int.prog, Int.bit, Int.bitDefault, Option.map_eq_some_iff] at hp <;>
      obtain ⟨q, hq, rfl⟩ := hp <;> exact bin hq (makes_map hm)
  | fetchUpdate => simp [Int.prog, Int.Backend.hasCas] at hp

/-- AMO instructions on the containing word. -/
theorem sub_any {w : Nat} {signed : Bool} {wide s zabha : Bool} (h' : w ≤ if wide then 64 else 32)
    {op : IOp w} {p : P w} (hp : Int.prog signed .riscvAmo op = some p)
    (hop : (∃ b v o, (op = .fetchBin b v o ∨ op = .bin b v o) ∧ b ≠ .add ∧ b ≠ .sub) ∨
      (∃ u o, op = .fetchUn u o ∨ op = .un u o) ∨ ∃ b n o, op = .bit b n o)
    {a : Acc (BitVec w)} (hm : Makes p a) : Has signed (.riscv wide s true zabha) a := by
  have bin : ∀ {b : Bin} {v o} {p : P w}, b ≠ .add ∧ b ≠ .sub → fetchBin .riscvAmo b v o = some p → Makes p a →
      Has signed (.riscv wide s true zabha) a := by
    intro b v o p hb hp hm
    obtain ⟨f, rfl, hf⟩ := amo_bit hb hp hm
    exact .amobit _ _ _ v f o h' hf
  rcases hop with ⟨b, v, o, rfl | rfl, hb⟩ | ⟨u, o, rfl | rfl⟩ | ⟨b, n, o, rfl⟩
  · exact bin hb hp hm
  · simp only [Int.prog, Int.bin, Option.map_eq_some_iff] at hp
    obtain ⟨q, hq, rfl⟩ := hp
    exact bin hb hq (makes_drop hm)
  · cases u
    · exact bin (b := .xor) (v := ~~~0) (o := o) (by simp) hp hm
    · cases hp
  · cases u
    · simp only [Int.prog, Int.un, Option.map_eq_some_iff] at hp
      obtain ⟨q, hq, rfl⟩ := hp
      exact bin (b := .xor) (v := ~~~0) (o := o) (by simp) hq (makes_drop hm)
    · cases hp
  · cases b <;> simp only [Int.prog, Int.bit, Int.bitDefault, Option.map_eq_some_iff] at hp <;>
      obtain ⟨q, hq, rfl⟩ := hp <;> exact bin (by simp) hq (makes_map hm)

theorem native_width {T : Target} {w : Nat} (h : T.native w = true) : w ≤ wordBits T := by
  cases T with
  | avr asm rmw =>
    cases asm
    · simp [Target.native] at h
    · simpa [Target.native, wordBits] using h
  | riscv wide s z b => cases wide <;> simpa [Target.native, wordBits] using h
  | _ => simpa [Target.native, wordBits] using h

theorem instr_has {w : Nat} {T : Target} {signed : Bool} {op : IOp w} {p : P w} (hi : T.instr signed op = some p)
    {a : Acc (BitVec w)} (hm : Makes p a) : Has signed T a := by
  have hn : T.native w = true := by
    by_cases h : T.native w = true
    · exact h
    · simp [Target.instr, h] at hi
  have hw := native_width hn
  by_cases hld : ∃ o, op = .load o
  · obtain ⟨o, rfl⟩ := hld
    simp only [Target.instr, hn, Bool.true_eq_false, if_false, Int.prog, Option.some.injEq] at hi
    subst hi; cases hm
    exact .load _ _ hw
  by_cases hst : ∃ v o, op = .store v o
  · obtain ⟨v, o, rfl⟩ := hst
    simp only [Target.instr, hn, Bool.true_eq_false, if_false, Int.prog, Option.some.injEq] at hi
    subst hi; cases hm
    exact .store _ _ _ hw
  have hl : ∀ o, op ≠ .load o := fun o h => hld ⟨o, h⟩
  have hs : ∀ v o, op ≠ .store v o := fun v o h => hst ⟨v, o, h⟩
  clear hld hst
  cases T with
  | msp430 =>
    cases op with
    | load o => exact absurd rfl (hl o)
    | store v o => exact absurd rfl (hs v o)
    | bin b v o =>
      simp only [Target.instr, hn, Bool.true_eq_false, if_false, Int.prog, Int.bin, Int.fetchBin, Option.map_some, Option.some.injEq] at hi
      subst hi
      cases makes_rmw (makes_drop hm)
      exact .msp430 v _ o hw (by cases b <;> simp [Bin.fn, funext_iff])
    | un u o =>
      cases u
      · simp only [Target.instr, hn, Bool.true_eq_false, if_false, Int.prog, Int.un, Int.fetchUn, Option.map_some, Option.some.injEq] at hi
        subst hi
        cases makes_rmw (makes_drop hm)
        exact .msp430 0 _ o hw (by simp)
      · simp [Target.instr, hn] at hi
    | _ => simp [Target.instr, hn] at hi
  | avr asm rmw =>
    cases asm
    · simp [Target.native] at hn
    cases rmw
    · cases op <;> first | exact absurd rfl (hl _) | exact absurd rfl (hs _ _) | simp [Target.instr, hn] at hi
    · have hp : Int.prog signed .avrRmw op = some p := by
        cases op <;> first
          | exact absurd rfl (hl _)
          | exact absurd rfl (hs _ _)
          | (simp [Target.instr, hn] at hi; done)
          | simpa [Target.instr, hn] using hi
      exact avr_any (by simpa [wordBits] using hw) hl hs hp hm
  | riscv wide s zaamo zabha =>
    have hw' : w ≤ if wide then 64 else 32 := by cases wide <;> simpa [wordBits] using hw
    cases zaamo
    · cases op <;> first | exact absurd rfl (hl _) | exact absurd rfl (hs _ _) | simp [Target.instr, hn] at hi
    · by_cases hz : 32 ≤ w ∨ zabha = true
      · have hp : Int.prog signed .riscvAmo op = some p := by
          cases op <;> first
            | exact absurd rfl (hl _)
            | exact absurd rfl (hs _ _)
            | (simp [Target.instr, hn] at hi; done)
            | simpa [Target.instr, hn, hz] using hi
        exact amo_any hz hw' hl hs hp hm
      · cases op with
        | fetchBin b v o =>
          simp only [Target.instr, hn, Bool.true_eq_false, if_false, if_neg hz] at hi
          split at hi
          · cases hi
          · rename_i hb
            exact sub_any hw' hi (Or.inl ⟨b, v, o, Or.inl rfl, fun e => hb (Or.inl e), fun e => hb (Or.inr e)⟩) hm
        | bin b v o =>
          simp only [Target.instr, hn, Bool.true_eq_false, if_false, if_neg hz] at hi
          split at hi
          · cases hi
          · rename_i hb
            exact sub_any hw' hi (Or.inl ⟨b, v, o, Or.inr rfl, fun e => hb (Or.inl e), fun e => hb (Or.inr e)⟩) hm
        | fetchUn u o =>
          simp only [Target.instr, hn, Bool.true_eq_false, if_false, if_neg hz] at hi
          exact sub_any hw' hi (Or.inr (Or.inl ⟨u, o, Or.inl rfl⟩)) hm
        | un u o =>
          simp only [Target.instr, hn, Bool.true_eq_false, if_false, if_neg hz] at hi
          exact sub_any hw' hi (Or.inr (Or.inl ⟨u, o, Or.inr rfl⟩)) hm
        | bit b n o =>
          simp only [Target.instr, hn, Bool.true_eq_false, if_false, if_neg hz] at hi
          exact sub_any hw' hi (Or.inr (Or.inr ⟨b, n, o, rfl⟩)) hm
        | load o => exact absurd rfl (hl o)
        | store v o => exact absurd rfl (hs v o)
        | _ => simp [Target.instr, hn, hz] at hi
  | _ => cases op <;> first | exact absurd rfl (hl _) | exact absurd rfl (hs _ _) | simp [Target.instr, hn] at hi

/-- **C61e.** Wherever a method on target `T` makes an access as a single instruction, `T` has that instruction. -/
theorem single_has {w : Nat} (T : Target) (signed : Bool) (op : IOp w) {l a k} (hr : Reach (ints T w signed) op l)
    (hn : (ints T w signed).next l = .call (a, true) k) : Has signed T a := by
  obtain ⟨hm, ht⟩ := reach_tagged hr hn
  simp only at hm ht
  have one : (T.instr signed op).isSome = true → Has signed T a := by
    intro h
    obtain ⟨p, hp⟩ := Option.isSome_iff_exists.1 h
    rw [show T.prog signed op = p by simp [Target.prog, hp]] at hm
    exact instr_has hp hm
  unfold Target.single at ht
  split at ht
  · exact .load _ _ (native_width ht.symm)
  · exact one ht.symm

theorem arith_has {w : Nat} {b : Bin} {v : BitVec w} {o : MemOrd} {a : Acc (BitVec w)} {wide s zabha : Bool}
    (hw : 32 ≤ w ∧ w ≤ if wide then 64 else 32) (hm : Makes (Ptr.arith .riscvAmo b v o) a) :
    Has false (.riscv wide s true zabha) a := by
  cases b <;> cases makes_rmw hm
  · exact .amo _ _ _ v _ o (Or.inl hw.1) hw.2 (Or.inl rfl)
  · exact .amo _ _ _ (-v) _ o (Or.inl hw.1) hw.2 (Or.inl rfl)
  · exact .amobit _ _ _ v _ o hw.2 (Or.inl rfl)
  · exact .amobit _ _ _ v _ o hw.2 (Or.inr (Or.inl rfl))
  · exact .amobit _ _ _ v _ o hw.2 (Or.inr (Or.inr rfl))

/-- Pointers are 16 bits wide on AVR and MSP430, as wide as a word elsewhere. -/
def ptrBits : Target → Nat
  | .msp430 | .avr .. => 16
  | T => wordBits T

theorem ptrInstr_has {T : Target} {size : Nat} {op : Ptr.POp (ptrBits T)} {p : P (ptrBits T)}
    (hi : T.ptrInstr size op = some p) {a : Acc (BitVec (ptrBits T))} (hm : Makes p a) : Has false T a := by
  by_cases hav : ∃ x y, T = .avr x y
  · obtain ⟨x, y, rfl⟩ := hav
    cases op <;> simp [Target.ptrInstr] at hi
  have hw : ptrBits T ≤ wordBits T := by
    cases T <;> first | exact Nat.le_refl _ | exact absurd ⟨_, _, rfl⟩ hav
  by_cases hld : ∃ o, op = .load o
  · obtain ⟨o, rfl⟩ := hld
    have : p = one (.op (.load o)) := by
      cases T <;> first | exact absurd ⟨_, _, rfl⟩ hav | (cases hi; rfl)
    subst this; cases hm
    exact .load _ _ hw
  by_cases hst : ∃ v o, op = .store v o
  · obtain ⟨v, o, rfl⟩ := hst
    have : p = one (.op (.store v o)) := by
      cases T <;> first | exact absurd ⟨_, _, rfl⟩ hav | (cases hi; rfl)
    subst this; cases hm
    exact .store _ _ _ hw
  have hl : ∀ o, op ≠ .load o := fun o h => hld ⟨o, h⟩
  have hs : ∀ v o, op ≠ .store v o := fun v o h => hst ⟨v, o, h⟩
  clear hld hst
  cases T with
  | riscv wide s zaamo zabha =>
    cases zaamo with
    | false => cases op <;> first | exact absurd rfl (hl _) | exact absurd rfl (hs _ _) | cases hi
    | true =>
      have hb : 32 ≤ ptrBits (.riscv wide s true zabha) ∧ ptrBits (.riscv wide s true zabha) ≤ if wide then 64 else 32 := by
        cases wide <;> simp [ptrBits, wordBits]
      cases op with
      | load o => exact absurd rfl (hl o)
      | store v o => exact absurd rfl (hs v o)
      | swap v o => cases hi; cases hm; exact .amoswap _ _ _ _ _ (Or.inl hb.1) hb.2
      | bit b n o =>
        simp only [Target.ptrInstr, Ptr.prog, Ptr.bit, Ptr.bitDefault, Option.some.injEq] at hi
        cases b <;> subst hi <;> exact arith_has hb (makes_map hm)
      | compareExchange => simp [Target.ptrInstr, Ptr.prog, Ptr.Backend.hasCas] at hi
      | compareExchangeWeak => simp [Target.ptrInstr, Ptr.prog, Ptr.Backend.hasCas] at hi
      | fetchUpdate => simp [Target.ptrInstr, Ptr.prog, Ptr.Backend.hasCas] at hi
      | _ => cases hi; exact arith_has hb hm
  | _ => cases op <;> first | exact absurd rfl (hl _) | exact absurd rfl (hs _ _) | cases hi

/-- **C61e** for pointers. -/
theorem ptr_single_has (T : Target) (size : Nat) (op : Ptr.POp (ptrBits T)) {l a k} (hr : Reach (ptrs T (ptrBits T) size) op l)
    (hn : (ptrs T (ptrBits T) size).next l = .call (a, true) k) : Has false T a := by
  obtain ⟨hm, ht⟩ := reach_tagged hr hn
  simp only at hm ht
  have one : (T.ptrInstr size op).isSome = true → Has false T a := by
    intro h
    obtain ⟨p, hp⟩ := Option.isSome_iff_exists.1 h
    rw [show T.ptrProg size op = p by simp [Target.ptrProg, hp]] at hm
    exact ptrInstr_has hp hm
  unfold Target.ptrSingle at ht
  split at ht
  · obtain ⟨p, hp⟩ := Option.isSome_iff_exists.1 ht.symm
    have : p = Int.one (.op (.load .relaxed)) := by
      cases T <;> cases hp <;> rfl
    subst this
    cases ptrInstr_has hp (.one _ _) with
    | load _ _ h => exact .load _ _ h
  · exact one ht.symm

/-- `fetch_sub` on RV32 with Zaamo: one access, tagged as an instruction (`amoadd.w` of the negation). -/
example : ∃ k, (ints (.riscv false false true false) 32 true).next
    ((ints (.riscv false false true false) 32 true).start (.fetchBin .sub 5 .seqCst)) =
      .call (.op (.rmw (Bin.fn .add (-5)) .seqCst), true) k := ⟨_, rfl⟩

/-- The same on a half-word disables interrupts, but `fetch_or` does not. -/
example : ∃ k, (ints (.riscv false false true false) 16 true).next
    ((ints (.riscv false false true false) 16 true).start (.fetchBin .sub 5 .seqCst)) =
      .call (.op (.rmw (Bin.fn .sub 5) .seqCst), false) k := ⟨_, rfl⟩

example : ∃ k, (ints (.riscv false false true false) 16 true).next
    ((ints (.riscv false false true false) 16 true).start (.fetchBin .or 5 .seqCst)) =
      .call (.op (.rmw (Bin.fn .or 5) .seqCst), true) k := ⟨_, rfl⟩

/-- `fetch_ptr_add` on RV64 with Zaamo, of a 4-byte pointee. -/
example : ∃ k, (ptrs (.riscv true false true false) 64 4).next
    ((ptrs (.riscv true false true false) 64 4).start (.fetchPtrAdd 3 .seqCst)) =
      .call (.op (.rmw (Bin.fn .add (3 * 4)) .seqCst), true) k := ⟨_, rfl⟩

/-- No byte `fetch_add` without Zabha. -/
example (v : BitVec 8) (hv : v = 3) (o) : ¬ Has true (.riscv true false true false) (.op (.rmw (· + v) o) : Acc (BitVec 8)) := by
  intro h
  cases h with
  | amo wide s zabha u f _ h => simp at h
  | amobit wide s zabha u f _ h' hf =>
    subst hv
    rcases hf with hf | hf | hf
    · have := congrFun hf 0; revert this; simp
    · have h0 := congrFun hf 0
      have h1 := congrFun hf 1
      have h0 : (3 : BitVec 8) = u := by simpa using h0
      subst h0; revert h1; decide
    · have h0 := congrFun hf 0
      have h1 := congrFun hf 1
      have h0 : (3 : BitVec 8) = u := by simpa using h0
      subst h0; revert h1; decide

end Verif.Small
