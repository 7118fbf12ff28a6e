import Verif.Packed.Client
import Verif.Bool.Sim
import Verif.Props.Rv
/-!
# Small atomics sharing a machine word on RISC-V (C70)

`Rv.sys` runs the code of the 8- and 16-bit operations (`Rv/SubWord.lean`) on word memory.
-/
set_option autoImplicit false
namespace Verif.Rv
open Verif.Object Verif.Lf Verif.Compose

variable {L : Nat} {K B : Type} [DecidableEq K] [DecidableEq B]

/-- The call of an operation on object `k`: its address is passed. -/
def Layout.call (lay : Layout L K) (op : Σ k, SOp (lay.sz k)) : Call L :=
  { sz := lay.sz op.1, addr := lay.addr op.1, op := op.2, size := lay.size op.1, align := lay.align op.1 }

/-- One call seen as an operation on independent values. -/
theorem Layout.sem (lay : Layout L K) {op : Σ k, SOp (lay.sz k)} {b b' : Bytes L} {r : Σ sz, SRes sz}
    (h : (spec L).sem (lay.call op) b b' r) :
    lay.values.sem op (fun k => value (lay.sz k) b (lay.addr k)) (fun k => value (lay.sz k) b' (lay.addr k)) r := by
  obtain ⟨r0, rfl, h⟩ := h
  change SRes (lay.sz op.1) at r0
  change SemBytes (lay.sz op.1) (lay.addr op.1) op.2 b b' r0 at h
  refine ⟨value (lay.sz op.1) b' (lay.addr op.1), r0, h.post, funext fun k => ?_, rfl⟩
  by_cases hk : k = op.1
  · subst hk; simp
  · rw [Function.update_of_ne hk]
    obtain ⟨_, _, _, _, ho, _⟩ := h
    exact value_kept ho (lay.apart _ _ (Ne.symm hk))

theorem Layout.kept (lay : Layout L K) {op : Σ k, SOp (lay.sz k)} {b b' : Bytes L} {r : Σ sz, SRes sz}
    (h : (spec L).sem (lay.call op) b b' r) (a : BitVec L) (ha : ∀ k, ∀ j < lay.sz k, a ≠ byteAddr (lay.addr k) j) :
    b' a = b a := by
  obtain ⟨r0, rfl, _, _, _, _, ho, _⟩ := h
  exact ho a (ha op.1)

/-- **C70a.** Any family of 8- and 16-bit atomics that do not overlap, anywhere in memory, several in one word: every
concurrent history is linearizable with respect to independent values, the memory at the end holds these values, and
no byte outside the objects has changed. -/
theorem packed_independent (hL : 32 ≤ L) (lay : Layout L K) (m : Mem L) (c : ∀ k, BitVec (8 * lay.sz k))
    (hc : ∀ k, Holds (lay.sz k) (view m) (lay.addr k) (c k))
    (h : List (Object.Ev (Σ k, SOp (lay.sz k)) (Σ sz, SRes sz))) (s)
    (hx : Runs (sys L) m (h.map (mapOp lay.call)) s) :
    ∃ c', LinearizableTo lay.values c h c' ∧ (∀ k, Holds (lay.sz k) (view s.mem) (lay.addr k) (c' k)) ∧
      ∀ a, (∀ k, ∀ j < lay.sz k, a ≠ byteAddr (lay.addr k) j) → view s.mem a = view m a := by
  obtain ⟨c', h1, h2, h3⟩ := transport (S := lay.values) (T := spec L) lay.call
    (fun b c => c = (fun k => value (lay.sz k) b (lay.addr k)) ∧
      ∀ a, (∀ k, ∀ j < lay.sz k, a ≠ byteAddr (lay.addr k) j) → b a = view m a)
    (fun o x x' c r hr hs => by
      obtain ⟨rfl, hr⟩ := hr
      exact ⟨_, lay.sem hs, rfl, fun a ha => (lay.kept hs a ha).trans (hr a ha)⟩)
    (c := c) ⟨funext fun k => (hc k).eq, fun _ _ => rfl⟩ (sub_word_linearizable hL m _ s hx)
  subst h2
  exact ⟨_, h1, fun k => holds_value _ _ _, h3⟩

/-! ## `AtomicBool` in a byte of a word -/

/-- The sub-word operation an access of `AtomicBool`'s code is on this target: `AtomicU8`'s load and store, and its
AND/OR/XOR (`src/imp/riscv.rs` L409-454), whose answers `and`, `or`, `xor` drop. -/
inductive FlagAcc : Acc (BitVec 8) → SOp 1 → Prop where
  | load (o : MemOrd) : FlagAcc (.op (.load o)) (.load o)
  | store (v : BitVec 8) (o : MemOrd) : FlagAcc (.op (.store v o)) (.store v o)
  | and (v : BitVec 8) (o : MemOrd) : FlagAcc (.op (.rmw (· &&& v) o)) (.fetch .and v o)
  | or (v : BitVec 8) (o : MemOrd) : FlagAcc (.op (.rmw (· ||| v) o)) (.fetch .or v o)
  | xor (v : BitVec 8) (o : MemOrd) : FlagAcc (.op (.rmw (· ^^^ v) o)) (.fetch .xor v o)

/-- Its answer. -/
def flagAns : (Σ sz, SRes sz) → Res (BitVec 8)
  | ⟨1, .val v⟩ => .val v
  | ⟨1, .unit⟩ => .unit
  | _ => .panic

/-- How the threads' accesses become calls: of the byte at the boolean's address, or of the other object itself. -/
inductive Flags.Calls (lay : Flags L B K) :
    (B × Acc (BitVec 8)) ⊕ (Σ k, SOp (lay.sz k)) → Call L →
      ((Σ sz, SRes sz) → Res (BitVec 8) ⊕ Σ sz, SRes sz) → Prop where
  | flag (b : B) (a : Acc (BitVec 8)) (op : SOp 1) (h : FlagAcc a op) :
      lay.Calls (.inl (b, a)) { sz := 1, addr := lay.flag b, op := op, size := Or.inl rfl, align := Nat.mod_one _ }
        (fun r => .inl (flagAns r))
  | other (op : Σ k, SOp (lay.sz k)) : lay.Calls (.inr op) (lay.toLayout.call op) .inr

/-- Threads running `AtomicBool`'s code (the variant without swap and compare-exchange) on the flags, and operations
on the other objects. -/
def flagClient (lay : Flags L B K) :=
  ((ofCode (Bool.code true)).many B).beside (Σ k, SOp (lay.sz k)) (Σ sz, SRes sz)

theorem FlagAcc.sem {a : Acc (BitVec 8)} {op : SOp 1} (h : FlagAcc a op) {x y : BitVec 8} {r : SRes 1}
    (hp : op.Post x y r) : a.sem x y (flagAns ⟨1, r⟩) := by
  cases h with
  | load o =>
    obtain ⟨rfl, rfl⟩ := hp
    cases o <;> simp [Acc.sem, Op.onCell, Op.ordOk, flagAns]
  | store v o => cases o <;> simp_all [SOp.Post, Acc.sem, Op.onCell, Op.ordOk, flagAns]
  | and v o =>
    obtain ⟨h1, rfl⟩ := hp
    have : y = x &&& v := BitVec.eq_of_getLsbD_eq fun i hi => by rw [h1 i hi, BitVec.getLsbD_and]
    subst this; simp [Acc.sem, Op.onCell, Op.ordOk, flagAns]
  | or v o =>
    obtain ⟨h1, rfl⟩ := hp
    have : y = x ||| v := BitVec.eq_of_getLsbD_eq fun i hi => by rw [h1 i hi, BitVec.getLsbD_or]
    subst this; simp [Acc.sem, Op.onCell, Op.ordOk, flagAns]
  | xor v o =>
    obtain ⟨h1, rfl⟩ := hp
    have : y = x ^^^ v := BitVec.eq_of_getLsbD_eq fun i hi => by
      rw [h1 i hi, BitVec.getLsbD_xor]
    subst this; simp [Acc.sem, Op.onCell, Op.ordOk, flagAns]

/-- Byte memory as independent flag bytes and values. -/
def flagBridge (lay : Flags L B K) :
    Bridge (spec L) (beside ((cell (BitVec 8)).many (K := B)) lay.toLayout.values) lay.Calls where
  abs m := (fun b => m (lay.flag b), fun k => value (lay.sz k) m (lay.addr k))
  sem := by
    rintro a i d x x' p (⟨b, a, op, h⟩ | ⟨op⟩) hs
    · obtain ⟨r0, rfl, hs⟩ := hs
      have hpost := hs.post
      simp only [value_one] at hpost
      obtain ⟨_, _, _, _, ho, _⟩ := hs
      refine ⟨_, ⟨x' (lay.flag b), h.sem hpost, funext fun b' => ?_⟩, funext fun k => ?_, rfl⟩
      · dsimp only
        by_cases hb : b' = b
        · subst hb; simp
        · rw [Function.update_of_ne hb]
          refine ho _ fun j hj e => ?_
          obtain rfl : j = 0 := by change j < 1 at hj; omega
          rw [byteAddr_zero] at e
          exact hb (lay.distinct _ _ e)
      · refine value_kept ho fun i hi j hj => ?_
        obtain rfl : i = 0 := by change i < 1 at hi; omega
        dsimp only
        rw [byteAddr_zero]
        exact lay.clear b k j hj
    · refine ⟨p, lay.toLayout.sem hs, funext fun b => ?_, rfl⟩
      obtain ⟨r0, rfl, _, _, _, _, ho, _⟩ := hs
      exact ho _ (lay.clear b op.1)

/-- **C70b.** `AtomicBool`s and other 8- and 16-bit atomics packed in the same words: every concurrent history of the
booleans' operations (swap, compare-exchange and `fetch_update` included, which this target has no instructions for)
and of the others' is linearizable with respect to independent booleans and values; at the end, and hence at every
moment, each boolean's byte is 0 or 1 as its boolean says, and the other objects hold their values. -/
theorem flags_independent (hL : 32 ≤ L) (lay : Flags L B K) (m : Mem L) (f : B → Bool)
    (c : ∀ k, BitVec (8 * lay.sz k)) (hf : ∀ b, view m (lay.flag b) = if f b then 1 else 0)
    (hc : ∀ k, Holds (lay.sz k) (view m) (lay.addr k) (c k)) {hi s} (hx : Runs (sys L) m hi s) {ho w}
    (hw : Run (flagClient lay) lay.Calls hi ho w) :
    ∃ f' c', LinearizableTo lay.values (f, c) ho (f', c') ∧
      (∀ b, view s.mem (lay.flag b) = if f' b then 1 else 0) ∧
      ∀ k, Holds (lay.sz k) (view s.mem) (lay.addr k) (c' k) := by
  obtain ⟨s', hr, he⟩ := compose (flagBridge lay) (sub_word_linearizable hL m _ s hx) hw
  have hinv : ∀ b, Bool.Valid (((flagBridge lay).abs (view m)).1 b) := fun b => by
    show Bool.Valid (view m (lay.flag b))
    rw [hf]; cases f b <;> simp [Bool.Valid]
  obtain ⟨a, h1, h2, h3, _⟩ := (besideSim (U := lay.toLayout.values)
    (CSim.toSim (K := B) (ofSim (Bool.sim true)))).exec (m := (flagBridge lay).abs (view m)) hinv hr
  rw [he] at h2 h3
  have e0 : (f, c) = ((fun b => Bool.ofByte (view m (lay.flag b))), fun k => value (lay.sz k) (view m) (lay.addr k)) := by
    refine Prod.ext (funext fun b => ?_) (funext fun k => (hc k).eq)
    show f b = Bool.ofByte (view m (lay.flag b))
    rw [hf]; cases f b <;> rfl
  refine ⟨fun b => Bool.ofByte (view s.mem (lay.flag b)), fun k => value (lay.sz k) (view s.mem) (lay.addr k),
    ⟨a, ?_, h3⟩, fun b => ?_, fun k => holds_value _ _ _⟩
  · rw [e0]; exact h1
  · exact (show Bool.Valid (view s.mem (lay.flag b)) from h2 b).eq_byte

/-- The access, if any, is one the 8-bit atomic has. -/
def OneFits : Bool.One → Prop
  | .panic => True
  | .acc a _ => ∃ o, FlagAcc a o

def PcFits : Bool.Pc → Prop
  | .one p => OneFits p
  | _ => True

theorem cas_fits (c n : Bool) (s g : MemOrd) : OneFits (Bool.compareExchange true c n s g) := by
  unfold Bool.compareExchange
  simp only [if_true]
  cases MemOrd.assertCas s g
  · simp only [Bool.swap, if_true]
    cases c <;> cases n <;> simp [Bool.One.map, Bool.fetchOr, Bool.fetchAnd, OneFits] <;>
      first | exact ⟨_, .or _ _⟩ | exact ⟨_, .and _ _⟩
  · trivial

theorem start_fits (op : Bool.BOp) : PcFits (Bool.start true op) := by
  cases op with
  | load o => exact ⟨_, .load _⟩
  | store v o => exact ⟨_, .store _ _⟩
  | swap v o => cases v <;> first | exact ⟨_, .or _ _⟩ | exact ⟨_, .and _ _⟩
  | compareExchange c n s g => exact cas_fits c n s g
  | compareExchangeWeak c n s g => exact cas_fits c n s g
  | fetchAnd v o => exact ⟨_, .and _ _⟩
  | and v o => exact ⟨_, .and _ _⟩
  | fetchNand v o => cases v <;> first | exact ⟨_, .or _ _⟩ | exact ⟨_, .xor _ _⟩
  | fetchOr v o => exact ⟨_, .or _ _⟩
  | or v o => exact ⟨_, .or _ _⟩
  | fetchXor v o => exact ⟨_, .xor _ _⟩
  | xor v o => exact ⟨_, .xor _ _⟩
  | fetchNot o => exact ⟨_, .xor _ _⟩
  | not o => exact ⟨_, .xor _ _⟩
  | fetchUpdate s g f => trivial

theorem one_next {p : Bool.One} {κ : Res Bool → Bool.Pc} (hp : OneFits p) (hκ : ∀ r, PcFits (κ r)) :
    (∀ a k, p.next κ = .acc a k → (∃ o, FlagAcc a o) ∧ ∀ q, PcFits (k q)) ∧ ∀ l, p.next κ = .tau l → PcFits l := by
  cases p with
  | panic =>
    refine ⟨fun a k h => ?_, fun l h => ?_⟩ <;> simp [Bool.One.next] at h
    subst h; exact hκ _
  | acc a dec =>
    refine ⟨fun a k h => ?_, fun l h => ?_⟩ <;> simp [Bool.One.next] at h
    obtain ⟨rfl, rfl⟩ := h
    exact ⟨hp, fun q => hκ _⟩

theorem pc_next {l : Bool.Pc} (hl : PcFits l) :
    (∀ a k, Bool.next true l = .acc a k → (∃ o, FlagAcc a o) ∧ ∀ q, PcFits (k q)) ∧
      ∀ j, Bool.next true l = .tau j → PcFits j := by
  cases l with
  | one p => exact one_next hl fun _ => trivial
  | fin r => exact ⟨fun a k h => by simp [Bool.next] at h, fun l h => by simp [Bool.next] at h⟩
  | updStart s g f =>
    exact one_next (p := Bool.load g) ⟨_, .load _⟩ fun r => by cases r <;> trivial
  | updLoop s g f hist prev =>
    simp only [Bool.next]
    cases f hist prev with
    | none => exact ⟨fun a k h => by simp at h, fun l h => by simp at h⟩
    | some nx => exact one_next (cas_fits prev nx s g) fun r => by cases r <;> trivial

/-- **C70c.** Every access `AtomicBool`'s code makes on this target, in any operation and whatever the answers, is one
the 8-bit atomic has: no swap or compare-exchange instruction is needed. -/
theorem flag_accesses (op : Bool.BOp) (l) (hl : Reach (ofCode (Bool.code true)) op l) (a k)
    (hn : (ofCode (Bool.code true)).next l = .call a k) : ∃ o, FlagAcc a o := by
  have back : ∀ {l a k}, (ofCode (Bool.code true)).next l = .call a k → Bool.next true l = .acc a k := by
    intro l a k hn
    cases h : Bool.next true l <;> simp [ofCode, ofNext, Bool.code, h] at hn
    rw [hn.1, hn.2]
  have inv : PcFits l := by
    clear hn
    induction hl with
    | start => exact start_fits op
    | @tau l j _ hn ih =>
      refine (pc_next ih).2 _ ?_
      cases h : Bool.next true l <;> simp [ofCode, ofNext, Bool.code, h] at hn
      rw [hn]
    | call _ hn ih => exact ((pc_next ih).1 _ _ (back hn)).2 _
  exact ((pc_next inv).1 _ _ (back hn)).1

/-! ## A concrete case

Two booleans at `0x1000` and `0x1001` and a 16-bit integer at `0x1002`, all in one word.  Thread 0 does
`compare_exchange(false, true)` on the second boolean while thread 1 does `fetch_xor(0xffff)` on the integer. -/
namespace Demo

def lay : Flags 64 Bool Unit where
  sz _ := 2
  addr _ := 0x1002
  size _ := Or.inr rfl
  align _ := by decide
  apart k k' h := absurd rfl h
  flag b := if b then 0x1001 else 0x1000
  distinct b b' h := by cases b <;> cases b' <;> simp_all
  clear b k j hj := by
    have : j = 0 ∨ j = 1 := by omega
    rcases this with rfl | rfl <;> cases b <;> decide +kernel

def mem0 : Mem 64 := fun _ => 0x12340001

def flagCall : Call 64 :=
  { sz := 1, addr := 0x1001, op := .fetch .or (1#8) .seqCst, size := Or.inl rfl, align := Nat.mod_one _ }

def intCall : Call 64 :=
  { sz := 2, addr := 0x1002, op := .fetch .xor (0xffff#16) .relaxed, size := Or.inr rfl, align := by decide }

/-- What the machine does: both calls begin, thread 1's access comes first. -/
def hi : List (Object.Ev (Call 64) (Σ sz, SRes sz)) :=
  [.inv 0 flagCall, .inv 1 intCall, .ret 0 ⟨1, .val 0⟩, .ret 1 ⟨2, .val 0x1234⟩]

def ho : List (Object.Ev ((Bool × Bool.BOp) ⊕ Σ k, SOp (lay.sz k)) (Res Bool ⊕ Σ sz, SRes sz)) :=
  [.inv 0 (.inl (true, .compareExchange false true .seqCst .seqCst)), .inv 1 (.inr ⟨(), .fetch .xor (0xffff#16) .relaxed⟩),
    .ret 0 (.inl (.ok false)), .ret 1 (.inr ⟨2, .val 0x1234⟩)]

def mem1 : Mem 64 := Function.update mem0 0x1000 0xedcb0001
def mem2 : Mem 64 := Function.update mem1 0x1000 0xedcb0101

theorem exec_int : exec intCall.sz intCall.addr intCall.op mem0 = (mem1, .val (0x1234#16)) := by
  have h1 : (aligned (0x1002 : BitVec 64)) = 0x1000 := by decide +kernel
  have h2 : (srlw (mem0 0x1000) (shift (0x1002 : BitVec 64))).setWidth (8 * 2) = (0x1234#16) := by decide +kernel
  have h3 : Rmw.xor.word (mem0 0x1000) (operand 2 .xor (0x1002 : BitVec 64) (0xffff#16)) = 0xedcb0001 := by decide +kernel
  refine Prod.ext ?_ ?_
  · show Function.update mem0 (aligned (0x1002 : BitVec 64)) (Rmw.xor.word (mem0 (aligned 0x1002))
      (operand 2 .xor (0x1002 : BitVec 64) (0xffff#16))) = mem1
    rw [h1, h3]; rfl
  · show SRes.val ((srlw (mem0 (aligned 0x1002)) (shift (0x1002 : BitVec 64))).setWidth (8 * 2)) = _
    rw [h1, h2]; rfl

theorem exec_flag : exec flagCall.sz flagCall.addr flagCall.op mem1 = (mem2, .val (0#8)) := by
  have h1 : (aligned (0x1001 : BitVec 64)) = 0x1000 := by decide +kernel
  have h2 : (srlw (mem1 0x1000) (shift (0x1001 : BitVec 64))).setWidth (8 * 1) = (0#8) := by decide +kernel
  have h3 : Rmw.or.word (mem1 0x1000) (operand 1 .or (0x1001 : BitVec 64) (1#8)) = 0xedcb0101 := by decide +kernel
  refine Prod.ext ?_ ?_
  · show Function.update mem1 (aligned (0x1001 : BitVec 64)) (Rmw.or.word (mem1 (aligned 0x1001))
      (operand 1 .or (0x1001 : BitVec 64) (1#8))) = mem2
    rw [h1, h3]; rfl
  · show SRes.val ((srlw (mem1 (aligned 0x1001)) (shift (0x1001 : BitVec 64))).setWidth (8 * 1)) = _
    rw [h1, h2]; rfl

theorem runs : ∃ s, Runs (sys 64) mem0 hi s ∧ s.mem = mem2 := by
  have x0 : Runs (sys 64) mem0 [] { mem := mem0, th := fun _ => none } := .refl _
  have x1 := Exec.ev x0 (.inv _ 0 flagCall rfl)
  have x2 := Exec.ev x1 (.inv _ 1 intCall (by simp))
  have x3 := Exec.tau x2 (.act _ 1 (.start intCall) (.fin ⟨2, .val (0x1234#16)⟩) mem1 (by simp [sys])
    ⟨intCall, rfl, by rw [exec_int], by rw [exec_int]; rfl⟩)
  have x4 := Exec.tau x3 (.act _ 0 (.start flagCall) (.fin ⟨1, .val (0#8)⟩) mem2 (by simp [sys])
    ⟨flagCall, rfl, by rw [exec_flag], by rw [exec_flag]; rfl⟩)
  have x5 := Exec.ev x4 (.ret _ 0 (.fin ⟨1, .val (0#8)⟩) ⟨1, .val (0#8)⟩ (by simp) rfl)
  have x6 := Exec.ev x5 (.ret _ 1 (.fin ⟨2, .val (0x1234#16)⟩) ⟨2, .val (0x1234#16)⟩ (by simp) rfl)
  exact ⟨_, x6, rfl⟩

theorem run : ∃ w, Run (flagClient lay) lay.Calls hi ho w := by
  have x0 : Run (flagClient lay) lay.Calls [] [] _ := .nil
  have x1 := x0.inv 0 (.inl (true, .compareExchange false true .seqCst .seqCst)) rfl
  have x2 := x1.inv 1 (.inr ⟨(), .fetch .xor (0xffff#16) .relaxed⟩) (by simp)
  have x3 := x2.call 0 _ (.inl (true, .op (.rmw (· ||| 1#8) .seqCst))) _ flagCall (fun r => .inl (flagAns r))
    rfl rfl (.flag true _ (.fetch .or (1#8) .seqCst) (.or _ _))
  have x4 := x3.call 1 _ (.inr ⟨(), .fetch .xor (0xffff#16) .relaxed⟩) _ intCall .inr
    rfl rfl (Flags.Calls.other (lay := lay) ⟨(), .fetch .xor (0xffff#16) .relaxed⟩)
  have x5 := x4.answer 0 _ ⟨1, .val (0#8)⟩ rfl
  have x6 := x5.ret 0 _ (.inl (.ok false)) rfl rfl
  have x7 := x6.answer 1 _ ⟨2, .val (0x1234#16)⟩ rfl
  have x8 := x7.ret 1 _ (.inr ⟨2, .val (0x1234#16)⟩) rfl rfl
  exact ⟨_, x8⟩

/-- The theorem applies. -/
example : ∃ f' c', LinearizableTo lay.values (fun b => !b, fun _ => 0x1234#16) ho (f', c') ∧
    (∀ b, view mem2 (lay.flag b) = if f' b then 1 else 0) ∧
    ∀ k, Holds (lay.sz k) (view mem2) (lay.addr k) (c' k) := by
  obtain ⟨s, hx, hm⟩ := runs
  obtain ⟨w, hw⟩ := run
  have := flags_independent (by decide) lay mem0 (fun b => !b) (fun _ => 0x1234#16)
    (fun b => by cases b <;> decide +kernel) (fun k i hi => by
      have h : ∀ i < 16, objBit (view mem0) (0x1002 : BitVec 64) i = (0x1234#16).getLsbD i := by decide +kernel
      exact h i hi) hx hw
  rwa [hm] at this

/-- And the whole word is what it should be: the flag set, the neighbour flag kept, the integer complemented. -/
example : mem2 0x1000 = 0xedcb0101 := by decide +kernel

end Demo

end Verif.Rv
