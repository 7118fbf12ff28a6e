import Verif.X86.Arith
import Verif.Lf.Progress
/-!
# Every 128-bit block simulates its operation on one cell (C29)
-/
namespace Verif.X86
open Verif.Lf Verif.Object Verif.Int

/-- Run up to `n` register-only steps. -/
def tauN : Nat → Loc → Loc
  | 0, l => l
  | n + 1, l => match step l with
    | .tau k => tauN n k
    | _ => l

theorem tauN_tau {l k : Loc} (h : step l = .tau k) (n : Nat) : tauN (n + 1) l = tauN n k := by
  simp only [tauN, h]

theorem tauN_add (m n : Nat) (l : Loc) : tauN (m + n) l = tauN n (tauN m l) := by
  induction m generalizing l with
  | zero => simp [tauN]
  | succ m ih =>
    rw [Nat.add_right_comm]
    cases h : step l with
    | tau k => rw [tauN_tau h, tauN_tau h, ih]
    | ret r =>
      have e : ∀ j, tauN j l = l := by intro j; cases j <;> simp [tauN, h]
      rw [e, e, e]
    | acc a f =>
      have e : ∀ j, tauN j l = l := by intro j; cases j <;> simp [tauN, h]
      rw [e, e, e]

theorem tauN_acc {l : Loc} {a f} (h : step l = .acc a f) (n : Nat) : tauN n l = l := by
  cases n <;> simp [tauN, h]

theorem tauN_ret {l : Loc} {r} (h : step l = .ret r) (n : Nat) : tauN n l = l := by
  cases n <;> simp [tauN, h]

/-- One register-only instruction. -/
theorem step_exec {l : Loc} {i : Ins} {s : Regs × Flags} (hi : l.ins = some i)
    (hs : i.exec l.regs l.flags = some s) :
    step l = .tau { l with pc := l.pc + 1, regs := s.1, flags := s.2 } := by
  cases i <;> simp only [step, hi] <;> first | simp only [hs] | simp [Ins.exec] at hs

/-- A block of register-only instructions inside the code. -/
theorem tauN_block (body pre post : List Ins) (l : Loc) (s : Regs × Flags)
    (hc : l.call.block.code l.call.conv = pre ++ body ++ post) (hp : l.pc = pre.length)
    (hr : runBlock body (l.regs, l.flags) = some s) :
    tauN body.length l = { l with pc := pre.length + body.length, regs := s.1, flags := s.2 } := by
  induction body generalizing pre l with
  | nil =>
    simp only [runBlock, Option.some.injEq] at hr
    subst hr
    simp only [List.length_nil, tauN, Nat.add_zero, ← hp]
  | cons i body ih =>
    simp only [runBlock] at hr
    cases hs : i.exec l.regs l.flags with
    | none => simp [hs] at hr
    | some t =>
      simp only [hs, Option.bind_some] at hr
      have hins : l.ins = some i := by
        unfold Loc.ins
        rw [hc, hp, List.append_assoc, List.getElem?_append_right (Nat.le_refl _)]
        simp
      have hst := step_exec hins hs
      rw [List.length_cons, tauN_tau hst]
      rw [ih (pre ++ [i]) { l with pc := l.pc + 1, regs := t.1, flags := t.2 } (by simp [hc])
        (by simp [hp]) hr]
      simp only [List.length_append, List.length_cons, List.length_nil]
      congr 1
      omega

/-! ## Points before a memory access -/

/-- Registers inside a loop: `rbx` is saved, `rax`/`rdx`/`rbx`/`rcx` hold the given values. -/
def inLoop (E : Regs) (save : Reg) (a d b c : BitVec 64) : Regs :=
  { E.set save E.rbx with rax := a, rdx := d, rbx := b, rcx := c }

/-- Registers at entry of a call. -/
def Call.entry (c : Call) : Regs := c.block.entry c.conv c.addr c.regs

/-- At a memory access of a read-modify-write loop: a half of the first read (whatever was there
before), or the compare-exchange with `rcx:rbx` computed from `rdx:rax`. -/
def RmwAt (c : Call) (body : List Ins) (fn : BitVec 128 → BitVec 128) (l : Loc) : Prop :=
  ∃ a d b e, l.regs = inLoop c.entry (c.block.save c.conv) a d b e ∧
    (l.pc = 1 ∨ l.pc = 2 ∨
      (l.pc = 3 + body.length ∧ b = lo (fn (d ++ a)) ∧ e = hi (fn (d ++ a))))

/-- `l` is about to access memory, with the registers as they have to be for the call's operation.
-/
def Anchor (c : Call) (l : Loc) : Prop :=
  l.call = c ∧
  match c.block with
  | .loadCx => l.pc = 2 ∧ l.regs = inLoop c.entry (c.block.save c.conv) 0 0 0 0
  | .loadV => l.pc = 0 ∧ l.regs = c.entry
  | .storeV _ _ => l.pc = 0 ∧ l.regs = c.entry
  | .cas old new => l.pc = 1 ∧ l.regs = inLoop c.entry .r8 (lo old) (hi old) (lo new) (hi new)
  | .swap v => ∃ a d, l.regs = inLoop c.entry (c.block.save c.conv) a d (lo v) (hi v) ∧
      (l.pc = 1 ∨ l.pc = 2 ∨ l.pc = 3)
  | .rmw3 o v => RmwAt c (body3 o) (fn3 o v) l
  | .rmw2 o => RmwAt c (body2 o) (fn2 o) l

/-- How far a loop running undisturbed on a cell holding `x` is from its end. -/
def rank (x : BitVec 128) (l : Loc) : Nat :=
  if l.pc = 1 then 4 else if l.pc = 2 then 3 else if l.regs.rdx ++ l.regs.rax = x then 1 else 2

/-- The kind of access by which a block takes effect: the vector load, the vector store, or CMPXCHG16B. -/
def Block.commit : Block → Acc (BitVec 128) → Prop
  | .loadV, .op (.load _) => True
  | .storeV _ _, .op (.store _ _) => True
  | .loadV, _ | .storeV _ _, _ => False
  | _, .op (.cas _ _ _ _) => True
  | _, _ => False

/-- What happens at an access point: it changes nothing and leads to another access point, or it is
the operation, and the call then returns. -/
def AccOk (c : Call) (l : Loc) : Prop :=
  ∃ a f, step l = .acc a f ∧ ∀ x x' r, a.sem x x' r →
    (x' = x ∧ ∃ n, Anchor c (tauN n (f r)) ∧ rank x (tauN n (f r)) < rank x l) ∨
    (∃ r', spec.sem c x x' r' ∧ c.block.commit a ∧ ∃ n, step (tauN n (f r)) = .ret r')

theorem rank_lt_three {x : BitVec 128} {l k : Loc} (hl : l.pc = 2) (hk : 2 < k.pc) :
    rank x k < rank x l := by
  unfold rank
  rw [if_neg (by omega : ¬ k.pc = 1), if_neg (by omega : ¬ k.pc = 2), if_neg (by omega : ¬ l.pc = 1),
    if_pos hl]
  split <;> decide

theorem rank_drop {x : BitVec 128} {l k : Loc} (hk : 2 < k.pc) (hx : k.regs.rdx ++ k.regs.rax = x)
    (hl : 2 < l.pc) (hy : ¬ l.regs.rdx ++ l.regs.rax = x) : rank x k < rank x l := by
  unfold rank
  rw [if_neg (by omega : ¬ k.pc = 1), if_neg (by omega : ¬ k.pc = 2), if_neg (by omega : ¬ l.pc = 1),
    if_neg (by omega : ¬ l.pc = 2), if_pos hx, if_neg hy]
  decide

theorem load_sem {x x' : BitVec 128} {r} {o : MemOrd} (h : o = .relaxed ∨ o = .seqCst)
    (hs : (Acc.op (.load o) : Acc (BitVec 128)).sem x x' r) : x' = x ∧ r = .val x := by
  rcases h with rfl | rfl <;> simpa [Acc.sem, Op.onCell, Op.ordOk] using hs

theorem cas_sem {x x' p q : BitVec 128} {r}
    (hs : (Acc.op (.cas p q .seqCst .seqCst) : Acc (BitVec 128)).sem x x' r) :
    (x = p ∧ x' = q ∧ r = .ok x) ∨ (x ≠ p ∧ x' = x ∧ r = .err x) := by
  by_cases h : x = p <;> simp [Acc.sem, Op.onCell, Op.ordOk, h] at hs <;> simp [h, hs]

/-- The memory accesses, when the base register holds the address. -/
theorem step_cas {l : Loc} {base : Reg} (hi : l.ins = some (.cmpxchg16b base))
    (h : l.regs.get base = l.call.addr) :
    step l = .acc (.op (.cas (l.regs.rdx ++ l.regs.rax) (l.regs.rcx ++ l.regs.rbx)
      .seqCst .seqCst)) l.gotCas := by
  simp only [step, hi, h, if_true]

theorem step_ldq {l : Loc} {d base : Reg} {b : Bool} (hi : l.ins = some (.ldq d base b))
    (h : l.regs.get base = l.call.addr) :
    step l = .acc (.op (.load .relaxed))
      (l.got fun x => l.regs.set d (if b then X86.hi x else X86.lo x)) := by
  simp only [step, hi, h, if_true]

theorem step_ldx {l : Loc} {base : Reg} (hi : l.ins = some (.ldx base))
    (h : l.regs.get base = l.call.addr) :
    step l = .acc (.op (.load .seqCst)) (l.got fun x => { l.regs with xmm := x }) := by
  simp only [step, hi, h, if_true]

theorem step_stx {l : Loc} {base : Reg} (hi : l.ins = some (.stx base))
    (h : l.regs.get base = l.call.addr) :
    step l = .acc (.op (.store l.regs.xmm .release)) (fun _ => { l with pc := l.pc + 1 }) := by
  simp only [step, hi, h, if_true]

theorem anchor_loadCx {c : Call} {l : Loc} (hb : c.block = .loadCx) (h : Anchor c l) :
    AccOk c l := by
  obtain ⟨block, conv, addr, g, fl⟩ := c
  obtain ⟨call, pc, regs, flags⟩ := l
  simp only at hb; subst hb
  obtain ⟨hc, hp, hr⟩ := h
  simp only at hc hp hr; subst hc hp hr
  cases conv <;> (
    refine ⟨_, _, step_cas rfl rfl, fun x x' r hs => Or.inr ?_⟩
    have e0 : (0 : BitVec 64) ++ (0 : BitVec 64) = (0 : BitVec 128) := rfl
    have hsem : x' = x := by
      rcases cas_sem hs with ⟨h1, h2, _⟩ | ⟨_, h2, _⟩
      · exact h2.trans h1.symm
      · exact h2
    rcases cas_sem hs with ⟨h1, _, rfl⟩ | ⟨_, _, rfl⟩
    · refine ⟨_, ⟨⟨hsem, ?_⟩, ?_⟩, trivial, 1, rfl⟩
      · exact congrArg Res.val h1.symm
      · constructor
        · intro r hr; cases r <;> first | rfl | simp [Block.outs, Block.save] at hr
        · intro _; rfl
    · refine ⟨_, ⟨⟨hsem, ?_⟩, ?_⟩, trivial, 1, rfl⟩
      · exact congrArg Res.val (join_halves x)
      · constructor
        · intro r hr; cases r <;> first | rfl | simp [Block.outs, Block.save] at hr
        · intro _; rfl)

theorem anchor_loadV {c : Call} {l : Loc} (hb : c.block = .loadV) (h : Anchor c l) : AccOk c l := by
  obtain ⟨block, conv, addr, g, fl⟩ := c
  obtain ⟨call, pc, regs, flags⟩ := l
  simp only at hb; subst hb
  obtain ⟨hc, hp, hr⟩ := h
  simp only at hc hp hr; subst hc hp hr
  cases conv <;> (
    refine ⟨_, _, step_ldx rfl rfl, fun x x' r hs => Or.inr ?_⟩
    obtain ⟨h1, rfl⟩ := load_sem (Or.inr rfl) hs
    refine ⟨_, ⟨⟨h1, rfl⟩, ?_⟩, trivial, 0, rfl⟩
    constructor
    · intro r hr; cases r <;> rfl
    · intro h; simp [Block.xmmOut] at h)

theorem anchor_storeV {c : Call} {l : Loc} {v sc} (hb : c.block = .storeV v sc) (h : Anchor c l) :
    AccOk c l := by
  obtain ⟨block, conv, addr, g, fl⟩ := c
  obtain ⟨call, pc, regs, flags⟩ := l
  simp only at hb; subst hb
  obtain ⟨hc, hp, hr⟩ := h
  simp only at hc hp hr; subst hc hp hr
  cases conv <;> cases sc <;> (
    refine ⟨_, _, step_stx rfl rfl, fun x x' r hs => Or.inr ?_⟩
    have h1 : x' = v ∧ r = .unit := by
      simpa [Acc.sem, Op.onCell, Op.ordOk, Call.entry, Block.entry, Regs.set, Block.base] using hs
    obtain ⟨h1, rfl⟩ := h1
    refine ⟨_, ⟨⟨h1, rfl⟩, ?_⟩, trivial, 1, rfl⟩
    constructor
    · intro r hr; cases r <;> rfl
    · intro _; rfl)

theorem setne_eq (q : BitVec 64) (z : Bool) :
    ((q.extractLsb' 8 56 ++ (bif z then 0#8 else 1#8) : BitVec 64).extractLsb' 0 8 = 0) ↔ z = true := by
  have e : ((q.extractLsb' 8 56 ++ (bif z then 0#8 else 1#8) : BitVec 64).extractLsb' 0 8) =
      (bif z then 0#8 else 1#8) := by
    apply BitVec.eq_of_toNat_eq
    rw [BitVec.extractLsb'_toNat]
    erw [BitVec.toNat_append]
    rw [Nat.shiftLeft_eq, Nat.mul_comm, ← Nat.two_pow_add_eq_or_of_lt (BitVec.isLt _)]
    have := (bif z then 0#8 else 1#8 : BitVec 8).isLt
    simp only [Nat.shiftRight_zero]
    omega
  rw [e]
  cases z <;> decide

theorem anchor_cas {c : Call} {l : Loc} {old new} (hb : c.block = .cas old new) (h : Anchor c l) :
    AccOk c l := by
  obtain ⟨block, conv, addr, g, fl⟩ := c
  obtain ⟨call, pc, regs, flags⟩ := l
  simp only at hb; subst hb
  obtain ⟨hc, hp, hr⟩ := h
  simp only at hc hp hr; subst hc hp hr
  cases conv <;> (
    refine ⟨_, _, step_cas rfl rfl, fun x x' r hs => Or.inr ?_⟩
    have hs' := cas_sem hs
    simp only [inLoop, join_halves] at hs'
    rcases hs' with ⟨h1, h2, rfl⟩ | ⟨h0, h2, rfl⟩
    · refine ⟨_, ⟨Or.inl ⟨h1, h2, ?_⟩, ?_⟩, trivial, 2, rfl⟩
      · refine (if_pos ((setne_eq _ _).2 rfl)).trans ?_
        exact congrArg Res.ok ((join_halves old).trans h1.symm)
      · constructor
        · intro r hr; cases r <;> first | rfl | simp [Block.outs] at hr
        · intro _; rfl
    · refine ⟨_, ⟨Or.inr ⟨h0, h2, ?_⟩, ?_⟩, trivial, 2, rfl⟩
      · refine (if_neg (fun e => absurd ((setne_eq _ false).1 e) Bool.false_ne_true)).trans ?_
        exact congrArg Res.err (join_halves x)
      · constructor
        · intro r hr; cases r <;> first | rfl | simp [Block.outs] at hr
        · intro _; rfl)

theorem anchor_swap {c : Call} {l : Loc} {v} (hb : c.block = .swap v) (h : Anchor c l) :
    AccOk c l := by
  obtain ⟨block, conv, addr, g, fl⟩ := c
  obtain ⟨call, pc, regs, flags⟩ := l
  simp only at hb; subst hb
  obtain ⟨hc, a, d, hr, hp⟩ := h
  simp only at hc hp hr; subst hc hr
  rcases hp with rfl | rfl | rfl
  · cases conv <;> (
      refine ⟨_, _, step_ldq rfl rfl, fun x x' r hs => Or.inl ?_⟩
      obtain ⟨h1, rfl⟩ := load_sem (Or.inl rfl) hs
      exact ⟨h1, 0, ⟨rfl, lo x, d, rfl, Or.inr (Or.inl rfl)⟩, (by decide : (3 : Nat) < 4)⟩)
  · cases conv <;> (
      refine ⟨_, _, step_ldq rfl rfl, fun x x' r hs => Or.inl ?_⟩
      obtain ⟨h1, rfl⟩ := load_sem (Or.inl rfl) hs
      exact ⟨h1, 0, ⟨rfl, a, hi x, rfl, Or.inr (Or.inr rfl)⟩, rank_lt_three rfl (Nat.lt_succ_self 2)⟩)
  · cases conv <;> (
      refine ⟨_, _, step_cas rfl rfl, fun x x' r hs => ?_⟩
      have hs' := cas_sem hs
      simp only [inLoop, join_halves] at hs'
      rcases hs' with ⟨h1, h2, rfl⟩ | ⟨h0, h2, rfl⟩
      · refine Or.inr ⟨_, ⟨⟨h2, ?_⟩, ?_⟩, trivial, 2, rfl⟩
        · exact congrArg Res.val h1.symm
        · constructor
          · intro r hr; cases r <;> first | rfl | simp [Block.outs, Block.save] at hr
          · intro _; rfl
      · exact Or.inl ⟨h2, 1, ⟨rfl, lo x, hi x, rfl, Or.inr (Or.inr rfl)⟩,
          rank_drop (Nat.lt_succ_self 2) (join_halves x) (Nat.lt_succ_self 2) (fun e => h0 e.symm)⟩)

/-- The instruction before the end of the loop code. -/
theorem rmw_get (base save : Reg) (body : List Ins) (i : Nat) :
    (rmwCode base save body)[3 + body.length + i]? =
      [Ins.cmpxchg16b base, .jne 3, .mov .rbx save][i]? := by
  unfold rmwCode
  rw [List.getElem?_append_right (by simp; omega)]
  congr 1
  simp
  omega

theorem body3_inLoop (o : Op3) (v : BitVec 128) (conv : Conv) (addr : BitVec 64) (g : Regs)
    (fl0 : Flags) (a d b e : BitVec 64) (fl : Flags) :
    ∃ fl', runBlock (body3 o)
      (inLoop (Call.entry ⟨.rmw3 o v, conv, addr, g, fl0⟩) (Block.save (.rmw3 o v) conv) a d b e, fl) =
      some (inLoop (Call.entry ⟨.rmw3 o v, conv, addr, g, fl0⟩) (Block.save (.rmw3 o v) conv) a d
        (lo (fn3 o v (d ++ a))) (hi (fn3 o v (d ++ a))), fl') := by
  obtain ⟨fl', h⟩ := body3_run o
    (inLoop (Call.entry ⟨.rmw3 o v, conv, addr, g, fl0⟩) (Block.save (.rmw3 o v) conv) a d b e) fl
  refine ⟨fl', h.trans (congrArg some (Prod.ext ?_ rfl))⟩
  have e1 : (inLoop (Call.entry ⟨.rmw3 o v, conv, addr, g, fl0⟩) (Block.save (.rmw3 o v) conv)
      a d b e).r8 = lo v := by cases conv <;> rfl
  have e2 : (inLoop (Call.entry ⟨.rmw3 o v, conv, addr, g, fl0⟩) (Block.save (.rmw3 o v) conv)
      a d b e).r9 = hi v := by cases conv <;> rfl
  simp only [e1, e2, join_halves]
  cases conv <;> rfl

theorem body2_inLoop (o : Op2) (E : Regs) (save : Reg) (a d b e : BitVec 64) (fl : Flags) :
    ∃ fl', runBlock (body2 o) (inLoop E save a d b e, fl) =
      some (inLoop E save a d (lo (fn2 o (d ++ a))) (hi (fn2 o (d ++ a))), fl') := by
  obtain ⟨fl', h⟩ := body2_run o (inLoop E save a d b e) fl
  exact ⟨fl', h⟩

theorem anchor_rmw {c : Call} {l : Loc} {body : List Ins} {fn : BitVec 128 → BitVec 128}
    (hcode : c.block.code c.conv = rmwCode (c.block.base c.conv) (c.block.save c.conv) body)
    (hbody : ∀ a d b e fl, ∃ fl', runBlock body (inLoop c.entry (c.block.save c.conv) a d b e, fl) =
      some (inLoop c.entry (c.block.save c.conv) a d (lo (fn (d ++ a))) (hi (fn (d ++ a))), fl'))
    (hbase : ∀ a d b e,
      (inLoop c.entry (c.block.save c.conv) a d b e).get (c.block.base c.conv) = c.addr)
    (hset1 : ∀ a d b e x, (inLoop c.entry (c.block.save c.conv) a d b e).set .rax x =
      inLoop c.entry (c.block.save c.conv) x d b e)
    (hset2 : ∀ a d b e x, (inLoop c.entry (c.block.save c.conv) a d b e).set .rdx x =
      inLoop c.entry (c.block.save c.conv) a x b e)
    (hres : ∀ R, c.block.result R = .val (R.rdx ++ R.rax))
    (hsem : ∀ x, c.block.Sem x (fn x) (.val x))
    (hpres : ∀ a d b e, Preserved c ((inLoop c.entry (c.block.save c.conv) a d b e).set .rbx
      ((inLoop c.entry (c.block.save c.conv) a d b e).get (c.block.save c.conv))))
    (hcom : ∀ p q, c.block.commit (.op (.cas p q .seqCst .seqCst)))
    (hA : ∀ l, l.call = c → RmwAt c body fn l → Anchor c l)
    (hlc : l.call = c) (h : RmwAt c body fn l) :
    AccOk c l := by
  obtain ⟨call, pc, regs, flags⟩ := l
  obtain ⟨a, d, b, e, hr, hp⟩ := h
  simp only at hlc hp hr; subst hlc hr
  generalize hE : call.entry = E at *
  generalize hS : call.block.save call.conv = S at *
  generalize hB : call.block.base call.conv = B at *
  have hins : ∀ pc R fl, Loc.ins ⟨call, pc, R, fl⟩ = (rmwCode B S body)[pc]? := by
    intro pc R fl; simp only [Loc.ins, hcode]
  -- from the loop head to the compare-exchange
  have toCas : ∀ (a d b e : BitVec 64) (fl1 : Flags), ∃ n, Anchor call
      (tauN n ⟨call, 3, inLoop E S a d b e, fl1⟩) ∧
      2 < (tauN n ⟨call, 3, inLoop E S a d b e, fl1⟩).pc ∧
      (tauN n ⟨call, 3, inLoop E S a d b e, fl1⟩).regs.rax = a ∧
      (tauN n ⟨call, 3, inLoop E S a d b e, fl1⟩).regs.rdx = d := by
    intro a d b e fl1
    obtain ⟨fl', hrun⟩ := hbody a d b e fl1
    refine ⟨body.length, ?_⟩
    rw [tauN_block body [_, _, _] [_, _, _] _ _ hcode rfl hrun]
    refine ⟨hA _ rfl ⟨a, d, _, _, ?_, Or.inr (Or.inr ⟨rfl, rfl, rfl⟩)⟩, ?_, rfl, rfl⟩
    · rw [hE, hS]
    · show 2 < 3 + body.length
      omega
  have hjne : ∀ (R : Regs) (fl1 : Flags), step ⟨call, 3 + body.length + 1, R, fl1⟩ =
        .tau ⟨call, if fl1.zf then 3 + body.length + 2 else 3, R, fl1⟩ := by
    intro R fl1
    have : Loc.ins ⟨call, 3 + body.length + 1, R, fl1⟩ = some (.jne 3) := by
      rw [hins, rmw_get]; rfl
    simp only [step, this]
  have hmov : ∀ (R : Regs) (fl1 : Flags), step ⟨call, 3 + body.length + 2, R, fl1⟩ =
        .tau ⟨call, 3 + body.length + 3, R.set .rbx (R.get S), fl1⟩ := by
    intro R fl1
    have : Loc.ins ⟨call, 3 + body.length + 2, R, fl1⟩ = some (.mov .rbx S) := by
      rw [hins, rmw_get]; rfl
    simp only [step, this, Ins.exec]
  have hret : ∀ (R : Regs) (fl1 : Flags), step ⟨call, 3 + body.length + 3, R, fl1⟩ =
        .ret (.val (R.rdx ++ R.rax), R) := by
    intro R fl1
    have : Loc.ins ⟨call, 3 + body.length + 3, R, fl1⟩ = none := by
      rw [hins, rmw_get]; rfl
    simp only [step, this, hres]
  rcases hp with rfl | rfl | ⟨rfl, hb, he⟩
  · refine ⟨_, _, step_ldq (d := .rax) (base := B) (b := false) (by rw [hins]; rfl) (hbase _ _ _ _),
      fun x x' r hs => Or.inl ?_⟩
    obtain ⟨h1, rfl⟩ := load_sem (Or.inl rfl) hs
    refine ⟨h1, 0, hA _ rfl ⟨lo x, d, b, e, ?_, Or.inr (Or.inl rfl)⟩, (by decide : (3 : Nat) < 4)⟩
    rw [hE, hS, ← hset1 a d b e]; rfl
  · refine ⟨_, _, step_ldq (d := .rdx) (base := B) (b := true) (by rw [hins]; rfl) (hbase _ _ _ _),
      fun x x' r hs => Or.inl ?_⟩
    obtain ⟨h1, rfl⟩ := load_sem (Or.inl rfl) hs
    obtain ⟨n, hn, h2, _⟩ := toCas a (hi x) b e flags
    rw [← hset2 a d b e] at hn h2
    exact ⟨h1, n, hn, rank_lt_three rfl h2⟩
  · subst hb he
    refine ⟨_, _, step_cas (base := B) (by rw [hins]; exact rmw_get _ _ _ 0) (hbase _ _ _ _),
      fun x x' r hs => ?_⟩
    have hs' := cas_sem hs
    simp only [inLoop, join_halves] at hs'
    rcases hs' with ⟨h1, h2, rfl⟩ | ⟨h0, h2, rfl⟩
    · subst h1 h2
      refine Or.inr ⟨(.val (d ++ a), _), ⟨hsem _, hpres a d (lo (fn (d ++ a))) (hi (fn (d ++ a)))⟩,
        hcom _ _, 2, ?_⟩
      simp only [Loc.gotCas]
      rw [tauN_tau (hjne _ _), if_pos rfl, tauN_tau (hmov _ _), tauN, hret]
      rfl
    · subst h2
      refine Or.inl ⟨rfl, ?_⟩
      obtain ⟨n, hn, h3, h4, h5⟩ := toCas (lo x') (hi x') (lo (fn (d ++ a))) (hi (fn (d ++ a)))
        { flags with zf := false }
      refine ⟨n + 1, ?_⟩
      simp only [Loc.gotCas]
      rw [tauN_tau (hjne _ _), if_neg (by simp)]
      refine ⟨hn, rank_drop h3 ?_ ?_ (fun e => h0 e.symm)⟩
      · exact (congrArg₂ (fun (p q : BitVec 64) => p ++ q) h5 h4).trans (join_halves x')
      · show 2 < 3 + body.length
        omega

theorem anchor_rmw3 {c : Call} {l : Loc} {o v} (hb : c.block = .rmw3 o v) (h : Anchor c l) :
    AccOk c l := by
  obtain ⟨block, conv, addr, g, fl⟩ := c
  simp only at hb; subst hb
  refine anchor_rmw (body := body3 o) (fn := fn3 o v) rfl
    (fun a d b e f => body3_inLoop o v conv addr g fl a d b e f) ?_ ?_ ?_ (fun _ => rfl)
    (fn3_sem o v) ?_ (fun _ _ => trivial) (fun l h1 h2 => ⟨h1, h2⟩) h.1 h.2
  · intro a d b e; cases conv <;> rfl
  · intro a d b e x; rfl
  · intro a d b e x; rfl
  · intro a d b e
    constructor
    · intro r hr; cases conv <;> cases r <;> first | rfl | simp [Block.outs, Block.save] at hr
    · intro _; cases conv <;> rfl

theorem anchor_rmw2 {c : Call} {l : Loc} {o} (hb : c.block = .rmw2 o) (h : Anchor c l) :
    AccOk c l := by
  obtain ⟨block, conv, addr, g, fl⟩ := c
  simp only at hb; subst hb
  refine anchor_rmw (body := body2 o) (fn := fn2 o) rfl
    (fun a d b e f => body2_inLoop o _ _ a d b e f) ?_ ?_ ?_ (fun _ => rfl)
    (fn2_sem o) ?_ (fun _ _ => trivial) (fun l h1 h2 => ⟨h1, h2⟩) h.1 h.2
  · intro a d b e; cases conv <;> rfl
  · intro a d b e x; rfl
  · intro a d b e x; rfl
  · intro a d b e
    constructor
    · intro r hr; cases conv <;> cases r <;> first | rfl | simp [Block.outs, Block.save] at hr
    · intro _; cases conv <;> rfl

/-- Every access point is correct. -/
theorem anchor_ok {c : Call} {l : Loc} (h : Anchor c l) : AccOk c l := by
  cases hb : c.block with
  | loadCx => exact anchor_loadCx hb h
  | loadV => exact anchor_loadV hb h
  | storeV v sc => exact anchor_storeV hb h
  | swap v => exact anchor_swap hb h
  | cas old new => exact anchor_cas hb h
  | rmw3 o v => exact anchor_rmw3 hb h
  | rmw2 o => exact anchor_rmw2 hb h

/-- A call gets from its start to its first access point. -/
theorem start_anchor (c : Call) : ∃ n, Anchor c (tauN n (code.start c)) := by
  obtain ⟨block, conv, addr, g, fl⟩ := c
  cases block with
  | loadCx =>
    refine ⟨2, ?_⟩
    have e : ∀ x : BitVec 64, x ^^^ x = 0 := by intro x; simp
    cases conv
    · refine ⟨rfl, rfl, ?_⟩
      show Regs.mk 0 (g.rbx ^^^ g.rbx) 0 0 g.rbx addr g.r8 g.r9 g.r10 g.r11 g.xmm = _
      rw [e]; rfl
    · refine ⟨rfl, rfl, ?_⟩
      show Regs.mk 0 (g.rbx ^^^ g.rbx) 0 0 g.rsi g.rdi g.rbx addr g.r10 g.r11 g.xmm = _
      rw [e]; rfl
  | loadV => exact ⟨0, rfl, rfl, rfl⟩
  | storeV v sc => exact ⟨0, rfl, rfl, rfl⟩
  | swap v => cases conv <;> exact ⟨1, rfl, g.rax, g.rdx, rfl, Or.inl rfl⟩
  | cas old new => cases conv <;> exact ⟨1, rfl, rfl, rfl⟩
  | rmw3 o v => cases conv <;> exact ⟨1, rfl, _, _, _, _, rfl, Or.inl rfl⟩
  | rmw2 o => cases conv <;> exact ⟨1, rfl, _, _, _, _, rfl, Or.inl rfl⟩

/-- Status of a call at a program point: it will reach an access point, or it will return. -/
def At (l : Loc) (st : Status Call (Res (BitVec 128) × Regs)) : Prop :=
  (∃ c, st = .pending c ∧ ∃ n, Anchor c (tauN n l)) ∨
  (∃ r, st = .done r ∧ ∃ n, step (tauN n l) = .ret r)

/-- The blocks simulate their operations. -/
def sim : CodeSim code spec where
  abs := id
  inv _ := True
  at_ := At
  start c := Or.inl ⟨c, rfl, start_anchor c⟩
  tau := by
    intro l st k x hat hn _
    refine Or.inl ?_
    have hn' : step l = .tau k := hn
    have key : ∀ n, tauN n l = tauN (n - 1) k ∨ n = 0 := by
      intro n; cases n with
      | zero => exact Or.inr rfl
      | succ n => exact Or.inl (tauN_tau hn' n)
    rcases hat with ⟨c, rfl, n, ha⟩ | ⟨r, rfl, n, hr⟩
    · refine Or.inl ⟨c, rfl, n - 1, ?_⟩
      rcases key n with e | rfl
      · rw [← e]; exact ha
      · obtain ⟨a, f, hst, _⟩ := anchor_ok ha
        simp only [tauN] at hst
        rw [hn'] at hst
        exact absurd hst (by simp)
    · refine Or.inr ⟨r, rfl, n - 1, ?_⟩
      rcases key n with e | rfl
      · rw [← e]; exact hr
      · simp only [tauN] at hr
        rw [hn'] at hr
        exact absurd hr (by simp)
  step := by
    intro l st a f x x' r hat hn _ hs
    refine ⟨trivial, ?_⟩
    have hn' : step l = .acc a f := hn
    rcases hat with ⟨c, rfl, n, ha⟩ | ⟨r', rfl, n, hr⟩
    · rw [tauN_acc hn'] at ha
      obtain ⟨a', f', hst, hok⟩ := anchor_ok ha
      rw [hn'] at hst
      obtain ⟨rfl, rfl⟩ := Next.acc.inj hst
      rcases hok x x' r hs with ⟨h1, h2⟩ | ⟨r', h1, -, h2⟩
      · obtain ⟨n, h2, _⟩ := h2
        exact Or.inl ⟨h1, Or.inl ⟨c, rfl, n, h2⟩⟩
      · exact Or.inr ⟨c, r', rfl, h1, Or.inr ⟨r', rfl, h2⟩⟩
    · rw [tauN_acc hn', hn'] at hr
      exact absurd hr (by simp)
  ret := by
    intro l st r hat hn
    have hn' : step l = .ret r := hn
    rcases hat with ⟨c, rfl, n, ha⟩ | ⟨r', rfl, n, hr⟩
    · rw [tauN_ret hn'] at ha
      obtain ⟨a', f', hst, _⟩ := anchor_ok ha
      rw [hn'] at hst
      exact absurd hst (by simp)
    · rw [tauN_ret hn', hn'] at hr
      simp at hr; rw [hr]

/-! ## Running alone -/

theorem alone_add (m n : Nat) (l : Loc) (x : BitVec 128) :
    code.alone (m + n) l x = code.alone n (code.alone m l x).1 (code.alone m l x).2 := by
  induction m generalizing l x with
  | zero => simp [Code.alone]
  | succ m ih =>
    rw [Nat.add_right_comm]
    cases h : step l with
    | tau k => simp only [Code.alone, code, h]; exact ih _ _
    | acc a f => simp only [Code.alone, code, h]; exact ih _ _
    | ret r =>
      have h' : code.next l = .ret r := h
      have e : ∀ j, code.alone j l x = (l, x) := by intro j; cases j <;> simp [Code.alone, h']
      rw [e, e, e]

/-- Register-only steps, alone. -/
theorem alone_tauN (n : Nat) (l : Loc) (x : BitVec 128) : ∃ m, code.alone m l x = (tauN n l, x) := by
  induction n generalizing l with
  | zero => exact ⟨0, rfl⟩
  | succ n ih =>
    cases h : step l with
    | tau k =>
      obtain ⟨m, hm⟩ := ih k
      refine ⟨m + 1, ?_⟩
      have h' : code.next l = .tau k := h
      rw [tauN_tau h]
      simp only [Code.alone, h', hm]
    | acc a f => exact ⟨0, by rw [tauN_acc h]; rfl⟩
    | ret r => exact ⟨0, by rw [tauN_ret h]; rfl⟩

theorem alone_anchor (c : Call) (x : BitVec 128) : ∀ (k : Nat) (l : Loc), Anchor c l → rank x l < k →
    ∃ n r, code.next (code.alone n l x).1 = .ret r ∧ spec.sem c x (code.alone n l x).2 r := by
  intro k
  induction k with
  | zero => intro l _ h; omega
  | succ k ih =>
    intro l ha hk
    obtain ⟨a, f, hst, hok⟩ := anchor_ok ha
    have hst' : code.next l = .acc a f := hst
    have e1 : ∀ m, code.alone (m + 1) l x = code.alone m (f (a.exec false x).2) (a.exec false x).1 := by
      intro m; simp only [Code.alone, hst']
    rcases hok x _ _ (a.exec_sem false x) with ⟨h1, n, h2, h3⟩ | ⟨r, h1, -, n, h2⟩
    · obtain ⟨m, hm⟩ := alone_tauN n (f (a.exec false x).2) (a.exec false x).1
      obtain ⟨n', r, h4, h5⟩ := ih _ h2 (by omega)
      refine ⟨(m + n') + 1, r, ?_⟩
      rw [e1, alone_add, hm]
      simp only [h1]
      exact ⟨h4, h5⟩
    · obtain ⟨m, hm⟩ := alone_tauN n (f (a.exec false x).2) (a.exec false x).1
      refine ⟨m + 1, r, ?_⟩
      rw [e1, hm]
      exact ⟨h2, h1⟩

theorem alone_finishes (c : Call) (x : BitVec 128) :
    ∃ n r, code.next (code.alone n (code.start c) x).1 = .ret r ∧
      spec.sem c x (code.alone n (code.start c) x).2 r := by
  obtain ⟨n, ha⟩ := start_anchor c
  obtain ⟨m, hm⟩ := alone_tauN n (code.start c) x
  obtain ⟨n', r, h1, h2⟩ := alone_anchor c x _ _ ha (Nat.lt_succ_self _)
  refine ⟨m + n', r, ?_⟩
  rw [alone_add, hm]
  exact ⟨h1, h2⟩

end Verif.X86
