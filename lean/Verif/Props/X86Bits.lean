import Verif.Spec.X86Bits
import Verif.Int.Sim
set_option autoImplicit false
/-!
# `lock not`, `neg`, `bts`, `btr`, `btc` touch only their object (C74)
-/
namespace Verif.X86.Bits
open Verif.Int Verif.Rv Verif.Lf Verif.Object

section
variable {g : Nat}

theorem inReg_low (junk : BitVec g) {n : Nat} (v : BitVec n) (h : n ≤ g) :
    (inReg junk v).setWidth n = v := by
  apply BitVec.eq_of_getLsbD_eq
  intro i hi
  have : i < g := by omega
  simp [inReg, BitVec.getLsbD_setWidth, BitVec.getLsbD_or, BitVec.getLsbD_shiftLeft, hi, this]

theorem ea_zero (junk : BitVec g) {n : Nat} (addr : BitVec n) (h : n ≤ g) :
    ea n (inReg junk addr) 0 = addr.setWidth g := by
  unfold ea
  rw [inReg_low junk addr h]
  simp

theorem byteAddr_eq (a : BitVec g) (j : Nat) : byteAddr a j = a + BitVec.ofNat g j := by
  unfold byteAddr
  rw [BitVec.ofNat_add]; simp

theorem holds_ld (sz : Nat) (m : Bytes g) (a : BitVec g) : Holds sz m a (ld sz m a) := by
  intro i hi
  rw [objBit, byteAddr_eq, ld, BitVec.getLsbD_ofFnLE]
  simp [hi]

theorem holds_st (sz : Nat) (m : Bytes g) (a : BitVec g) (v : BitVec (8 * sz)) (h : sz < 2 ^ g) :
    Holds sz (st sz m a v) a v := by
  intro i hi
  have hk : i / 8 < sz := by omega
  have e : (a + BitVec.ofNat g (i / 8) - a).toNat = i / 8 := by
    rw [BitVec.add_comm, BitVec.add_sub_cancel, BitVec.toNat_ofNat, Nat.mod_eq_of_lt (by omega)]
  rw [objBit, byteAddr_eq]
  unfold st
  rw [e, if_pos hk, BitVec.getLsbD_setWidth, BitVec.getLsbD_ushiftRight]
  have h8 : i % 8 < 8 := by omega
  have e2 : 8 * (i / 8) + i % 8 = i := by omega
  rw [e2]; simp [h8]

theorem kept_st (sz : Nat) (m : Bytes g) (a : BitVec g) (v : BitVec (8 * sz)) :
    OthersKept sz m (st sz m a v) a := by
  intro x hx
  unfold st
  split
  · rename_i h
    refine absurd ?_ (hx _ h)
    rw [byteAddr_eq, BitVec.ofNat_toNat, BitVec.setWidth_eq, BitVec.add_comm, BitVec.sub_add_cancel]
  · rfl

theorem acts_st {sz : Nat} (h : sz < 2 ^ g) (m : Bytes g) (a : BitVec g) (op : XOp)
    (y : BitVec (8 * sz)) (r : IRes (8 * sz)) (hs : Int.Sem false op.toI (ld sz m a) y r) :
    ActsOn sz a op m (st sz m a y) r :=
  ⟨_, y, holds_ld sz m a, holds_st sz m a y h, kept_st sz m a y, hs⟩

/-- What `not` and `neg` compute. -/
def unVal {w : Nat} : Un → BitVec w → BitVec w
  | .not, x => ~~~x
  | .neg, x => 0 - x

theorem lockUn_eq (sz : Nat) {n : Nat} (h : n ≤ g) (u : Un) (jd : BitVec g) (addr : BitVec n)
    (m : Bytes g) : lockUn sz n u (inReg jd addr) m =
      st sz m (addr.setWidth g) (unVal u (ld sz m (addr.setWidth g))) := by
  unfold lockUn
  rw [ea_zero jd addr h]
  cases u <;> rfl

theorem lockBt_eq {sz : Nat} (hsz : 1 ≤ sz) {n : Nat} (h : n ≤ g) (h8 : 8 * sz ≤ g) (b : BitOp)
    (jd jb : BitVec g) (addr : BitVec n) (v : BitVec (8 * sz)) (hv : v.toNat < 8 * sz)
    (m : Bytes g) : lockBt sz n b (inReg jd addr) (inReg jb v) m =
      (st sz m (addr.setWidth g) (btFn b v.toNat (ld sz m (addr.setWidth g))),
        (ld sz m (addr.setWidth g)).getLsbD v.toNat) := by
  have hp : 8 * sz < 2 ^ (8 * sz - 1) := by
    have e : 8 * sz - 1 = (8 * sz - 5) + 4 := by omega
    have l : 8 * sz - 5 < 2 ^ (8 * sz - 5) := Nat.lt_two_pow_self
    rw [e, Nat.pow_add]; omega
  have ht : v.toInt = (v.toNat : Int) := by
    apply BitVec.toInt_eq_toNat_of_lt
    have : 2 ^ (8 * sz) = 2 * 2 ^ (8 * sz - 1) := by
      rw [← Nat.pow_succ']; congr 1; omega
    omega
  have hd : (v.toNat : Int) / ((8 * sz : Nat) : Int) = 0 := by
    rw [← Int.natCast_ediv, Nat.div_eq_of_lt hv]; rfl
  have hm : (v.toNat : Int) % ((8 * sz : Nat) : Int) = (v.toNat : Int) := by
    rw [← Int.natCast_emod, Nat.mod_eq_of_lt hv]
  unfold lockBt
  dsimp only
  rw [inReg_low jb v h8, ht, hd, hm, Int.mul_zero, ea_zero jd addr h, Int.toNat_natCast]

theorem finish_setb (cf : Bool) : finish (setb cf) = some cf := by cases cf <;> decide

theorem mask_toNat (w k : Nat) (hk : k ≤ 6) (hw : w = 2 ^ k) (hw8 : 8 ≤ w) (n : BitVec 32) :
    ((n &&& (BitVec.ofNat 32 w - 1)).setWidth w).toNat = n.toNat % w := by
  have hw' : w ≤ 64 := by
    rw [hw]; exact Nat.pow_le_pow_right (n := 2) (j := 6) (by decide) hk
  have e1 : (BitVec.ofNat 32 w - 1).toNat = w - 1 := by
    rw [BitVec.toNat_sub, BitVec.toNat_ofNat]
    have : (1 : BitVec 32).toNat = 1 := rfl
    omega
  rw [BitVec.toNat_setWidth, BitVec.toNat_and, e1, hw, and_pred, ← hw]
  have : w < 2 ^ w := Nat.lt_two_pow_self
  have h2 : n.toNat % w < w := Nat.mod_lt _ (by omega)
  exact Nat.mod_eq_of_lt (by omega)

theorem unFn_eq (t : Target) (ht : t.Exists) (ty : Ty) (h : (unRow t ty).isSome) (u : Un)
    (addr : BitVec t.ptrBits) (jd : BitVec t.arch.reg) (m : Bytes t.arch.reg) :
    unFn t ty u addr jd m = some (st (ty.bytes t) m (addr.setWidth _)
      (unVal u (ld (ty.bytes t) m (addr.setWidth _)))) := by
  rcases t with ⟨a, p⟩
  cases a <;> cases p <;> cases ty <;> first
    | exact absurd (ht rfl) (by decide)
    | exact absurd h (by decide)
    | exact congrArg some (lockUn_eq _ (by decide) u jd addr m)

theorem bitArg_toNat (t : Target) (ty : Ty) (n : BitVec 32) :
    (bitArg t ty n).toNat = n.toNat % (8 * ty.bytes t) := by
  rcases t with ⟨a, p⟩
  cases p <;> cases ty <;> first
    | exact mask_toNat 8 3 (by decide) rfl (by decide) n
    | exact mask_toNat 16 4 (by decide) rfl (by decide) n
    | exact mask_toNat 32 5 (by decide) rfl (by decide) n
    | exact mask_toNat 64 6 (by decide) rfl (by decide) n

theorem bytes_pos (t : Target) (ty : Ty) : 1 ≤ ty.bytes t ∧ ty.bytes t ≤ 8 := by
  rcases t with ⟨a, p⟩
  cases a <;> cases p <;> cases ty <;> decide

theorem bitFnAsm_eq (t : Target) (ht : t.Exists) (ty : Ty) (h : (bitRow t ty).isSome) (b : BitOp)
    (n : BitVec 32) (addr : BitVec t.ptrBits) (jd jb : BitVec t.arch.reg) (m : Bytes t.arch.reg) :
    bitFnAsm t ty b n addr jd jb m = some (st (ty.bytes t) m (addr.setWidth _)
      (btFn b (n.toNat % (8 * ty.bytes t)) (ld (ty.bytes t) m (addr.setWidth _))),
      (ld (ty.bytes t) m (addr.setWidth _)).getLsbD (n.toNat % (8 * ty.bytes t))) := by
  have hv : (bitArg t ty n).toNat < 8 * ty.bytes t := by
    rw [bitArg_toNat]; exact Nat.mod_lt _ (by have := (bytes_pos t ty).1; omega)
  have hn := bitArg_toNat t ty n
  rw [← hn]
  have key : ∀ {g sz pn : Nat} (h1 : 1 ≤ sz) (h : pn ≤ g) (h8 : 8 * sz ≤ g) (jd jb : BitVec g)
      (addr : BitVec pn) (v : BitVec (8 * sz)) (hv : v.toNat < 8 * sz) (m : Bytes g),
      ((finish (setb (lockBt sz pn b (inReg jd addr) (inReg jb v) m).2)).bind
        fun r => some ((lockBt sz pn b (inReg jd addr) (inReg jb v) m).1, r)) =
      some (st sz m (addr.setWidth g) (btFn b v.toNat (ld sz m (addr.setWidth g))),
        (ld sz m (addr.setWidth g)).getLsbD v.toNat) := by
    intro g sz pn h1 h h8 jd jb addr v hv m
    rw [lockBt_eq h1 h h8 b jd jb addr v hv m, finish_setb]; rfl
  rcases t with ⟨a, p⟩
  cases a <;> cases p <;> cases ty <;> first
    | exact absurd (ht rfl) (by decide)
    | exact absurd h (by decide)
    | exact key (by decide) (by decide) (by decide) jd jb addr _ hv m

theorem reg_big (t : Target) (ty : Ty) : ty.bytes t < 2 ^ t.arch.reg := by
  have := (bytes_pos t ty).2
  have h8 : 8 < 2 ^ t.arch.reg := by cases t.arch <;> decide
  omega

end

/-- **C74a.** On every x86 target, for every type whose `not`, `neg` or bit operation is an asm block,
every bit number, ordering, pointer, contents of the unused register parts and memory: the block
assembles and has no undefined behaviour; the object's bytes go from their value to the operation's
result, the answer is the operation's, and no byte outside the object changes. -/
theorem bits_exact (t : Target) (ht : t.Exists) (ty : Ty) (op : XOp) (h : hasAsm t ty op)
    (addr : BitVec t.ptrBits) (jd jb : BitVec t.arch.reg) (m : Bytes t.arch.reg) :
    ∃ m' r, exec t ty op addr jd jb m = some (m', r) ∧
      ActsOn (ty.bytes t) (addr.setWidth t.arch.reg) op m m' r := by
  cases op with
  | un u o =>
    refine ⟨_, _, by rw [exec, unFn_eq t ht ty h]; rfl, acts_st (reg_big t ty) _ _ _ _ _ ⟨?_, rfl⟩⟩
    cases u
    · exact not_post _
    · show Un.Post .neg _ (0#_ - _)
      rw [BitVec.zero_sub]; exact neg_post _
  | bit b n o =>
    have hp : 0 < 8 * ty.bytes t := by have := (bytes_pos t ty).1; omega
    exact ⟨_, _, by rw [exec, bitFnAsm_eq t ht ty h]; rfl,
      acts_st (reg_big t ty) _ _ _ _ _ ⟨bt_post (Nat.mod_lt _ hp) b _, rfl⟩⟩

/-- **C74b.** Each block is the one indivisible step the integer model takes for it (`Int.un`,
`Int.bit`): the same function of the object's value, the same answer. -/
theorem bits_are_int_prog (t : Target) (ht : t.Exists) (ty : Ty) (op : XOp) (h : hasAsm t ty op)
    (addr : BitVec t.ptrBits) (jd jb : BitVec t.arch.reg) (m : Bytes t.arch.reg) (l : Bool) :
    ∃ f dec, (match op with
        | .un u o => Int.un (.core l true true) u o
        | .bit b n o => Int.bit (.core l true true) b n o) =
          some (.one (.op (.rmw f .seqCst)) dec : P (8 * ty.bytes t)) ∧
      exec t ty op addr jd jb m = some (st (ty.bytes t) m (addr.setWidth t.arch.reg)
        (f (ld (ty.bytes t) m (addr.setWidth t.arch.reg))),
        dec (.val (ld (ty.bytes t) m (addr.setWidth t.arch.reg)))) := by
  cases op with
  | un u o =>
    refine ⟨unVal u, fun r => dropVal (.res r), ?_, by rw [exec, unFn_eq t ht ty h]; rfl⟩
    cases u <;> rfl
  | bit b n o =>
    have hb : n.toNat &&& (8 * ty.bytes t - 1) = n.toNat % (8 * ty.bytes t) := by
      rcases t with ⟨a, p⟩
      cases p <;> cases ty <;> first
        | exact and_pred 3 _
        | exact and_pred 4 _
        | exact and_pred 5 _
        | exact and_pred 6 _
    refine ⟨_, _, rfl, ?_⟩
    rw [exec, bitFnAsm_eq t ht ty h, hb]; rfl

/-- A call of such an operation on some object. -/
structure Call (t : Target) where
  ty : Ty
  op : XOp
  addr : BitVec t.ptrBits
  asm : hasAsm t ty op

/-- Program points: before and after the instruction. -/
inductive Pc (t : Target) where
  | start (c : Call t)
  | fin (r : Σ w, IRes w)

/-- The code: one indivisible instruction with whatever is in the unused register parts; then return. -/
def sys (t : Target) : Sys (Bytes t.arch.reg) (Pc t) (Call t) (Σ w, IRes w) where
  start _ c := .start c
  step _ l m l' m' := ∃ c jd jb r, l = .start c ∧ exec t c.ty c.op c.addr jd jb m = some (m', r) ∧
    l' = .fin ⟨_, r⟩
  ret
    | .start _ => none
    | .fin r => some r

/-- Byte memory with the objects in it. -/
def spec (t : Target) : Spec (Bytes t.arch.reg) (Call t) (Σ w, IRes w) where
  sem c m m' r := ∃ r0, r = ⟨8 * c.ty.bytes t, r0⟩ ∧
    ActsOn (c.ty.bytes t) (c.addr.setWidth t.arch.reg) c.op m m' r0

/-- **C74c.** Any concurrent history of such operations on any objects in one memory (neighbours, and
the same object through different types) is linearizable over byte memory. -/
theorem bits_linearizable (t : Target) (ht : t.Exists) (m : Bytes t.arch.reg)
    (h : List (Object.Ev (Call t) (Σ w, IRes w))) (s) (hx : Runs (sys t) m h s) :
    LinearizableTo (spec t) m h s.mem := by
  refine Sim.linearizable (I := sys t) (S := spec t)
    { abs := id
      inv := fun _ => True
      at_ := fun _ _ l st => match l with
        | .start c => st = .pending c
        | .fin r => st = .done r
      start := fun _ _ _ _ => rfl
      step := ?_
      stable := fun _ _ _ _ _ _ _ _ _ _ _ _ _ h => h
      ret := ?_ } trivial hx
  · rintro _ m l l' m' st _ hat ⟨c, jd, jb, r, rfl, e, rfl⟩
    refine ⟨trivial, Or.inr ⟨c, _, hat, ⟨_, rfl, ?_⟩, rfl⟩⟩
    obtain ⟨m2, r2, e2, ha⟩ := bits_exact t ht c.ty c.op c.asm c.addr jd jb m
    rw [e] at e2
    cases e2
    exact ha
  · intro _ m l st r _ hat hr
    cases l with
    | start c => simp [sys] at hr
    | fin r' => simp only [sys, Option.some.injEq] at hr; subst hr; exact hat

/-- A pending call can always take its step: it never gets stuck. -/
theorem bits_finishes (t : Target) (ht : t.Exists) (c : Call t) (i) (m : Bytes t.arch.reg) :
    ∃ m' r, (sys t).step i (.start c) m (.fin r) m' := by
  obtain ⟨m', r, e, _⟩ := bits_exact t ht c.ty c.op c.asm c.addr 0 0 m
  exact ⟨m', _, c, 0, 0, r, rfl, e, rfl⟩

/-- On x32 a 32-bit pointer is used with its 64-bit register's upper half full of junk. -/
example : ((exec ⟨.x86_64, true⟩ .u16 (.bit .set 27 .relaxed) 0x1002#32 0xdead_beef_0000_0000
    0xffff_ffff_ffff_0000 (fun _ => 0x10)).map fun p => (p.1 0x1003, p.1 0x1002, p.1 0x1004, p.2)) =
    some (0x18, 0x10, 0x10, .flag false) := by decide +kernel

example : ((exec ⟨.x86_64, false⟩ .i64 (.bit .toggle 0xffff_ffff .acqRel) 0x1000#64 0 0
    (fun _ => 0x80)).map fun p => (p.1 0x1007, p.1 0x1006, p.2)) =
    some (0x00, 0x80, .flag true) := by decide +kernel

example : ((exec ⟨.x86, true⟩ .isize (.un .neg .seqCst) 0x1000#32 0 0
    (fun _ => 0x80)).map fun p => (p.1 0x1000, p.1 0x1003, p.1 0x1004, p.2)) =
    some (0x80, 0x7f, 0x80, .res .unit) := by decide +kernel

/-- The hypotheses hold for it. -/
example : ∃ m' r, exec ⟨.x86_64, true⟩ .ptr (.bit .clear 35 .release) 0x1000#32 7 9 (fun _ => 0xff) =
    some (m', r) ∧ ActsOn 4 (0x1000#64) (.bit .clear 35 .release) (fun _ => 0xff) m' r :=
  bits_exact ⟨.x86_64, true⟩ (fun _ => rfl) .ptr _ rfl _ _ _ _

/-- Why the bit number is reduced first: with offset 27 the instruction would write the next word. -/
example : (lockBt 2 32 .set (0x1002#64) (27#64) (fun _ => 0x10)).1 0x1005 = 0x18 := by decide +kernel

/-- A run with two overlapping calls on neighbouring objects. -/
example (t : Target) (ht : t.Exists) (m : Bytes t.arch.reg) (c d : Call t) : ∃ r r' s,
    Runs (sys t) m [.inv 0 c, .inv 1 d, .ret 1 r, .ret 0 r'] s := by
  obtain ⟨m1, r1, h1⟩ := bits_finishes t ht d 1 m
  obtain ⟨m2, r2, h2⟩ := bits_finishes t ht c 0 m1
  have e0 : Runs (sys t) m [] { mem := m, th := fun _ => none } := .refl _
  have e1 := Exec.ev e0 (.inv _ 0 c rfl)
  have e2 := Exec.ev e1 (.inv _ 1 d rfl)
  have e3 := Exec.tau e2 (.act _ 1 (.start d) _ _ rfl h1)
  have e4 := Exec.tau e3 (.act _ 0 (.start c) _ _ rfl h2)
  have e5 := Exec.ev e4 (.ret _ 1 (.fin r1) r1 rfl rfl)
  exact ⟨r1, r2, _, Exec.ev e5 (.ret _ 0 (.fin r2) r2 rfl rfl)⟩

end Verif.X86.Bits
