import Verif.Int.Free
import Verif.Bool.Free
import Verif.X86.Free
import Verif.Asm.Free
import Verif.Kuser.Free
import Verif.Props.Bool
import Verif.Props.Riscv
import Verif.Props.ArmLinux
import Verif.Props.Arm
import Verif.Props.Ppc
import Verif.Props.S390x
import Verif.Props.Rv64
import Verif.Props.Rv32
import Verif.Props.Kuser
/-!
# The lock-free operations are lock-free (C66)

`LockFree` (`Spec/LockFree.lean`): a thread stopped in the middle of an operation never keeps others from finishing
theirs, and as long as threads run, operations finish.  For every operation the crate implements without a lock, on every
back end modelled.
-/
set_option autoImplicit false
namespace Verif.Free
open Verif.Lf Verif.Object

variable {K : Type} [DecidableEq K]

/-- **C66a.** Integer atomics. -/
theorem int_lock_free (w : Nat) (signed : Bool) (k : Int.Backend) :
    LockFree ((Int.codeOf w signed k).sys K) (Int.codeOf w signed k).Spurious :=
  Prog.lockFree fun op => Int.prog_fit (Option.some_get op.2).symm

/-- **C66b.** Pointer atomics. -/
theorem ptr_lock_free (w size : Nat) (k : Ptr.Backend) :
    LockFree ((Ptr.codeOf w size k).sys K) (Ptr.codeOf w size k).Spurious :=
  Prog.lockFree fun op => Ptr.prog_fit (Option.some_get op.2).symm

/-- **C66c.** Float atomics. -/
theorem float_lock_free {w : Nat} (signed : Bool) (A : Float.Arith w) (f : Float.FBackend) :
    LockFree ((Float.codeOf signed A f).sys K) (Float.codeOf signed A f).Spurious :=
  Prog.lockFree fun op => Float.prog_fit (Option.some_get op.2).symm

/-- **C66d.** `AtomicBool`, from bytes that are booleans. -/
theorem bool_lock_free (amo : Bool) :
    LockFreeFrom ((Bool.code amo).sys K) (Bool.code amo).Spurious fun m => ∀ k, m k = 0 ∨ m k = 1 :=
  (Bool.free amo).lockFreeFrom

/-- **C66e.** 128-bit atomics on x86-64. There are no spurious steps: `cmpxchg16b` fails only for a reason. -/
theorem x86_lock_free : LockFree (X86.code.sys K) fun _ _ _ _ => False := by
  have h := X86.free.lockFree (K := K)
  have hs : ∀ l m l' (m' : K → BitVec 128), ¬ X86.code.Spurious l m l' m' := by
    rintro l m l' m' ⟨a, f, r, h1, -, h2, -⟩
    cases a with
    | casWeak cur new s g =>
      change X86.step l.2 = _ at h1
      unfold X86.step at h1
      repeat' split at h1
      all_goals cases h1
    | _ => exact h2.elim
  refine ⟨fun m hh s hm hx t l hl => ?_, fun m N σ e hm h0 hst hN _ => h.2 m N σ e hm h0 hst hN ⟨0, fun i _ => ?_⟩⟩
  · rcases h.1 m hh s hm hx t l hl with h | ⟨l', m', h1, -⟩
    · exact .inl h
    · exact .inr ⟨l', m', h1, id⟩
  · rintro ⟨t, l, l', -, -, -, h⟩
    exact hs _ _ _ _ h

/-- The effect is no weak compare-exchange. -/
def NotWeak {St V W : Type} : Asm.Eff St V W → Prop
  | .acc (.casWeak _ _ _ _) _ => False
  | _ => True

theorem arm_looks (j : Arm.Ins) (f : Arm.Feat) (e : Arm.Endian) (addr : BitVec 64) (s : Arm.St) :
    NotWeak (j.eff f e addr s) := by
  cases j
  case ldp a b base =>
    change NotWeak (ite _ _ _)
    split
    · cases f.lse2 <;> exact True.intro
    · exact True.intro
  all_goals first
    | exact True.intro
    | (change NotWeak (ite _ _ _); split <;> exact True.intro)

/-- **C66f.** 128-bit atomics on AArch64. -/
theorem arm_lock_free {E : Arm.Env} (hE : E.Ok) (order : Arm.Call → Nat → Bool) :
    LockFree ((Arm.blocks E order).code.sys K) (Arm.blocks E order).code.Spurious :=
  Asm.lockFree (fun c => (Classical.choice (Arm.correct_exist hE order c)).toPoints)
    (fun c => (Classical.choice (Arm.correct_exist hE order c)).free)
    (Asm.looks fun c i s cur new o g k h => by
      change i.sem _ _ _ _ = _ at h
      have key : NotWeak (i.sem E.cpu E.endian c.addr s) := by
        unfold Arm.Ins.sem
        split
        · split
          · exact arm_looks ..
          · trivial
        · exact arm_looks ..
      rw [h] at key
      exact key)

/-- **C66g.** 128-bit atomics on powerpc64, where the processor has the instructions. -/
theorem ppc_lock_free {E : Ppc.Env} (hE : E.Ok) (hq : E.Quad) :
    LockFree ((Ppc.blocks E).code.sys K) (Ppc.blocks E).code.Spurious :=
  Asm.lockFree (fun c => (Classical.choice (Ppc.correct_exist hE hq c)).toPoints)
    (fun c => (Classical.choice (Ppc.correct_exist hE hq c)).free)
    (Asm.looks fun c i s cur new o g k h => by
      change i.sem _ _ _ _ = _ at h
      unfold Ppc.Ins.sem at h
      repeat' split at h
      all_goals cases h)

/-- **C66h.** 128-bit atomics on s390x. -/
theorem s390x_lock_free {E : S390x.Env} (hE : E.Ok) :
    LockFree ((S390x.blocks E).code.sys K) (S390x.blocks E).code.Spurious :=
  Asm.lockFree (fun c => (Classical.choice (S390x.correct_exist hE c)).toPoints)
    (fun c => (Classical.choice (S390x.correct_exist hE c)).free)
    (Asm.looks fun c i s cur new o g k h => by
      change i.sem _ _ _ = _ at h
      unfold S390x.Ins.sem at h
      repeat' split at h
      all_goals cases h)

/-- **C66i.** 128-bit atomics on riscv64 with Zacas. -/
theorem rv64_lock_free {E : Rv64.Env} (hE : E.Ok) (hq : E.Zacas) :
    LockFree ((Rv64.blocks E).code.sys K) (Rv64.blocks E).code.Spurious :=
  Asm.lockFree (fun c => (Classical.choice (Rv64.correct_exist hE hq c)).toPoints)
    (fun c => (Classical.choice (Rv64.correct_exist hE hq c)).free)
    (Asm.looks fun c i s cur new o g k h => by
      change i.sem _ _ _ = _ at h
      cases i <;> simp only [Rv64.Ins.sem, Rv64.amocasSem] at h
      all_goals
        (repeat' split at h)
      all_goals cases h)

/-- **C66j.** 64-bit atomics on riscv32 with Zacas. -/
theorem rv32_lock_free {E : Rv32.Env} (hE : E.Ok) (hq : E.Zacas) :
    LockFree ((Rv32.blocks E).code.sys K) (Rv32.blocks E).code.Spurious :=
  Asm.lockFree (fun c => (Classical.choice (Rv32.correct_exist hE hq c)).toPoints)
    (fun c => (Classical.choice (Rv32.correct_exist hE hq c)).free)
    (Asm.looks fun c i s cur new o g k h => by
      change i.sem _ _ _ = _ at h
      cases i <;> simp only [Rv32.Ins.sem, Rv32.amocasSem] at h
      all_goals
        (repeat' split at h)
      all_goals cases h)

/-- **C66k.** 64-bit atomics on pre-v6 Arm Linux, where the kernel has the helper. -/
theorem kuser_lock_free {E : Kuser.Env} (hE : E.Ok) (hk : E.hasKuser = true) :
    LockFree ((Kuser.blocks E).code.sys K) (Kuser.blocks E).code.Spurious :=
  Asm.lockFree (Kuser.points hE hk) (Kuser.free hE hk) (Asm.looks_ Kuser.looksAt)

/-- Every weak compare-exchange in the program is looked at. -/
def Looked {I F V : Type} (acc : I → Acc V) : Stmt I F V → Prop
  | .acc i k => (∀ cur new s g, acc i = .casWeak cur new s g → k (.ok cur) ≠ k (.err cur)) ∧ ∀ r, Looked acc (k r)
  | .fence _ k => Looked acc k
  | _ => True

/-- **C66l.** Load, store and read-modify-write on RISC-V without the A extension's compare-exchange. -/
theorem riscv_lock_free {L n : Nat} (hn : n ≤ L) :
    LockFree ((Riscv.code L n).sys K) (Riscv.code L n).Spurious := by
  refine (Stmt.free (S := Riscv.spec) (Riscv.prog_pending hn) (fun _ => True) (fun _ => trivial) (fun _ _ _ => trivial)
    (fun _ _ _ _ => trivial) trivial ?_).lockFree
  intro i k cur new s g _ h
  cases i <;> simp [Riscv.Ins.acc] at h

/-- **C66m.** The narrow atomics on pre-v6 Arm Linux. -/
theorem armLinux_lock_free {V : Type} [DecidableEq V] (up : Bool) :
    LockFree ((ArmLinux.code (V := V) up).sys K) (ArmLinux.code (V := V) up).Spurious := by
  refine (Stmt.free (S := ArmLinux.spec) (ArmLinux.prog_pending up) (Looked id) ?_ (fun _ _ h => h) (fun _ _ r h => h.2 r)
    trivial (fun i k cur new s g h e => h.1 cur new s g e)).lockFree
  intro op
  cases op with
  | load o => cases o <;> simp [ArmLinux.prog, ArmLinux.load, MemOrd.assertLoad, Looked]
  | store v o => cases o <;> simp [ArmLinux.prog, ArmLinux.store, MemOrd.assertStore, Looked]
  | swap v o => simp [ArmLinux.prog, Looked]
  | rmw f o => simp [ArmLinux.prog, Looked]
  | cas weak old new s f =>
    simp only [ArmLinux.prog, ArmLinux.cas]
    split
    · trivial
    · refine ⟨fun cur new s' g _ => ?_, fun r => ?_⟩
      · by_cases hf : f = .relaxed <;> simp [ArmLinux.isErr, hf]
      · by_cases hf : f ≠ .relaxed ∧ ArmLinux.isErr r = true
        · simp only [if_pos hf]; trivial
        · simp only [if_neg hf]; trivial

/-- **C66n.** Sub-word operations on RISC-V, done on the word around. There are no spurious steps. -/
theorem sub_word_lock_free (L : Nat) : LockFree (Rv.sys L) fun _ _ _ _ => False := (Rv.lfCert L).lockFree

/-! ## The statements are about something -/

namespace Demo

/-- An `AtomicU8` on a processor with the usual instructions; `fetch_neg` is a compare-exchange loop there. -/
abbrev C := Int.codeOf 8 false (.core false false false)
abbrev L := Prog.Pc (BitVec 8) (Int.IRes 8)

def negOp : Int.Avail 8 false (.core false false false) := ⟨.fetchUn .neg .relaxed, rfl⟩
def addOp : Int.Avail 8 false (.core false false false) := ⟨.fetchBin .add 1 .relaxed, rfl⟩

def neg (v : BitVec 8) : BitVec 8 := -v
def add1 (v : BitVec 8) : BitVec 8 := v + 1
def out (v : BitVec 8) : Int.IRes 8 := .res (.val v)

/-- `fetch_neg` about to try with `v`. -/
def trying (v : BitVec 8) : L := .loop neg .relaxed out v
/-- `fetch_add` about to begin, and when it is over. -/
def adding : L := .start (.one (.op (.rmw add1 .relaxed)) .res)
def added (v : BitVec 8) : L := .fin (out v)

/-- Thread 0 at `a`, thread 1 at `b`, the object holding `v`. -/
def st (v : BitVec 8) (a b : Option L) : State (Unit → BitVec 8) (Unit × L) :=
  ⟨fun _ => v, fun t => if t = 0 then a.map ((), ·) else if t = 1 then b.map ((), ·) else none⟩

/-- Thread 1 finishes an addition between any two attempts of thread 0. -/
def round (n : Nat) : Nat → State (Unit → BitVec 8) (Unit × L)
  | 0 => st n (some (trying n)) none
  | 1 => st n (some (trying n)) (some adding)
  | 2 => st (n + 1) (some (trying n)) (some (added n))
  | _ => st (n + 1) (some (trying n)) none

def runs : Nat → State (Unit → BitVec 8) (Unit × L)
  | 0 => st 0 none none
  | 1 => st 0 (some ((C.start negOp))) none
  | i + 2 => round (i / 4) (i % 4)

def event : Nat → Option (Object.Ev (Unit × Int.Avail 8 false (.core false false false)) (Int.IRes 8))
  | 0 => some (.inv 0 ((), negOp))
  | 1 => none
  | i + 2 => match i % 4 with
    | 0 => some (.inv 1 ((), addOp))
    | 2 => some (.ret 1 (out (i / 4 : Nat)))
    | _ => none

theorem ofNat_succ (n : Nat) : ((n + 1 : Nat) : BitVec 8) = (n : BitVec 8) + 1 := by
  apply BitVec.eq_of_toNat_eq
  simp [BitVec.toNat_add]

theorem up0 (v v' : BitVec 8) (a b x : Option L) :
    (⟨fun _ => v', Function.update (st v a b).th 0 (x.map ((), ·))⟩ : State (Unit → BitVec 8) (Unit × L)) = st v' x b := by
  unfold st
  congr 1
  funext t
  by_cases e0 : t = 0
  · subst e0; simp
  · simp [e0, Function.update_of_ne e0]

theorem up1 (v v' : BitVec 8) (a b x : Option L) :
    (⟨fun _ => v', Function.update (st v a b).th 1 (x.map ((), ·))⟩ : State (Unit → BitVec 8) (Unit × L)) = st v' a x := by
  unfold st
  congr 1
  funext t
  by_cases e1 : t = 1
  · subst e1; simp
  · simp [e1, Function.update_of_ne e1]

theorem upd (v v' : BitVec 8) : Function.update (fun _ : Unit => v) () v' = fun _ => v' := by
  funext u; cases u; simp

theorem step_ (i : Nat) : Step (C.sys Unit) (runs i) (event i) (runs (i + 1)) := by
  match i with
  | 0 =>
    have := Step.inv (I := C.sys Unit) (st 0 none none) 0 ((), negOp) rfl
    rw [show runs 1 = _ from (up0 0 0 none none (some (C.start negOp))).symm]
    exact this
  | 1 =>
    have := Step.act (I := C.sys Unit) (st 0 (some (C.start negOp)) none) 0 ((), C.start negOp) ((), trying 0) (fun _ => 0) rfl
      (.inr ⟨.op (.load .relaxed), _, 0, .val 0, rfl, rfl, rfl, (upd 0 0).symm⟩)
    rw [show runs 2 = _ from (up0 0 0 (some (C.start negOp)) none (some (trying 0))).symm]
    exact this
  | i + 2 =>
    have hlt : i % 4 < 4 := Nat.mod_lt _ (by decide)
    generalize hn : i / 4 = n
    have hr : runs (i + 2) = round n (i % 4) := by rw [← hn]; rfl
    match hm : i % 4, hlt with
    | 0, _ =>
      have h1 : (i + 1) % 4 = 1 ∧ (i + 1) / 4 = n := by omega
      have he : event (i + 2) = some (.inv 1 ((), addOp)) := by simp only [event, hm]
      have hr' : runs (i + 2 + 1) = round n 1 := by
        show round ((i + 1) / 4) ((i + 1) % 4) = _
        rw [h1.1, h1.2]
      rw [hr, hm, he, hr']
      have := Step.inv (I := C.sys Unit) (st n (some (trying n)) none) 1 ((), addOp) rfl
      rw [show round n 1 = _ from (up1 n n (some (trying n)) none (some adding)).symm]
      exact this
    | 1, _ =>
      have h1 : (i + 1) % 4 = 2 ∧ (i + 1) / 4 = n := by omega
      have he : event (i + 2) = none := by simp only [event, hm]
      have hr' : runs (i + 2 + 1) = round n 2 := by
        show round ((i + 1) / 4) ((i + 1) % 4) = _
        rw [h1.1, h1.2]
      rw [hr, hm, he, hr']
      have := Step.act (I := C.sys Unit) (st n (some (trying n)) (some adding)) 1 ((), adding) ((), added n) (fun _ => n + 1) rfl
        (.inr ⟨.op (.rmw add1 .relaxed), _, n + 1, .val n, rfl, rfl, rfl, (upd _ _).symm⟩)
      rw [show round n 2 = _ from (up1 n (n + 1) (some (trying n)) (some adding) (some (added n))).symm]
      exact this
    | 2, _ =>
      have h1 : (i + 1) % 4 = 3 ∧ (i + 1) / 4 = n := by omega
      have he : event (i + 2) = some (.ret 1 (out n)) := by simp only [event, hm, hn]
      have hr' : runs (i + 2 + 1) = round n 3 := by
        show round ((i + 1) / 4) ((i + 1) % 4) = _
        rw [h1.1, h1.2]
      rw [hr, hm, he, hr']
      have := Step.ret (I := C.sys Unit) (st (n + 1) (some (trying n)) (some (added n))) 1 ((), added n) (out n) rfl rfl
      rw [show round n 3 = _ from (up1 (n + 1) (n + 1) (some (trying n)) (some (added n)) none).symm]
      exact this
    | 3, _ =>
      have h1 : (i + 1) % 4 = 0 ∧ (i + 1) / 4 = n + 1 := by omega
      have he : event (i + 2) = none := by simp only [event, hm]
      have hr' : runs (i + 2 + 1) = round (n + 1) 0 := by
        show round ((i + 1) / 4) ((i + 1) % 4) = _
        rw [h1.1, h1.2]
      rw [hr, hm, he, hr']
      have hne : ((n : BitVec 8) + 1) ≠ n := by
        intro h
        have h2 : (n : BitVec 8) + 1 - n = n - n := by rw [h]
        rw [BitVec.add_comm, BitVec.add_sub_cancel, BitVec.sub_self] at h2
        exact absurd h2 (by decide)
      have hcas : Op.onCell (.cas (n : BitVec 8) (neg n) .relaxed .relaxed) ((n : BitVec 8) + 1) = ((n : BitVec 8) + 1, .err ((n : BitVec 8) + 1)) := by
        show (if ((n : BitVec 8) + 1) = n then _ else _) = _
        rw [if_neg hne]
      have := Step.act (I := C.sys Unit) (st (n + 1) (some (trying n)) none) 0 ((), trying n) ((), trying (n + 1))
        (fun _ => n + 1) rfl
        (.inr ⟨.casWeak n (neg n) .relaxed .relaxed, _, n + 1, .err (n + 1), rfl,
          .inl hcas.symm, rfl, (upd _ _).symm⟩)
      have e : round (n + 1) 0 = st (n + 1) (some (trying (n + 1))) none := by
        show st ((n + 1 : Nat) : BitVec 8) (some (trying ((n + 1 : Nat) : BitVec 8))) none = _
        rw [ofNat_succ]
      rw [e, ← up0 (n + 1) (n + 1) (some (trying n)) none (some (trying (n + 1)))]
      exact this

/-- No step of this run is spurious: every failure of thread 0 has its reason. -/
theorem not_spurious (i : Nat) : ¬ SpuriousStep (C.sys Unit) C.Spurious (runs i) (runs (i + 1)) := by
  rintro ⟨t, l, l', hl, -, hth, a, f, r, h1, -, h3, -⟩
  have hne : ∀ n : Nat, ((n : BitVec 8) + 1) ≠ n := by
    intro n h
    have h2 : (n : BitVec 8) + 1 - n = n - n := by rw [h]
    rw [BitVec.add_comm, BitVec.add_sub_cancel, BitVec.sub_self] at h2
    exact absurd h2 (by decide)
  -- a spurious failure leaves the thread where it is about to try again; look at which threads could
  cases a with
  | op _ => exact h3
  | peek => exact h3
  | casWeak cur new s g =>
    have aux : ∀ v x y, (st v x y).th t = some l → (x = some l.2 ∧ t = 0) ∨ (y = some l.2 ∧ t = 1) := by
      intro v x y h
      by_cases e0 : t = 0
      · subst e0
        cases x with
        | none => cases h
        | some x => cases h; exact .inl ⟨rfl, rfl⟩
      · by_cases e1 : t = 1
        · subst e1
          cases y with
          | none => cases h
          | some y => cases h; exact .inr ⟨rfl, rfl⟩
        · simp [st, e0, e1] at h
    have n1 : ∀ x, l.2 = C.start x → x = negOp ∨ x = addOp → False := by
      rintro x hx (rfl | rfl) <;> (rw [hx] at h1; cases h1)
    have n2 : l.2 ≠ adding := fun hx => by rw [hx] at h1; cases h1
    have n3 : ∀ n, l.2 ≠ added n := fun n hx => by rw [hx] at h1; cases h1
    have n4 : ∀ v, l.2 = trying v → cur = v := fun v hx => by rw [hx] at h1; cases h1; rfl
    match i with
    | 0 => rcases aux _ _ _ hl with ⟨h, _⟩ | ⟨h, _⟩ <;> cases h
    | 1 =>
      rcases aux _ _ _ hl with ⟨h, _⟩ | ⟨h, _⟩
      · exact n1 negOp (Option.some.inj h).symm (.inl rfl)
      · cases h
    | i + 2 =>
      have hlt : i % 4 < 4 := Nat.mod_lt _ (by decide)
      generalize hn : i / 4 = n at *
      have hr : runs (i + 2) = round n (i % 4) := by rw [← hn]; rfl
      rw [hr] at hl h3 hth
      match hm : i % 4, hlt with
      | 0, _ =>
        have h1 : (i + 1) % 4 = 1 ∧ (i + 1) / 4 = n := by omega
        have hr' : runs (i + 2 + 1) = round n 1 := by
          show round ((i + 1) / 4) ((i + 1) % 4) = _
          rw [h1.1, h1.2]
        rw [hm] at hl hth
        rw [hr'] at hth
        rcases aux _ _ _ hl with ⟨_, h⟩ | ⟨h, _⟩
        · subst h; cases congrFun hth 1
        · cases h
      | 1, _ =>
        have h1 : (i + 1) % 4 = 2 ∧ (i + 1) / 4 = n := by omega
        have hr' : runs (i + 2 + 1) = round n 2 := by
          show round ((i + 1) / 4) ((i + 1) % 4) = _
          rw [h1.1, h1.2]
        rw [hm] at hl hth
        rw [hr'] at hth
        rcases aux _ _ _ hl with ⟨_, h⟩ | ⟨h, _⟩
        · subst h; cases congrFun hth 1
        · exact n2 (Option.some.inj h).symm
      | 2, _ =>
        rw [hm] at hl h3
        rcases aux _ _ _ hl with ⟨h, _⟩ | ⟨h, _⟩
        · exact hne n (h3.1.trans (n4 _ (Option.some.inj h).symm))
        · exact n3 _ (Option.some.inj h).symm
      | 3, _ =>
        rw [hm] at hl h3
        rcases aux _ _ _ hl with ⟨h, _⟩ | ⟨h, _⟩
        · exact hne n (h3.1.trans (n4 _ (Option.some.inj h).symm))
        · cases h

/-- In this run the call of thread 0 never returns, ... -/
theorem starved (i : Nat) (r : Int.IRes 8) : event i ≠ some (.ret 0 r) := by
  match i with
  | 0 => exact fun h => by cases h
  | 1 => exact fun h => by cases h
  | i + 2 =>
    intro h
    simp only [event] at h
    split at h <;> cases h

/-- ... all the same others do, as C66a says: lock-free is not wait-free, and the hypotheses of `Progress` are met by
an endless run. -/
theorem lock_free_not_wait_free :
    (∀ i, Step (C.sys Unit) (runs i) (event i) (runs (i + 1))) ∧ (runs 1).th 0 = some ((), C.start negOp) ∧
      (∀ i r, event i ≠ some (.ret 0 r)) ∧ ∀ n, ∃ i, n ≤ i ∧ ∃ t r, event i = some (.ret t r) := by
  refine ⟨step_, rfl, starved, ?_⟩
  refine (int_lock_free (K := Unit) 8 false (.core false false false)).2 (fun _ => 0) 2 runs event trivial ?_ step_ ?_ ⟨0, fun i _ => not_spurious i⟩
  · show st 0 none none = _
    unfold st
    congr 1
    funext t
    by_cases e0 : t = 0
    · subst e0; rfl
    · by_cases e1 : t = 1
      · subst e1; rfl
      · simp [e0, e1]
  · intro i t ht
    have aux : ∀ v x y, (st v x y).th t = none := fun v x y => by
      have e0 : t ≠ 0 := by rintro rfl; exact absurd ht (by decide)
      have e1 : t ≠ 1 := by rintro rfl; exact absurd ht (by decide)
      simp [st, e0, e1]
    match i with
    | 0 => exact aux ..
    | 1 => exact aux ..
    | i + 2 =>
      show (round (i / 4) (i % 4)).th t = none
      unfold round
      split <;> exact aux ..

/-- A lock taken by spinning: `false` while trying, `true` inside. -/
def spin : Sys Bool Bool Unit Unit where
  start _ _ := false
  ret l := if l then some () else none
  step _ l m l' m' := l = false ∧ (if m then l' = false ∧ m' = true else l' = true ∧ m' = true)

/-- The statement excludes something: waiting for a lock is not lock-free. -/
example : ¬ LockFree spin fun _ _ _ _ => False := by
  intro h
  have := h.2 true 1
    (fun i => if i = 0 then ⟨true, fun _ => none⟩ else ⟨true, fun t => if t = 0 then some false else none⟩)
    (fun i => if i = 0 then some (.inv 0 ()) else none) trivial rfl ?_ ?_ ⟨0, fun i _ ⟨_, _, _, _, _, _, h⟩ => h⟩ 0
  · obtain ⟨i, -, t, r, hr⟩ := this
    split at hr <;> cases hr
  · intro i
    cases i with
    | zero =>
      have := Step.inv (I := spin) ⟨true, fun _ => none⟩ 0 () rfl
      have e : Function.update (fun _ : Tid => (none : Option Bool)) 0 (some (spin.start 0 ())) = fun t => if t = 0 then some false else none := by
        funext t
        by_cases e0 : t = 0
        · subst e0; rfl
        · simp [e0, Function.update_of_ne e0]
      rw [e] at this
      exact this
    | succ i =>
      have := Step.act (I := spin) ⟨true, fun t => if t = 0 then some false else none⟩ 0 false false true rfl ⟨rfl, rfl, rfl⟩
      have e : Function.update (fun t : Tid => if t = 0 then some false else none) 0 (some false) = fun t => if t = 0 then some false else none := by
        funext t
        by_cases e0 : t = 0
        · subst e0; rfl
        · simp [e0, Function.update_of_ne e0]
      rw [e] at this
      exact this
  · intro i t ht
    have e0 : t ≠ 0 := by rintro rfl; exact absurd ht (by decide)
    by_cases hi : i = 0
    · simp [hi]
    · simp [hi, e0]

/-- The hypotheses on machines are met (see the files of those properties for what these are). -/
example : LockFree ((Arm.blocks Arm.plainBE fun _ _ => true).code.sys Unit) (Arm.blocks Arm.plainBE fun _ _ => true).code.Spurious :=
  arm_lock_free (by constructor <;> constructor <;> decide) _
example : LockFree ((Ppc.blocks Ppc.detected).code.sys Unit) (Ppc.blocks Ppc.detected).code.Spurious :=
  ppc_lock_free (by constructor <;> simp [Ppc.detected]) (by simp [Ppc.Env.Quad, Ppc.detected])
example : LockFree ((S390x.blocks S390x.z196).code.sys Unit) (S390x.blocks S390x.z196).code.Spurious :=
  s390x_lock_free (by constructor <;> simp [S390x.z196])
example : LockFree ((Rv64.blocks Rv64.detects).code.sys Unit) (Rv64.blocks Rv64.detects).code.Spurious :=
  rv64_lock_free (by constructor <;> simp [Rv64.detects]) (.inr rfl)
example : LockFree ((Rv32.blocks Rv32.built).code.sys Unit) (Rv32.blocks Rv32.built).code.Spurious :=
  rv32_lock_free (by constructor <;> simp [Rv32.built]) (.inl rfl)
example : LockFree ((Kuser.blocks Kuser.be).code.sys Unit) (Kuser.blocks Kuser.be).code.Spurious :=
  kuser_lock_free (fun _ => rfl) (by decide +kernel)

end Demo

end Verif.Free
