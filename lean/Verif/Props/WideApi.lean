import Verif.Compose.Wide
import Verif.Props.Arm
import Verif.Props.Ppc
import Verif.Props.S390x
import Verif.Props.Rv64
import Verif.Props.Rv32
import Verif.Props.Kuser
import Verif.Props.X86Tso
/-!
# Public operations down to machine code (C60)

`Functions.History`: threads run the public operations of `AtomicI128`, `AtomicU128` (`AtomicI64`, `AtomicU64` on
32-bit targets), every one of which runs methods (`Wide/Api.lean`), which call functions, which run instructions.
-/
set_option autoImplicit false
namespace Verif.Wide
open Verif.Int Verif.Object Verif.Lf Verif.Compose

variable {K : Type} [DecidableEq K]

/-- The result of a function that returned; registers are of no interest to the caller. (No function faults.) -/
def answer {n : Nat} {St : Type} : Option (Res (BitVec n) × St) → Res (BitVec n)
  | some (r, _) => r
  | none => .panic

def answer' {n : Nat} : Option (Res (BitVec n)) → Res (BitVec n)
  | some r => r
  | none => .panic

/-! ## AArch64 -/

/-- The functions of `aarch64.rs`. -/
def armFns (E : Arm.Env) (order : Arm.Call → Nat → Bool) :
    Functions 128 Arm.Call (Option (Res (BitVec 128) × Arm.St)) (Asm.Loc Arm.Call Arm.St (BitVec 64)) where
  code := (Arm.blocks E order).code
  op := Arm.Call.op
  ord := Arm.Call.ord
  fail := Arm.Call.fail
  ans := answer

theorem armRight {E : Arm.Env} (hE : E.Ok) (order) : (armFns E order).Right (Arm.spec E) where
  sem := by rintro i x y p ⟨v, s, rfl, h, _⟩; exact h
  lin K _ m h s hx := Arm.arm_linearizable hE order m h s hx

theorem armLive {E : Arm.Env} (hE : E.Ok) (order) : (armFns E order).Live (Arm.spec E) where
  total a h := ⟨⟨a.op, a.ord, a.fail, h, .none, 0, ⟨fun _ => 0, false, false, false, false⟩⟩, rfl, rfl, rfl⟩
  ends i x := Arm.arm_finishes hE order i x

/-- **C60a.** AArch64: all public operations of 128-bit atomics, for every build, every processor it may run on,
every order of half reads and every failing store-exclusive. -/
theorem arm_api_linearizable {E : Arm.Env} (hE : E.Ok) (order) (signed : Bool) (m m' : K → BitVec 128) (h)
    (hx : (armFns E order).History signed m h m') : LinearizableTo ((Int.spec signed).many (K := K)) m h m' :=
  Functions.linearizable (armRight hE order) (e := 7) rfl signed hx

/-! ## PowerPC64 -/

def ppcFns (E : Ppc.Env) :
    Functions 128 Ppc.Call (Option (Res (BitVec 128) × Ppc.St)) (Asm.Loc Ppc.Call Ppc.St (BitVec 64)) where
  code := (Ppc.blocks E).code
  op := Ppc.Call.op
  ord := Ppc.Call.ord
  fail := Ppc.Call.fail
  ans := answer

theorem ppcRight {E : Ppc.Env} (hE : E.Ok) (hq : E.Quad) : (ppcFns E).Right (Ppc.spec E) where
  sem := by rintro i x y p ⟨v, s, rfl, h, _⟩; exact h
  lin K _ m h s hx := Ppc.ppc_linearizable hE hq m h s hx

theorem ppcLive {E : Ppc.Env} (hE : E.Ok) (hq : E.Quad) : (ppcFns E).Live (Ppc.spec E) where
  total a h := ⟨⟨a.op, a.ord, a.fail, h, 0, none, by simp, ⟨fun _ => 0, ⟨false, false, false, false⟩,
    ⟨false, false, false, false⟩, 0, false, false⟩⟩, rfl, rfl, rfl⟩
  ends i x := Ppc.ppc_finishes hE hq i x

/-- **C60b.** PowerPC64 with quadword instructions. -/
theorem ppc_api_linearizable {E : Ppc.Env} (hE : E.Ok) (hq : E.Quad) (signed : Bool) (m m' : K → BitVec 128) (h)
    (hx : (ppcFns E).History signed m h m') : LinearizableTo ((Int.spec signed).many (K := K)) m h m' :=
  Functions.linearizable (ppcRight hE hq) (e := 7) rfl signed hx

/-! ## s390x -/

def s390xFns (E : S390x.Env) :
    Functions 128 S390x.Call (Option (Res (BitVec 128) × S390x.St)) (Asm.Loc S390x.Call S390x.St (BitVec 64)) where
  code := (S390x.blocks E).code
  op := S390x.Call.op
  ord := S390x.Call.ord
  fail := S390x.Call.fail
  ans := answer

theorem s390xRight {E : S390x.Env} (hE : E.Ok) : (s390xFns E).Right (S390x.spec E) where
  sem := by rintro i x y p ⟨v, s, rfl, h, _⟩; exact h
  lin K _ m h s hx := S390x.s390x_linearizable hE m h s hx

theorem s390xLive {E : S390x.Env} (hE : E.Ok) : (s390xFns E).Live (S390x.spec E) where
  total a h := ⟨⟨a.op, a.ord, a.fail, h, 0, .r, by simp, ⟨fun _ => 0, 0, 0⟩⟩, rfl, rfl, rfl⟩
  ends i x := S390x.s390x_finishes hE i x

/-- **C60c.** s390x. -/
theorem s390x_api_linearizable {E : S390x.Env} (hE : E.Ok) (signed : Bool) (m m' : K → BitVec 128) (h)
    (hx : (s390xFns E).History signed m h m') : LinearizableTo ((Int.spec signed).many (K := K)) m h m' :=
  Functions.linearizable (s390xRight hE) (e := 7) rfl signed hx

/-! ## RISC-V with Zacas -/

def rv64Fns (E : Rv64.Env) :
    Functions 128 Rv64.Call (Option (Res (BitVec 128) × Rv64.St)) (Asm.Loc Rv64.Call Rv64.St (BitVec 64)) where
  code := (Rv64.blocks E).code
  op := Rv64.Call.op
  ord := Rv64.Call.ord
  fail := Rv64.Call.fail
  ans := answer

theorem rv64Right {E : Rv64.Env} (hE : E.Ok) (hq : E.Zacas) : (rv64Fns E).Right (Rv64.spec E) where
  sem := by rintro i x y p ⟨v, s, rfl, h, _⟩; exact h
  lin K _ m h s hx := Rv64.rv64_linearizable hE hq m h s hx

theorem rv64Live {E : Rv64.Env} (hE : E.Ok) (hq : E.Zacas) : (rv64Fns E).Live (Rv64.spec E) where
  total a h := ⟨⟨a.op, a.ord, a.fail, h, 0, ⟨fun _ => 0, 0, 0⟩⟩, rfl, rfl, rfl⟩
  ends i x := Rv64.rv64_finishes hE hq i x

/-- **C60d.** riscv64 with Zacas. -/
theorem rv64_api_linearizable {E : Rv64.Env} (hE : E.Ok) (hq : E.Zacas) (signed : Bool) (m m' : K → BitVec 128) (h)
    (hx : (rv64Fns E).History signed m h m') : LinearizableTo ((Int.spec signed).many (K := K)) m h m' :=
  Functions.linearizable (rv64Right hE hq) (e := 7) rfl signed hx

def rv32Fns (E : Rv32.Env) :
    Functions 64 Rv32.Call (Option (Res (BitVec 64) × Rv32.St)) (Asm.Loc Rv32.Call Rv32.St (BitVec 32)) where
  code := (Rv32.blocks E).code
  op := Rv32.Call.op
  ord := Rv32.Call.ord
  fail := Rv32.Call.fail
  ans := answer

theorem rv32Right {E : Rv32.Env} (hE : E.Ok) (hq : E.Zacas) : (rv32Fns E).Right (Rv32.spec E) where
  sem := by rintro i x y p ⟨v, s, rfl, h, _⟩; exact h
  lin K _ m h s hx := Rv32.rv32_linearizable hE hq m h s hx

theorem rv32Live {E : Rv32.Env} (hE : E.Ok) (hq : E.Zacas) : (rv32Fns E).Live (Rv32.spec E) where
  total a h := ⟨⟨a.op, a.ord, a.fail, h, 0, ⟨fun _ => 0, 0, 0⟩⟩, rfl, rfl, rfl⟩
  ends i x := Rv32.rv32_finishes hE hq i x

/-- **C60e.** 64-bit atomics on riscv32 with Zacas. -/
theorem rv32_api_linearizable {E : Rv32.Env} (hE : E.Ok) (hq : E.Zacas) (signed : Bool) (m m' : K → BitVec 64) (h)
    (hx : (rv32Fns E).History signed m h m') : LinearizableTo ((Int.spec signed).many (K := K)) m h m' :=
  Functions.linearizable (rv32Right hE hq) (e := 6) rfl signed hx

/-! ## Arm Linux before v6 -/

def kuserFns (E : Kuser.Env) :
    Functions 64 Kuser.Call (Option (Res (BitVec 64))) (Asm.Loc Kuser.Call Kuser.St (BitVec 32)) where
  code := (Kuser.blocks E).code
  op := Kuser.Call.op
  ord := Kuser.Call.ord
  fail := Kuser.Call.fail
  ans := answer'

theorem kuserRight {E : Kuser.Env} (hE : E.Ok) (hk : E.hasKuser = true) : (kuserFns E).Right Kuser.spec where
  sem := by rintro i x y p ⟨v, rfl, h⟩; exact h
  lin K _ m h s hx := Kuser.kuser_linearizable hE hk m h s hx

theorem kuserLive {E : Kuser.Env} (hE : E.Ok) (hk : E.hasKuser = true) (hsp : E.spurious = false) :
    (kuserFns E).Live Kuser.spec where
  total a h := ⟨⟨a.op, a.ord, a.fail, h, 0, ⟨0, 0, 0, 0, 0, false⟩⟩, rfl, rfl, rfl⟩
  ends i x := Kuser.kuser_finishes hE hk hsp i x

/-- **C60f.** 64-bit atomics on Arm Linux before v6, with the kernel's helper. -/
theorem kuser_api_linearizable {E : Kuser.Env} (hE : E.Ok) (hk : E.hasKuser = true) (signed : Bool)
    (m m' : K → BitVec 64) (h) (hx : (kuserFns E).History signed m h m') :
    LinearizableTo ((Int.spec signed).many (K := K)) m h m' :=
  Functions.linearizable (kuserRight hE hk) (e := 6) rfl signed hx

/-! ## x86_64 -/

/-- How the methods call the functions of `x86_64.rs`. -/
def X86Calls (a : K × Fn 128) (i : K × X86.Fn.Call) (d : Option (Res (BitVec 128)) → Res (BitVec 128)) : Prop :=
  i.1 = a.1 ∧ d = answer' ∧ ∃ c, i.2 = .op c ∧ c.op = a.2.op ∧ c.ord = a.2.ord ∧ c.fail = a.2.fail

def x86Bridge : Bridge (X86.Fn.spec.many (K := K)) ((ideal 128).many (K := K)) X86Calls where
  abs m := m
  sem := by
    rintro ⟨k, a⟩ ⟨k', i⟩ d x x' p ⟨h1, rfl, c, h2, h3, _⟩ ⟨y, hs, rfl⟩
    simp only at h1 h2
    subst h1 h2
    obtain ⟨v, rfl, hv⟩ := hs
    refine ⟨y, ?_, rfl⟩
    have h3 : c.op = a.op := h3
    show a.op.Sem _ _ _
    rw [← h3]
    exact hv

/-- Histories of the public operations on x86_64's memory with store buffers. -/
def x86History (E : X86.Fn.Env) (signed : Bool) (m : K → BitVec 128) (h : List (Object.Ev (K × IOp 128) (IRes 128))) :
    Prop :=
  ∃ hi s w, Runs (Tso.tso K (X86.Fn.code E) X86.Fn.locked) (Tso.Mem.flat m) hi s ∧
    Run ((api signed).many K) X86Calls hi h w

theorem mem_calls {O R : Type} {t : Tid} {h : List (Object.Ev O R)} {op : O} (hm : op ∈ Tso.calls t h) :
    Object.Ev.inv t op ∈ h := by
  induction h with
  | nil => cases hm
  | cons e h ih =>
    cases e with
    | inv u o =>
      simp only [Tso.calls] at hm
      split at hm
      · rename_i hu
        subst hu
        rcases List.mem_cons.1 hm with rfl | hm
        · simp
        · exact List.mem_cons_of_mem _ (ih hm)
      · exact List.mem_cons_of_mem _ (ih hm)
    | ret u r => exact List.mem_cons_of_mem _ (ih hm)

/-- **C60g.** x86_64: if all stores are `SeqCst`, histories of the public operations on a memory with store buffers
are linearizable. (With other stores they are the histories of native accesses: C51.) -/
theorem x86_api_linearizable (E : X86.Fn.Env) (ok : E.Ok) (hc : E.Cx16) (signed : Bool) (m : K → BitVec 128) (h)
    (hx : x86History E signed m h) (hs : ∀ t k v o, Object.Ev.inv t (k, IOp.store v o) ∈ h → o = .seqCst) :
    Linearizable ((Int.spec signed).many (K := K)) m h := by
  obtain ⟨hi, s, w, hr, hw⟩ := hx
  have hstore : ∀ t k c v, (k, X86.Fn.Call.op c) ∈ Tso.calls t hi → c.op = .store v → c.ord = .seqCst := by
    intro t k c v hm hv
    obtain ⟨op, l, a, g, d, h1, h2, h3, h4⟩ := (run_calls hw).1 t _ (mem_calls hm)
    obtain ⟨k', op⟩ := op
    obtain ⟨_, hl⟩ := h2.many
    obtain ⟨b, f, hn, rfl, rfl⟩ := Compose.Next.at_call h3
    obtain ⟨_, _, c', e1, e2, e3, e4⟩ := h4
    cases e1
    have := api_store signed hl hn (v := v) (by rw [← hv]; exact e2.symm)
    simp only at this
    subst this
    rw [e3]
    exact hs _ _ _ _ h1
  obtain ⟨m', hl⟩ := X86.Fn.x86_seqCst_linearizable E ok hc m hi s hr hstore
  have := (apiSim (e := 7) rfl signed).over x86Bridge (fun _ => trivial) hl hw
  exact ⟨_, this⟩

/-- **C60h.** x86_64, any stores: the histories of the public operations are those on native accesses. -/
theorem x86_api_native (E : X86.Fn.Env) (ok : E.Ok) (hc : E.Cx16) (signed : Bool) (m : K → BitVec 128) (h)
    (hx : x86History E signed m h) :
    ∃ hi s w, Runs (Tso.native K X86.Fn.spec X86.Fn.cls) (Tso.Mem.flat m) hi s ∧
      Run ((api signed).many K) X86Calls hi h w := by
  obtain ⟨hi, s, w, hr, hw⟩ := hx
  obtain ⟨s', hr', _⟩ := X86.Fn.x86_native_tso E ok hc _ hi s hr
  exact ⟨hi, s', w, hr', hw⟩

/-! ## Left alone, operations return

All public operations except `fetch_update`, whose closure may ask for more attempts. -/

/-- **C60o.** -/
theorem arm_api_solo {E : Arm.Env} (hE : E.Ok) (order) (signed : Bool) : (armFns E order).Solo signed single :=
  Functions.solo' (armRight hE order) (armLive hE order) (e := 7) rfl signed

theorem ppc_api_solo {E : Ppc.Env} (hE : E.Ok) (hq : E.Quad) (signed : Bool) : (ppcFns E).Solo signed single :=
  Functions.solo' (ppcRight hE hq) (ppcLive hE hq) (e := 7) rfl signed

theorem s390x_api_solo {E : S390x.Env} (hE : E.Ok) (signed : Bool) : (s390xFns E).Solo signed single :=
  Functions.solo' (s390xRight hE) (s390xLive hE) (e := 7) rfl signed

theorem rv64_api_solo {E : Rv64.Env} (hE : E.Ok) (hq : E.Zacas) (signed : Bool) : (rv64Fns E).Solo signed single :=
  Functions.solo' (rv64Right hE hq) (rv64Live hE hq) (e := 7) rfl signed

theorem rv32_api_solo {E : Rv32.Env} (hE : E.Ok) (hq : E.Zacas) (signed : Bool) : (rv32Fns E).Solo signed single :=
  Functions.solo' (rv32Right hE hq) (rv32Live hE hq) (e := 6) rfl signed

theorem kuser_api_solo {E : Kuser.Env} (hE : E.Ok) (hk : E.hasKuser = true) (hsp : E.spurious = false) (signed : Bool) :
    (kuserFns E).Solo signed single :=
  Functions.solo' (kuserRight hE hk) (kuserLive hE hk hsp) (e := 6) rfl signed

/-! ## Examples -/

/-- On big-endian AArch64 without LSE: `fetch_max`, `bit_clear` and an invalid load, by two threads on two objects, have
a history, to which the theorem applies. -/
example : ∃ l m', l.map Prod.fst = [(0, true, IOp.fetchBinF .max 5 .acqRel), (1, true, .bit .clear 0x82 .seqCst),
      (0, false, .load .release)] ∧
    (armFns Arm.plainBE fun _ _ => true).History true (fun _ => -1) (inTurn l) m' ∧
    LinearizableTo ((Int.spec true).many (K := Bool)) (fun _ => -1) (inTurn l) m' := by
  have hE : Arm.plainBE.Ok := by constructor <;> constructor <;> decide
  obtain ⟨l, m', h1, h2⟩ := Functions.sequence (armRight hE fun _ _ => true) (armLive hE fun _ _ => true) (e := 7) rfl
    true (fun _ : Bool => -1) [(0, true, IOp.fetchBinF .max 5 .acqRel), (1, true, .bit .clear 0x82 .seqCst),
      (0, false, .load .release)] (by intro c hc; simp at hc; rcases hc with rfl | rfl | rfl <;> intro s g f h <;> cases h)
  exact ⟨l, m', h1, h2, arm_api_linearizable hE _ true _ _ _ h2⟩

end Verif.Wide
