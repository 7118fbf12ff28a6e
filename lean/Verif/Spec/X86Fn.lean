import Verif.X86.Fn
/-!
# Specification of the x86_64 back end on the processor's memory
-/
set_option autoImplicit false
namespace Verif.X86.Fn
open Verif.Object Verif.Wide Verif.Tso

/-- Each call as an operation on one 128-bit integer; it does not fault. -/
def spec : Spec (BitVec 128) Call (Option (Res (BitVec 128))) where
  sem c x y r := match c with
    | .op c => ∃ v, r = some v ∧ c.op.Sem x y v
    | .fence => y = x ∧ r = some .unit

/-- The native access a call stands for: a load; a store, after which the thread waits for its store buffer if the
ordering is `SeqCst`; a locked instruction; a wait. -/
def cls : Call → Cls (BitVec 128)
  | .op c => match c.op with
    | .load => .load
    | .store v => .store v (c.ord == .seqCst)
    | _ => .rmw
  | .fence => .fence

/-- The program was built for the processor it runs on, run-time detection reports only what the
processor has (C36), and the module is compiled (`Detect.X86.Flags.Valid`). -/
structure Env.Ok (E : Env) : Prop where
  valid : E.flags.Valid
  cx16 : E.flags.cx16 = true → E.cpuCx16 = true
  avx : E.flags.avx = true → E.cpuAvx = true
  detCx16 : Detect.testBit E.det Detect.X86.cmpxchg16b = true → E.cpuCx16 = true
  detAvx : Detect.testBit E.det Detect.X86.avx = true → E.cpuAvx = true

/-- CMPXCHG16B is known to be available, at compile time or by detection. -/
def Env.Cx16 (E : Env) : Prop := E.flags.cx16 = true ∨ Detect.testBit E.det Detect.X86.cmpxchg16b = true

end Verif.X86.Fn
