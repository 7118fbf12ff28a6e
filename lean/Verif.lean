import Verif.Ordering
import Verif.Spec.Atomic
import Verif.Spec.Revisable
import Verif.Spec.Local
import Verif.Fallback.Code
import Verif.Fallback.SC
import Verif.Fallback.Inv
import Verif.Fallback.Sim
import Verif.Fallback.SimStep
import Verif.Fallback.Lin
import Verif.Fallback.LockInv
import Verif.Fallback.Count
import Verif.Fallback.NoTear
import Verif.Fallback.Progress
import Verif.Fallback.Config
import Verif.Fallback.Run
import Verif.Fallback.Facts
import Verif.Fallback.Wrap
import Verif.Fallback.Tight
import Verif.Props.Fallback
import Verif.Fallback.Table
import Verif.Props.Table
import Verif.Props.Ordering
import Verif.Spec.Object
import Verif.Lf.Machine
import Verif.Lf.Access
import Verif.Spec.Ordering
import Verif.Bool.Code
import Verif.Spec.Bool
import Verif.Bool.Sim
import Verif.Lf.Run
import Verif.Props.Bool
import Verif.Lf.Prog
import Verif.Int.Code
import Verif.Spec.Int
import Verif.Int.Sim
import Verif.Lf.Progress
import Verif.Props.Int
import Verif.Rv.SubWord
import Verif.Spec.Bytes
import Verif.Rv.Proof
import Verif.Props.Rv
import Verif.Ptr.Code
import Verif.Spec.Ptr
import Verif.Props.Ptr
import Verif.Float.Code
import Verif.Spec.Float
import Verif.Props.Float
import Verif.X86.Isa
import Verif.X86.Code
import Verif.Spec.X86
import Verif.X86.Arith
import Verif.X86.Sim
import Verif.Utils.Pair
import Verif.Props.X86
import Verif.Irq.Arch
import Verif.Irq.ArchOk
import Verif.Irq.Code
import Verif.Irq.Sim
import Verif.Spec.Calls
import Verif.Props.Irq
import Verif.Props.Cs
import Verif.Detect.Sim
import Verif.Detect.Configs
import Verif.Props.Detect
import Verif.Detect.Ask
import Verif.Detect.Os
import Verif.Spec.Os
import Verif.Props.Os
import Verif.Props.WeakMemory
import Verif.Spec.ScOrder
import Verif.WM.ScPublish
import Verif.WM.ScLin
import Verif.WM.ScStep
import Verif.Props.ScOrder
import Verif.Build.Str
import Verif.Build.Version
import Verif.Build.Rustflags
import Verif.Spec.Build
import Verif.Build.Facts
import Verif.Build.FlagsProof
import Verif.Build.VersionProof
import Verif.Props.Build
import Verif.Lf.LlSc
import Verif.Lf.LlScRun
import Verif.Asm.Machine
import Verif.Asm.Points
import Verif.Spec.Wide
import Verif.Arm.Isa
import Verif.Arm.Code
import Verif.Spec.Arm
import Verif.Arm.Arith
import Verif.Arm.Sim
import Verif.Arm.Select
import Verif.Arm.Proof
import Verif.Spec.ArmOrder
import Verif.Arm.Order
import Verif.Arm.OrderProof
import Verif.Arm.OrderSelect
import Verif.Props.Arm
import Verif.Props.Ppc
import Verif.Spec.S390xOrder
import Verif.Props.S390x
import Verif.Props.Rv64
import Verif.Wide.Ops
import Verif.Rv32.Isa
import Verif.Rv32.Code
import Verif.Rv32.Proof
import Verif.Rv32.Order
import Verif.Rv32.OrderProof
import Verif.Spec.Rv32
import Verif.Props.Rv32
import Verif.Asm.Trace
import Verif.Kuser.Code
import Verif.Spec.Kuser
import Verif.Kuser.Proof
import Verif.Kuser.Order
import Verif.Props.Kuser
import Verif.Stmt.Machine
import Verif.Arm.Barrier
import Verif.ArmLinux.Code
import Verif.Spec.ArmLinux
import Verif.Props.ArmLinux
import Verif.Riscv.Code
import Verif.Spec.Riscv
import Verif.Riscv.Proof
import Verif.Riscv.OrderProof
import Verif.Props.Riscv
import Verif.Spec.Tso
import Verif.Tso.Sc
import Verif.Tso.Machine
import Verif.X86.Fn
import Verif.Spec.X86Fn
import Verif.X86.TsoSim
import Verif.Props.X86Tso
import Verif.Spec.Fence
import Verif.Fence.Code
import Verif.Props.Fence
import Verif.Spec.Ra
import Verif.Tso.Ra
import Verif.Tso.RaRun
import Verif.Props.X86Ra
import Verif.Cfg.Build
import Verif.Cfg.Conds
import Verif.Cfg.Select
import Verif.Spec.Cfg
import Verif.Props.Cfg
import Verif.Props.CfgUse
import Verif.Build.Script
import Verif.Spec.Script
import Verif.Build.ScriptProof
import Verif.Build.ScriptRows
import Verif.Build.ScriptCfgs
import Verif.Props.Script
import Verif.Spec.Derived
import Verif.Spec.DerivedOps
import Verif.Spec.DerivedSync
import Verif.WM.Wrap
import Verif.WM.WrapMem
import Verif.WM.WrapSim
import Verif.WM.WrapStep
import Verif.WM.WrapProg
import Verif.WM.WrapRun
import Verif.WM.NativeRun
import Verif.WM.DerivedImage
import Verif.WM.DerivedSc
import Verif.WM.DerivedLitmus
import Verif.Props.Derived
import Verif.Props.DerivedSync
import Verif.Intr.Code
import Verif.Props.Intr
import Verif.Compose.Machine
import Verif.Compose.Sim
import Verif.Compose.Cells
import Verif.Compose.Pass
import Verif.Compose.Outline
import Verif.Compose.Wide
import Verif.Wide.Api
import Verif.Wide.ApiSim
import Verif.Props.WideApi
import Verif.Props.Compose
import Verif.Props.ComposeEx
import Verif.Small.Msp430
import Verif.Small.Code
import Verif.Small.Sim
import Verif.Props.Small
import Verif.Props.SmallEx
import Verif.Spec.HerlihyWing
import Verif.Spec.Mixed
import Verif.Props.HerlihyWing
import Verif.Props.Mixed
import Verif.Props.Kinds
import Verif.Props.MixedLock
import Verif.Props.SmallHas
import Verif.Spec.Reorder
import Verif.Cs.Weak
import Verif.Cs.WeakInv
import Verif.Cs.WeakSim
import Verif.Cs.WeakOrder
import Verif.Cs.WeakRun
import Verif.Props.CsWeak
import Verif.Spec.LockFree
import Verif.Lf.LockFree
import Verif.Lf.LlScFree
import Verif.Lf.CodeFree
import Verif.Asm.Free
import Verif.Kuser.Free
import Verif.Int.Free
import Verif.Bool.Free
import Verif.X86.Free
import Verif.Props.LockFree
import Verif.Spec.Fair
import Verif.Fallback.Fair
import Verif.Props.Fair
import Verif.Spec.Exclusive
import Verif.Fallback.Exclusive
import Verif.Lf.Exclusive
import Verif.Props.Exclusive
import Verif.Spec.Update
import Verif.Update.Code
import Verif.Update.Sim
import Verif.Update.Count
import Verif.Props.Update
import Verif.Props.UpdateAll
import Verif.Spec.Packed
import Verif.Packed.Value
import Verif.Packed.Client
import Verif.Props.Packed
import Verif.Spec.Bounded
import Verif.Irq.Bound
import Verif.Props.Bounded
import Verif.Cs.Exclusive
import Verif.Irq.Exclusive
import Verif.Props.ExclusiveIrq
import Verif.Spec.CsFair
import Verif.Props.CsFair
import Verif.Lsfe.Code
import Verif.Spec.Lsfe
import Verif.Props.Lsfe
import Verif.X86.Bits
import Verif.Spec.X86Bits
import Verif.Props.X86Bits
import Verif.Detect.CStr
import Verif.Props.CStr
