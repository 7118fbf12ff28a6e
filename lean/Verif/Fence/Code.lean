import Verif.Spec.Fence
/-!
# `fence` and `compiler_fence`: `src/lib.rs` L637-L678, `src/imp/x86.rs`, `src/imp/msp430.rs`, `src/imp/arm_linux.rs`

A fence is given by its events, or `none` for a panic. `core::sync::atomic::fence` panics for `Relaxed` (its documentation;
trusted), on x86 and weaker than `SeqCst` it emits no instruction (it is only a barrier to the compiler).
-/
set_option autoImplicit false
namespace Verif.Fence

/-- What `src/lib.rs` looks at: L637-L678. -/
structure Cfg where
  msp430 : Bool
  /-- `target_arch` is "x86" or "x86_64" -/
  x86 : Bool
  arm : Bool
  /-- Miri or a thread sanitizer -/
  miri : Bool
  /-- `any(not(portable_atomic_no_asm), portable_atomic_unstable_asm)` -/
  asm : Bool
  /-- `target_os` is "linux" or "android" -/
  linux : Bool
  v6 : Bool

/-- The implementations. -/
inductive Impl where
  | msp430 | x86 | armLinux | core
deriving DecidableEq

/-- `src/lib.rs` L650-L678. -/
def Cfg.impl (c : Cfg) : Impl :=
  if c.msp430 then .msp430
  else if c.x86 && !c.miri && c.asm then .x86
  else if c.arm && !c.miri && c.linux && !c.v6 then .armLinux
  else .core

/-- `msp430.rs` L58-L66: an empty `asm!` that is a barrier to the compiler. `none`: panic. -/
def msp430CompilerFence (o : MemOrd) : Option (List Ev) :=
  match o with
  | .relaxed => none
  | _ => some []

/-- `msp430.rs` L38-L44. -/
def msp430Fence (o : MemOrd) : Option (List Ev) :=
  match o with
  | .relaxed => none
  | o => msp430CompilerFence o

/-- `core::sync::atomic::fence` on x86 for orderings other than `SeqCst`. -/
def coreX86 (o : MemOrd) : Option (List Ev) :=
  match o with
  | .relaxed => none
  | _ => some []

/-- `x86.rs` L43-L72: `xchg` with memory is a locked instruction. -/
def x86Fence (o : MemOrd) : Option (List Ev) :=
  if o = .seqCst then some [.sync] else coreX86 o

/-- `arm_linux.rs` L49-L56: `__kuser_memory_barrier`. -/
def armLinuxFence (o : MemOrd) : Option (List Ev) :=
  match o with
  | .relaxed => none
  | _ => some [.sync]

/-- The crate's own fences; `core` for the others. -/
def Impl.fence (core : MemOrd → Option (List Ev)) : Impl → MemOrd → Option (List Ev)
  | .msp430, o => msp430Fence o
  | .x86, o => x86Fence o
  | .armLinux, o => armLinuxFence o
  | .core, o => core o

/-- The hardware of a target. A target has one architecture. -/
def Cfg.hw (c : Cfg) : Hw := if c.msp430 then .single else if c.x86 then .x86 else .barriers

end Verif.Fence
