/-
The backends that use run-time detection, as instances of `Detect.Cfg`: which implementation each
call site uses in each build configuration, and what the platform probes (`_detect`) compute from
what the CPU or the operating system answers.
-/
import Verif.Detect.Code
import Verif.Ordering

namespace Verif.Detect

/-- `if c { info.set(bit) }`: the `check!` macros (auxv.rs L585-L591, riscv_linux.rs L141-L146,
aarch64_windows.rs L50-L58 …) and the open-coded `if`s of the probes. -/
def check (c : Bool) (bit : Nat) (info : Info) : Info := if c then setBit info bit else info

/-- What `_detect` may answer, given the set `E` of what the platform may answer, the decoding
function, and `portable_atomic_test_detect_false` (common.rs L40-L44). -/
def probeOf {R : Type} (E : R → Prop) (decode : R → Info → Info) (detectFalse : Bool) (v : Info) :
    Prop :=
  if detectFalse then v = initInfo else ∃ r, E r ∧ v = decode r initInfo

/-! ### x86_64 -/

namespace X86

/-- `flags!` for x86_64: detect/common.rs L222-L229 (the `cfg` attribute on `avx` is not put on
the enum variant, L83-L88). -/
def avx : Nat := 1
/-- detect/common.rs L228. -/
def cmpxchg16b : Nat := 2

/-- What the CPU answers: `ecx` of CPUID leaf 1 and XCR0. -/
structure Reply where
  ecx : BitVec 32
  xcr0 : BitVec 64

/-- The compile-time configuration: `cmpxchg16b` = target_feature or
portable_atomic_target_feature "cmpxchg16b"; `avx`, `sse` = target features; `noDetect` =
`any(portable_atomic_no_outline_atomics, target_env = "sgx")`. -/
structure Flags where
  cx16 : Bool
  avx : Bool
  sse : Bool
  noDetect : Bool
deriving DecidableEq

/-- Configurations in which the module is compiled: AVX implies SSE (rustc's implied features),
and without compile-time CMPXCHG16B there must be detection (src/imp/mod.rs picks another
backend otherwise). -/
def Flags.Valid (f : Flags) : Prop := (f.avx = true → f.sse = true) ∧ (f.cx16 = true ∨ f.noDetect = false)

/-- detect/x86_64.rs L55-L84: `_detect`. -/
def decode (f : Flags) (r : Reply) (info : Info) : Info :=
  let info := check (testBit r.ecx 13) cmpxchg16b info
  if f.sse then
    if testBit r.ecx 26 then
      if testBit r.ecx 27 then
        check (r.xcr0 &&& 6#64 == 6#64 && testBit r.ecx 28) avx info
      else info
    else info
  else info

/-- The read-modify-write functions of the module: x86_64.rs L916-L979. -/
inductive Rmw
  | swap | add | sub | and | nand | or | xor | max | umax | min | umin | not | neg
deriving DecidableEq

/-- The call sites; each has its own `FUNC` static: x86_64.rs L356, L479, L488, L532, L902. -/
inductive Site
  | load | storeNonSeqCst | storeSeqCst | cas | rmw (op : Rmw)
deriving DecidableEq

inductive Impl
  | vmovdqa | cmpxchg16b | fallback
deriving DecidableEq

/-- Is the implementation lock-free (does it avoid the global locks)? -/
def Impl.lockFree : Impl → Bool
  | .vmovdqa | .cmpxchg16b => true
  | .fallback => false

/-- x86_64.rs L316-L345 (load), L425-L455 (store), L523-L527 (compare_exchange),
L880-L881 (read-modify-writes). -/
def direct (f : Flags) : Site → Option Impl
  | .load | .storeNonSeqCst | .storeSeqCst =>
    if f.cx16 && f.avx then some .vmovdqa
    else if f.cx16 && (f.noDetect || !f.sse) then some .cmpxchg16b
    else none
  | .cas | .rmw _ => if f.cx16 then some .cmpxchg16b else none

/-- x86_64.rs L273-L312 (`load_store_detect!`), L532-L539, L902-L909. -/
def pick (f : Flags) : Site → Info → Impl
  | .load, v | .storeNonSeqCst, v | .storeSeqCst, v =>
    if !f.cx16 then
      if testBit v cmpxchg16b then
        if f.avx then .vmovdqa
        else if f.sse then (if testBit v avx then .vmovdqa else .cmpxchg16b)
        else .cmpxchg16b
      else .fallback
    else if testBit v avx then .vmovdqa else .cmpxchg16b
  | .cas, v | .rmw _, v => if testBit v cmpxchg16b then .cmpxchg16b else .fallback

/-- The asm backend of x86_64: src/imp/atomic128/x86_64.rs, `is_lock_free` L981-L992; the cache is
published by compare-exchange without compile-time CMPXCHG16B (detect/common.rs L45-L49). -/
def cfg (f : Flags) (E : Reply → Prop) (detectFalse : Bool) : Cfg Site Impl where
  memo := if f.cx16 then .store else .cas
  probe := probeOf E (decode f) detectFalse
  direct := direct f
  pick := pick f
  lfStatic := if f.cx16 then some true else none
  lfOf v := testBit v cmpxchg16b

/-- `IS_ALWAYS_LOCK_FREE`: x86_64.rs L993-L994. -/
def isAlways (f : Flags) : Bool := f.cx16

end X86

/-! ### Backends with one native implementation and the lock-based one -/

namespace TwoWay

inductive Impl
  | native | fallback
deriving DecidableEq

def Impl.lockFree : Impl → Bool
  | .native => true
  | .fallback => false

/-- Every site: `if static { native } else { ifunc!(if detect().flag() { native } else { fallback }) }`
— and `is_lock_free` the same way:

* powerpc64 (`static` = quadword-atomics at compile time, flag 1): powerpc64.rs L185-L240 (load),
  L295-L349 (store), L378-L472 (compare_exchange), L840-L925 (read-modify-writes), L1010-L1031;
* riscv64/riscv32 (zacas, flag 1): riscv64.rs L109-L158, L219-L290, L400-L480, L596-L609;
  riscv32.rs L111-L160, L221-L292, L402-L482, `is_lock_free` likewise;
* x86_64 with `intrinsics.rs` (cmpxchg16b, flag 2): intrinsics.rs L136-L158, L480-L493 (all the
  other operations of that file on x86_64 are loops around this compare-exchange).

`Site` is the set of `ifunc!` sites (one per operation and ordering class). -/
def cfg {Site : Type} (static : Bool) (flag : Nat) (probe : Info → Prop) : Cfg Site Impl where
  memo := if static then .store else .cas
  probe := probe
  direct _ := if static then some .native else none
  pick _ v := if testBit v flag then .native else .fallback
  lfStatic := if static then some true else none
  lfOf v := testBit v flag

/-- `IS_ALWAYS_LOCK_FREE`: powerpc64.rs L1027-L1030, riscv64.rs L608-L609, intrinsics.rs L493. -/
def isAlways (static : Bool) : Bool := static

end TwoWay

namespace Powerpc64
/-- detect/common.rs L207. -/
def quadwordAtomics : Nat := 1

structure Reply where
  hwcap : BitVec 64
  hwcap2 : BitVec 64

/-- detect/auxv.rs L723-L747. -/
def decode (r : Reply) (info : Info) : Info :=
  if r.hwcap &&& 0x8000#64 != 0#64 then info
  else check (r.hwcap2 &&& (0x80000000#64 ||| 0x00800000#64 ||| 0x00040000#64) != 0#64)
    quadwordAtomics info

/-- detect/powerpc64_aix.rs L42-L58; the reply is `getsystemcfg(SC_IMPL)`. -/
def decodeAix (impl : BitVec 64) (info : Info) : Info :=
  if impl == BitVec.allOnes 64 then info
  else check (impl &&& (0x10000#64 ||| 0x20000#64 ||| 0x40000#64) != 0#64) quadwordAtomics info
end Powerpc64

namespace Riscv
/-- detect/common.rs L214. -/
def zacas : Nat := 1

/-- The result of the `riscv_hwprobe` system call and the two pairs it filled in. -/
structure Reply where
  ok : Bool
  key0 : BitVec 64
  value0 : BitVec 64
  key1 : BitVec 64
  value1 : BitVec 64

/-- detect/riscv_linux.rs L126-L154. -/
def decode (r : Reply) (info : Info) : Info :=
  if r.ok && r.key0 != BitVec.allOnes 64 && r.value0 &&& 1#64 != 0#64 && r.key1 != BitVec.allOnes 64
  then check (r.value1 &&& (1#64 <<< 34) != 0#64) zacas info
  else info
end Riscv

/-! ### 32-bit Arm Linux with the kernel's compare-exchange helper -/

namespace ArmLinux

/-- atomic64/arm_linux.rs L68-L75: `has_kuser_cmpxchg64()`, encoded as bit 1 of the answer so that
it has the type of a detection result. -/
def decode (version : Int) (info : Info) : Info := check (decide (5 ≤ version)) 1 info

/-- atomic64/arm_linux.rs L107-L157 (`select_atomic!`), L183-L212, L295-L299: always through
`ifunc!`, nothing cached; `version` is the constant word the kernel maps at 0xFFFF0FFC. -/
def cfg {Site : Type} (version : Int) (detectFalse : Bool) : Cfg Site TwoWay.Impl where
  memo := .none
  probe := probeOf (· = version) decode detectFalse
  direct _ := none
  pick _ v := if testBit v 1 then .native else .fallback
  lfStatic := none
  lfOf v := testBit v 1
end ArmLinux

/-! ### AArch64 -/

namespace A64

/-- detect/common.rs L124-L194 (`rcpc`, `rcpc2`, `ls64wb`, `lsfe`, `cpuid` are only tested in the
crate's own tests but occupy enum values). -/
def lse : Nat := 1
def lse2 : Nat := 3
def rcpc3 : Nat := 5
def lse128 : Nat := 6

/-- Compile-time configuration: target features, `outline` = the `cfg` of aarch64.rs L518-L544
(detection possible on this target), `llScRmw` = `portable_atomic_ll_sc_rmw`. -/
structure Flags where
  lse : Bool
  lse2 : Bool
  lse128 : Bool
  rcpc3 : Bool
  outline : Bool
  llScRmw : Bool
deriving DecidableEq

inductive Impl
  | ldp | ldiapp | casp | ldxpStxp | stp | stilp | swpp
  /-- `ldclrp`/`ldsetp` -/
  | ldop
deriving DecidableEq

/-- The architecture extensions an implementation's instructions need to exist — `ldp`/`stp` also
to be single-copy atomic. aarch64.rs: `debug_assert_*` in L656, L723-L724, L796, L1086,
L1161-L1162, L1455, L1606, L1657. -/
def Impl.needs : Impl → List Nat
  | .ldp | .stp => [A64.lse2]
  | .ldiapp | .stilp => [A64.lse2, A64.rcpc3]
  | .casp => [A64.lse]
  | .ldxpStxp => []
  | .swpp | .ldop => [A64.lse128]

/-- Orderings a load/store can be called with (others panic before: C15), and those of the
read-modify-writes. -/
inductive Site
  | load (o : MemOrd) | store (o : MemOrd) | cas (o : MemOrd)
  | swap | andOr | otherRmw
deriving DecidableEq

/-- `atomic_load_no_lse2`: aarch64.rs L631-L644. -/
def loadNoLse2 (f : Flags) : Impl := if f.lse then .casp else .ldxpStxp

/-- `_atomic_load_ldp`: aarch64.rs L677-L703. -/
def loadLdp (f : Flags) : MemOrd → Impl
  | .relaxed => .ldp
  | _ => if f.rcpc3 then .ldiapp else .ldp

/-- `atomic_store_no_lse2`: aarch64.rs L1050-L1074. -/
def storeNoLse2 (f : Flags) : Impl := if f.lse && !f.llScRmw then .casp else .ldxpStxp

/-- `_atomic_store_stp`: aarch64.rs L1107-L1142. -/
def storeStp (f : Flags) : MemOrd → Impl
  | .relaxed => .stp
  | .seqCst => if f.lse128 then .swpp else if f.rcpc3 then .stilp else .stp
  | _ => if f.rcpc3 then .stilp else if f.lse128 then .swpp else .stp

/-- aarch64.rs L510-L630 (load), L897-L1049 (store), L1265-L1269 and L1410-L1438
(compare_exchange), L1578-L1594 (swap), L2004-L2139 (and/or), L1745-L1753 and L1802-L1810 (other
read-modify-writes). -/
def direct (f : Flags) : Site → Option Impl
  | .load o => if f.lse2 then some (loadLdp f o) else if f.outline then none else some (loadNoLse2 f)
  | .store o =>
    if f.lse2 then some (storeStp f o) else if f.outline then none else some (storeNoLse2 f)
  | .cas _ => if f.lse then some .casp else if f.outline then none else some .ldxpStxp
  | .swap => some (if f.lse128 then .swpp else if f.lse && !f.llScRmw then .casp else .ldxpStxp)
  | .andOr => some (if f.lse128 then .ldop else if f.lse && !f.llScRmw then .casp else .ldxpStxp)
  | .otherRmw => some (if f.lse && !f.llScRmw then .casp else .ldxpStxp)

/-- aarch64.rs L571-L620 (load), L980-L1040 (store), L1333-L1406 (compare_exchange); the sites
resolved at compile time never get here. -/
def pick (f : Flags) : Site → Info → Impl
  | .load .relaxed, v => if testBit v A64.lse2 then loadLdp f .relaxed else loadNoLse2 f
  | .load o, v =>
    if testBit v A64.lse2 then
      if !f.rcpc3 && testBit v A64.rcpc3 then .ldiapp else loadLdp f o
    else loadNoLse2 f
  | .store .relaxed, v => if testBit v A64.lse2 then storeStp f .relaxed else storeNoLse2 f
  | .store .seqCst, v =>
    if testBit v A64.lse2 then
      if !f.lse128 && testBit v A64.lse128 then .swpp
      else if !f.lse128 && !f.rcpc3 && testBit v A64.rcpc3 then .stilp
      else storeStp f .seqCst
    else storeNoLse2 f
  | .store o, v =>
    if testBit v A64.lse2 then
      if !f.rcpc3 && testBit v A64.rcpc3 then .stilp
      else if !f.rcpc3 && !f.lse128 && testBit v A64.lse128 then .swpp
      else storeStp f o
    else storeNoLse2 f
  | .cas _, v => if testBit v A64.lse then .casp else .ldxpStxp
  | .swap, _ | .andOr, _ | .otherRmw, _ => .ldxpStxp

/-- src/imp/atomic128/aarch64.rs; `is_lock_free` L2240-L2243.  On AArch64 the cache is published
with a plain store (detect/common.rs L67-L70). -/
def cfg (f : Flags) (probe : Info → Prop) : Cfg Site Impl where
  memo := .store
  probe := probe
  direct := direct f
  pick := pick f
  lfStatic := some true
  lfOf _ := true

structure AuxvReply where
  hwcap : BitVec 64
  hwcap2 : BitVec 64
  /-- Android only: `ro.arch` starts with "exynos9810" -/
  exynos9810 : Bool

/-- detect/auxv.rs L583-L633 (64-bit, not OpenBSD; test-only flags left out). -/
def decodeAuxv (android : Bool) (r : AuxvReply) (info : Info) : Info :=
  let rest (info : Info) : Info :=
    check (r.hwcap2 &&& (1#64 <<< 47) != 0#64) lse128
      (check (r.hwcap2 &&& (1#64 <<< 46) != 0#64) rcpc3
        (check (r.hwcap &&& (1#64 <<< 25) != 0#64) lse2 info))
  if r.hwcap &&& (1#64 <<< 8) != 0#64 then
    if android && r.exynos9810 then info else rest (setBit info lse)
  else rest info

/-- ID registers as read by NetBSD/OpenBSD. -/
structure RegReply where
  isar0 : BitVec 64
  isar1 : BitVec 64
  mmfr2 : BitVec 64

/-- detect/aarch64_aa64reg.rs L125-L127. -/
def extract (x : BitVec 64) (high low : Nat) : BitVec 64 :=
  (x >>> low) &&& ((1#64 <<< (high - low + 1)) - 1#64)

/-- detect/aarch64_aa64reg.rs L54-L123 (test-only flags left out). -/
def decodeReg (r : RegReply) (info : Info) : Info :=
  let atomic := extract r.isar0 23 20
  let info := if 2#64 ≤ atomic then check (3#64 ≤ atomic) lse128 (setBit info lse) else info
  let info := check (3#64 ≤ extract r.isar1 23 20) rcpc3 info
  check (1#64 ≤ extract r.mmfr2 35 32) lse2 info

/-- What Apple, illumos, Windows and Fuchsia tell: whether LSE and LSE2 are there
(aarch64_apple.rs L93-L117, aarch64_illumos.rs L39-L62, aarch64_windows.rs L49-L64; Fuchsia
reports LSE only, aarch64_fuchsia.rs L53-L64). -/
def decodePlain (r : Bool × Bool) (info : Info) : Info := check r.2 lse2 (check r.1 lse info)

end A64
end Verif.Detect
