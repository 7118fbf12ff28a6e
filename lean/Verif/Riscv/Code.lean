import Verif.Stmt.Machine
import Verif.Ordering
import Verif.Spec.Wide
import Verif.Spec.Rv64Order
/-!
# Loads, stores and AMOs of `src/imp/riscv.rs`

RISC-V targets without the A extension: `load` (L197-L229) and `store` (L231-L262) of all widths up to the
register's, and with Zaamo/`force-amo` (Zabha for 8 and 16 bits) the read-modify-write operations
`atomic_rmw_amo!` makes (L60-L96, L283-L325, L339-L386).  The operations without Zabha on 8 and 16 bits use a 32-bit AMO
with the same annotations (L396-L470): their values are C14; `amoSuffix` is all there is to their ordering.

Registers have `L` bits, the object `n`: only the lower bits of an operand register are meaningful, whatever
is above; results are sign-extended to the register, of which Rust takes the lower bits.
-/
set_option autoImplicit false
namespace Verif.Riscv
open Verif.Lf Verif.Wide

variable {L n : Nat}

/-- AMO instructions. -/
inductive Amo where
  | swap | add | and | or | xor | max | min | maxu | minu
deriving DecidableEq

/-- What they compute (Unprivileged ISA, Zaamo). -/
def Amo.fn (k : Amo) (x v : BitVec n) : BitVec n :=
  match k with
  | .swap => v
  | .add => x + v
  | .and => x &&& v
  | .or => x ||| v
  | .xor => x ^^^ v
  | .max => if x.slt v then v else x
  | .min => if v.slt x then v else x
  | .maxu => if x.ult v then v else x
  | .minu => if v.ult x then v else x

/-- Accesses: `l{b,h,w,d}`, `s{b,h,w,d}`, `amo<op>.{b,h,w,d}{,.aq,.rl,.aqrl}`, with operand register contents. -/
inductive Ins (L : Nat) where
  | load
  | store (val : BitVec L)
  | amo (k : Amo) (aq rl : Bool) (val : BitVec L)

/-- Their effect on an object of `n` bits. -/
def Ins.acc (i : Ins L) : Acc (BitVec n) :=
  match i with
  | .load => .op (.load .relaxed)
  | .store val => .op (.store (val.setWidth n) .relaxed)
  | .amo k _ _ val => .op (.rmw (fun x => k.fn x (val.setWidth n)) .relaxed)

/-- What Rust finds in the output register, which holds the sign-extended value. -/
def out (L : Nat) : Res (BitVec n) → Res (BitVec n)
  | .val x => .val ((x.signExtend L).setWidth n)
  | r => r

/-- `fence r,rw`, `fence rw,w`, `fence rw,rw`. -/
inductive Fence where
  | rRw | rwW | rwRw
deriving DecidableEq

abbrev Prog (L n : Nat) := Stmt (Ins L) Fence (BitVec n)

/-- A line of assembly that is a fence, or empty. -/
def line (f : Option Fence) (k : Prog L n) : Prog L n :=
  match f with
  | some f => .fence f k
  | none => k

/-- `atomic_load!($acquire, $release)`, L205-L217. -/
def atomicLoad (acquire release : Option Fence) : Prog L n :=
  line release (.acc .load fun r => line acquire (.ret (out L r)))

/-- `load`, L199-L229. -/
def load (o : MemOrd) : Prog L n :=
  match o.assertLoad with
  | .panic => .panic
  | .ok => match o with
    | .relaxed => atomicLoad none none
    | .acquire => atomicLoad (some .rRw) none
    | .seqCst => atomicLoad (some .rRw) (some .rwRw)
    | _ => .panic

/-- `atomic_store!($acquire, $release)`, L239-L251. -/
def atomicStore (acquire release : Option Fence) (val : BitVec L) : Prog L n :=
  line release (.acc (.store val) fun r => line acquire (.ret r))

/-- `store`, L231-L262. -/
def store (val : BitVec L) (o : MemOrd) : Prog L n :=
  match o.assertStore with
  | .panic => .panic
  | .ok => match o with
    | .relaxed => atomicStore none none val
    | .release => atomicStore none (some .rwW) val
    | .seqCst => atomicStore (some .rwRw) (some .rwW) val
    | _ => .panic

/-- The annotations (acquire, release) `atomic_rmw_amo!` chooses, L87-L94. -/
def amoSuffix (o : MemOrd) : Bool × Bool :=
  match o with
  | .relaxed => (false, false)
  | .acquire => (true, false)
  | .release => (false, true)
  | .acqRel | .seqCst => (true, true)

/-- `atomic_rmw_amo!`, L60-L96. -/
def rmwAmo (k : Amo) (val : BitVec L) (o : MemOrd) : Prog L n :=
  .acc (.amo k (amoSuffix o).1 (amoSuffix o).2 val) fun r => .ret (out L r)

/-- Operations of an atomic; pointers have the first eight (`fetch_byte_add` etc., L332-L336). -/
inductive Op (n : Nat) where
  | load | store (v : BitVec n) | swap (v : BitVec n)
  | fetchAdd (v : BitVec n) | fetchSub (v : BitVec n)
  | fetchAnd (v : BitVec n) | fetchOr (v : BitVec n) | fetchXor (v : BitVec n)
  | fetchNot | fetchMax (v : BitVec n) | fetchMin (v : BitVec n)

/-- A call: `signed` is the type's (`AtomicI*`), `upper` is what the operand register has above the value. -/
structure Call (L n : Nat) where
  op : Op n
  ord : MemOrd
  signed : Bool
  upper : BitVec L

/-- The register an `n`-bit operand is passed in. -/
def Call.reg (c : Call L n) (v : BitVec n) : BitVec L := (c.upper <<< n) ||| v.setWidth L

/-- The methods. -/
def prog (c : Call L n) : Prog L n :=
  match c.op with
  | .load => load c.ord
  | .store v => store (c.reg v) c.ord
  -- L284-L289
  | .swap v => rmwAmo .swap (c.reg v) c.ord
  -- L291-L296
  | .fetchAdd v => rmwAmo .add (c.reg v) c.ord
  -- L298-L300: `self.fetch_add(val.wrapping_neg(), order)`
  | .fetchSub v => rmwAmo .add (c.reg (-v)) c.ord
  -- L302-L321
  | .fetchAnd v => rmwAmo .and (c.reg v) c.ord
  | .fetchOr v => rmwAmo .or (c.reg v) c.ord
  | .fetchXor v => rmwAmo .xor (c.reg v) c.ord
  -- L351-L357: `let val: RegSize = !0;`
  | .fetchNot => rmwAmo .xor (BitVec.allOnes L) c.ord
  -- L359-L372; `$max`, `$min`: L481-L504
  | .fetchMax v => rmwAmo (if c.signed then .max else .maxu) (c.reg v) c.ord
  | .fetchMin v => rmwAmo (if c.signed then .min else .minu) (c.reg v) c.ord

/-- The module. -/
def code (L n : Nat) : Code (BitVec n) (Call L n) (Res (BitVec n)) (Prog L n) := Stmt.code Ins.acc prog

export Verif.Rv64 (Ev)

/-- Events of a fence. -/
def Fence.events : Fence → List Ev
  | .rRw => [.fence true false true true]
  | .rwW => [.fence true true false true]
  | .rwRw => [.fence true true true true]

/-- Events of an access. -/
def Ins.Events (i : Ins L) (_r : Res (BitVec n)) (t : List Ev) : Prop :=
  match i with
  | .load => t = [.acc true false false false]
  | .store _ => t = [.acc false true false false]
  | .amo _ aq rl _ => t = [.acc true true aq rl]

/-- `t` are the events of a complete execution of `c` with result `r`. -/
def Call.Events (c : Call L n) (t : List Ev) (r : Res (BitVec n)) : Prop :=
  Stmt.Events Ins.acc Fence.events Ins.Events (prog c) t r

/-- Events of a sub-word operation without Zabha (L396-L470): one AMO on the word. -/
def subWordEvents (o : MemOrd) : List Ev := [.acc true true (amoSuffix o).1 (amoSuffix o).2]

end Verif.Riscv
