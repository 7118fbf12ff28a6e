import Verif.Lf.Machine
import Verif.Int.Code
import Mathlib.Logic.Function.Basic
import Batteries.Data.BitVec.Lemmas
/-!
# RISC-V: 8- and 16-bit operations with 32-bit AMO instructions

Models `src/imp/riscv.rs` L98-172 (`sllw`, `srlw!`, `zero_extend`), L390-489 (`atomic_sub_word!`
without Zabha) and `src/utils.rs` L555-604 (`create_sub_word_mask_values`, with `SHIFT_MASK = false`
and little endian, as on RISC-V).

`L` is the register width (32 or 64).  Memory is an array of aligned 32-bit words, indexed by their
address.  An `amoand.w`/`amoor.w`/`amoxor.w` is one indivisible step on one word; a byte or halfword
load or store (`lb`/`lh`/`sb`/`sh`, L209-266) is one indivisible step on the bytes it names.
-/
namespace Verif.Rv

variable {L : Nat}

/-- Word-addressed memory. -/
abbrev Mem (L : Nat) := BitVec L → BitVec 32

/-- `aligned_ptr`: `ptr.addr() & !3` (`src/utils.rs` L580-581). -/
def aligned (addr : BitVec L) : BitVec L := addr &&& ~~~3

/-- `shift`: `ptr.addr().wrapping_mul(8) as u32` (`src/utils.rs` L582-592, L602). -/
def shift (addr : BitVec L) : BitVec 32 := (addr * 8).setWidth 32

/-- `mask`: `(1 << (size_of::<T>() * 8)) - 1` (`src/utils.rs` L596). -/
def mask (sz : Nat) : BitVec 32 := (1#32 <<< (sz * 8)) - 1

/-- `sllw`: shift left by the low five bits of `s` (`src/imp/riscv.rs` L115-128). -/
def sllw (v s : BitVec 32) : BitVec 32 := v <<< (s.toNat % 32)

/-- `srlw!`: shift right by the low five bits of `s` (L130-147). -/
def srlw (v s : BitVec 32) : BitVec 32 := v >>> (s.toNat % 32)

/-- The sub-word operations. -/
inductive Rmw where
  | and | or | xor
deriving DecidableEq

/-- `amoand.w`, `amoor.w`, `amoxor.w` on a word. -/
def Rmw.word (k : Rmw) (w v : BitVec 32) : BitVec 32 :=
  match k with
  | .and => w &&& v
  | .or => w ||| v
  | .xor => w ^^^ v

/-- The word-sized operand (L415-419, L432-434, L447-449). -/
def operand (sz : Nat) (k : Rmw) (addr : BitVec L) (val : BitVec (8 * sz)) : BitVec 32 :=
  match k with
  | .and => sllw (val.setWidth 32) (shift addr) ||| ~~~(sllw (mask sz) (shift addr))
  | .or => sllw (val.setWidth 32) (shift addr)
  | .xor => sllw (val.setWidth 32) (shift addr)

/-- `fetch_and` L409-424, `fetch_or` L426-439, `fetch_xor` L441-454: new memory and answer. -/
def fetchRmw (sz : Nat) (k : Rmw) (addr : BitVec L) (val : BitVec (8 * sz)) (m : Mem L) :
    Mem L × BitVec (8 * sz) :=
  let out := m (aligned addr)
  (Function.update m (aligned addr) (k.word out (operand sz k addr val)),
    (srlw out (shift addr)).setWidth (8 * sz))

/-- Operations on an 8- or 16-bit atomic.  `fetch_not` is `fetch_xor(!0)` (L456-458); `and`, `or`,
`xor`, `not` drop the answer (L468-482); the bit operations are `impl_default_bit_opts` (L465). -/
inductive SOp (sz : Nat) where
  | load (o : MemOrd)
  | store (v : BitVec (8 * sz)) (o : MemOrd)
  | fetch (k : Rmw) (v : BitVec (8 * sz)) (o : MemOrd)
  | plain (k : Rmw) (v : BitVec (8 * sz)) (o : MemOrd)
  | fetchNot (o : MemOrd)
  | not (o : MemOrd)
  | bit (b : Int.BitOp) (n : BitVec 32) (o : MemOrd)

/-- Answers. -/
inductive SRes (sz : Nat) where
  | unit
  | val (v : BitVec (8 * sz))
  | flag (b : Bool)
  | panic

/-- A byte or halfword of a word, at its byte offset. -/
def getSub (sz : Nat) (addr : BitVec L) (w : BitVec 32) : BitVec (8 * sz) :=
  (w >>> (8 * (addr.toNat % 4))).setWidth (8 * sz)

/-- Overwrite that byte or halfword. -/
def putSub (sz : Nat) (addr : BitVec L) (w : BitVec 32) (v : BitVec (8 * sz)) : BitVec 32 :=
  BitVec.ofFnLE fun i : Fin 32 =>
    if 8 * (addr.toNat % 4) ≤ i.1 ∧ i.1 < 8 * (addr.toNat % 4) + 8 * sz
    then v.getLsbD (i.1 - 8 * (addr.toNat % 4)) else w.getLsbD i.1

/-- `<$int_type>::wrapping_shl(1, bit)`. -/
def bitMask (sz : Nat) (n : BitVec 32) : BitVec (8 * sz) := 1#(8 * sz) <<< (n.toNat &&& (8 * sz - 1))

/-- The whole operation: new memory and answer. -/
def exec (sz : Nat) (addr : BitVec L) (op : SOp sz) (m : Mem L) : Mem L × SRes sz :=
  match op with
  | .load o =>
    match MemOrd.assertLoad o with
    | .panic => (m, .panic)
    | .ok => (m, .val (getSub sz addr (m (aligned addr))))
  | .store v o =>
    match MemOrd.assertStore o with
    | .panic => (m, .panic)
    | .ok => (Function.update m (aligned addr) (putSub sz addr (m (aligned addr)) v), .unit)
  | .fetch k v _ => ((fetchRmw sz k addr v m).1, .val (fetchRmw sz k addr v m).2)
  | .plain k v _ => ((fetchRmw sz k addr v m).1, .unit)
  | .fetchNot _ => ((fetchRmw sz .xor addr (~~~0) m).1, .val (fetchRmw sz .xor addr (~~~0) m).2)
  | .not _ => ((fetchRmw sz .xor addr (~~~0) m).1, .unit)
  | .bit b n _ =>
    match b with
    | .set => ((fetchRmw sz .or addr (bitMask sz n) m).1,
        .flag ((fetchRmw sz .or addr (bitMask sz n) m).2 &&& bitMask sz n != 0))
    | .clear => ((fetchRmw sz .and addr (~~~(bitMask sz n)) m).1,
        .flag ((fetchRmw sz .and addr (~~~(bitMask sz n)) m).2 &&& bitMask sz n != 0))
    | .toggle => ((fetchRmw sz .xor addr (bitMask sz n) m).1,
        .flag ((fetchRmw sz .xor addr (bitMask sz n) m).2 &&& bitMask sz n != 0))

end Verif.Rv
