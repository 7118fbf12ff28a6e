import Verif.Rv.SubWord
import Verif.Spec.Int
/-!
# Specification: sub-word atomics as objects in byte-addressed memory

`bytes a` is the byte at address `a`.  An 8- or 16-bit atomic at address `a` occupies `sz` bytes
(little endian).  Only the names of the operations come from the model.
-/
namespace Verif.Rv
open Verif.Object

variable {L : Nat}

/-- Byte-addressed memory. -/
abbrev Bytes (L : Nat) := BitVec L → BitVec 8

/-- The address of byte `j` of the object at `addr`. -/
def byteAddr (addr : BitVec L) (j : Nat) : BitVec L := BitVec.ofNat L (addr.toNat + j)

/-- Bit `i` of the object at `addr`. -/
def objBit (b : Bytes L) (addr : BitVec L) (i : Nat) : Bool :=
  (b (byteAddr addr (i / 8))).getLsbD (i % 8)

/-- The bytes at `addr` hold the value `v`. -/
def Holds (sz : Nat) (b : Bytes L) (addr : BitVec L) (v : BitVec (8 * sz)) : Prop :=
  ∀ i < 8 * sz, objBit b addr i = v.getLsbD i

/-- No byte outside the object changes. -/
def OthersKept (sz : Nat) (b b' : Bytes L) (addr : BitVec L) : Prop :=
  ∀ a, (∀ j < sz, a ≠ byteAddr addr j) → b' a = b a

/-- The operation on the value. -/
def SOp.Post {sz : Nat} : SOp sz → BitVec (8 * sz) → BitVec (8 * sz) → SRes sz → Prop
  | .load o, x, y, r => y = x ∧ r = if o = .release ∨ o = .acqRel then .panic else .val x
  | .store v o, x, y, r =>
      if o = .acquire ∨ o = .acqRel then y = x ∧ r = .panic else y = v ∧ r = .unit
  | .fetch .and v _, x, y, r => (∀ i < 8 * sz, y.getLsbD i = (x.getLsbD i && v.getLsbD i)) ∧ r = .val x
  | .fetch .or v _, x, y, r => (∀ i < 8 * sz, y.getLsbD i = (x.getLsbD i || v.getLsbD i)) ∧ r = .val x
  | .fetch .xor v _, x, y, r => (∀ i < 8 * sz, y.getLsbD i = (x.getLsbD i != v.getLsbD i)) ∧ r = .val x
  | .plain .and v _, x, y, r => (∀ i < 8 * sz, y.getLsbD i = (x.getLsbD i && v.getLsbD i)) ∧ r = .unit
  | .plain .or v _, x, y, r => (∀ i < 8 * sz, y.getLsbD i = (x.getLsbD i || v.getLsbD i)) ∧ r = .unit
  | .plain .xor v _, x, y, r => (∀ i < 8 * sz, y.getLsbD i = (x.getLsbD i != v.getLsbD i)) ∧ r = .unit
  | .fetchNot _, x, y, r => (∀ i < 8 * sz, y.getLsbD i = !x.getLsbD i) ∧ r = .val x
  | .not _, x, y, r => (∀ i < 8 * sz, y.getLsbD i = !x.getLsbD i) ∧ r = .unit
  | .bit b n _, x, y, r => b.Post (n.toNat % (8 * sz)) x y ∧ r = .flag (x.getLsbD (n.toNat % (8 * sz)))

/-- The operation on the object at `addr` of byte memory: its old value becomes the new one, and all
other bytes stay. -/
def SemBytes (sz : Nat) (addr : BitVec L) (op : SOp sz) (b b' : Bytes L) (r : SRes sz) : Prop :=
  ∃ x y, Holds sz b addr x ∧ Holds sz b' addr y ∧ OthersKept sz b b' addr ∧ op.Post x y r

end Verif.Rv
