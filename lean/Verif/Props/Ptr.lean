import Verif.Spec.Ptr
import Verif.Lf.Run
import Verif.Spec.Ordering
/-!
# Properties of `AtomicPtr` (C19, C20)
-/
namespace Verif.Ptr
open Verif.Lf Verif.Object Verif.Int

variable {w : Nat}

/-- Each arithmetic function of each implementation stores `b.fn v x` and answers `x`. -/
theorem arith_impl (k : Backend) (b : Bin) (v : BitVec w) (o : MemOrd) {g : IRes w → IRes w}
    {S : BitVec w → BitVec w → IRes w → Prop} (h : ∀ x, S x (b.fn v x) (g (.res (.val x)))) :
    (mapRes g (arith k b v o)).Implements S := by
  cases k <;> cases b <;> simp only [arith] <;>
    first
    | exact rmw_impl h
    | exact loop_impl h
    | (refine rmw_impl fun x => ?_
       have := h x
       simp only [Bin.fn] at this ⊢
       rw [← BitVec.sub_eq_add_neg]; exact this)

theorem above_add (x d : BitVec w) : Above x d.toNat (x + d) := by
  simp [Above, BitVec.toNat_add]

theorem above_sub (x d : BitVec w) : Above (x - d) d.toNat x := by
  simp only [Above]
  rw [← BitVec.toNat_add, BitVec.sub_add_cancel]

theorem above_congr {x y : BitVec w} {d e : Nat} (h : d % 2 ^ w = e % 2 ^ w) (hx : Above x d y) :
    Above x e y := by
  simp only [Above] at *
  rw [hx, Nat.add_mod, h, ← Nat.add_mod]

theorem mul_size (n : BitVec w) (size : Nat) :
    (n * BitVec.ofNat w size).toNat % 2 ^ w = (n.toNat * size) % 2 ^ w := by
  simp [BitVec.toNat_mul, Nat.mul_mod]

theorem bit_impl {e : Nat} (hw : w = 2 ^ e) (k : Backend) (b : BitOp) (n : BitVec 32) (o : MemOrd)
    {S : BitVec w → BitVec w → IRes w → Prop}
    (h : ∀ x y, b.Post (n.toNat % w) x y → S x y (.flag (x.getLsbD (n.toNat % w)))) :
    (bit k b n o : P w).Implements S := by
  have hmod : n.toNat &&& (w - 1) = n.toNat % w := by subst hw; exact and_pred e _
  have hi : n.toNat % w < w := Nat.mod_lt _ (by subst hw; exact Nat.two_pow_pos e)
  have hm : (wrappingShl1 n : BitVec w) = 1#w <<< (n.toNat % w) := by
    unfold wrappingShl1; rw [hmod]; rfl
  have main : ∀ x, S x (btFn b (n.toNat % w) x) (.flag (x.getLsbD (n.toNat % w))) :=
    fun x => h x _ (bt_post hi b x)
  have gen : ∀ (k : Backend), (bitDefault k b n o : P w).Implements S := by
    intro k
    simp only [bitDefault, hm]
    cases b <;> refine arith_impl k _ _ o fun x => ?_ <;> simp only [testMask, test_bit hi x] <;>
      exact main x
  cases k with
  | viaUsize asm =>
    cases asm with
    | false => exact gen (.viaUsize false)
    | true =>
      simp only [bit, hmod]
      intro x x' r hs
      simp only [Acc.sem, Op.onCell, Op.ordOk, if_true, Prod.mk.injEq] at hs
      obtain ⟨rfl, rfl⟩ := hs
      exact main x
  | strictLoop => exact gen .strictLoop
  | riscvAmo => exact gen .riscvAmo
  | interrupt => exact gen .interrupt

theorem prog_impl {e : Nat} (hw : w = 2 ^ e) (size : Nat) (k : Backend) (op : POp w) (p : P w)
    (hp : prog size k op = some p) : p.Implements (Sem size op) := by
  have core : ∀ (iop : IOp w) (q : P w), Int.prog false .fallback iop = some q →
      q.Implements (Int.Sem false iop) := fun iop q hq => Int.prog_impl hw false .fallback iop q hq
  have ar : ∀ (b : Bin) (v : BitVec w) (o : MemOrd) (S : BitVec w → BitVec w → IRes w → Prop),
      (∀ x, S x (b.fn v x) (.res (.val x))) → (arith k b v o).Implements S := by
    intro b v o S h
    rw [← mapRes_id (arith k b v o)]
    exact arith_impl k b v o h
  cases op with
  | load o => exact core (.load o) p hp
  | store v o => exact core (.store v o) p hp
  | swap v o => exact core (.swap v o) p hp
  | compareExchange c n s f =>
    simp only [prog] at hp
    split at hp
    · exact core (.compareExchange c n s f) p hp
    · simp at hp
  | compareExchangeWeak c n s f =>
    simp only [prog] at hp
    split at hp
    · exact core (.compareExchangeWeak c n s f) p hp
    · simp at hp
  | fetchUpdate s g f =>
    simp only [prog] at hp
    split at hp
    · exact core (.fetchUpdate s g f) p hp
    · simp at hp
  | fetchPtrAdd n o =>
    simp only [prog, Option.some.injEq] at hp; subst hp
    exact ar _ _ _ _ fun x => ⟨above_congr (mul_size n size) (above_add x _), rfl⟩
  | fetchPtrSub n o =>
    simp only [prog, Option.some.injEq] at hp; subst hp
    exact ar _ _ _ _ fun x => ⟨above_congr (mul_size n size) (above_sub x _), rfl⟩
  | fetchByteAdd n o =>
    simp only [prog, Option.some.injEq] at hp; subst hp
    exact ar _ _ _ _ fun x => ⟨above_add x _, rfl⟩
  | fetchByteSub n o =>
    simp only [prog, Option.some.injEq] at hp; subst hp
    exact ar _ _ _ _ fun x => ⟨above_sub x _, rfl⟩
  | fetchOr v o =>
    simp only [prog, Option.some.injEq] at hp; subst hp
    exact ar _ _ _ _ fun x => ⟨bin_post .or x v, rfl⟩
  | fetchAnd v o =>
    simp only [prog, Option.some.injEq] at hp; subst hp
    exact ar _ _ _ _ fun x => ⟨bin_post .and x v, rfl⟩
  | fetchXor v o =>
    simp only [prog, Option.some.injEq] at hp; subst hp
    exact ar _ _ _ _ fun x => ⟨bin_post .xor x v, rfl⟩
  | bit b n o =>
    simp only [prog, Option.some.injEq] at hp; subst hp
    exact bit_impl hw k b n o fun x y hxy => ⟨hxy, rfl⟩

/-! ## The properties -/

/-- The operations that exist on implementation `k` for a pointee of size `size`. -/
abbrev Avail (w size : Nat) (k : Backend) := { op : POp w // (prog size k op).isSome }

/-- Their code. -/
def codeOf (w size : Nat) (k : Backend) :
    Code (BitVec w) (Avail w size k) (IRes w) (Prog.Pc (BitVec w) (IRes w)) :=
  Prog.code fun op => (prog size k op.1).get op.2

/-- A shared pointer, restricted to the operations of `k`. -/
def specOf (w size : Nat) (k : Backend) : Spec (BitVec w) (Avail w size k) (IRes w) where
  sem op := Sem size op.1

/-- **C19, C20.** Every history of `AtomicPtr` operations, on every modelled implementation, is
linearizable with respect to a plain address with the operations of `Verif.Ptr.Sem`. -/
theorem ptr_linearizable (e size : Nat) (k : Backend) (m : Obj → BitVec (2 ^ e))
    (h : List (Object.Ev (Obj × Avail (2 ^ e) size k) (IRes (2 ^ e)))) (s)
    (hx : Runs ((codeOf (2 ^ e) size k).sys Obj) m h s) :
    LinearizableTo ((specOf (2 ^ e) size k).many (K := Obj)) m h s.mem := by
  refine Prog.linearizable (S := specOf (2 ^ e) size k) (fun op => ?_) hx
  exact prog_impl rfl size k op.1 _ (Option.some_get op.2).symm

/-- The address `d` bytes above is unique. -/
theorem above_unique {x y z : BitVec w} {d : Nat} (h1 : Above x d y) (h2 : Above x d z) : y = z :=
  BitVec.eq_of_toNat_eq (h1.trans h2.symm)

/-- The address `d` bytes below is unique. -/
theorem below_unique {x y z : BitVec w} {d : Nat} (h1 : Above y d x) (h2 : Above z d x) : y = z := by
  have e : y + BitVec.ofNat w d = z + BitVec.ofNat w d := by
    apply BitVec.eq_of_toNat_eq
    simp only [Above] at h1 h2
    simp only [BitVec.toNat_add, BitVec.toNat_ofNat, Nat.add_mod_mod]
    rw [← h1, ← h2]
  have := congrArg (fun t => t - BitVec.ofNat w d) e
  simpa [BitVec.add_sub_cancel] using this

/-- **C19b.** Moving up by `n` elements and then down by `n` elements restores the pointer, whatever
the address, the count and the element size. -/
theorem ptr_add_sub_restores (size : Nat) (n x y z : BitVec w) (o o' : MemOrd) (r r' : IRes w)
    (h1 : Sem size (.fetchPtrAdd n o) x y r) (h2 : Sem size (.fetchPtrSub n o') y z r') :
    z = x ∧ r = .res (.val x) ∧ r' = .res (.val y) :=
  ⟨below_unique h2.1 h1.1, h1.2, h2.2⟩

/-- **C19c.** Inside the address space nothing wraps: the element-wise move is exactly
`size * n` bytes. -/
theorem ptr_add_exact (size : Nat) (n x y : BitVec w) (o : MemOrd) (r : IRes w)
    (hfit : x.toNat + n.toNat * size < 2 ^ w) (h : Sem size (.fetchPtrAdd n o) x y r) :
    y.toNat = x.toNat + n.toNat * size := by
  have := h.1
  simpa only [Above, Nat.mod_eq_of_lt hfit] using this

/-- The ordering requested (when the operation writes). -/
def POp.succ : POp w → MemOrd
  | .load o | .store _ o | .swap _ o | .fetchPtrAdd _ o | .fetchPtrSub _ o | .fetchByteAdd _ o
  | .fetchByteSub _ o | .fetchOr _ o | .fetchAnd _ o | .fetchXor _ o | .bit _ _ o => o
  | .compareExchange _ _ s _ | .compareExchangeWeak _ _ s _ | .fetchUpdate s _ _ => s

/-- The ordering requested when it does not write. -/
def POp.fail : POp w → MemOrd
  | .load o | .store _ o | .swap _ o | .fetchPtrAdd _ o | .fetchPtrSub _ o | .fetchByteAdd _ o
  | .fetchByteSub _ o | .fetchOr _ o | .fetchAnd _ o | .fetchXor _ o | .bit _ _ o => o
  | .compareExchange _ _ _ f | .compareExchangeWeak _ _ _ f | .fetchUpdate _ f _ => f

/-- Does the program respect the requested orderings at the access at which it takes effect? -/
def OrderKept (op : POp w) : P w → Prop
  | .stop _ => True
  | .one a _ => a.succ.AtLeast op.succ ∧ a.fail.AtLeast op.fail
  | .loop _ _ o _ => o.AtLeast op.succ
  | .update s g _ _ => s.AtLeast op.succ ∧ g.AtLeast op.fail

/-- **C19d.** Each operation takes effect with at least the requested orderings. -/
theorem ptr_ordering_kept (size : Nat) (k : Backend) (op : POp w) (p : P w)
    (hp : prog size k op = some p) : OrderKept op p := by
  have rfl' : ∀ o : MemOrd, o.AtLeast o := fun o _ h => h
  have sc : ∀ o : MemOrd, MemOrd.AtLeast .seqCst o := fun _ _ _ => trivial
  have ar : ∀ (b : Bin) (v : BitVec w) (o : MemOrd) (op : POp w), op.succ = o → op.fail = o →
      ∀ g, OrderKept op (mapRes g (arith k b v o)) := by
    intro b v o op h1 h2 g
    cases k <;> cases b <;> simp only [arith, rmw, one, fetchUpdate_, mapRes, OrderKept, Acc.succ,
      Acc.fail, h1, h2] <;> first | exact ⟨rfl' _, rfl' _⟩ | exact rfl' _
  have ar' : ∀ (b : Bin) (v : BitVec w) (o : MemOrd) (op : POp w), op.succ = o → op.fail = o →
      OrderKept op (arith k b v o) := by
    intro b v o op h1 h2
    rw [← mapRes_id (arith k b v o)]
    exact ar b v o op h1 h2 _
  have bd : ∀ (b : BitOp) (n : BitVec 32) (o : MemOrd), OrderKept (.bit b n o) (bitDefault k b n o : P w) := by
    intro b n o
    cases b <;> exact ar _ _ o _ rfl rfl _
  cases op with
  | load o => simp only [prog, Option.some.injEq] at hp; subst hp; exact ⟨rfl' _, rfl' _⟩
  | store v o => simp only [prog, Option.some.injEq] at hp; subst hp; exact ⟨rfl' _, rfl' _⟩
  | swap v o => simp only [prog, Option.some.injEq] at hp; subst hp; exact ⟨rfl' _, rfl' _⟩
  | compareExchange c n s f =>
    simp only [prog] at hp
    split at hp
    · simp only [Option.some.injEq] at hp; subst hp; exact ⟨rfl' _, rfl' _⟩
    · simp at hp
  | compareExchangeWeak c n s f =>
    simp only [prog] at hp
    split at hp
    · simp only [Option.some.injEq] at hp; subst hp; exact ⟨rfl' _, rfl' _⟩
    · simp at hp
  | fetchUpdate s g f =>
    simp only [prog] at hp
    split at hp
    · simp only [Option.some.injEq] at hp; subst hp; exact ⟨rfl' _, rfl' _⟩
    · simp at hp
  | bit b n o =>
    simp only [prog, Option.some.injEq] at hp; subst hp
    cases k with
    | viaUsize asm =>
      cases asm with
      | false => exact bd b n o
      | true => exact ⟨sc _, sc _⟩
    | strictLoop => exact bd b n o
    | riscvAmo => exact bd b n o
    | interrupt => exact bd b n o
  | _ => simp only [prog, Option.some.injEq] at hp; subst hp; exact ar' _ _ _ _ rfl rfl

/-! ## A concrete run

A pointer to 12-byte elements at address 16 on a 16-bit target: thread 0 starts `fetch_ptr_sub(3)`
by a loop, thread 1 toggles bit 16 = 0 (mod 16) in between, thread 0 retries and wraps around. -/

def demoOp (op : POp 16) (h : (prog 12 .strictLoop op).isSome := by rfl) :
    Avail 16 12 .strictLoop := ⟨op, h⟩

def demo : List (Cmd Obj (Avail 16 12 .strictLoop)) :=
  [.call 0 1 (demoOp (.fetchPtrSub 3 .acqRel)), .go 0,
   .call 1 1 (demoOp (.bit .toggle 16 .relaxed)), .go 1, .go 1, .ret 1,
   .go 0, .go 0, .ret 0]

example : (codeOf (2 ^ 4) 12 .strictLoop).outcome demo (fun _ => 16) 1 =
    some ([(1, .flag false), (0, .res (.val 17))], 65517) := by decide +kernel

example : Sem 12 (.fetchPtrAdd (3 : BitVec 16) .relaxed) 65530 30 (.res (.val 65530)) ∧
    Sem 12 (.fetchPtrSub (3 : BitVec 16) .relaxed) 30 65530 (.res (.val 30)) ∧
    (16 : BitVec 16).toNat + (3 : BitVec 16).toNat * 12 < 2 ^ 16 := by
  simp [Sem, Above]

end Verif.Ptr
