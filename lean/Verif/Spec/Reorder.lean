import Verif.Spec.Sync
/-!
# Specification: the same operations with other orderings

Nothing in this file models the crate.  Some implementations ignore the ordering argument of an
operation (beyond checking it).  Their users get whatever the strongest orderings short of `SeqCst`
would give; this file says what "the same history, with other orderings" means.
-/
set_option autoImplicit false
namespace Verif.WM

variable {V X : Type}

/-- The same operation with the same operands; only the orderings may differ. -/
def SameOp : Op V → Op V → Prop
  | .load _, .load _ => True
  | .store v _, .store v' _ => v = v'
  | .swap v _, .swap v' _ => v = v'
  | .cas c d _ _, .cas c' d' _ _ => c = c' ∧ d = d'
  | .rmw f _, .rmw f' _ => f = f'
  | _, _ => False

/-- No ordering argument is `SeqCst`. -/
def NoSeqCst : Op V → Prop
  | .load o => o ≠ .seqCst
  | .store _ o => o ≠ .seqCst
  | .swap _ o => o ≠ .seqCst
  | .cas _ _ s f => s ≠ .seqCst ∧ f ≠ .seqCst
  | .rmw _ o => o ≠ .seqCst

/-- A choice of orderings other than `SeqCst` for every operation, accepted exactly where those of the
caller are. -/
def Reorders (g : Op V → Op V) : Prop :=
  ∀ op, SameOp op (g op) ∧ (g op).ordOk = op.ordOk ∧ NoSeqCst (g op)

/-- The event with the orderings of a call replaced. -/
def Ev.reord (g : Op V → Op V) : Ev V X → Ev V X
  | .inv t o op => .inv t o (g op)
  | e => e

/-- `SeqCst` replaced by the strongest of the other orderings. -/
def unSc : Op V → Op V
  | .load o => .load (if o = .seqCst then .acquire else o)
  | .store v o => .store v (if o = .seqCst then .release else o)
  | .swap v o => .swap v (if o = .seqCst then .acqRel else o)
  | .cas c d s f => .cas c d (if s = .seqCst then .acqRel else s) (if f = .seqCst then .acquire else f)
  | .rmw g o => .rmw g (if o = .seqCst then .acqRel else o)

/-- Every ordering replaced by the strongest except `SeqCst`: loads acquire, stores release,
read-modify-writes acquire and release (orderings that are not accepted by others that are not). -/
def acqRelOp : Op V → Op V
  | .load o => .load (if (Op.load o : Op V).ordOk then .acquire else .acqRel)
  | .store v o => .store v (if (Op.store v o : Op V).ordOk then .release else .acqRel)
  | .swap v _ => .swap v .acqRel
  | .cas c d s f => .cas c d .acqRel (if (Op.cas c d s f : Op V).ordOk then .acquire else .acqRel)
  | .rmw g _ => .rmw g .acqRel

theorem unSc_reorders : Reorders (unSc : Op V → Op V) := by
  intro op
  cases op with
  | load o => cases o <;> simp [unSc, SameOp, NoSeqCst, Op.ordOk] <;> rfl
  | store v o => cases o <;> simp [unSc, SameOp, NoSeqCst, Op.ordOk] <;> rfl
  | swap v o => cases o <;> simp [unSc, SameOp, NoSeqCst, Op.ordOk] <;> rfl
  | cas c d s f => cases s <;> cases f <;> simp [unSc, SameOp, NoSeqCst, Op.ordOk] <;> rfl
  | rmw g o => cases o <;> simp [unSc, SameOp, NoSeqCst, Op.ordOk] <;> rfl

theorem acqRelOp_reorders : Reorders (acqRelOp : Op V → Op V) := by
  intro op
  cases op with
  | load o => cases o <;> simp [acqRelOp, SameOp, NoSeqCst, Op.ordOk] <;> rfl
  | store v o => cases o <;> simp [acqRelOp, SameOp, NoSeqCst, Op.ordOk] <;> rfl
  | swap v o => simp [acqRelOp, SameOp, NoSeqCst, Op.ordOk] <;> rfl
  | cas c d s f => cases f <;> simp [acqRelOp, SameOp, NoSeqCst, Op.ordOk] <;> rfl
  | rmw g o => simp [acqRelOp, SameOp, NoSeqCst, Op.ordOk] <;> rfl

theorem unSc_eq {op : Op V} (h : NoSeqCst op) : unSc op = op := by
  cases op <;> simp_all [unSc, NoSeqCst]

/-- No operation of the history uses `SeqCst`. -/
def NoSeqCstCalls (h : List (Ev V X)) : Prop := ∀ t o op, Ev.inv t o op ∈ h → NoSeqCst op

theorem reord_unSc {h : List (Ev V X)} (hn : NoSeqCstCalls h) : h.map (Ev.reord unSc) = h := by
  conv_rhs => rw [← List.map_id h]
  refine List.map_congr_left fun e he => ?_
  cases e with
  | inv t o op => simp [Ev.reord, unSc_eq (hn t o op he)]
  | _ => rfl

/-- The event as one of the history of the objects alone. -/
def Ev.call : Ev V X → Option (Verif.Ev V)
  | .inv t o op => some (.inv t o op)
  | .ret t r => some (.ret t r)
  | .client .. => none

/-- The calls and returns of a history. -/
def callHistory (h : List (Ev V X)) : List (Verif.Ev V) := h.filterMap Ev.call

/-- What `A` has stored to a variable before event `i` is seen by `B` after event `k`: if all writes to
the variable in the history are stores of `x`, and `A` makes one before event `i`, then every load of it
by `B` after event `k`, even a relaxed one, returns `x`. -/
def Visible (h : List (Ev V X)) (A : Tid) (i : Nat) (B : Tid) (k : Nat) : Prop :=
  ∀ (a : Nat) (x : X) (m j : Nat) (ow ol : MemOrd) (r z : Option X),
    OnlyStores h a x →
    h[m]? = some (.client A (.store a x ow) r) → m < i →
    h[j]? = some (.client B (.load a ol) z) → k < j → z = some x

end Verif.WM
