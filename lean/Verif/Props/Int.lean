import Verif.Int.Sim
import Verif.Lf.Progress
import Verif.Spec.Ordering
/-!
# Properties of integer atomics (C12, C13, C20, C33)

`IntSys signed k` runs the modelled code of all integer operations of implementation `k` for any
number of objects and threads, any interleaving, any spurious compare-exchange failures.
-/
namespace Verif.Int
open Verif.Lf Verif.Object

variable {w : Nat}

/-- The operations that exist on implementation `k`. -/
abbrev Avail (w : Nat) (signed : Bool) (k : Backend) := { op : IOp w // (prog signed k op).isSome }

/-- The code of those operations. -/
def codeOf (w : Nat) (signed : Bool) (k : Backend) :
    Code (BitVec w) (Avail w signed k) (IRes w) (Prog.Pc (BitVec w) (IRes w)) :=
  Prog.code fun op => (prog signed k op.1).get op.2

/-- A shared integer, restricted to the operations of `k`. -/
def specOf (w : Nat) (signed : Bool) (k : Backend) : Spec (BitVec w) (Avail w signed k) (IRes w) where
  sem op := Sem signed op.1

/-- **C12, C13, C20, C33.** Every history of integer-atomic operations is linearizable with respect
to a plain integer with the operations of `Verif.Int.Sem`; memory at the end is the one the
linearization ends in.  (`w` is a power of two, as for every Rust integer.) -/
theorem int_linearizable (e : Nat) (signed : Bool) (k : Backend) (m : Obj → BitVec (2 ^ e))
    (h : List (Object.Ev (Obj × Avail (2 ^ e) signed k) (IRes (2 ^ e)))) (s)
    (hx : Runs ((codeOf (2 ^ e) signed k).sys Obj) m h s) :
    LinearizableTo ((specOf (2 ^ e) signed k).many (K := Obj)) m h s.mem := by
  refine Prog.linearizable (S := specOf (2 ^ e) signed k) (fun op => ?_) hx
  exact prog_impl rfl signed k op.1 _ (Option.some_get op.2).symm

/-! ## C12: `fetch_update` writes at most once -/

/-- **C12b.** Whatever the other threads do, each step of a running `fetch_update` leaves the cell
unchanged, or replaces the value `v` it finds by `w` where the closure answered `Some(w)` for `v`,
and then the call is over with `Ok(v)`. -/
theorem update_writes_at_most_once (s g : MemOrd) (f : Closure (BitVec w)) (hist : List (BitVec w))
    (prev : BitVec w) (hg : g ≠ .release ∧ g ≠ .acqRel) (a : Acc (BitVec w))
    (k : Res (BitVec w) → Prog.Pc (BitVec w) (IRes w))
    (hn : Prog.next (.update s g f IRes.res hist prev) = .acc a k)
    (x x' : BitVec w) (r : Res (BitVec w)) (hs : a.sem x x' r) :
    x' = x ∨ (f hist x = some x' ∧ Prog.next (k r) = .ret (.res (.ok x))) := by
  rcases Prog.step_writes_once (Or.inr ⟨s, g, f, _, hist, prev, hg.1, hg.2, rfl⟩) hn hs with
    ⟨h, _⟩ | ⟨_, _, _, h, _⟩ | ⟨_, _, _, _, _, h, hf, hk⟩
  · exact Or.inl h
  · simp at h
  · simp only [Prog.Pc.update.injEq] at h
    obtain ⟨_, _, rfl, rfl, rfl, _⟩ := h
    exact Or.inr ⟨hf, by rw [hk]; rfl⟩

/-! ## C13: progress of the loops -/

/-- **C13b.** A loop that runs undisturbed (no other thread, no spurious failure) finishes in at most
two attempts, whatever stale value it starts from, having applied the function exactly once to the
value in the cell and returning that value. -/
theorem loop_finishes (f : BitVec w → BitVec w) (o : MemOrd) (dec : BitVec w → IRes w)
    (prev x : BitVec w) :
    Prog.alone 2 (.loop f o dec prev) x = (.fin (dec x), f x) := Prog.alone_loop f o dec prev x

/-- **C13c.** An attempt that fails for a reason means that another thread changed the cell since it
was read: the system as a whole has made progress. -/
theorem failure_means_interference (prev nx x y : BitVec w) (o g : MemOrd)
    (h : ((Acc.casWeak prev nx o g).exec false x).2 = .err y) : x ≠ prev :=
  Prog.fail_means_changed prev nx o g x y h

/-! ## C33: consistency -/

/-- The specified result of each operation is unique. -/
theorem bin_post_unique (b : Bin) (x v y z : BitVec w) (h1 : b.Post x v y) (h2 : b.Post x v z) :
    y = z := by
  cases b with
  | add => exact BitVec.eq_of_toNat_eq (by simp only [Bin.Post] at h1 h2; omega)
  | sub =>
    simp only [Bin.Post, ← BitVec.toNat_add] at h1 h2
    have e1 := BitVec.eq_of_toNat_eq h1
    have e2 := BitVec.eq_of_toNat_eq h2
    rw [← BitVec.add_sub_cancel y v, e1, ← e2, BitVec.add_sub_cancel]
  | and => exact BitVec.eq_of_getLsbD_eq fun i hi => by rw [h1 i hi, h2 i hi]
  | or => exact BitVec.eq_of_getLsbD_eq fun i hi => by rw [h1 i hi, h2 i hi]
  | xor => exact BitVec.eq_of_getLsbD_eq fun i hi => by rw [h1 i hi, h2 i hi]

theorem num_inj (signed : Bool) (x y : BitVec w) (h : num signed x = num signed y) : x = y := by
  cases signed
  · simp only [num, Bool.false_eq_true, if_false] at h
    exact BitVec.eq_of_toNat_eq (by omega)
  · simp only [num, if_true] at h
    exact BitVec.eq_of_toInt_eq h

theorem binF_post_unique (signed : Bool) (b : BinF) (x v y z : BitVec w) (h1 : b.Post signed x v y)
    (h2 : b.Post signed x v z) : y = z := by
  cases b with
  | nand => exact BitVec.eq_of_getLsbD_eq fun i hi => by rw [h1 i hi, h2 i hi]
  | max => exact num_inj signed _ _ (h1.trans h2.symm)
  | min => exact num_inj signed _ _ (h1.trans h2.symm)

theorem un_post_unique (u : Un) (x y z : BitVec w) (h1 : u.Post x y) (h2 : u.Post x z) : y = z := by
  cases u with
  | not => exact BitVec.eq_of_getLsbD_eq fun i hi => by rw [h1 i hi, h2 i hi]
  | neg =>
    simp only [Un.Post] at h1 h2
    have hy := y.isLt
    have hz := z.isLt
    apply BitVec.eq_of_toNat_eq
    have : (x + y).toNat = (x + z).toNat := by rw [BitVec.toNat_add, BitVec.toNat_add, h1, h2]
    have e := BitVec.eq_of_toNat_eq this
    have e2 : y = z := by
      have := congrArg (fun t => t - x) e
      simpa [BitVec.add_comm x, BitVec.add_sub_cancel] using this
    rw [e2]

theorem bit_post_unique (b : BitOp) (i : Nat) (x y z : BitVec w) (h1 : b.Post i x y)
    (h2 : b.Post i x z) : y = z := by
  refine BitVec.eq_of_getLsbD_eq fun j hj => ?_
  by_cases h : j = i
  · subst h
    cases b
    · exact h1.2.trans h2.2.symm
    · exact h1.2.trans h2.2.symm
    · exact h1.2.trans h2.2.symm
  · rw [h1.1 j hj h, h2.1 j hj h]

/-- **C33b.** `fetch_sub(v)` has the same effect and answer as `fetch_add(-v)`. -/
theorem sub_eq_add_neg (signed : Bool) (v x y : BitVec w) (o : MemOrd) (r : IRes w) :
    Sem signed (.fetchBin .sub v o) x y r ↔ Sem signed (.fetchBin .add (-v) o) x y r := by
  have a := bin_post .sub x v
  have b := bin_post .add x (-v)
  have e : Bin.fn .sub v x = Bin.fn .add (-v) x := BitVec.sub_eq_add_neg x v
  constructor
  · rintro ⟨h, rfl⟩; exact ⟨by rw [bin_post_unique _ _ _ _ _ h a, e]; exact b, rfl⟩
  · rintro ⟨h, rfl⟩; exact ⟨by rw [bin_post_unique _ _ _ _ _ h b, ← e]; exact a, rfl⟩

/-- **C33c.** `fetch_not` has the same effect and answer as `fetch_xor(-1)`. -/
theorem not_eq_xor (signed : Bool) (x y : BitVec w) (o : MemOrd) (r : IRes w) :
    Sem signed (.fetchUn .not o) x y r ↔ Sem signed (.fetchBin .xor (-1) o) x y r := by
  have e : ∀ i < w, (-1 : BitVec w).getLsbD i = true := by
    intro i hi
    have : (-1 : BitVec w) = BitVec.allOnes w := by
      have := @BitVec.neg_one_eq_allOnes w
      simpa using this
    rw [this]; simp [hi]
  constructor
  · rintro ⟨h, rfl⟩
    exact ⟨fun i hi => by rw [h i hi, e i hi]; simp, rfl⟩
  · rintro ⟨h, rfl⟩
    exact ⟨fun i hi => by rw [h i hi, e i hi]; simp, rfl⟩

/-- **C33d.** The forms without `fetch_` store the same value as the `fetch_` forms. -/
theorem plain_form_same (signed : Bool) (x y : BitVec w) (o : MemOrd) :
    (∀ b v, Sem signed (.bin b v o) x y (.res .unit) ↔ Sem signed (.fetchBin b v o) x y (.res (.val x))) ∧
    (∀ u, Sem signed (.un u o) x y (.res .unit) ↔ Sem signed (.fetchUn u o) x y (.res (.val x))) := by
  simp [Sem]

/-! ## Orderings -/

/-- The ordering requested when the operation writes. -/
def IOp.succ : IOp w → MemOrd
  | .load o | .store _ o | .swap _ o | .fetchBin _ _ o | .bin _ _ o | .fetchBinF _ _ o
  | .fetchUn _ o | .un _ o | .bit _ _ o => o
  | .compareExchange _ _ s _ | .compareExchangeWeak _ _ s _ | .fetchUpdate s _ _ => s

/-- The ordering requested when it does not write. -/
def IOp.fail : IOp w → MemOrd
  | .load o | .store _ o | .swap _ o | .fetchBin _ _ o | .bin _ _ o | .fetchBinF _ _ o
  | .fetchUn _ o | .un _ o | .bit _ _ o => o
  | .compareExchange _ _ _ f | .compareExchangeWeak _ _ _ f | .fetchUpdate _ f _ => f

/-- Does the program respect the requested orderings at the access at which it takes effect? -/
def OrderKept (op : IOp w) : P w → Prop
  | .stop _ => True
  | .one a _ => a.succ.AtLeast op.succ ∧ a.fail.AtLeast op.fail
  | .loop _ _ o _ => o.AtLeast op.succ
  | .update s g _ _ => s.AtLeast op.succ ∧ g.AtLeast op.fail

theorem orderKept_mapRes {op : IOp w} {p : P w} (g : IRes w → IRes w) (h : OrderKept op p) :
    OrderKept op (mapRes g p) := by cases p <;> exact h

theorem seqCst_atLeast (o : MemOrd) : MemOrd.AtLeast .seqCst o := fun _ _ => trivial

/-- **C13d.** On every implementation the access at which an operation takes effect uses at least the
orderings the caller asked for. -/
theorem int_ordering_kept (signed : Bool) (k : Backend) (op : IOp w) (p : P w)
    (hp : prog signed k op = some p) : OrderKept op p := by
  have rfl' : ∀ o : MemOrd, o.AtLeast o := fun o _ h => h
  have hb : ∀ {b : Bin} {v : BitVec w} {o : MemOrd} {q : P w}, fetchBin k b v o = some q →
      ∀ op : IOp w, op.succ = o → op.fail = o → OrderKept op q := by
    intro b v o q hq op h1 h2
    cases k <;> cases b <;> simp only [fetchBin, lac, Option.some.injEq, reduceCtorEq] at hq <;>
      subst hq <;> simp only [rmw, one, OrderKept, Acc.succ, Acc.fail, h1, h2] <;> exact ⟨rfl' _, rfl' _⟩
  have hu : ∀ {u : Un} {o : MemOrd} {q : P w}, fetchUn k u o = some q →
      ∀ op : IOp w, op.succ = o → op.fail = o → OrderKept op q := by
    intro u o q hq op h1 h2
    cases u with
    | not =>
      cases k with
      | fallback =>
        simp only [fetchUn, Option.some.injEq] at hq; subst hq
        simp only [rmw, one, OrderKept, Acc.succ, Acc.fail, h1, h2]; exact ⟨rfl' _, rfl' _⟩
      | _ => exact hb (b := .xor) hq op h1 h2
    | neg =>
      cases k <;> simp only [fetchUn, Option.some.injEq, reduceCtorEq] at hq <;> subst hq <;>
        simp only [rmw, one, fetchUpdate_, OrderKept, Acc.succ, Acc.fail, h1, h2]
      · exact rfl' _
      · exact ⟨rfl' _, rfl' _⟩
  have hun : ∀ {u : Un} {o : MemOrd} {q : P w}, (fetchUn k u o).map drop = some q →
      OrderKept (.un u o) q := by
    intro u o q hq
    simp only [Option.map_eq_some_iff] at hq
    obtain ⟨q', hq', rfl⟩ := hq
    rw [drop_eq]
    exact orderKept_mapRes _ (hu hq' _ rfl rfl)
  have hbit : ∀ {b : BitOp} {n : BitVec 32} {o : MemOrd} {q : P w}, bitDefault k b n o = some q →
      OrderKept (.bit b n o) q := by
    intro b n o q hq
    cases b <;> simp only [bitDefault, Option.map_eq_some_iff] at hq <;> obtain ⟨q', hq', rfl⟩ := hq <;>
      exact orderKept_mapRes _ (hb hq' _ rfl rfl)
  cases op with
  | load o => simp only [prog, Option.some.injEq] at hp; subst hp; exact ⟨rfl' _, rfl' _⟩
  | store v o => simp only [prog, Option.some.injEq] at hp; subst hp; exact ⟨rfl' _, rfl' _⟩
  | swap v o => simp only [prog, Option.some.injEq] at hp; subst hp; exact ⟨rfl' _, rfl' _⟩
  | compareExchange c n s f =>
    simp only [prog] at hp
    split at hp
    · simp only [Option.some.injEq] at hp; subst hp; exact ⟨rfl' _, rfl' _⟩
    · simp at hp
  | compareExchangeWeak c n s f =>
    simp only [prog] at hp
    split at hp
    · simp only [Option.some.injEq] at hp; subst hp; exact ⟨rfl' _, rfl' _⟩
    · simp at hp
  | fetchBin b v o => exact hb hp _ rfl rfl
  | bin b v o =>
    simp only [prog, bin, Option.map_eq_some_iff] at hp
    obtain ⟨q, hq, rfl⟩ := hp
    rw [drop_eq]
    exact orderKept_mapRes _ (hb hq _ rfl rfl)
  | fetchBinF b v o =>
    cases k with
    | core mm x ba =>
      cases mm <;> cases b <;> simp only [prog, fetchBinF, Option.some.injEq] at hp <;> subst hp <;>
        simp only [rmw, one, fetchUpdate_, OrderKept, Acc.succ, Acc.fail, IOp.succ, IOp.fail] <;>
        first | exact ⟨rfl' _, rfl' _⟩ | exact rfl' _
    | fallback =>
      simp only [prog, fetchBinF, Option.some.injEq] at hp; subst hp; exact ⟨rfl' _, rfl' _⟩
    | riscvAmo =>
      cases b <;> simp only [prog, fetchBinF, Option.some.injEq, reduceCtorEq] at hp <;> subst hp <;>
        exact ⟨rfl' _, rfl' _⟩
    | avrRmw => simp [prog, fetchBinF] at hp
  | fetchUn u o => exact hu hp _ rfl rfl
  | un u o =>
    cases k with
    | core mm x ba =>
      cases x with
      | false => exact hun hp
      | true =>
        cases u <;> simp only [prog, un, Option.some.injEq] at hp <;> subst hp <;>
          exact ⟨seqCst_atLeast _, seqCst_atLeast _⟩
    | fallback => exact hun hp
    | riscvAmo => exact hun hp
    | avrRmw => exact hun hp
  | bit b n o =>
    cases k with
    | core mm x ba =>
      cases ba with
      | false => exact hbit hp
      | true =>
        simp only [prog, bit, Option.some.injEq] at hp; subst hp
        exact ⟨seqCst_atLeast _, seqCst_atLeast _⟩
    | fallback => exact hbit hp
    | riscvAmo => exact hbit hp
    | avrRmw => exact hbit hp
  | fetchUpdate s g f =>
    simp only [prog] at hp
    split at hp
    · simp only [Option.some.injEq] at hp; subst hp; exact ⟨rfl' _, rfl' _⟩
    · simp at hp

/-! ## A concrete run

`AtomicI8` on a target whose `fetch_max` is a loop: thread 0 does `fetch_max(5)` on `-3`; between
its read and its compare-exchange thread 1 does `fetch_neg`, so the attempt fails, then one attempt
fails spuriously, then it succeeds; thread 1 then toggles bit 13 = 5 (mod 8). -/

def demoOp (op : IOp 8) (h : (prog true (.core true false false) op).isSome := by rfl) :
    Avail 8 true (.core true false false) := ⟨op, h⟩

def demo : List (Cmd Obj (Avail 8 true (.core true false false))) :=
  [.call 0 4 (demoOp (.fetchBinF .max 5 .acqRel)), .go 0,
   .call 1 4 (demoOp (.fetchUn .neg .relaxed)), .go 1, .go 1, .ret 1,
   .go 0, .spur 0, .go 0, .ret 0,
   .call 1 4 (demoOp (.bit .toggle 13 .seqCst)), .go 1, .ret 1]

example : (codeOf (2 ^ 3) true (.core true false false)).outcome demo (fun _ => -3) 4 =
    some ([(1, .res (.val (-3))), (0, .res (.val 3)), (1, .flag false)], 5 + 32) := by decide +kernel

end Verif.Int
