import Verif.Spec.Int
/-!
# Every integer operation's code computes its specified function
-/
namespace Verif.Int
open Verif.Lf Verif.Object

variable {w : Nat}

theorem bin_post (b : Bin) (x v : BitVec w) : b.Post x v (b.fn v x) := by
  cases b
  · simp [Bin.Post, Bin.fn, BitVec.toNat_add]
  · simp only [Bin.Post, Bin.fn]
    rw [← BitVec.toNat_add, BitVec.sub_add_cancel]
  · intro i _; simp [Bin.fn]
  · intro i _; simp [Bin.fn]
  · intro i _; simp [Bin.fn]

theorem slt_iff (x y : BitVec w) : x.slt y = true ↔ num true x < num true y := by
  simp [num, BitVec.slt]

theorem ult_iff (x y : BitVec w) : x.ult y = true ↔ num false x < num false y := by
  simp [num, BitVec.ult]

theorem max_post (signed : Bool) (x v : BitVec w) :
    num signed (cmpMax signed x v) = Max.max (num signed x) (num signed v) := by
  cases signed
  · simp only [cmpMax, Bool.false_eq_true, if_false, ult_iff]
    split
    · omega
    · split <;> omega
  · simp only [cmpMax, if_true, slt_iff]
    split
    · omega
    · split <;> omega

theorem min_post (signed : Bool) (x v : BitVec w) :
    num signed (cmpMin signed x v) = Min.min (num signed x) (num signed v) := by
  cases signed
  · simp only [cmpMin, Bool.false_eq_true, if_false, ult_iff]
    split <;> omega
  · simp only [cmpMin, if_true, slt_iff]
    split <;> omega

theorem binF_post (signed : Bool) (b : BinF) (x v : BitVec w) :
    b.Post signed x v (b.fn signed v x) := by
  cases b
  · intro i hi; simp [BinF.fn, hi]
  · exact max_post signed x v
  · exact min_post signed x v

theorem not_post (x : BitVec w) : Un.Post .not x (~~~x) := by
  intro i hi; simp [hi]

theorem neg_post (x : BitVec w) : Un.Post .neg x (-x) := by
  simp only [Un.Post]
  rw [← BitVec.toNat_add]
  simp [BitVec.add_right_neg]

theorem xor_ones (x : BitVec w) : x ^^^ (~~~0) = ~~~x := by
  ext i hi; simp [hi]

theorem and_pred (k n : Nat) : n &&& (2 ^ k - 1) = n % 2 ^ k := Nat.and_two_pow_sub_one_eq_mod n k

/-- The single bit of the mask. -/
theorem getLsbD_one_shift {w i : Nat} (hi : i < w) (j : Nat) :
    (1#w <<< i).getLsbD j = decide (j = i) := by
  rw [BitVec.getLsbD_shiftLeft]
  by_cases h : j = i
  · subst h; simp [hi]; omega
  · simp only [h, decide_false]
    by_cases h2 : j < i
    · simp [h2]
    · simp [h2]
      intro _ 
      omega

theorem bt_post {w i : Nat} (hi : i < w) (b : BitOp) (x : BitVec w) : b.Post i x (btFn b i x) := by
  have key := getLsbD_one_shift hi
  refine ⟨fun j hj hne => ?_, ?_⟩
  · have k := key j
    generalize hm : 1#w <<< i = m at k
    rw [decide_eq_false hne] at k
    cases b <;> simp only [btFn, hm, BitVec.getLsbD_or, BitVec.getLsbD_and, BitVec.getLsbD_xor,
      BitVec.getLsbD_not, k, hj] <;> simp
  · have k := key i
    generalize hm : 1#w <<< i = m at k
    simp only [decide_true] at k
    cases b <;> simp only [btFn, hm, BitVec.getLsbD_or, BitVec.getLsbD_and, BitVec.getLsbD_xor,
      BitVec.getLsbD_not, k, hi] <;> simp

theorem test_bit {w i : Nat} (hi : i < w) (x : BitVec w) :
    (x &&& (1#w <<< i) != 0) = x.getLsbD i := by
  cases h : x.getLsbD i
  · have : x &&& (1#w <<< i) = 0 := by
      apply BitVec.eq_of_getLsbD_eq
      intro j hj
      by_cases e : j = i
      · subst e; simp [h]
      · simp [getLsbD_one_shift hi, e]
    simp [this]
  · have : x &&& (1#w <<< i) ≠ 0 := by
      intro e
      have e2 := congrArg (fun y => y.getLsbD i) e
      simp [getLsbD_one_shift hi, h] at e2
    simpa [bne_iff_ne] using this

/-! ## Each program implements its operation -/

theorem rmw_impl {f : BitVec w → BitVec w} {o : MemOrd} {S : BitVec w → BitVec w → IRes w → Prop}
    {g : IRes w → IRes w} (h : ∀ x, S x (f x) (g (.res (.val x)))) :
    (mapRes g (rmw f o)).Implements S := by
  intro x x' r hs
  simp only [Acc.sem, Op.onCell, Op.ordOk, if_true, Prod.mk.injEq] at hs
  obtain ⟨rfl, rfl⟩ := hs
  exact h x

theorem mapRes_id (p : P w) : mapRes (fun r => r) p = p := by cases p <;> rfl

theorem drop_eq (p : P w) : drop p = mapRes dropVal p := by cases p <;> rfl

theorem mapRes_mapRes (f g : IRes w → IRes w) (p : P w) :
    mapRes f (mapRes g p) = mapRes (fun r => f (g r)) p := by cases p <;> rfl

theorem loop_impl {f : BitVec w → BitVec w} {o : MemOrd} {S : BitVec w → BitVec w → IRes w → Prop}
    {g : IRes w → IRes w} (h : ∀ x, S x (f x) (g (.res (.val x)))) :
    (mapRes g (fetchUpdate_ o f)).Implements S :=
  ⟨isRead_load (by simp) (by simp), h⟩

/-- `fetch_add`, …, with any treatment `g` of the answer. -/
theorem fetchBin_impl {k : Backend} {b : Bin} {v : BitVec w} {o : MemOrd} {p : P w}
    (hp : fetchBin k b v o = some p) {g : IRes w → IRes w}
    {S : BitVec w → BitVec w → IRes w → Prop} (h : ∀ x, S x (b.fn v x) (g (.res (.val x)))) :
    (mapRes g p).Implements S := by
  cases k <;> cases b <;> simp only [fetchBin, Option.some.injEq, reduceCtorEq] at hp <;> subst hp <;>
    first
    | exact rmw_impl h
    | (refine rmw_impl fun x => ?_
       have := h x
       simp only [Bin.fn] at this ⊢
       first
       | (rw [← BitVec.sub_eq_add_neg]; exact this)
       | (rw [BitVec.not_not]; exact this))

theorem fetchBinF_impl {signed : Bool} {k : Backend} {b : BinF} {v : BitVec w} {o : MemOrd} {p : P w}
    (hp : fetchBinF signed k b v o = some p) {S : BitVec w → BitVec w → IRes w → Prop}
    (h : ∀ x, S x (b.fn signed v x) (.res (.val x))) : p.Implements S := by
  rw [← mapRes_id p]
  cases k with
  | core mm x ba =>
    cases mm <;> cases b <;> simp only [fetchBinF, Option.some.injEq] at hp <;> subst hp <;>
      first | exact rmw_impl h | exact loop_impl h
  | fallback => simp only [fetchBinF, Option.some.injEq] at hp; subst hp; exact rmw_impl h
  | riscvAmo =>
    cases b <;> simp only [fetchBinF, Option.some.injEq, reduceCtorEq] at hp <;> subst hp <;>
      exact rmw_impl h
  | avrRmw => simp [fetchBinF] at hp

/-- The function of a unary operation. -/
def Un.fn (u : Un) (x : BitVec w) : BitVec w :=
  match u with
  | .not => ~~~x
  | .neg => -x

theorem un_post (u : Un) (x : BitVec w) : u.Post x (u.fn x) := by
  cases u
  · exact not_post x
  · exact neg_post x

theorem fetchUn_impl {k : Backend} {u : Un} {o : MemOrd} {p : P w} (hp : fetchUn k u o = some p)
    {g : IRes w → IRes w} {S : BitVec w → BitVec w → IRes w → Prop}
    (h : ∀ x, S x (u.fn x) (g (.res (.val x)))) : (mapRes g p).Implements S := by
  cases u with
  | not =>
    have h' : ∀ x, S x (Bin.fn .xor (~~~0) x) (g (.res (.val x))) := fun x => by
      have := h x
      simpa only [Bin.fn, Un.fn, xor_ones] using this
    cases k with
    | core mm x ba => exact fetchBin_impl (k := .core mm x ba) (b := .xor) hp h'
    | fallback => simp only [fetchUn, Option.some.injEq] at hp; subst hp; exact rmw_impl h
    | riscvAmo => exact fetchBin_impl (k := .riscvAmo) (b := .xor) hp h'
    | avrRmw => exact fetchBin_impl (k := .avrRmw) (b := .xor) hp h'
  | neg =>
    cases k <;> simp only [fetchUn, Option.some.injEq, reduceCtorEq] at hp <;> subst hp
    · exact loop_impl h
    · exact rmw_impl h

theorem un_impl {k : Backend} {u : Un} {o : MemOrd} {p : P w} (hp : un k u o = some p)
    {S : BitVec w → BitVec w → IRes w → Prop} (h : ∀ x, S x (u.fn x) (.res .unit)) :
    p.Implements S := by
  have gen : ∀ q, fetchUn k u o = some q → (drop q).Implements S := fun q hq => by
    rw [drop_eq]; exact fetchUn_impl hq h
  have out : (fetchUn k u o).map drop = some p → p.Implements S := by
    intro e
    simp only [Option.map_eq_some_iff] at e
    obtain ⟨q, hq, rfl⟩ := e
    exact gen q hq
  cases k with
  | core mm x ba =>
    cases x with
    | false => exact out (by simpa only [un] using hp)
    | true =>
      cases u <;> simp only [un, Option.some.injEq] at hp <;> subst hp <;> rw [drop_eq] <;>
        refine rmw_impl fun x => ?_
      · exact h x
      · have := h x
        have e : (0 : BitVec w) - x = -x := by simp
        simpa only [Un.fn, e, dropVal] using this
  | fallback => exact out (by simpa only [un] using hp)
  | riscvAmo => exact out (by simpa only [un] using hp)
  | avrRmw => exact out (by simpa only [un] using hp)

theorem bit_impl {e : Nat} (hw : w = 2 ^ e) {k : Backend} {b : BitOp} {n : BitVec 32} {o : MemOrd}
    {p : P w} (hp : bit k b n o = some p) {S : BitVec w → BitVec w → IRes w → Prop}
    (h : ∀ x y, b.Post (n.toNat % w) x y → S x y (.flag (x.getLsbD (n.toNat % w)))) :
    p.Implements S := by
  have hmod : n.toNat &&& (w - 1) = n.toNat % w := by subst hw; exact and_pred e _
  have hi : n.toNat % w < w := Nat.mod_lt _ (by subst hw; exact Nat.two_pow_pos e)
  have hm : (wrappingShl1 n : BitVec w) = 1#w <<< (n.toNat % w) := by
    unfold wrappingShl1; rw [hmod]; rfl
  have main : ∀ x, S x (btFn b (n.toNat % w) x) (.flag (x.getLsbD (n.toNat % w))) :=
    fun x => h x _ (bt_post hi b x)
  have gen : ∀ (k : Backend), bitDefault k b n o = some p → p.Implements S := by
    intro k hk
    simp only [bitDefault, hm] at hk
    cases b <;> simp only [Option.map_eq_some_iff] at hk <;> obtain ⟨q, hq, rfl⟩ := hk <;>
      refine fetchBin_impl hq fun x => ?_ <;> simp only [testMask, test_bit hi x] <;> exact main x
  cases k with
  | core mm x ba =>
    cases ba with
    | false => exact gen (.core mm x false) hp
    | true =>
      simp only [bit, Option.some.injEq, hmod] at hp
      subst hp
      intro x x' r hs
      simp only [Acc.sem, Op.onCell, Op.ordOk, if_true, Prod.mk.injEq] at hs
      obtain ⟨rfl, rfl⟩ := hs
      exact main x
  | fallback => exact gen .fallback hp
  | riscvAmo => exact gen .riscvAmo hp
  | avrRmw => exact gen .avrRmw hp

/-- Every operation that exists on an implementation computes what the specification says. -/
theorem prog_impl {e : Nat} (hw : w = 2 ^ e) (signed : Bool) (k : Backend) (op : IOp w) (p : P w)
    (hp : prog signed k op = some p) : p.Implements (Sem signed op) := by
  cases op with
  | load o =>
    simp only [prog, Option.some.injEq] at hp; subst hp
    intro x x' r hs
    simp only [Acc.sem, Op.onCell] at hs
    cases o <;> simp [Op.ordOk] at hs <;> obtain ⟨rfl, rfl⟩ := hs <;> simp [Sem]
  | store v o =>
    simp only [prog, Option.some.injEq] at hp; subst hp
    intro x x' r hs
    simp only [Acc.sem, Op.onCell] at hs
    cases o <;> simp [Op.ordOk] at hs <;> obtain ⟨rfl, rfl⟩ := hs <;> simp [Sem]
  | swap v o =>
    simp only [prog, Option.some.injEq] at hp; subst hp
    intro x x' r hs
    simp only [Acc.sem, Op.onCell, Op.ordOk, if_true, Prod.mk.injEq] at hs
    obtain ⟨rfl, rfl⟩ := hs
    exact ⟨rfl, rfl⟩
  | compareExchange c n s f =>
    simp only [prog] at hp
    split at hp
    · simp only [Option.some.injEq] at hp; subst hp
      intro x x' r hs
      simp only [Acc.sem, Op.onCell] at hs
      by_cases hx : x = c <;> cases f <;> simp [Op.ordOk, hx] at hs <;> obtain ⟨rfl, rfl⟩ := hs <;>
        simp [Sem, hx]
    · simp at hp
  | compareExchangeWeak c n s f =>
    simp only [prog] at hp
    split at hp
    · simp only [Option.some.injEq] at hp; subst hp
      intro x x' r hs
      by_cases hf : f = .release ∨ f = .acqRel
      · rcases hs with hs | ⟨ho, _⟩
        · have : (Op.cas c n s f).ordOk = false := by rcases hf with rfl | rfl <;> rfl
          simp [Op.onCell, this] at hs
          obtain ⟨rfl, rfl⟩ := hs
          simp [Sem, hf]
        · rcases hf with rfl | rfl <;> simp [Op.ordOk] at ho
      · have h1 : f ≠ .release := fun e => hf (Or.inl e)
        have h2 : f ≠ .acqRel := fun e => hf (Or.inr e)
        rcases casWeak_cases h1 h2 hs with ⟨rfl, rfl, rfl⟩ | ⟨rfl, rfl⟩ <;> simp [Sem, hf]
    · simp at hp
  | fetchBin b v o =>
    rw [← mapRes_id p]
    exact fetchBin_impl hp fun x => ⟨bin_post b x v, rfl⟩
  | bin b v o =>
    simp only [prog, bin, Option.map_eq_some_iff] at hp
    obtain ⟨q, hq, rfl⟩ := hp
    rw [drop_eq]
    exact fetchBin_impl hq fun x => ⟨bin_post b x v, rfl⟩
  | fetchBinF b v o => exact fetchBinF_impl hp fun x => ⟨binF_post signed b x v, rfl⟩
  | fetchUn u o =>
    rw [← mapRes_id p]
    exact fetchUn_impl hp fun x => ⟨un_post u x, rfl⟩
  | un u o => exact un_impl hp fun x => ⟨un_post u x, rfl⟩
  | bit b n o => exact bit_impl hw hp fun x y hxy => ⟨hxy, rfl⟩
  | fetchUpdate s g f =>
    simp only [prog] at hp
    split at hp
    · simp only [Option.some.injEq] at hp; subst hp
      by_cases hg : g = .release ∨ g = .acqRel
      · exact Or.inl ⟨hg, fun x => by simp [Sem, hg]⟩
      · refine Or.inr ⟨fun e => hg (Or.inl e), fun e => hg (Or.inr e), ?_, ?_⟩
        · intro hist x y h
          simp only [Sem, if_neg hg]
          exact ⟨hist, Or.inl ⟨h, by trivial⟩⟩
        · intro hist x h
          simp only [Sem, if_neg hg]
          exact ⟨hist, Or.inr ⟨h, by trivial, by trivial⟩⟩
    · simp at hp

end Verif.Int
