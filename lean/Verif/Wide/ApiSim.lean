import Verif.Wide.Api
import Verif.Props.Int
/-!
# The public operations of 64- and 128-bit atomics are those of a shared integer
-/
set_option autoImplicit false
namespace Verif.Wide
open Verif.Int Verif.Object Verif.Lf Verif.Compose

variable {n : Nat}

/-- An ideal back end: a shared integer with the functions of a back end, each one step. -/
def ideal (n : Nat) : Spec (BitVec n) (Fn n) (Res (BitVec n)) where
  sem c := c.op.Sem

theorem mBin_sem {b : Bin} {v x y : BitVec n} {o : MemOrd} {c : Fn n} {q : Res (BitVec n)}
    (hm : mBin b v o = .fn c) (hs : c.op.Sem x y q) : b.Post x v y ∧ q = .val x := by
  cases b <;> simp only [mBin, Method.fn.injEq] at hm <;> subst hm <;> exact hs

theorem mBinF_sem {signed : Bool} {b : BinF} {v x y : BitVec n} {o : MemOrd} {c : Fn n} {q : Res (BitVec n)}
    (hm : mBinF signed b v o = .fn c) (hs : c.op.Sem x y q) : b.Post signed x v y ∧ q = .val x := by
  cases b <;> cases signed <;> simp only [mBinF, Method.fn.injEq] at hm <;> subst hm <;> exact hs

theorem mUn_sem {u : Un} {x y : BitVec n} {o : MemOrd} {c : Fn n} {q : Res (BitVec n)}
    (hm : mUn u o = .fn c) (hs : c.op.Sem x y q) : u.Post x y ∧ q = .val x := by
  cases u <;> simp only [mUn, Method.fn.injEq] at hm <;> subst hm <;> exact hs

theorem bit_sem {e : Nat} (hn : n = 2 ^ e) (b : BitOp) (bb : Bin) (i : BitVec 32) (v x y : BitVec n) {o : MemOrd}
    {c : Fn n} {q : Res (BitVec n)} (hm : mBin bb v o = .fn c) (hs : c.op.Sem x y q)
    (hb : bb.fn v x = btFn b (i.toNat % n) x) :
    b.Post (i.toNat % n) x y ∧ masked (wrappingShl1 i) q = .flag (x.getLsbD (i.toNat % n)) := by
  obtain ⟨hp, rfl⟩ := mBin_sem hm hs
  have hi : i.toNat % n < n := Nat.mod_lt _ (by subst hn; exact Nat.two_pow_pos e)
  have hmod : i.toNat &&& (n - 1) = i.toNat % n := by subst hn; exact and_pred e _
  have hm : (wrappingShl1 i : BitVec n) = 1#n <<< (i.toNat % n) := by
    unfold wrappingShl1; rw [hmod]; rfl
  have hy := bin_post_unique bb x v _ _ hp (bin_post bb x v)
  refine ⟨?_, ?_⟩
  · rw [hy, hb]; exact bt_post hi b x
  · simp only [masked, hm, test_bit hi x]

/-- A method panics only where the integer's operation does, and never after changing anything. -/
theorem body_panic (signed : Bool) (op : IOp n) (dec : Res (BitVec n) → IRes n) (x : BitVec n)
    (h : body signed op = .method .panic dec) : Sem signed op x x (.res .panic) := by
  cases op with
  | load o => cases o <;> simp [body, mLoad, MemOrd.assertLoad] at h <;> simp [Sem]
  | store v o => cases o <;> simp [body, mStore, MemOrd.assertStore] at h <;> simp [Sem]
  | swap => simp [body, mSwap] at h
  | compareExchange c x s f => cases f <;> simp [body, mCas, MemOrd.assertCas] at h <;> simp [Sem]
  | compareExchangeWeak c x s f => cases f <;> simp [body, mCasWeak, MemOrd.assertCas] at h <;> simp [Sem]
  | fetchBin b v o => cases b <;> simp [body, mBin] at h
  | bin b v o => cases b <;> simp [body, mBin] at h
  | fetchBinF b v o => cases b <;> simp [body, mBinF] at h
  | fetchUn u o => cases u <;> simp [body, mUn] at h
  | un u o => cases u <;> simp [body, mUn] at h
  | bit b i o => cases b <;> simp [body, mBin] at h
  | fetchUpdate s g f => simp [body] at h

/-- One call of the back end does what the operation says. -/
theorem body_fn {e : Nat} (hn : n = 2 ^ e) (signed : Bool) (op : IOp n) (c : Fn n) (dec : Res (BitVec n) → IRes n)
    (x y : BitVec n) (q : Res (BitVec n)) (h : body signed op = .method (.fn c) dec) (hs : c.op.Sem x y q) :
    Sem signed op x y (dec q) := by
  cases op with
  | load o =>
    cases o <;> simp [body, mLoad, MemOrd.assertLoad] at h <;> obtain ⟨rfl, rfl⟩ := h <;>
      obtain ⟨rfl, rfl⟩ := hs <;> simp [Sem]
  | store v o =>
    cases o <;> simp [body, mStore, MemOrd.assertStore] at h <;> obtain ⟨rfl, rfl⟩ := h <;>
      obtain ⟨rfl, rfl⟩ := hs <;> simp [Sem]
  | swap =>
    simp [body, mSwap] at h; obtain ⟨rfl, rfl⟩ := h; obtain ⟨rfl, rfl⟩ := hs; simp [Sem]
  | compareExchange a b s f =>
    cases f <;> simp [body, mCas, MemOrd.assertCas] at h <;> obtain ⟨rfl, rfl⟩ := h <;>
      rcases hs with ⟨rfl, rfl, rfl⟩ | ⟨hne, rfl, rfl⟩ <;> simp [Sem] <;> assumption
  | compareExchangeWeak a b s f =>
    cases f <;> simp [body, mCasWeak, MemOrd.assertCas] at h <;> obtain ⟨rfl, rfl⟩ := h <;>
      rcases hs with ⟨rfl, rfl, rfl⟩ | ⟨rfl, rfl⟩ <;> simp [Sem]
  | fetchBin b v o =>
    simp only [body, Body.method.injEq] at h; obtain ⟨hm, rfl⟩ := h
    obtain ⟨hp, rfl⟩ := mBin_sem hm hs; exact ⟨hp, rfl⟩
  | bin b v o =>
    simp only [body, Body.method.injEq] at h; obtain ⟨hm, rfl⟩ := h
    obtain ⟨hp, rfl⟩ := mBin_sem hm hs; exact ⟨hp, rfl⟩
  | fetchBinF b v o =>
    simp only [body, Body.method.injEq] at h; obtain ⟨hm, rfl⟩ := h
    obtain ⟨hp, rfl⟩ := mBinF_sem hm hs; exact ⟨hp, rfl⟩
  | fetchUn u o =>
    simp only [body, Body.method.injEq] at h; obtain ⟨hm, rfl⟩ := h
    obtain ⟨hp, rfl⟩ := mUn_sem hm hs; exact ⟨hp, rfl⟩
  | un u o =>
    simp only [body, Body.method.injEq] at h; obtain ⟨hm, rfl⟩ := h
    obtain ⟨hp, rfl⟩ := mUn_sem hm hs; exact ⟨hp, rfl⟩
  | bit b i o =>
    have hmod : i.toNat &&& (n - 1) = i.toNat % n := by subst hn; exact and_pred e _
    have hm1 : (wrappingShl1 i : BitVec n) = 1#n <<< (i.toNat % n) := by
      unfold wrappingShl1; rw [hmod]; rfl
    cases b <;> simp only [body, Body.method.injEq] at h <;> obtain ⟨hm, rfl⟩ := h <;>
      refine bit_sem hn _ _ i _ x y hm hs ?_ <;> rw [hm1] <;> rfl
  | fetchUpdate s g f => simp [body] at h

/-- Where the specification is when the code is at a program point. -/
def ApiAt (signed : Bool) : Pc n → Status (IOp n) (IRes n) → Prop
  | .start b, st => ∃ op, b = body signed op ∧ st = .pending op
  | .fin r, st => st = .done r
  | .upd s g f hist prev, st => (g ≠ .release ∧ g ≠ .acqRel) ∧
      ((f hist prev = none ∧ st = .done (.res (.err prev))) ∨
        ((f hist prev).isSome ∧ st = .pending (.fetchUpdate s g f)))

theorem body_update {signed : Bool} {op : IOp n} {s g : MemOrd} {f : Closure (BitVec n)}
    (h : .fetchUpdate s g f = body signed op) : op = .fetchUpdate s g f := by
  cases op with
  | bit b i o => cases b <;> simp [body] at h
  | _ => simp_all [body]

/-- The loop after reading `x`: go on, or the operation has ended. -/
theorem at_upd (signed : Bool) {s g : MemOrd} {f : Closure (BitVec n)} (hg : g ≠ .release ∧ g ≠ .acqRel)
    (hist : List (BitVec n)) (x : BitVec n) :
    ApiAt signed (.upd s g f hist x) (.pending (.fetchUpdate s g f)) ∨
    ∃ op r, (.pending (.fetchUpdate s g f) : Status (IOp n) (IRes n)) = .pending op ∧ Sem signed op x x r ∧
      ApiAt signed (.upd s g f hist x) (.done r) := by
  cases h : f hist x with
  | some y => exact Or.inl ⟨hg, Or.inr ⟨by simp [h], rfl⟩⟩
  | none =>
    refine Or.inr ⟨_, _, rfl, ?_, hg, Or.inl ⟨h, rfl⟩⟩
    simp only [Sem]
    rw [if_neg (by simp [hg.1, hg.2])]
    exact ⟨hist, Or.inr ⟨h, trivial, trivial⟩⟩

theorem assertLoad_ok {g : MemOrd} (h : g.assertLoad = .ok) : g ≠ .release ∧ g ≠ .acqRel := by
  cases g <;> simp_all [MemOrd.assertLoad]

theorem assertLoad_panic {g : MemOrd} (h : g.assertLoad = .panic) : g = .release ∨ g = .acqRel := by
  cases g <;> simp_all [MemOrd.assertLoad]

theorem assertStore_ok {g : MemOrd} (h : g.assertStore = .ok) : g ≠ .acquire ∧ g ≠ .acqRel := by
  cases g <;> simp_all [MemOrd.assertStore]

theorem assertCas_ok {s g : MemOrd} : s.assertCas g = .ok ↔ (g ≠ .release ∧ g ≠ .acqRel) := by
  cases g <;> simp [MemOrd.assertCas]

/-- The public operations over an ideal back end are those of a shared integer. -/
def apiSim {e : Nat} (hn : n = 2 ^ e) (signed : Bool) : CSim (api (n := n) signed) (ideal n) (Int.spec signed) where
  abs x := x
  inv _ := True
  at_ := ApiAt signed
  start op := ⟨op, rfl, rfl⟩
  tau := by
    intro l st k x hat hn' _
    cases l with
    | start b =>
      obtain ⟨op, rfl, rfl⟩ := hat
      refine Or.inr ⟨op, .res .panic, rfl, ?_⟩
      cases hb : body signed op with
      | method m dec =>
        cases m with
        | panic =>
          simp only [api, apiNext, hb, callM, Compose.Next.tau.injEq] at hn'
          subst hn'
          exact ⟨body_panic signed op dec x hb, rfl⟩
        | fn c => simp [api, apiNext, hb, callM] at hn'
      | fetchUpdate s g f =>
        obtain rfl := body_update hb.symm
        cases hg : g.assertLoad with
        | ok => simp [api, apiNext, hb, callM, mLoad, hg] at hn'
        | panic =>
          simp only [api, apiNext, hb, callM, mLoad, hg, Compose.Next.tau.injEq] at hn'
          subst hn'
          refine ⟨?_, rfl⟩
          simp only [Int.spec, Sem]
          rw [if_pos (assertLoad_panic hg)]
          exact ⟨trivial, trivial⟩
    | fin r => simp [api, apiNext] at hn'
    | upd s g f hist prev =>
      obtain ⟨hg, _⟩ := hat
      simp only [api, apiNext] at hn'
      cases hf : f hist prev with
      | none => simp [hf] at hn'
      | some y => simp [hf, callM, mCasWeak, assertCas_ok.2 hg] at hn'
  step := by
    intro l st a k x x' q hat hn' _ hs
    refine ⟨trivial, ?_⟩
    cases l with
    | start b =>
      obtain ⟨op, rfl, rfl⟩ := hat
      cases hb : body signed op with
      | method m dec =>
        cases m with
        | panic => simp [api, apiNext, hb, callM] at hn'
        | fn c =>
          simp only [api, apiNext, hb, callM, Compose.Next.call.injEq] at hn'
          obtain ⟨rfl, rfl⟩ := hn'
          exact Or.inr ⟨op, dec q, rfl, body_fn hn signed op c dec x x' q hb hs, rfl⟩
      | fetchUpdate s g f =>
        obtain rfl := body_update hb.symm
        cases hg : g.assertLoad with
        | panic => simp [api, apiNext, hb, callM, mLoad, hg] at hn'
        | ok =>
          simp only [api, apiNext, hb, callM, mLoad, hg, Compose.Next.call.injEq] at hn'
          obtain ⟨rfl, rfl⟩ := hn'
          obtain ⟨rfl, rfl⟩ := hs
          rcases at_upd signed (s := s) (f := f) (assertLoad_ok hg) [] x' with h | h
          · exact Or.inl ⟨rfl, h⟩
          · exact Or.inr h
    | fin r => simp [api, apiNext] at hn'
    | upd s g f hist prev =>
      obtain ⟨hg, hd⟩ := hat
      simp only [api, apiNext] at hn'
      cases hf : f hist prev with
      | none => simp [hf] at hn'
      | some y =>
        rcases hd with ⟨h0, _⟩ | ⟨_, rfl⟩
        · simp [hf] at h0
        simp only [hf, callM, mCasWeak, assertCas_ok.2 hg, Compose.Next.call.injEq] at hn'
        obtain ⟨rfl, rfl⟩ := hn'
        rcases hs with ⟨rfl, rfl, rfl⟩ | ⟨rfl, rfl⟩
        · refine Or.inr ⟨_, .res (.ok x), rfl, ?_, rfl⟩
          simp only [Int.spec, Sem]
          rw [if_neg (by simp [hg.1, hg.2])]
          exact ⟨hist, Or.inl ⟨hf, trivial⟩⟩
        · rcases at_upd signed (s := s) (f := f) hg (hist ++ [prev]) x' with h | h
          · exact Or.inl ⟨rfl, h⟩
          · exact Or.inr h
  ret := by
    intro l st r hat hn'
    cases l with
    | start b =>
      obtain ⟨op, rfl, rfl⟩ := hat
      cases hb : body signed op with
      | method m dec => cases m <;> simp [api, apiNext, hb, callM] at hn'
      | fetchUpdate s g f => cases hg : g.assertLoad <;> simp [api, apiNext, hb, callM, mLoad, hg] at hn'
    | fin r' =>
      simp only [api, apiNext, Compose.Next.ret.injEq] at hn'
      subst hn'; exact hat
    | upd s g f hist prev =>
      obtain ⟨hg, hd⟩ := hat
      simp only [api, apiNext] at hn'
      cases hf : f hist prev with
      | none =>
        simp only [hf, Compose.Next.ret.injEq] at hn'
        subst hn'
        rcases hd with ⟨_, rfl⟩ | ⟨h0, _⟩
        · rfl
        · simp [hf] at h0
      | some y => simp [hf, callM, mCasWeak, assertCas_ok.2 hg] at hn'

theorem api_start {signed : Bool} {op : IOp n} {l : Pc n} (hl : Reach (api signed) op l) :
    ∀ b, l = .start b → b = body signed op := by
  have hu : ∀ s g (f : Closure (BitVec n)) hist q b, afterUpd s g f hist q ≠ .start b := by
    intro s g f hist q b h; cases q <;> simp [afterUpd] at h
  have hv : ∀ s g (f : Closure (BitVec n)) q b, afterLoad s g f q ≠ .start b := by
    intro s g f q b h; cases q <;> simp [afterLoad] at h
  have hm : ∀ m k (l : Pc n), callM m k = .tau l → ∀ b, l ≠ .start b := by
    intro m k l h b; cases m <;> simp [callM] at h; subst h; simp
  have hc : ∀ m k a f, callM (n := n) m k = .call a f → f = k := by
    intro m k a f h; cases m <;> simp [callM] at h; exact h.2.symm
  cases hl with
  | start => intro b hb; cases hb; rfl
  | @tau l' k _ hn =>
    intro b hb; exfalso
    cases l' with
    | start b' => cases b' <;> exact hm _ _ _ hn b hb
    | fin r => simp [api, apiNext] at hn
    | upd s g f hist prev =>
      simp only [api, apiNext] at hn
      cases hf : f hist prev <;> simp only [hf] at hn
      · cases hn
      · exact hm _ _ _ hn b hb
  | @call l' a k q _ hn =>
    intro b hb; exfalso
    cases l' with
    | start b' =>
      cases b' <;> have e := hc _ _ _ _ hn <;> subst e
      · cases hb
      · exact hv _ _ _ _ _ hb
    | fin r => simp [api, apiNext] at hn
    | upd s g f hist prev =>
      simp only [api, apiNext] at hn
      cases hf : f hist prev <;> simp only [hf] at hn
      · cases hn
      · have e := hc _ _ _ _ hn; subst e; exact hu _ _ _ _ _ _ hb

/-- Every call of a back end has orderings it accepts, whatever the orderings of the operation. -/
theorem api_valid (signed : Bool) {op : IOp n} {l : Pc n} {c : Fn n} {k : Res (BitVec n) → Pc n}
    (hl : Reach (api signed) op l) (h : (api signed).next l = .call c k) : c.op.OrdOk c.ord c.fail := by
  have hl := api_start hl
  cases l with
  | start b =>
    obtain rfl := hl _ rfl
    cases op with
    | load o =>
      cases o <;> simp [api, apiNext, body, callM, mLoad, MemOrd.assertLoad] at h <;> obtain ⟨rfl, _⟩ := h <;>
        simp [WOp.OrdOk]
    | store v o =>
      cases o <;> simp [api, apiNext, body, callM, mStore, MemOrd.assertStore] at h <;> obtain ⟨rfl, _⟩ := h <;>
        simp [WOp.OrdOk]
    | swap v o =>
      simp [api, apiNext, body, callM, mSwap] at h; obtain ⟨rfl, _⟩ := h; simp [WOp.OrdOk]
    | compareExchange a b s f =>
      cases f <;> simp [api, apiNext, body, callM, mCas, MemOrd.assertCas] at h <;> obtain ⟨rfl, _⟩ := h <;>
        simp [WOp.OrdOk]
    | compareExchangeWeak a b s f =>
      cases f <;> simp [api, apiNext, body, callM, mCasWeak, MemOrd.assertCas] at h <;> obtain ⟨rfl, _⟩ := h <;>
        simp [WOp.OrdOk]
    | fetchBin b v o => cases b <;> simp [api, apiNext, body, callM, mBin] at h <;> obtain ⟨rfl, _⟩ := h <;> trivial
    | bin b v o => cases b <;> simp [api, apiNext, body, callM, mBin] at h <;> obtain ⟨rfl, _⟩ := h <;> trivial
    | fetchBinF b v o =>
      cases b <;> simp [api, apiNext, body, callM, mBinF] at h <;> obtain ⟨rfl, _⟩ := h <;> trivial
    | fetchUn u o => cases u <;> simp [api, apiNext, body, callM, mUn] at h <;> obtain ⟨rfl, _⟩ := h <;> trivial
    | un u o => cases u <;> simp [api, apiNext, body, callM, mUn] at h <;> obtain ⟨rfl, _⟩ := h <;> trivial
    | bit b i o => cases b <;> simp [api, apiNext, body, callM, mBin] at h <;> obtain ⟨rfl, _⟩ := h <;> trivial
    | fetchUpdate s g f =>
      cases g <;> simp [api, apiNext, body, callM, mLoad, MemOrd.assertLoad] at h <;> obtain ⟨rfl, _⟩ := h <;>
        simp [WOp.OrdOk]
  | fin r => simp [api, apiNext] at h
  | upd s g f hist prev =>
    simp only [api, apiNext] at h
    cases hf : f hist prev with
    | none => simp [hf] at h
    | some y =>
      cases g <;> simp [hf, callM, mCasWeak, MemOrd.assertCas] at h <;> obtain ⟨rfl, _⟩ := h <;> simp [WOp.OrdOk]

/-- A back end's `store` is called by `store` only. -/
theorem api_store (signed : Bool) {op : IOp n} {l : Pc n} {c : Fn n} {k : Res (BitVec n) → Pc n} {v : BitVec n}
    (hl : Reach (api signed) op l) (h : (api signed).next l = .call c k) (hv : c.op = .store v) :
    op = .store v c.ord := by
  have hl := api_start hl
  cases l with
  | start b =>
    obtain rfl := hl _ rfl
    cases op with
    | load o =>
      cases o <;> simp [api, apiNext, body, callM, mLoad, MemOrd.assertLoad] at h <;> obtain ⟨rfl, _⟩ := h <;> cases hv
    | store v o =>
      cases o <;> simp [api, apiNext, body, callM, mStore, MemOrd.assertStore] at h <;> obtain ⟨rfl, _⟩ := h <;>
        cases hv <;> rfl
    | swap v o =>
      simp [api, apiNext, body, callM, mSwap] at h; obtain ⟨rfl, _⟩ := h; cases hv
    | compareExchange a b s f =>
      cases f <;> simp [api, apiNext, body, callM, mCas, MemOrd.assertCas] at h <;> obtain ⟨rfl, _⟩ := h <;> cases hv
    | compareExchangeWeak a b s f =>
      cases f <;> simp [api, apiNext, body, callM, mCasWeak, MemOrd.assertCas] at h <;> obtain ⟨rfl, _⟩ := h <;>
        cases hv
    | fetchBin b v o => cases b <;> simp [api, apiNext, body, callM, mBin] at h <;> obtain ⟨rfl, _⟩ := h <;> cases hv
    | bin b v o => cases b <;> simp [api, apiNext, body, callM, mBin] at h <;> obtain ⟨rfl, _⟩ := h <;> cases hv
    | fetchBinF b v o =>
      cases b <;> simp [api, apiNext, body, callM, mBinF] at h <;> obtain ⟨rfl, _⟩ := h <;> cases hv
    | fetchUn u o => cases u <;> simp [api, apiNext, body, callM, mUn] at h <;> obtain ⟨rfl, _⟩ := h <;> cases hv
    | un u o => cases u <;> simp [api, apiNext, body, callM, mUn] at h <;> obtain ⟨rfl, _⟩ := h <;> cases hv
    | bit b i o => cases b <;> simp [api, apiNext, body, callM, mBin] at h <;> obtain ⟨rfl, _⟩ := h <;> cases hv
    | fetchUpdate s g f =>
      cases g <;> simp [api, apiNext, body, callM, mLoad, MemOrd.assertLoad] at h <;> obtain ⟨rfl, _⟩ := h <;> cases hv
  | fin r => simp [api, apiNext] at h
  | upd s g f hist prev =>
    simp only [api, apiNext] at h
    cases hf : f hist prev with
    | none => simp [hf] at h
    | some y =>
      cases g <;> simp [hf, callM, mCasWeak, MemOrd.assertCas] at h <;> obtain ⟨rfl, _⟩ := h <;> cases hv

/-- Only `fetch_update` gets into its loop. -/
theorem api_upd {signed : Bool} {op : IOp n} {l : Pc n} (hl : Reach (api signed) op l) :
    ∀ s g f hist prev, l = .upd s g f hist prev → op = .fetchUpdate s g f := by
  have hm : ∀ m k (l : Pc n), callM m k = .tau l → ∀ s g f hist prev, l ≠ .upd s g f hist prev := by
    intro m k l h; cases m <;> simp [callM] at h; subst h; simp
  have hc : ∀ m k a f, callM (n := n) m k = .call a f → f = k := by
    intro m k a f h; cases m <;> simp [callM] at h; exact h.2.symm
  induction hl with
  | start => intro s g f hist prev h; cases h
  | @tau l' k _ hn ih =>
    intro s g f hist prev h; exfalso
    cases l' with
    | start b' => cases b' <;> exact hm _ _ _ hn _ _ _ _ _ h
    | fin r => simp [api, apiNext] at hn
    | upd s' g' f' hist' prev' =>
      simp only [api, apiNext] at hn
      cases hf : f' hist' prev' <;> simp only [hf] at hn
      · cases hn
      · exact hm _ _ _ hn _ _ _ _ _ h
  | @call l' a k q hr hn ih =>
    intro s g f hist prev h
    cases l' with
    | start b' =>
      have hb := api_start hr _ rfl
      cases b' with
      | method m dec => have e := hc _ _ _ _ hn; subst e; cases h
      | fetchUpdate s' g' f' =>
        have e := hc _ _ _ _ hn
        subst e
        have := body_update hb
        cases q <;> simp only [afterLoad, reduceCtorEq, Pc.upd.injEq] at h
        obtain ⟨rfl, rfl, rfl, _⟩ := h
        exact this
    | fin r => simp [api, apiNext] at hn
    | upd s' g' f' hist' prev' =>
      have := ih _ _ _ _ _ rfl
      simp only [api, apiNext] at hn
      cases hf : f' hist' prev' <;> simp only [hf] at hn
      · cases hn
      · have e := hc _ _ _ _ hn
        subst e
        cases q <;> simp only [afterUpd, reduceCtorEq, Pc.upd.injEq] at h
        obtain ⟨rfl, rfl, rfl, _⟩ := h
        exact this

/-- `c` may be called for `op`: the function for it, with the orderings of `op`. -/
def Asked (op : IOp n) (c : Fn n) : Prop :=
  match op with
  | .load o => c.op = .load ∧ c.ord = o
  | .store v o => c.op = .store v ∧ c.ord = o
  | .swap v o => c.op = .swap v ∧ c.ord = o
  | .compareExchange x y s f => c.op = .cas x y ∧ c.ord = s ∧ c.fail = f
  | .compareExchangeWeak x y s f => c.op = .casWeak x y ∧ c.ord = s ∧ c.fail = f
  | .fetchBin _ _ o | .bin _ _ o | .fetchBinF _ _ o | .fetchUn _ o | .un _ o | .bit _ _ o =>
    ((∃ p v, c.op = .rmw3 p v) ∨ ∃ p, c.op = .rmw2 p) ∧ c.ord = o
  | .fetchUpdate s g _ => (c.op = .load ∧ c.ord = g) ∨ ((∃ x y, c.op = .casWeak x y) ∧ c.ord = s ∧ c.fail = g)

/-- The orderings of an operation are those of every function it calls. -/
theorem api_orderings (signed : Bool) {op : IOp n} {l : Pc n} {c : Fn n} {k : Res (BitVec n) → Pc n}
    (hl : Reach (api signed) op l) (h : (api signed).next l = .call c k) : Asked op c := by
  have hs := api_start hl
  have hu := api_upd hl
  clear hl
  cases l with
  | start b =>
    obtain rfl := hs _ rfl
    cases op with
    | load o =>
      cases o <;> simp [api, apiNext, body, callM, mLoad, MemOrd.assertLoad] at h <;> obtain ⟨rfl, _⟩ := h <;> simp [Asked]
    | store v o =>
      cases o <;> simp [api, apiNext, body, callM, mStore, MemOrd.assertStore] at h <;> obtain ⟨rfl, _⟩ := h <;>
        simp [Asked]
    | swap v o => simp [api, apiNext, body, callM, mSwap] at h; obtain ⟨rfl, _⟩ := h; simp [Asked]
    | compareExchange a b s f =>
      cases f <;> simp [api, apiNext, body, callM, mCas, MemOrd.assertCas] at h <;> obtain ⟨rfl, _⟩ := h <;> simp [Asked]
    | compareExchangeWeak a b s f =>
      cases f <;> simp [api, apiNext, body, callM, mCasWeak, MemOrd.assertCas] at h <;> obtain ⟨rfl, _⟩ := h <;>
        simp [Asked]
    | fetchBin b v o => cases b <;> simp [api, apiNext, body, callM, mBin] at h <;> obtain ⟨rfl, _⟩ := h <;> simp [Asked]
    | bin b v o => cases b <;> simp [api, apiNext, body, callM, mBin] at h <;> obtain ⟨rfl, _⟩ := h <;> simp [Asked]
    | fetchBinF b v o =>
      cases b <;> simp [api, apiNext, body, callM, mBinF] at h <;> obtain ⟨rfl, _⟩ := h <;> simp [Asked]
    | fetchUn u o => cases u <;> simp [api, apiNext, body, callM, mUn] at h <;> obtain ⟨rfl, _⟩ := h <;> simp [Asked]
    | un u o => cases u <;> simp [api, apiNext, body, callM, mUn] at h <;> obtain ⟨rfl, _⟩ := h <;> simp [Asked]
    | bit b i o => cases b <;> simp [api, apiNext, body, callM, mBin] at h <;> obtain ⟨rfl, _⟩ := h <;> simp [Asked]
    | fetchUpdate s g f =>
      cases g <;> simp [api, apiNext, body, callM, mLoad, MemOrd.assertLoad] at h <;> obtain ⟨rfl, _⟩ := h <;>
        simp [Asked]
  | fin r => simp [api, apiNext] at h
  | upd s g f hist prev =>
    obtain rfl := hu _ _ _ _ _ rfl
    simp only [api, apiNext] at h
    cases hf : f hist prev with
    | none => simp [hf] at h
    | some y =>
      cases g <;> simp [hf, callM, mCasWeak, MemOrd.assertCas] at h <;> obtain ⟨rfl, _⟩ := h <;> simp [Asked]

end Verif.Wide
