import Verif.Spec.Bool
/-!
# `AtomicBool` code simulates a shared boolean
-/
namespace Verif.Bool
open Verif.Lf Verif.Object

/-- The byte is one of the two valid representations. -/
def Valid (x : BitVec 8) : Prop := x = 0 ∨ x = 1

theorem Valid.eq_byte {x : BitVec 8} (h : Valid x) : x = byte (ofByte x) := by
  rcases h with rfl | rfl <;> decide

theorem valid_byte (b : Bool) : Valid (byte b) := by cases b <;> simp [Valid, byte]

@[simp] theorem ofByte_byte (b : Bool) : ofByte (byte b) = b := by cases b <;> decide

theorem byte_inj {a b : Bool} : byte a = byte b ↔ a = b := by cases a <;> cases b <;> decide

theorem and_byte (a b : Bool) : byte a &&& byte b = byte (a && b) := by cases a <;> cases b <;> decide
theorem or_byte (a b : Bool) : byte a ||| byte b = byte (a || b) := by cases a <;> cases b <;> decide
theorem xor_byte (a b : Bool) : byte a ^^^ byte b = byte (a != b) := by cases a <;> cases b <;> decide

/-- A single access started on a valid byte ends on a valid byte and is one step of `op`. -/
def OneOk (p : One) (op : BOp) : Prop :=
  match p with
  | .panic => ∀ x, Sem op x x .panic
  | .acc a dec => ∀ x x' r, a.sem (byte x) x' r → Valid x' ∧ Sem op x (ofByte x') (dec r)


theorem one_rmw {g : BitVec 8 → BitVec 8} {o dec op} (h : ∀ x, ∃ y, g (byte x) = byte y ∧
    Sem op x y (dec (.val (byte x)))) : OneOk (.acc (.op (.rmw g o)) dec) op := by
  intro x x' r hs
  obtain ⟨y, hy, hsem⟩ := h x
  simp only [Acc.sem, Op.onCell, Op.ordOk, if_true, Prod.mk.injEq] at hs
  obtain ⟨rfl, rfl⟩ := hs
  rw [hy]
  exact ⟨valid_byte y, by simpa using hsem⟩

theorem cas_ok {amo c n s f op} (hok : f ≠ .release → f ≠ .acqRel → Sem op c n (.ok c))
    (herr : f ≠ .release → f ≠ .acqRel → ∀ x, x ≠ c → Sem op x x (.err x))
    (hp : f = .release ∨ f = .acqRel → ∀ x, Sem op x x .panic) :
    OneOk (compareExchange amo c n s f) op := by
  unfold compareExchange
  cases amo
  · intro x x' r hs
    simp only [Acc.sem, Op.onCell] at hs
    by_cases hf : f ≠ .release ∧ f ≠ .acqRel
    · have ho : (Op.cas (byte c) (byte n) s f).ordOk = true := by simp [Op.ordOk, hf.1, hf.2]
      rw [if_pos ho] at hs
      by_cases hx : x = c
      · subst hx
        simp at hs
        obtain ⟨rfl, rfl⟩ := hs
        exact ⟨valid_byte n, by simpa [decVal] using hok hf.1 hf.2⟩
      · rw [if_neg (by simpa [byte_inj] using hx)] at hs
        simp at hs
        obtain ⟨rfl, rfl⟩ := hs
        exact ⟨valid_byte x, by simpa [decVal] using herr hf.1 hf.2 x hx⟩
    · have ho : (Op.cas (byte c) (byte n) s f).ordOk = false := by
        cases f <;> simp [Op.ordOk] at hf ⊢
      simp [ho] at hs
      obtain ⟨rfl, rfl⟩ := hs
      exact ⟨valid_byte x, by
        simpa [decVal] using hp (by cases f <;> simp at hf ⊢) x⟩
  · by_cases hf : f ≠ .release ∧ f ≠ .acqRel
    · have ho : MemOrd.assertCas s f = .ok := by cases f <;> simp [MemOrd.assertCas] at hf ⊢
      have hok := hok hf.1 hf.2
      have herr := herr hf.1 hf.2
      simp only [ho, if_true]
      split
      · rename_i e
        subst e
        refine one_rmw fun x => ⟨_, or_byte x false, ?_⟩
        by_cases hx : x = c
        · subst hx; simpa [decVal, okErr] using hok
        · simpa [decVal, okErr, hx] using herr x hx
      · rename_i e
        unfold swap
        cases n
        · refine one_rmw fun x => ⟨_, and_byte x false, ?_⟩
          by_cases hx : x = c
          · subst hx; simpa [decVal, okErr] using hok
          · have : x = false := by cases x <;> cases c <;> simp_all
            subst this
            simpa [decVal, okErr, hx] using herr _ hx
        · refine one_rmw fun x => ⟨_, or_byte x true, ?_⟩
          by_cases hx : x = c
          · subst hx; simpa [decVal, okErr] using hok
          · have : x = true := by cases x <;> cases c <;> simp_all
            subst this
            simpa [decVal, okErr, hx] using herr _ hx
    · have ho : MemOrd.assertCas s f = .panic := by cases f <;> simp [MemOrd.assertCas] at hf ⊢
      simp only [ho, if_true]
      exact hp (by cases f <;> simp at hf ⊢)

theorem casWeak_ok {amo c n s f op} (hok : f ≠ .release → f ≠ .acqRel → Sem op c n (.ok c))
    (herr : f ≠ .release → f ≠ .acqRel → ∀ x, Sem op x x (.err x))
    (hp : f = .release ∨ f = .acqRel → ∀ x, Sem op x x .panic) :
    OneOk (compareExchangeWeak amo c n s f) op := by
  cases amo
  · have key := cas_ok (amo := false) (s := s) hok (fun a b x _ => herr a b x) hp
    intro x x' r hs
    rcases hs with hs | ⟨ho, rfl, rfl⟩
    · exact key x x' r hs
    · have hf : f ≠ .release ∧ f ≠ .acqRel := by cases f <;> simp [Op.ordOk] at ho ⊢
      exact ⟨valid_byte x, by simpa [decVal] using herr hf.1 hf.2 x⟩
  · show OneOk (compareExchange true c n s f) op
    exact cas_ok hok (fun a b x _ => herr a b x) hp

/-- The single-access operations. -/
theorem one_ok (amo : Bool) (op : BOp) (p : One) (h : start amo op = .one p) : OneOk p op := by
  cases op <;> simp only [start, Pc.one.injEq, reduceCtorEq] at h <;> subst h
  case load o =>
    intro x x' r hs
    simp only [Acc.sem, Op.onCell] at hs
    cases o <;> simp [Op.ordOk] at hs <;> obtain ⟨rfl, rfl⟩ := hs <;>
      refine ⟨valid_byte _, ?_⟩ <;> simp only [ofByte_byte, decVal]
    all_goals first
      | exact Sem.load (by simp) (by simp)
      | exact Sem.loadPanic (by simp)
  case store v o =>
    intro x x' r hs
    simp only [Acc.sem, Op.onCell] at hs
    cases o <;> simp [Op.ordOk] at hs <;> obtain ⟨rfl, rfl⟩ := hs <;>
      refine ⟨valid_byte _, ?_⟩ <;> simp only [ofByte_byte, decUnit]
    all_goals first
      | exact Sem.store (by simp) (by simp)
      | exact Sem.storePanic (by simp)
  case fetchAnd v o => exact one_rmw fun x => ⟨_, and_byte x v, by simpa [decVal] using Sem.fetchAnd⟩
  case and v o => exact one_rmw fun x => ⟨_, and_byte x v, by simpa [decUnit] using Sem.and⟩
  case fetchOr v o => exact one_rmw fun x => ⟨_, or_byte x v, by simpa [decVal] using Sem.fetchOr⟩
  case or v o => exact one_rmw fun x => ⟨_, or_byte x v, by simpa [decUnit] using Sem.or⟩
  case fetchXor v o => exact one_rmw fun x => ⟨_, xor_byte x v, by simpa [decVal] using Sem.fetchXor⟩
  case xor v o => exact one_rmw fun x => ⟨_, xor_byte x v, by simpa [decUnit] using Sem.xor⟩
  case fetchNot o =>
    exact one_rmw fun x => ⟨_, xor_byte x true, by
      have := @Sem.fetchNot o x; cases x <;> simpa [decVal] using this⟩
  case not o =>
    exact one_rmw fun x => ⟨_, xor_byte x true, by
      have := @Sem.not o x; cases x <;> simpa [decUnit] using this⟩
  case swap v o =>
    unfold swap
    cases amo
    · intro x x' r hs
      simp only [Acc.sem, Op.onCell, Op.ordOk, if_true, Prod.mk.injEq] at hs
      obtain ⟨rfl, rfl⟩ := hs
      exact ⟨valid_byte v, by simpa [decVal] using Sem.swap⟩
    · cases v
      · exact one_rmw fun x => ⟨_, and_byte x false, by
          have := @Sem.swap o false x; cases x <;> simpa [decVal] using this⟩
      · exact one_rmw fun x => ⟨_, or_byte x true, by
          have := @Sem.swap o true x; cases x <;> simpa [decVal] using this⟩
  case fetchNand v o =>
    unfold fetchNand swap
    cases v
    · cases amo
      · intro x x' r hs
        simp only [Acc.sem, Op.onCell, Op.ordOk, if_true, Prod.mk.injEq] at hs
        obtain ⟨rfl, rfl⟩ := hs
        have := @Sem.fetchNand o false x
        exact ⟨valid_byte _, by cases x <;> simpa [decVal] using this⟩
      · exact one_rmw fun x => ⟨_, or_byte x true, by
          have := @Sem.fetchNand o false x; cases x <;> simpa [decVal] using this⟩
    · exact one_rmw fun x => ⟨_, xor_byte x true, by
          have := @Sem.fetchNand o true x; cases x <;> simpa [decVal] using this⟩
  case compareExchange c n s f =>
    exact cas_ok Sem.casOk (fun a b x hx => Sem.casErr a b hx) (fun h x => Sem.casPanic h)
  case compareExchangeWeak c n s f =>
    exact casWeak_ok Sem.casWeakOk (fun a b x => Sem.casWeakErr a b) (fun h x => Sem.casWeakPanic h)

/-- What the specification knows about a call at a program point. -/
def At : Pc → Status BOp (Res Bool) → Prop
  | .one p, st => ∃ op, st = .pending op ∧ OneOk p op
  | .fin r, st => st = .done r
  | .updStart s g f, st => st = .pending (.fetchUpdate s g f)
  | .updLoop s g f hist prev, st =>
    g ≠ .release ∧ g ≠ .acqRel ∧
      ((f hist prev = none ∧ st = .done (.err prev)) ∨
        (f hist prev ≠ none ∧ st = .pending (.fetchUpdate s g f)))


/-- After a load or a failed compare-exchange returned `v` from the cell. -/
theorem at_loop {s g f hist} {x : Bool} (h1 : g ≠ .release) (h2 : g ≠ .acqRel) :
    (At (.updLoop s g f hist x) (.pending (.fetchUpdate s g f))) ∨
      ∃ op r', (Status.pending (.fetchUpdate s g f) : Status BOp (Res Bool)) = .pending op ∧
        Sem op x x r' ∧ At (.updLoop s g f hist x) (.done r') := by
  by_cases h : f hist x = none
  · exact Or.inr ⟨_, _, rfl, Sem.updateErr hist h1 h2 h, h1, h2, Or.inl ⟨h, rfl⟩⟩
  · exact Or.inl ⟨h1, h2, Or.inr ⟨h, rfl⟩⟩

/-- The code of `AtomicBool` simulates a shared boolean. -/
def sim (amo : Bool) : CodeSim (code amo) spec where
  abs := ofByte
  inv := Valid
  at_ := At
  start op := by
    show At (start amo op) _
    cases h : start amo op with
    | one p => exact ⟨op, rfl, one_ok amo op p h⟩
    | fin r => cases op <;> simp [start] at h
    | updStart s g f =>
      cases op <;> simp [start] at h
      obtain ⟨rfl, rfl, rfl⟩ := h
      rfl
    | updLoop s g f hist prev => cases op <;> simp [start] at h
  tau := by
    intro l st k x hat hn _
    cases l with
    | one p =>
      obtain ⟨op, rfl, hp⟩ := hat
      cases p with
      | panic =>
        simp only [code, next, One.next, Next.tau.injEq] at hn
        subst hn
        exact Or.inr ⟨op, .panic, rfl, hp _, rfl⟩
      | acc a dec => simp [code, next, One.next] at hn
    | fin r => simp [code, next] at hn
    | updStart s g f => simp [code, next, One.next, load] at hn
    | updLoop s g f hist prev =>
      obtain ⟨h1, h2, hat⟩ := hat
      exfalso
      cases hf : f hist prev with
      | none => simp [code, next, hf] at hn
      | some w =>
        have h0 : compareExchangeWeak amo prev w s g ≠ .panic := by
          cases amo
          · simp [compareExchangeWeak]
          · have : MemOrd.assertCas s g = .ok := by cases g <;> simp [MemOrd.assertCas] at h1 h2 ⊢
            simp only [compareExchangeWeak, compareExchange, this, if_true]
            cases w <;> split <;> simp [One.map, fetchOr, swap, fetchAnd]
        simp only [code, next, hf] at hn
        cases hc : compareExchangeWeak amo prev w s g with
        | panic => exact h0 hc
        | acc a dec => simp [hc, One.next] at hn
  step := by
    intro l st a k x x' r hat hn hx hs
    rw [hx.eq_byte] at hs
    cases l with
    | one p =>
      obtain ⟨op, rfl, hp⟩ := hat
      cases p with
      | panic => simp [code, next, One.next] at hn
      | acc a' dec =>
        simp only [code, next, One.next, Next.acc.injEq] at hn
        obtain ⟨rfl, rfl⟩ := hn
        obtain ⟨hv, hsem⟩ := hp _ _ _ hs
        exact ⟨hv, Or.inr ⟨op, _, rfl, hsem, rfl⟩⟩
    | fin r => simp [code, next] at hn
    | updStart s g f =>
      subst hat
      simp only [code, next, load, One.next, Next.acc.injEq] at hn
      obtain ⟨rfl, rfl⟩ := hn
      simp only [Acc.sem, Op.onCell] at hs
      by_cases hg : g ≠ .release ∧ g ≠ .acqRel
      · simp [Op.ordOk, hg.1, hg.2] at hs
        obtain ⟨rfl, rfl⟩ := hs
        refine ⟨valid_byte _, ?_⟩
        simp only [decVal, afterLoad, ofByte_byte]
        rcases at_loop (s := s) (f := f) (hist := []) (x := ofByte x) hg.1 hg.2 with h | h
        · exact Or.inl ⟨trivial, h⟩
        · exact Or.inr h
      · have ho : (Op.load g : Op (BitVec 8)).ordOk = false := by
          cases g <;> simp [Op.ordOk] at hg ⊢
        simp [ho] at hs
        obtain ⟨rfl, rfl⟩ := hs
        refine ⟨valid_byte _, Or.inr ⟨_, .panic, rfl, ?_, rfl⟩⟩
        rw [ofByte_byte]
        exact Sem.updatePanic (by cases g <;> simp at hg ⊢)
    | updLoop s g f hist prev =>
      obtain ⟨h1, h2, hat⟩ := hat
      cases hf : f hist prev with
      | none => simp [code, next, hf] at hn
      | some w =>
        rcases hat with ⟨h, _⟩ | ⟨_, rfl⟩
        · simp [hf] at h
        simp only [code, next, hf] at hn
        have key : OneOk (compareExchangeWeak amo prev w s g) (.compareExchangeWeak prev w s g) :=
          casWeak_ok Sem.casWeakOk (fun a b x => Sem.casWeakErr a b) (fun h x => Sem.casWeakPanic h)
        cases hc : compareExchangeWeak amo prev w s g with
        | panic => simp [hc, One.next] at hn
        | acc a' dec =>
          rw [hc] at hn key
          simp only [One.next, Next.acc.injEq] at hn
          obtain ⟨rfl, rfl⟩ := hn
          obtain ⟨hv, hsem⟩ := key _ _ _ hs
          refine ⟨hv, ?_⟩
          generalize hd : dec r = d at hsem
          generalize ho : (BOp.compareExchangeWeak prev w s g) = op at hsem
          generalize hy : ofByte x' = y at hsem
          generalize hz : ofByte x = z at hsem
          cases hsem <;> simp only [reduceCtorEq, BOp.compareExchangeWeak.injEq] at ho
          · obtain ⟨rfl, rfl, rfl, rfl⟩ := ho
            exact Or.inr ⟨_, _, rfl, Sem.updateOk hist h1 h2 hf, by simp [hd, afterCas, At]⟩
          · obtain ⟨rfl, rfl, rfl, rfl⟩ := ho
            simp only [hd, afterCas]
            rcases at_loop (s := s) (f := f) (hist := hist ++ [prev]) (x := y) h1 h2 with h | h
            · exact Or.inl ⟨trivial, h⟩
            · exact Or.inr h
          · obtain ⟨rfl, rfl, rfl, rfl⟩ := ho
            rename_i hbad
            rcases hbad with h | h
            · exact absurd h h1
            · exact absurd h h2
  ret := by
    intro l st r hat hn
    cases l with
    | one p => cases p <;> simp [code, next, One.next] at hn
    | fin r' => simp only [code, next, Next.ret.injEq] at hn; subst hn; exact hat
    | updStart s g f => simp [code, next, One.next, load] at hn
    | updLoop s g f hist prev =>
      obtain ⟨_, _, hat⟩ := hat
      cases hf : f hist prev with
      | none =>
        simp only [code, next, hf, Next.ret.injEq] at hn
        subst hn
        rcases hat with ⟨_, h⟩ | ⟨h, _⟩
        · exact h
        · exact absurd hf h
      | some w =>
        simp only [code, next, hf] at hn
        cases hc : compareExchangeWeak amo prev w s g <;> simp [hc, One.next] at hn

end Verif.Bool
