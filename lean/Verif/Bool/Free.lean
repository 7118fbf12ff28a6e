import Verif.Lf.CodeFree
import Verif.Bool.Sim
/-!
# Lock-freedom of `AtomicBool` (C66)
-/
set_option autoImplicit false
namespace Verif.Bool
open Verif.Lf Verif.Object

theorem Valid.ext {x y : BitVec 8} (hx : Valid x) (hy : Valid y) (h : ofByte x = ofByte y) : x = y := by
  rw [hx.eq_byte, hy.eq_byte, h]

/-- What one attempt of `fetch_update` does. -/
theorem attempt {amo : Bool} {c n : Bool} {s g : MemOrd} {a : Acc (BitVec 8)} {dec : Res (BitVec 8) → Res Bool}
    (h1 : g ≠ .release) (h2 : g ≠ .acqRel) (hc : compareExchangeWeak amo c n s g = .acc a dec)
    {x x' : BitVec 8} {r : Res (BitVec 8)} (hx : Valid x) (hs : a.sem x x' r) :
    (∃ y, dec r = .ok y) ∨ (x' = x ∧ dec r = .err (ofByte x) ∧ (ofByte x = c → a.Spurious x r)) := by
  have key : OneOk (compareExchangeWeak amo c n s g) (.compareExchangeWeak c n s g) :=
    casWeak_ok Sem.casWeakOk (fun a b x => Sem.casWeakErr a b) (fun h x => Sem.casWeakPanic h)
  rw [hc] at key
  have hs' := hs
  rw [hx.eq_byte] at hs'
  obtain ⟨hv, hsem⟩ := key _ _ _ hs'
  generalize hd : dec r = d at hsem
  generalize ho : (BOp.compareExchangeWeak c n s g) = op at hsem
  generalize hy : ofByte x' = y at hsem
  generalize hz : ofByte x = z at hsem
  cases hsem <;> simp only [reduceCtorEq, BOp.compareExchangeWeak.injEq] at ho
  · exact .inl ⟨_, rfl⟩
  · obtain ⟨rfl, rfl, rfl, rfl⟩ := ho
    refine .inr ⟨hv.ext hx (by rw [hy, hz]), rfl, fun e => ?_⟩
    subst e
    cases amo
    · simp only [compareExchangeWeak, Bool.false_eq_true, if_false, One.acc.injEq] at hc
      obtain ⟨rfl, rfl⟩ := hc
      refine ⟨by rw [hx.eq_byte, hz], ?_⟩
      rcases casWeak_cases h1 h2 hs with ⟨-, -, rfl⟩ | ⟨-, rfl⟩
      · simp [decVal] at hd
      · rfl
    · exfalso
      have key2 : OneOk (compareExchange true y n s g) (.compareExchange y n s g) :=
        cas_ok Sem.casOk (fun a b x hx => Sem.casErr a b hx) (fun h x => Sem.casPanic h)
      have hc' : compareExchange true y n s g = .acc a dec := hc
      rw [hc'] at key2
      obtain ⟨-, hsem⟩ := key2 _ _ _ hs'
      rw [hd] at hsem
      generalize ho : (BOp.compareExchange y n s g) = op at hsem
      generalize hy' : ofByte x' = y' at hsem
      generalize hz' : ofByte x = z' at hsem
      cases hsem <;> simp only [reduceCtorEq, BOp.compareExchange.injEq] at ho
      obtain ⟨rfl, -⟩ := ho
      rename_i hne
      exact hne (by rw [← hz, hz'])
  · obtain ⟨rfl, rfl, rfl, rfl⟩ := ho
    rename_i hbad
    rcases hbad with h | h
    · exact absurd h h1
    · exact absurd h h2

/-- A weak compare-exchange as such is looked at. -/
def Look : Pc → Prop
  | .one (.acc (.casWeak _ _ _ _) dec) => dec = decVal
  | _ => True

theorem start_look (amo : Bool) (op : BOp) : Look (start amo op) := by
  cases op with
  | load | store | fetchAnd | and | fetchOr | or | fetchXor | xor | fetchNot | not | fetchUpdate => trivial
  | swap v o => cases amo <;> cases v <;> trivial
  | fetchNand v o => cases amo <;> cases v <;> trivial
  | compareExchange c n s f =>
    cases amo
    · trivial
    · simp only [start, compareExchange, if_true]
      split
      · trivial
      · split
        · trivial
        · cases n <;> trivial
  | compareExchangeWeak c n s f =>
    cases amo
    · rfl
    · simp only [start, compareExchangeWeak, compareExchange, if_true]
      split
      · trivial
      · split
        · trivial
        · cases n <;> trivial

theorem fin_stops {amo : Bool} (r : Res Bool) (x : BitVec 8) : (code amo).Stops (.fin r) x := .ret (r := r) rfl

/-- A running `fetch_update`, undisturbed. -/
theorem loop_stops {amo : Bool} {s g : MemOrd} {f : Closure Bool} (h1 : g ≠ .release) (h2 : g ≠ .acqRel) (hist : List Bool)
    (prev : Bool) {x : BitVec 8} (hx : Valid x) : (code amo).Stops (.updLoop s g f hist prev) x := by
  have one : ∀ hist prev, (∀ hist', prev = ofByte x ∨ (code amo).Stops (.updLoop s g f hist' (ofByte x)) x) →
      (code amo).Stops (.updLoop s g f hist prev) x := by
    intro hist prev hrec
    cases hf : f hist prev with
    | none => exact .ret (r := .err prev) (by simp [code, next, hf])
    | some nx =>
      cases hc : compareExchangeWeak amo prev nx s g with
      | panic => exact .tau (l' := .fin .panic) (by simp [code, next, hf, hc, One.next, afterCas]) (fin_stops _ _)
      | acc a dec =>
        refine .acc (a := a) (f := fun r => afterCas s g f (hist ++ [prev]) (dec r))
          (by simp [code, next, hf, hc, One.next]) fun r hr hn => ?_
        rcases attempt h1 h2 hc hx hr with ⟨y, e⟩ | ⟨-, e, hsp⟩
        · simp only [e, afterCas]; exact fin_stops _ _
        · simp only [e, afterCas]
          rcases hrec (hist ++ [prev]) with rfl | h
          · exact absurd (hsp rfl) hn
          · exact h
  exact one hist prev fun hist' => .inr (one hist' _ fun _ => .inl rfl)

/-- `AtomicBool` is lock-free. -/
def free (amo : Bool) : CodeFree (code amo) Valid where
  inv l := (∃ st, At l st) ∧ Look l
  start op := ⟨⟨_, (sim amo).start op⟩, start_look amo op⟩
  tau l l' hi h := by
    refine ⟨?_, ?_⟩
    · obtain ⟨⟨st, hat⟩, -⟩ := hi
      rcases (sim amo).tau _ _ _ 0 hat h (.inl rfl) with h | ⟨_, _, -, -, h⟩
      · exact ⟨_, h⟩
      · exact ⟨_, h⟩
    · cases l with
      | one p =>
        cases p with
        | panic => simp only [code, next, One.next, Next.tau.injEq] at h; subst h; trivial
        | acc => simp [code, next, One.next] at h
      | fin r => simp [code, next] at h
      | updStart s g f => simp [code, next, One.next, load] at h
      | updLoop s g f hist prev =>
        cases hf : f hist prev with
        | none => simp [code, next, hf] at h
        | some nx =>
          cases hc : compareExchangeWeak amo prev nx s g with
          | panic => simp only [code, next, hf, hc, One.next, Next.tau.injEq, afterCas] at h; subst h; trivial
          | acc => simp [code, next, hf, hc, One.next] at h
  acc l a f x x' r hx hi h hs := by
    obtain ⟨⟨st, hat⟩, hl⟩ := hi
    obtain ⟨hv, h3⟩ := (sim amo).step _ _ _ _ _ _ _ hat h hx hs
    refine ⟨hv, ?_, ?_⟩
    · rcases h3 with ⟨-, h⟩ | ⟨_, _, -, -, h⟩
      · exact ⟨_, h⟩
      · exact ⟨_, h⟩
    · cases l with
      | one p =>
        cases p with
        | panic => simp [code, next, One.next] at h
        | acc =>
          simp only [code, next, One.next, Next.acc.injEq] at h
          obtain ⟨rfl, rfl⟩ := h
          trivial
      | fin r => simp [code, next] at h
      | updStart s g f =>
        simp only [code, next, One.next, load, Next.acc.injEq] at h
        obtain ⟨rfl, rfl⟩ := h
        show Look (afterLoad s g f (decVal r))
        cases decVal r <;> trivial
      | updLoop s g f hist prev =>
        cases hf : f hist prev with
        | none => simp [code, next, hf] at h
        | some nx =>
          cases hc : compareExchangeWeak amo prev nx s g with
          | panic => simp [code, next, hf, hc, One.next] at h
          | acc a' dec =>
            simp only [code, next, hf, hc, One.next, Next.acc.injEq] at h
            obtain ⟨rfl, rfl⟩ := h
            show Look (afterCas s g f (hist ++ [prev]) (dec r))
            cases dec r <;> trivial
  once l a f x x' r hx hi h hs := by
    obtain ⟨⟨st, hat⟩, hl⟩ := hi
    cases l with
    | one p =>
      cases p with
      | panic => simp [code, next, One.next] at h
      | acc a' dec =>
        simp only [code, next, One.next, Next.acc.injEq] at h
        obtain ⟨rfl, rfl⟩ := h
        exact .inr (.ret (r := dec r) rfl)
    | fin r => simp [code, next] at h
    | updStart s g f =>
      simp only [code, next, One.next, load, Next.acc.injEq] at h
      obtain ⟨rfl, rfl⟩ := h
      exact .inl (Acc.Reads.same (a := .op (.load g)) trivial hs)
    | updLoop s g f hist prev =>
      obtain ⟨h1, h2, -⟩ := hat
      cases hf : f hist prev with
      | none => simp [code, next, hf] at h
      | some nx =>
        cases hc : compareExchangeWeak amo prev nx s g with
        | panic => simp [code, next, hf, hc, One.next] at h
        | acc a' dec =>
          simp only [code, next, hf, hc, One.next, Next.acc.injEq] at h
          obtain ⟨rfl, rfl⟩ := h
          rcases attempt h1 h2 hc hx hs with ⟨y, e⟩ | ⟨e, -, -⟩
          · exact .inr (.ret (r := .ok y) (by simp only [e]; rfl))
          · exact .inl e
  stops l x hx hi := by
    obtain ⟨⟨st, hat⟩, hl⟩ := hi
    cases l with
    | one p =>
      cases p with
      | panic => exact .tau (l' := .fin .panic) rfl (fin_stops _ _)
      | acc a dec => exact .acc (a := a) (f := fun r => .fin (dec r)) rfl fun _ _ _ => fin_stops _ _
    | fin r => exact fin_stops _ _
    | updStart s g f =>
      refine .acc (a := .op (.load g)) (f := fun r => afterLoad s g f (decVal r)) rfl fun r hr _ => ?_
      cases g
      case release | acqRel =>
        simp only [Acc.sem, Op.onCell, Op.ordOk] at hr
        simp at hr
        subst hr
        exact fin_stops _ _
      all_goals
        cases hd : decVal r with
        | val v => exact loop_stops (by simp) (by simp) _ _ hx
        | ok | err | unit | panic => exact fin_stops _ _
    | updLoop s g f hist prev => exact loop_stops hat.1 hat.2.1 _ _ hx
  looks l cur new s g f hi h := by
    obtain ⟨-, hl⟩ := hi
    cases l with
    | one p =>
      cases p with
      | panic => simp [code, next, One.next] at h
      | acc a' dec =>
        simp only [code, next, One.next, Next.acc.injEq] at h
        obtain ⟨rfl, rfl⟩ := h
        cases hl
        intro e
        have := Pc.fin.inj e
        simp [decVal] at this
    | fin r => simp [code, next] at h
    | updStart s g f => simp [code, next, One.next, load] at h
    | updLoop s' g' f' hist prev =>
      cases hf : f' hist prev with
      | none => simp [code, next, hf] at h
      | some nx =>
        cases amo
        · simp only [code, next, hf, compareExchangeWeak, Bool.false_eq_true, if_false, One.next, Next.acc.injEq] at h
          obtain ⟨-, rfl⟩ := h
          simp [decVal, afterCas]
        · exfalso
          simp only [code, next, hf, compareExchangeWeak, compareExchange, if_true] at h
          split at h
          · simp [One.next] at h
          · split at h
            · simp [One.next, One.map, fetchOr] at h
            · cases nx <;> simp [One.next, One.map, swap, fetchOr, fetchAnd] at h

end Verif.Bool
