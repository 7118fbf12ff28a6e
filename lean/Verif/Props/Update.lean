import Verif.Update.Sim
import Verif.Update.Count
import Verif.Props.Compose
import Verif.Props.Bool
import Verif.Props.Fallback
/-!
# `fetch_update` with arbitrary closures (C69)

`Update.ExplainedTo` (`Spec/Update.lean`) is the specification; `Update.Run` (`Update/Code.lean`) the program.
-/
set_option autoImplicit false
set_option linter.unusedSectionVars false
namespace Verif.Update
open Verif.Object

variable {K V I P : Type} [DecidableEq K]

/-! ## What the specification means for a user -/

theorem bound (h : List (Ev K V I P)) : ∃ N, ∀ e ∈ h, e.tid < N := by
  induction h with
  | nil => exact ⟨0, by simp⟩
  | cons a h ih =>
    obtain ⟨N, hN⟩ := ih
    refine ⟨max N (a.tid + 1), fun e he => ?_⟩
    rcases List.mem_cons.1 he with rfl | he
    · exact lt_of_lt_of_le (Nat.lt_succ_self _) (le_max_right _ _)
    · exact lt_of_lt_of_le (hN e he) (le_max_left _ _)

theorem Entry.no_overs {k : K} {G : V → V → Prop} {Pd : I → Prop} {l : List (Frame K V I P)} {m : List (K × Option V)}
    (x : Entry k G Pd l m) : (∀ k' o, (k', o) ∈ m → k' ≠ k) → overs k l = 0 := by
  induction x with
  | nil => intro _; rfl
  | pending i h x ih => exact ih
  | done p x ih => exact ih
  | upd k' s f st o h1 h2 x ih =>
    intro h
    have e := ih fun a b hm => h a b (by simp [hm])
    have n : k' ≠ k := h k' o (by simp)
    cases st with
    | over r => cases r <;> simp [overs, e, n]
    | _ => simpa [overs] using e

/-- **C69a.** No update is lost, none is done twice. Suppose on `k` closures answer `None`, panic, or answer `g v` when asked about `v`
(whatever else they do), the other operations of the program leave `k` alone, and no call on `k` is open at the end. Then `k` ends up
as `g` applied as often as calls on `k` have returned `Ok`. -/
theorem no_lost_update {T : Spec (K → V) I P} {k : K} {g : V → V} {c c' : K → V} {h : List (Ev K V I P)} (hx : ExplainedTo T c h c')
    (hops : ∀ t i, Ev.inv t i ∈ h → ∀ m m' p, T.sem i m m' p → m' k = m k)
    (hg : ∀ h1 t w h2, h = h1 ++ .reply t (some w) :: h2 → ∀ v l, (seen k h1).open_ t = (k, some v) :: l → w = g v)
    (hend : ∀ t k' o, (k', o) ∈ (seen k h).open_ t → k' ≠ k) : c' k = g^[(seen k h).oks] (c k) := by
  obtain ⟨s, hx, rfl⟩ := hx
  obtain ⟨N, hN⟩ := bound h
  have H := inv_exec (k := k) (G := fun v w => w = g v) (Pd := fun i => ∀ m m' p, T.sem i m m' p → m' k = m k) hx hN hops hg
  rw [H.val (fun _ h => h) g fun _ _ h => h]
  rw [Finset.sum_eq_zero fun t _ => (H.entry t).no_overs (hend t)]
  simp

/-- **C69b.** The result is the last value the closure was called with. -/
theorem result_shown {T : Spec (K → V) I P} {c c' : K → V} {h : List (Ev K V I P)} {t : Tid} {r : Out V} {v : V}
    (hx : ExplainedTo T c (h ++ [.finish t r]) c') (hr : r = .ok v ∨ r = .err v) (k : K) :
    ∃ k' l, (seen k h).open_ t = (k', some v) :: l := by
  obtain ⟨s, hx, -⟩ := hx
  generalize hh : h ++ [Ev.finish t r] = h0 at hx
  induction hx with
  | refl => simp at hh
  | tau _ _ ih => exact ih hh
  | @ev h' s1 e s2 x st _ =>
    have e2 := List.append_inj_left' hh rfl
    have e1 := List.append_inj_right' hh rfl
    simp only [List.cons.injEq, and_true] at e1
    subst e1 e2
    obtain ⟨N, hN⟩ := bound h
    have H := inv_exec (k := k) (G := fun _ _ => True) (Pd := fun _ => True) x hN (fun _ _ _ => trivial) (fun _ _ _ _ _ _ _ _ => trivial)
    cases st with
    | finish _ k' so f _ st hs =>
      have en := H.entry t
      rw [hs] at en
      obtain ⟨o, m, h1, h2, -⟩ := en.upd_inv
      refine ⟨k', m, ?_⟩
      rw [h1, h2 v (by rcases hr with rfl | rfl <;> rfl)]

/-! ## The code -/

/-- **C69c.** `fetch_update` over any linearizable `load` and `compare_exchange_weak`: whatever the closures do, and whatever
else the program calls, inside closures or not, what the user sees is explained by the specification. -/
theorem update_explained {M : Methods K V I P} {T : Spec (K → V) I P} (hM : M.Ok T) {c c' : K → V} {hi : List (Object.Ev I P)}
    (hl : LinearizableTo T c hi c') {ho : List (Ev K V I P)} {w : Tid → List (Fr K V I P)} (x : Run M hi ho w) :
    ExplainedTo T c ho c' := by
  obtain ⟨a, hx, rfl⟩ := hl
  obtain ⟨s, h1, h2, -⟩ := run_agree hM x a hx
  exact ⟨s, h1, h2⟩

/-- The methods of the lock-based fallback (`src/imp/fallback/mod.rs` L314 `load`, L288-L298 `compare_exchange_weak`, which is the strong
one), also those of the critical-section and interrupt implementations. -/
def cellMethods (K V : Type) : Methods K V (K × Op V) (Res V) where
  load k o i := i = (k, .load o)
  compareExchangeWeak k v w s f i := i = (k, .cas v w s f)
  ans := id

theorem cell_ok [DecidableEq V] : (cellMethods K V).Ok ((Compose.opSpec V).many (K := K)) where
  load_ok := by
    rintro k o _ m m' p rfl ⟨x, hs, rfl⟩ ⟨h1, h2⟩
    simp [cellMethods, Compose.opSpec, Op.onCell, Op.ordOk, h1, h2] at hs
    obtain ⟨rfl, rfl⟩ := hs
    exact ⟨Function.update_eq_self _ _, rfl⟩
  load_bad := by
    rintro k o _ m m' p rfl ⟨x, hs, rfl⟩ h
    have : (x, p) = (m k, Res.panic) := by rcases h with rfl | rfl <;> simpa [cellMethods, Compose.opSpec, Op.onCell, Op.ordOk] using hs
    cases this
    exact ⟨Function.update_eq_self _ _, rfl⟩
  weak := by
    rintro k v w s f _ m m' p rfl ⟨x, hs, rfl⟩ ⟨h1, h2⟩
    simp only [cellMethods, Compose.opSpec, Op.onCell, Op.ordOk] at hs
    by_cases e : m k = v
    · simp [h1, h2, e] at hs
      obtain ⟨rfl, rfl⟩ := hs
      exact .inl ⟨e, rfl, rfl⟩
    · simp [h1, h2, e] at hs
      obtain ⟨rfl, rfl⟩ := hs
      exact .inr ⟨Function.update_eq_self _ _, rfl⟩

/-- **C69d.** `fetch_update` on atomics of the lock-based fallback: any number of threads and objects sharing locks, any closures,
re-entrant ones included. -/
theorem fallback_update [DecidableEq V] {c : Fallback.Cfg V} (ok : c.Sound) {cells : Obj → V} {v0 : Nat → Nat} {ext : Nat → BitVec c.W}
    (hc : ∀ o, c.fits o (cells o)) {hi : List (Verif.Ev V)} {s : Fallback.State V c.W}
    (hx : Exec c.Step (c.init cells v0 ext) hi s) (hb : Fallback.calls hi < c.maxOverlap) {ho : List (Ev Obj V (Obj × Op V) (Res V))}
    {w : Tid → List (Fr Obj V (Obj × Op V) (Res V))} (x : Run (cellMethods Obj V) (hi.map Compose.toObj) ho w) :
    ∃ c', ExplainedTo ((Compose.opSpec V).many (K := Obj)) cells ho c' := by
  obtain ⟨c', hl⟩ := Compose.atomic_object (Fallback.fallback_linearizable_of_calls ok hc hx hb)
  exact ⟨c', update_explained cell_ok hl x⟩

/-- The methods of an integer atomic, where it has compare-exchange. -/
def intMethods (w : Nat) (signed : Bool) (b : Int.Backend) (hl : ∀ o, (Int.prog (w := w) signed b (.load o)).isSome)
    (hc : ∀ v n s f, (Int.prog (w := w) signed b (.compareExchangeWeak v n s f)).isSome) :
    Methods K (BitVec w) (K × Int.Avail w signed b) (Int.IRes w) where
  load k o i := i = (k, ⟨.load o, hl o⟩)
  compareExchangeWeak k v n s f i := i = (k, ⟨.compareExchangeWeak v n s f, hc v n s f⟩)
  ans := Compose.intAns

theorem int_ok {w : Nat} {signed : Bool} {b : Int.Backend} (hl : ∀ o, (Int.prog (w := w) signed b (.load o)).isSome)
    (hc : ∀ v n s f, (Int.prog (w := w) signed b (.compareExchangeWeak v n s f)).isSome) :
    (intMethods (K := K) w signed b hl hc).Ok ((Int.specOf w signed b).many (K := K)) where
  load_ok := by
    rintro k o _ m m' p rfl ⟨x, ⟨rfl, rfl⟩, rfl⟩ ⟨h1, h2⟩
    simp [intMethods, h1, h2, Compose.intAns, Function.update_eq_self]
  load_bad := by
    rintro k o _ m m' p rfl ⟨x, ⟨rfl, rfl⟩, rfl⟩ h
    simp [intMethods, h, Compose.intAns, Function.update_eq_self]
  weak := by
    rintro k v w s f _ m m' p rfl ⟨x, hs, rfl⟩ ⟨h1, h2⟩
    simp only [intMethods, Int.specOf, Int.Sem, h1, h2, or_self, if_false] at hs
    rcases hs with ⟨rfl, rfl, rfl⟩ | ⟨rfl, rfl⟩
    · exact .inl ⟨rfl, rfl, rfl⟩
    · exact .inr ⟨Function.update_eq_self _ _, rfl⟩

/-- **C69e.** Integer atomics without a lock. -/
theorem int_update (e : Nat) (signed : Bool) (b : Int.Backend) (hl : ∀ o, (Int.prog (w := 2 ^ e) signed b (.load o)).isSome)
    (hc : ∀ v n s f, (Int.prog (w := 2 ^ e) signed b (.compareExchangeWeak v n s f)).isSome) {m : Obj → BitVec (2 ^ e)} {hi s}
    (hx : Lf.Runs ((Int.codeOf (2 ^ e) signed b).sys Obj) m hi s) {ho w} (x : Run (intMethods (2 ^ e) signed b hl hc) hi ho w) :
    ExplainedTo ((Int.specOf (2 ^ e) signed b).many (K := Obj)) m ho s.mem :=
  update_explained (int_ok hl hc) (Int.int_linearizable e signed b m hi s hx) x

/-- The methods of `AtomicPtr`, where it has compare-exchange. -/
def ptrMethods (w size : Nat) (b : Ptr.Backend) (hl : ∀ o, (Ptr.prog (w := w) size b (.load o)).isSome)
    (hc : ∀ v n s f, (Ptr.prog (w := w) size b (.compareExchangeWeak v n s f)).isSome) :
    Methods K (BitVec w) (K × Ptr.Avail w size b) (Int.IRes w) where
  load k o i := i = (k, ⟨.load o, hl o⟩)
  compareExchangeWeak k v n s f i := i = (k, ⟨.compareExchangeWeak v n s f, hc v n s f⟩)
  ans := Compose.intAns

theorem ptr_ok {w size : Nat} {b : Ptr.Backend} (hl : ∀ o, (Ptr.prog (w := w) size b (.load o)).isSome)
    (hc : ∀ v n s f, (Ptr.prog (w := w) size b (.compareExchangeWeak v n s f)).isSome) :
    (ptrMethods (K := K) w size b hl hc).Ok ((Ptr.specOf w size b).many (K := K)) where
  load_ok := by
    rintro k o _ m m' p rfl ⟨x, ⟨rfl, rfl⟩, rfl⟩ ⟨h1, h2⟩
    simp [ptrMethods, h1, h2, Compose.intAns, Function.update_eq_self]
  load_bad := by
    rintro k o _ m m' p rfl ⟨x, ⟨rfl, rfl⟩, rfl⟩ h
    simp [ptrMethods, h, Compose.intAns, Function.update_eq_self]
  weak := by
    rintro k v w s f _ m m' p rfl ⟨x, hs, rfl⟩ ⟨h1, h2⟩
    simp only [ptrMethods, Ptr.specOf, Ptr.Sem, h1, h2, or_self, if_false] at hs
    rcases hs with ⟨rfl, rfl, rfl⟩ | ⟨rfl, rfl⟩
    · exact .inl ⟨rfl, rfl, rfl⟩
    · exact .inr ⟨Function.update_eq_self _ _, rfl⟩

/-- **C69f.** Pointers. -/
theorem ptr_update (e size : Nat) (b : Ptr.Backend) (hl : ∀ o, (Ptr.prog (w := 2 ^ e) size b (.load o)).isSome)
    (hc : ∀ v n s f, (Ptr.prog (w := 2 ^ e) size b (.compareExchangeWeak v n s f)).isSome) {m : Obj → BitVec (2 ^ e)} {hi s}
    (hx : Lf.Runs ((Ptr.codeOf (2 ^ e) size b).sys Obj) m hi s) {ho w} (x : Run (ptrMethods (2 ^ e) size b hl hc) hi ho w) :
    ExplainedTo ((Ptr.specOf (2 ^ e) size b).many (K := Obj)) m ho s.mem :=
  update_explained (ptr_ok hl hc) (Ptr.ptr_linearizable e size b m hi s hx) x

/-- The methods of float atomics (values as bits), where they have compare-exchange. -/
def floatMethods {w : Nat} (signed : Bool) (A : Float.Arith w) (b : Float.FBackend)
    (hl : ∀ o, (Float.prog (A := A) (f := b) signed (.load o)).isSome)
    (hc : ∀ v n s f, (Float.prog (A := A) (f := b) signed (.compareExchangeWeak v n s f)).isSome) :
    Methods K (BitVec w) (K × Float.Avail signed A b) (Int.IRes w) where
  load k o i := i = (k, ⟨.load o, hl o⟩)
  compareExchangeWeak k v n s f i := i = (k, ⟨.compareExchangeWeak v n s f, hc v n s f⟩)
  ans := Compose.intAns

theorem float_ok {w : Nat} {signed : Bool} {A : Float.Arith w} {b : Float.FBackend}
    (hl : ∀ o, (Float.prog (A := A) (f := b) signed (.load o)).isSome)
    (hc : ∀ v n s f, (Float.prog (A := A) (f := b) signed (.compareExchangeWeak v n s f)).isSome) :
    (floatMethods (K := K) signed A b hl hc).Ok ((Float.specOf signed A b).many (K := K)) where
  load_ok := by
    rintro k o _ m m' p rfl ⟨x, ⟨rfl, rfl⟩, rfl⟩ ⟨h1, h2⟩
    simp [floatMethods, h1, h2, Compose.intAns, Function.update_eq_self]
  load_bad := by
    rintro k o _ m m' p rfl ⟨x, ⟨rfl, rfl⟩, rfl⟩ h
    simp [floatMethods, h, Compose.intAns, Function.update_eq_self]
  weak := by
    rintro k v w s f _ m m' p rfl ⟨x, hs, rfl⟩ ⟨h1, h2⟩
    simp only [floatMethods, Float.specOf, Float.Sem, h1, h2, or_self, if_false] at hs
    rcases hs with ⟨rfl, rfl, rfl⟩ | ⟨rfl, rfl⟩
    · exact .inl ⟨rfl, rfl, rfl⟩
    · exact .inr ⟨Function.update_eq_self _ _, rfl⟩

/-- **C69g.** Floats. -/
theorem float_update (e : Nat) (signed : Bool) (A : Float.Arith (2 ^ e)) (b : Float.FBackend)
    (hl : ∀ o, (Float.prog (A := A) (f := b) signed (.load o)).isSome)
    (hc : ∀ v n s f, (Float.prog (A := A) (f := b) signed (.compareExchangeWeak v n s f)).isSome) {m : Obj → BitVec (2 ^ e)} {hi s}
    (hx : Lf.Runs ((Float.codeOf signed A b).sys Obj) m hi s) {ho w} (x : Run (floatMethods signed A b hl hc) hi ho w) :
    ExplainedTo ((Float.specOf signed A b).many (K := Obj)) m ho s.mem :=
  update_explained (float_ok hl hc) (Float.float_linearizable e signed A b m hi s hx) x

/-- The methods of `AtomicBool`. -/
def boolMethods : Methods K Bool (K × Verif.Bool.BOp) (Res Bool) where
  load k o i := i = (k, .load o)
  compareExchangeWeak k v n s f i := i = (k, .compareExchangeWeak v n s f)
  ans := id

theorem bool_ok : (boolMethods (K := K)).Ok (Verif.Bool.spec.many (K := K)) where
  load_ok := by
    rintro k o _ m m' p rfl ⟨x, hs, rfl⟩ ⟨h1, h2⟩
    generalize hy : m k = y at hs
    cases hs with
    | load => subst hy; exact ⟨Function.update_eq_self _ _, rfl⟩
    | loadPanic h => exact absurd h (by simp [h1, h2])
  load_bad := by
    rintro k o _ m m' p rfl ⟨x, hs, rfl⟩ h
    generalize hy : m k = y at hs
    cases hs with
    | load h1 h2 => exact absurd h (by simp [h1, h2])
    | loadPanic => subst hy; exact ⟨Function.update_eq_self _ _, rfl⟩
  weak := by
    rintro k v n s f _ m m' p rfl ⟨x, hs, rfl⟩ ⟨h1, h2⟩
    simp only [boolMethods] at hs
    generalize hy : m k = y at hs
    cases hs with
    | casWeakOk => exact .inl ⟨rfl, rfl, rfl⟩
    | casWeakErr => subst hy; exact .inr ⟨Function.update_eq_self _ _, rfl⟩
    | casWeakPanic h => exact absurd h (by simp [h1, h2])

/-- **C69h.** Booleans: whatever the closures do, bytes stay 0 or 1 (C17) and what the user sees is explained by booleans. -/
theorem bool_update (amo : Bool) {m : Obj → BitVec 8} (hm : ∀ o, m o = 0 ∨ m o = 1) {hi s}
    (hx : Lf.Runs ((Verif.Bool.code amo).sys Obj) m hi s) {ho w} (x : Run (boolMethods (K := Obj)) hi ho w) :
    ExplainedTo (Verif.Bool.spec.many (K := Obj)) (fun o => m o != 0) ho (fun o => s.mem o != 0) :=
  update_explained bool_ok (Verif.Bool.bool_linearizable amo m hm hi s hx) x

/-- The hypotheses of C69e-g: where there is compare-exchange, `load` and `compare_exchange_weak` are there. -/
example (e : Nat) (signed : Bool) (b : Int.Backend) (h : b.hasCas = true) :
    (∀ o, (Int.prog (w := 2 ^ e) signed b (.load o)).isSome) ∧
    (∀ v n s f, (Int.prog (w := 2 ^ e) signed b (.compareExchangeWeak v n s f)).isSome) :=
  ⟨fun o => by simp [Int.prog], fun v n s f => by simp [Int.prog, h]⟩
example : (∀ o, (Ptr.prog (w := 64) 8 (.viaUsize true) (.load o)).isSome) ∧
    (∀ v n s f, (Ptr.prog (w := 64) 8 (.viaUsize true) (.compareExchangeWeak v n s f)).isSome) :=
  ⟨fun _ => rfl, fun _ _ _ _ => rfl⟩
example (signed : Bool) (A : Float.Arith 32) : (∀ o, (Float.prog (A := A) (f := Float.demoB) signed (.load o)).isSome) ∧
    (∀ v n s f, (Float.prog (A := A) (f := Float.demoB) signed (.compareExchangeWeak v n s f)).isSome) :=
  ⟨fun _ => rfl, fun _ _ _ _ => rfl⟩

/-! ## While a closure runs, its thread holds no lock -/

/-- Is a call of the thread open? -/
def opened (hi : List (Object.Ev I P)) (t : Tid) : Bool :=
  hi.foldl (fun b e => match e with | .inv u _ => if u = t then true else b | .ret u _ => if u = t then false else b) false

theorem opened_snoc (hi : List (Object.Ev I P)) (e : Object.Ev I P) (t : Tid) :
    opened (hi ++ [e]) t = match e with | .inv u _ => if u = t then true else opened hi t | .ret u _ => if u = t then false else opened hi t := by
  simp [opened, List.foldl_append]

/-- Is the innermost call waiting for the implementation? -/
def waiting : List (Fr K V I P) → Bool
  | .wait _ :: _ => true
  | .upd _ _ _ .waitLoad :: _ => true
  | .upd _ _ _ (.waitCas _ _) :: _ => true
  | _ => false

/-- Only innermost calls wait. -/
def Calm : List (Fr K V I P) → Prop
  | [] => True
  | .upd _ _ _ (.body _) :: l => Calm l
  | _ => False

theorem Calm.not_waiting {l : List (Fr K V I P)} (h : Calm l) : waiting l = false := by
  unfold Calm at h; split at h <;> first | rfl | exact h.elim

theorem CanCall.not_waiting {l : List (Fr K V I P)} (h : CanCall l) : waiting l = false := by
  unfold CanCall at h; split at h <;> first | rfl | exact h.elim

theorem CanCall.calm {l : List (Fr K V I P)} (h : CanCall l) (h' : Calm l.tail) : Calm l := by
  unfold CanCall at h; split at h <;> first | exact h.elim | exact h'

theorem afterLoad_calm (k : K) (s f : MemOrd) (r : Res V) (l : List (Fr K V I P)) : waiting (.upd k s f (afterLoad r) :: l) = false := by
  cases r <;> rfl
theorem afterCas_calm (k : K) (s f : MemOrd) (r : Res V) (l : List (Fr K V I P)) : waiting (.upd k s f (afterCas r) :: l) = false := by
  cases r <;> rfl
theorem afterF_calm (k : K) (s f : MemOrd) (v : V) (a : Option V) (l : List (Fr K V I P)) :
    waiting (.upd k s f (afterF v a) :: l) = false := by
  cases a <;> rfl

theorem run_waiting {M : Methods K V I P} {hi : List (Object.Ev I P)} {ho : List (Ev K V I P)} {w : Tid → List (Fr K V I P)}
    (x : Run M hi ho w) : ∀ t, opened hi t = waiting (w t) ∧ Calm (w t).tail := by
  have key : ∀ {hi hi' : List (Object.Ev I P)} {w : Tid → List (Fr K V I P)} {t : Tid} {l : List (Fr K V I P)},
      (∀ u, opened hi u = waiting (w u) ∧ Calm (w u).tail) → (∀ u, u ≠ t → opened hi' u = opened hi u) →
      opened hi' t = waiting l → Calm l.tail →
      ∀ u, opened hi' u = waiting (Function.update w t l u) ∧ Calm (Function.update w t l u).tail := by
    intro hi hi' w t l h0 h1 h2 h3 u
    by_cases e : u = t
    · subst e; simpa using ⟨h2, h3⟩
    · rw [Function.update_of_ne e, h1 u e]; exact h0 u
  have hinv : ∀ {hi : List (Object.Ev I P)} {t : Tid} {i : I}, (∀ u, u ≠ t → opened (hi ++ [.inv t i]) u = opened hi u) ∧
      opened (hi ++ [.inv t i]) t = true := fun {hi t i} => ⟨fun u hu => by rw [opened_snoc]; simp [Ne.symm hu], by rw [opened_snoc]; simp⟩
  have hret : ∀ {hi : List (Object.Ev I P)} {t : Tid} {p : P}, (∀ u, u ≠ t → opened (hi ++ [.ret t p]) u = opened hi u) ∧
      opened (hi ++ [.ret t p]) t = false := fun {hi t i} => ⟨fun u hu => by rw [opened_snoc]; simp [Ne.symm hu], by rw [opened_snoc]; simp⟩
  induction x with
  | nil => exact fun t => ⟨rfl, trivial⟩
  | inv x t i h ih => exact key ih (fun _ _ => rfl) ((ih t).1.trans h.not_waiting) (h.calm (ih t).2)
  | update x t k so f h ih => exact key ih (fun _ _ => rfl) ((ih t).1.trans h.not_waiting) (h.calm (ih t).2)
  | call x t i st h ih =>
    have := (ih t).2
    rw [h] at this
    exact key ih hinv.1 hinv.2 this
  | answer x t i p st h ih =>
    have := (ih t).2
    rw [h] at this
    exact key ih hret.1 hret.2 this
  | ret x t p st h ih =>
    have := ih t
    rw [h] at this
    exact key ih (fun _ _ => rfl) (this.1.trans (Calm.not_waiting this.2).symm) (by
      have h2 := this.2
      simp only [List.tail_cons] at h2
      unfold Calm at h2
      split at h2
      · trivial
      · exact h2
      · exact h2.elim)
  | load x t k so f st h _ _ ih =>
    have := (ih t).2
    rw [h] at this
    exact key ih hinv.1 hinv.2 this
  | loaded x t k so f p st h ih =>
    have := (ih t).2
    rw [h] at this
    exact key ih hret.1 (hret.2.trans (afterLoad_calm _ _ _ _ _).symm) this
  | ask x t k so f v st h ih =>
    have := ih t
    rw [h] at this
    exact key ih (fun _ _ => rfl) this.1 this.2
  | reply x t k so f v a st h ih =>
    have := ih t
    rw [h] at this
    exact key ih (fun _ _ => rfl) (this.1.trans (afterF_calm _ _ _ _ _ _).symm) this.2
  | panic x t k so f v st h ih =>
    have := ih t
    rw [h] at this
    exact key ih (fun _ _ => rfl) this.1 this.2
  | cas x t k so f v n st h _ _ ih =>
    have := (ih t).2
    rw [h] at this
    exact key ih hinv.1 hinv.2 this
  | cased x t k so f v n p st h ih =>
    have := (ih t).2
    rw [h] at this
    exact key ih hret.1 (hret.2.trans (afterCas_calm _ _ _ _ _).symm) this
  | finish x t k so f r st h ih =>
    have := ih t
    rw [h] at this
    exact key ih (fun _ _ => rfl) (this.1.trans (Calm.not_waiting this.2).symm) (by
      have h2 := this.2
      simp only [List.tail_cons] at h2
      unfold Calm at h2
      split at h2
      · trivial
      · exact h2
      · exact h2.elim)

theorem idle_of_closed [DecidableEq V] {c : Fallback.Cfg V} {cells : Obj → V} {v0 : Nat → Nat} {ext : Nat → BitVec c.W}
    {hi : List (Verif.Ev V)} {s : Fallback.State V c.W} (hx : Exec c.Step (c.init cells v0 ext) hi s) {t : Tid} :
    opened (hi.map Compose.toObj) t = false → s.pc t = .idle := by
  generalize hi0 : c.init cells v0 ext = i0 at hx
  induction hx with
  | refl => subst hi0; intro _; rfl
  | tau x st ih =>
    intro h
    have h0 := ih h
    cases st with
    | act u a ha =>
      have e : t ≠ u := fun e => by rw [← e, h0] at ha; cases ha
      simp only [Fallback.Cfg.doAct, Function.update_of_ne e]
      exact h0
  | @ev h s1 e s2 x st ih =>
    intro hh
    rw [List.map_append, List.map_singleton, opened_snoc] at hh
    cases st with
    | inv u o op hp =>
      simp only [Compose.toObj] at hh
      by_cases e : u = t
      · simp [e] at hh
      · rw [if_neg e] at hh
        simp only [Function.update_of_ne (Ne.symm e)]
        exact ih hh
    | ret u r hp =>
      simp only [Compose.toObj] at hh
      by_cases e : u = t
      · subst e; simp
      · rw [if_neg e] at hh
        simp only [Function.update_of_ne (Ne.symm e)]
        exact ih hh

/-- A thread that is between calls stays so while only others return. -/
theorem stays_idle [DecidableEq V] {c : Fallback.Cfg V} {s s' : Fallback.State V c.W} {h : List (Verif.Ev V)} (hx : Exec c.Step s h s')
    {t : Tid} (ht : s.pc t = .idle) : (∀ e ∈ h, ∃ u r, e = .ret u r) →
    s'.pc t = .idle ∧ ∀ e ∈ h, ∃ u r, u ≠ t ∧ e = .ret u r := by
  induction hx with
  | refl => exact fun _ => ⟨ht, by simp⟩
  | tau x st ih =>
    intro h
    obtain ⟨h0, h1⟩ := ih h
    cases st with
    | act u a ha =>
      have e : t ≠ u := fun e => by rw [← e, h0] at ha; cases ha
      refine ⟨?_, h1⟩
      simp only [Fallback.Cfg.doAct, Function.update_of_ne e]
      exact h0
  | @ev h s1 e s2 x st ih =>
    intro hh
    obtain ⟨h0, h1⟩ := ih fun e he => hh e (by simp [he])
    cases st with
    | inv u o op hp => obtain ⟨u', r, e⟩ := hh (.inv u o op) (by simp); cases e
    | ret u r hp =>
      have e : u ≠ t := fun e => by rw [e, h0] at hp; cases hp
      refine ⟨?_, fun e' he => ?_⟩
      · simp only [Function.update_of_ne (Ne.symm e)]; exact h0
      · rcases List.mem_append.1 he with he | he
        · exact h1 _ he
        · obtain rfl := List.mem_singleton.1 he
          exact ⟨u, r, e, rfl⟩

/-- **C69i.** A closure never runs with a lock held: a thread inside a closure (or about to call it, or between its calls) is not in the
write section of any object, and every other thread's call can finish without it. So a closure may use the same atomic, or wait for
other threads that do, without deadlock. -/
theorem closure_holds_no_lock [DecidableEq V] {c : Fallback.Cfg V} (ok : c.Sound) {cells : Obj → V} {v0 : Nat → Nat}
    {ext : Nat → BitVec c.W} {hi : List (Verif.Ev V)} {s : Fallback.State V c.W}
    (hx : Exec c.Step (c.init cells v0 ext) hi s) {ho : List (Ev Obj V (Obj × Op V) (Res V))}
    {w : Tid → List (Fr Obj V (Obj × Op V) (Res V))} (x : Run (cellMethods Obj V) (hi.map Compose.toObj) ho w)
    {t : Tid} {k : Obj} {so f : MemOrd} {v : V} {st : List (Fr Obj V (Obj × Op V) (Res V))} (ht : w t = .upd k so f (.body v) :: st) :
    (∀ o, ¬ Fallback.InSection (s.pc t) o) ∧
    ∃ h' s', Exec c.Step s h' s' ∧ (∀ u, s'.pc u = .idle) ∧ ∀ e ∈ h', ∃ u r, u ≠ t ∧ e = .ret u r := by
  have hi := idle_of_closed hx ((run_waiting x t).1.trans (by rw [ht]; rfl))
  obtain ⟨h', s', h1, h2, h3⟩ := Fallback.no_deadlock ok hx
  refine ⟨fun o ho => ?_, h', s', h1, h2, (stays_idle h1 hi h3).2⟩
  rw [hi] at ho
  simp [Fallback.InSection] at ho

/-! ## An example: a closure that updates its own object -/

namespace Demo
open Fallback

def ops : List (Cmd (BitVec 128)) :=
  [.call 0 0 (.load .acquire)] ++ List.replicate 5 (.go 0) ++ [.ret 0] ++
  [.call 0 0 (.load .acquire)] ++ List.replicate 5 (.go 0) ++ [.ret 0] ++
  [.call 0 0 (.cas 5 6 .acqRel .acquire)] ++ List.replicate 7 (.go 0) ++ [.ret 0] ++
  [.call 0 0 (.cas 5 6 .acqRel .acquire)] ++ List.replicate 5 (.go 0) ++ [.ret 0] ++
  [.call 0 0 (.cas 6 7 .acqRel .acquire)] ++ List.replicate 7 (.go 0) ++ [.ret 0] ++
  [.call 0 0 (.load .acquire)] ++ List.replicate 5 (.go 0) ++ [.ret 0]

def s0 : Fallback.State (BitVec 128) Fallback.Demo.cfg.W := Fallback.Demo.cfg.init (fun _ => 5) (fun _ => 2 ^ 63 - 1) (fun _ => 0)

/-- The lock-based operations called. -/
def low : List (Verif.Ev (BitVec 128)) :=
  [.inv 0 0 (.load .acquire), .ret 0 (.val 5), .inv 0 0 (.load .acquire), .ret 0 (.val 5),
   .inv 0 0 (.cas 5 6 .acqRel .acquire), .ret 0 (.ok 5), .inv 0 0 (.cas 5 6 .acqRel .acquire), .ret 0 (.err 6),
   .inv 0 0 (.cas 6 7 .acqRel .acquire), .ret 0 (.ok 6), .inv 0 0 (.load .acquire), .ret 0 (.val 7)]

/-- What the user sees: the closure, asked about 5, itself adds one by `fetch_update`; so it is asked again, about 6. Then another call,
whose closure panics. -/
def high : List (Ev Obj (BitVec 128) (Obj × Op (BitVec 128)) (Res (BitVec 128))) :=
  [.update 0 0 .acqRel .acquire, .ask 0 5,
     .update 0 0 .acqRel .acquire, .ask 0 5, .reply 0 (some 6), .finish 0 (.ok 5),
   .reply 0 (some 6), .ask 0 6, .reply 0 (some 7), .finish 0 (.ok 6),
   .update 0 0 .acqRel .acquire, .ask 0 7, .panic 0, .finish 0 .panic]

set_option maxRecDepth 100000 in
theorem low_runs : Exec Fallback.Demo.cfg.Step s0 low (Fallback.Demo.cfg.final! s0 ops) := by
  have := Fallback.Demo.cfg.run_exec s0 ops (Fallback.Demo.ok.cmds _) (by decide +kernel)
  have e : Fallback.Demo.cfg.hist s0 ops = low := rfl
  rwa [e] at this

theorem high_runs : ∃ w, Run (cellMethods Obj (BitVec 128)) (low.map Compose.toObj) high w := by
  have r := Run.nil (M := cellMethods Obj (BitVec 128))
  have r := r.update 0 0 .acqRel .acquire trivial
  have r := r.load 0 0 .acqRel .acquire [] (by simp) _ rfl
  have r := r.loaded 0 0 .acqRel .acquire (.val 5) [] (by simp)
  have r := r.ask 0 0 .acqRel .acquire 5 [] (by simp [afterLoad, cellMethods])
  have r := r.update 0 0 .acqRel .acquire (by simp [CanCall])
  have r := r.load 0 0 .acqRel .acquire [.upd 0 .acqRel .acquire (.body 5)] (by simp) _ rfl
  have r := r.loaded 0 0 .acqRel .acquire (.val 5) [.upd 0 .acqRel .acquire (.body 5)] (by simp)
  have r := r.ask 0 0 .acqRel .acquire 5 [.upd 0 .acqRel .acquire (.body 5)] (by simp [afterLoad, cellMethods])
  have r := r.reply 0 0 .acqRel .acquire 5 (some 6) [.upd 0 .acqRel .acquire (.body 5)] (by simp)
  have r := r.cas 0 0 .acqRel .acquire 5 6 [.upd 0 .acqRel .acquire (.body 5)] (by simp [afterF]) _ rfl
  have r := r.cased 0 0 .acqRel .acquire 5 6 (.ok 5) [.upd 0 .acqRel .acquire (.body 5)] (by simp)
  have r := r.finish 0 0 .acqRel .acquire (.ok 5) [.upd 0 .acqRel .acquire (.body 5)] (by simp [afterCas, cellMethods])
  have r := r.reply 0 0 .acqRel .acquire 5 (some 6) [] (by simp)
  have r := r.cas 0 0 .acqRel .acquire 5 6 [] (by simp [afterF]) _ rfl
  have r := r.cased 0 0 .acqRel .acquire 5 6 (.err 6) [] (by simp)
  have r := r.ask 0 0 .acqRel .acquire 6 [] (by simp [afterCas, cellMethods])
  have r := r.reply 0 0 .acqRel .acquire 6 (some 7) [] (by simp)
  have r := r.cas 0 0 .acqRel .acquire 6 7 [] (by simp [afterF]) _ rfl
  have r := r.cased 0 0 .acqRel .acquire 6 7 (.ok 6) [] (by simp)
  have r := r.finish 0 0 .acqRel .acquire (.ok 6) [] (by simp [afterCas, cellMethods])
  have r := r.update 0 0 .acqRel .acquire (by simp [CanCall])
  have r := r.load 0 0 .acqRel .acquire [] (by simp) _ rfl
  have r := r.loaded 0 0 .acqRel .acquire (.val 7) [] (by simp)
  have r := r.ask 0 0 .acqRel .acquire 7 [] (by simp [afterLoad, cellMethods])
  have r := r.panic 0 0 .acqRel .acquire 7 [] (by simp)
  have r := r.finish 0 0 .acqRel .acquire .panic [] (by simp)
  exact ⟨_, r⟩

/-- The theorems apply to it: both updates count, the panicking one does not. -/
example : ∃ c', ExplainedTo ((Compose.opSpec (BitVec 128)).many (K := Obj)) (fun _ => 5) high c' ∧ c' 0 = (· + 1)^[2] 5 := by
  obtain ⟨w, hw⟩ := high_runs
  obtain ⟨c', h⟩ := fallback_update Fallback.Demo.ok.toSound (fun _ => trivial) low_runs
    (by rw [show Fallback.Demo.cfg.maxOverlap = 2 ^ 63 from rfl]; decide +kernel) hw
  refine ⟨c', h, ?_⟩
  have e : (seen 0 high).oks = 2 := by simp [seen, high, Seen.next]
  have := no_lost_update (k := 0) (g := (· + 1)) h (by intro t i hm; simp [high] at hm) ?_ ?_
  · rw [e] at this; exact this
  · intro h1 t x h2 hh v l ho
    have hn : h1.length < 14 := by
      have := congrArg List.length hh
      simp [high] at this
      omega
    have e1 : h1 = high.take h1.length := by rw [hh]; simp
    have e2 : high[h1.length]? = some (.reply t (some x)) := by rw [hh]; simp
    generalize h1.length = n at hn e1 e2
    subst e1
    obtain rfl | rfl | rfl | rfl | rfl | rfl | rfl | rfl | rfl | rfl | rfl | rfl | rfl | rfl : n = 0 ∨ n = 1 ∨ n = 2 ∨ n = 3 ∨ n = 4 ∨
      n = 5 ∨ n = 6 ∨ n = 7 ∨ n = 8 ∨ n = 9 ∨ n = 10 ∨ n = 11 ∨ n = 12 ∨ n = 13 := by omega
    all_goals simp [high] at e2
    all_goals
      obtain ⟨rfl, rfl⟩ := e2
      simp [seen, high, Seen.next] at ho
      obtain ⟨rfl, -⟩ := ho
      rfl
  · intro t k' o hm
    by_cases ht : t = 0
    · subst ht; simp [seen, high, Seen.next] at hm
    · simp [seen, high, Seen.next] at hm

end Demo
end Verif.Update
