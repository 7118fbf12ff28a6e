import Verif.Lf.LlSc
import Verif.Spec.Exclusive
/-!
# Exclusive access to lock-free atomics

The machine of `Lf.Machine` with, in addition, the owner of an object taking it out of circulation and putting it back:
`src/lib.rs` `new` L787 (bool), L1836 (pointer), L2825 (integer), L4259 (float); `get_mut` L896-899, L1946-1949, L2978-2982, L4381-4384
(all `&mut *self.as_ptr()` or a transmute); `into_inner` L923-928, L1975-1980, L3030-3035, L4399-4404 (all a transmute).
-/
set_option autoImplicit false
set_option linter.unusedSectionVars false
namespace Verif.Lf
open Verif.Object

variable {K X L O R W : Type} [DecidableEq K]

/-- State.  `out k`: the object is in its owner's hands (mutably borrowed, moved out, or not constructed), which Rust's borrow
checker knows and the program does not. -/
structure XState (K X L : Type) where
  s : State (K → X) L
  out : K → Bool

/-- Steps.  `key l` is the object a call in local state `l` works on; `is x w` says that the memory contents `x` are a value `w` of
the object's type.  The guards are Rust's borrowing rules: an object can be taken out only when no call on it is open, and no call on
it can be made until it is put back.
* `take`: `get_mut` (`src/lib.rs` L2978) or `into_inner` (L3030); * `raw`: the owner writes; * `put`: end of the borrow, or `new` (L2825). -/
inductive XStep (I : Sys (K → X) L (K × O) R) (key : L → K) (is : X → W → Prop) :
    XState K X L → Option (Excl.Ev (Object.Ev (K × O) R) K W) → XState K X L → Prop where
  | act (x : XState K X L) (s' : State (K → X) L) (h : Step I x.s none s') : XStep I key is x none { x with s := s' }
  | inv (x : XState K X L) (s' : State (K → X) L) (t : Tid) (op : K × O) (h : Step I x.s (some (.inv t op)) s')
      (ho : x.out op.1 = false) : XStep I key is x (some (.call (.inv t op))) { x with s := s' }
  | ret (x : XState K X L) (s' : State (K → X) L) (t : Tid) (r : R) (h : Step I x.s (some (.ret t r)) s') :
      XStep I key is x (some (.call (.ret t r))) { x with s := s' }
  | take (x : XState K X L) (k : K) (w : W) (ho : x.out k = false) (hx : ∀ t l, x.s.th t = some l → key l ≠ k)
      (hw : is (x.s.mem k) w) : XStep I key is x (some (.take k w)) { x with out := Function.update x.out k true }
  | raw (x : XState K X L) (k : K) (y : X) (ho : x.out k = true) :
      XStep I key is x none { x with s := { x.s with mem := Function.update x.s.mem k y } }
  | put (x : XState K X L) (k : K) (w : W) (ho : x.out k = true) (hw : is (x.s.mem k) w) :
      XStep I key is x (some (.put k w)) { x with out := Function.update x.out k false }

/-- Runs from memory `m` with no calls, the objects in `out0` not constructed yet. -/
def XRuns (I : Sys (K → X) L (K × O) R) (key : L → K) (is : X → W → Prop) (m : K → X) (out0 : K → Bool)
    (h : List (Excl.Ev (Object.Ev (K × O) R) K W)) (x : XState K X L) : Prop :=
  Exec (XStep I key is) { s := { mem := m, th := fun _ => none }, out := out0 } h x

/-! ## Proof internals -/

namespace PSim
variable {M C O' : Type} {I : Sys M L O' R} {S : Spec C O' R}

/-- All combinations of possible statuses are in `P`. -/
def RelP (Y : PSim I S) (P : Object.State C O' R → Prop) (s : State M L) : Prop :=
  Y.inv s.mem ∧ ∃ T : Tid → Status O' R → Prop,
    (∀ t, ∃ st, T t st) ∧
    (∀ t, (s.th t = none ∧ T t = (· = .idle)) ∨ ∃ l, s.th t = some l ∧ Y.at_ t s.mem l (T t)) ∧
    ∀ f : Tid → Status O' R, (∀ t, T t (f t)) → P { obj := Y.abs s.mem, th := f }

theorem relP_step (Y : PSim I S) {P P' : Object.State C O' R → Prop} {e : Option (Object.Ev O' R)} {s s' : State M L}
    (h0 : e = none → ∀ a, P a → P' a) (h1 : ∀ a a', P a → Object.Step S a e a' → P' a') (st : Step I s e s')
    (R0 : Y.RelP P s) : Y.RelP P' s' := by
  obtain ⟨hi, T, hne, h2, h3⟩ := R0
  cases st with
  | act t l l' m' h hs =>
    rcases h2 t with h | ⟨k, hk, hat⟩
    · simp_all
    obtain rfl : k = l := by simp_all
    obtain ⟨hi', T', hat', ⟨st0, hst0⟩, hp⟩ := Y.step _ _ _ _ _ _ hi hat hs
    refine ⟨hi', Function.update T t T', fun u => ?_, fun u => ?_, fun f hf => ?_⟩
    · by_cases hu : u = t
      · subst hu; exact ⟨st0, by simpa using hst0⟩
      · simpa [Function.update_of_ne hu] using hne u
    · by_cases hu : u = t
      · subst hu; exact Or.inr ⟨l', by simp, by simpa using hat'⟩
      · simp only [Function.update_of_ne hu]
        rcases h2 u with h | ⟨k', hk', hat''⟩
        · exact Or.inl h
        · exact Or.inr ⟨k', hk', Y.stable _ _ _ _ _ _ hi hat hs _ _ _ hu hat''⟩
    · have hft : T' (f t) := by simpa using hf t
      have hfu : ∀ u, u ≠ t → T u (f u) := fun u hu => by
        simpa [Function.update_of_ne hu] using hf u
      rcases hp _ hft with ⟨e, hT⟩ | ⟨op, r, hT, e, hsem⟩
      · rw [e]
        refine h0 rfl _ (h3 f fun u => ?_)
        by_cases hu : u = t
        · subst hu; exact hT
        · exact hfu u hu
      · have hg := h3 (Function.update f t (.pending op)) fun u => by
          by_cases hu : u = t
          · subst hu; simpa using hT
          · simpa [Function.update_of_ne hu] using hfu u hu
        have hc := h1 _ _ hg (Object.Step.commit _ t op (Y.abs m') r (by simp) hsem)
        simp only [Function.update_idem] at hc
        rw [← e, Function.update_eq_self] at hc
        exact hc
  | inv t op h =>
    rcases h2 t with ⟨_, hid⟩ | ⟨k, hk, _⟩
    · refine ⟨hi, Function.update T t (· = .pending op), fun u => ?_, fun u => ?_, fun f hf => ?_⟩
      · by_cases hu : u = t
        · subst hu; exact ⟨.pending op, by simp⟩
        · simpa [Function.update_of_ne hu] using hne u
      · by_cases hu : u = t
        · subst hu; exact Or.inr ⟨I.start u op, by simp, by simpa using Y.start u _ op hi⟩
        · simp only [Function.update_of_ne hu]; exact h2 u
      · have hft : f t = .pending op := by simpa using hf t
        have hg := h3 (Function.update f t .idle) fun u => by
          by_cases hu : u = t
          · subst hu; simp [hid]
          · simpa [Function.update_of_ne hu] using hf u
        have hc := h1 _ _ hg (Object.Step.inv _ t op (by simp))
        simp only [Function.update_idem] at hc
        rw [← hft, Function.update_eq_self] at hc
        exact hc
    · simp_all
  | ret t l r h hr =>
    rcases h2 t with h | ⟨k, hk, hat⟩
    · simp_all
    obtain rfl : k = l := by simp_all
    have e := Y.ret _ _ _ _ _ hi hat hr
    refine ⟨hi, Function.update T t (· = .idle), fun u => ?_, fun u => ?_, fun f hf => ?_⟩
    · by_cases hu : u = t
      · subst hu; exact ⟨.idle, by simp⟩
      · simpa [Function.update_of_ne hu] using hne u
    · by_cases hu : u = t
      · subst hu; exact Or.inl (by simp)
      · simp only [Function.update_of_ne hu]; exact h2 u
    · have hft : f t = .idle := by simpa using hf t
      have hg := h3 (Function.update f t (.done r)) fun u => by
        by_cases hu : u = t
        · subst hu; simpa using e
        · simpa [Function.update_of_ne hu] using hf u
      have hc := h1 _ _ hg (Object.Step.ret _ t r (by simp))
      have hu : Function.update f t Status.idle = f := by rw [← hft, Function.update_eq_self]
      simp only [Function.update_idem, hu] at hc
      exact hc

end PSim

/-- A simulation in which every call works on one object. -/
structure Keyed (I : Sys (K → X) L (K × O) R) (S : Spec W O R) (key : L → K) where
  sim : PSim I (S.many (K := K))
  abs0 : X → W
  inv0 : X → Prop
  abs_eq : ∀ m, sim.abs m = fun k => abs0 (m k)
  inv_eq : ∀ m, sim.inv m ↔ ∀ k, inv0 (m k)
  at_congr : ∀ t m m' l T, m (key l) = m' (key l) → sim.at_ t m l T → sim.at_ t m' l T
  key_start : ∀ t op, key (I.start t op) = op.1
  key_step : ∀ t l m l' m', I.step t l m l' m' → key l' = key l ∧
    ∀ m₂ : K → X, m₂ (key l) = m (key l) → ∃ y, m' = Function.update m (key l) y ∧ I.step t l m₂ l' (Function.update m₂ (key l) y)

namespace Keyed
variable {I : Sys (K → X) L (K × O) R} {S : Spec W O R} {key : L → K}

/-- The invariant of runs with exclusive access. -/
def XInv (Z : Keyed I S key) (c0 : K → W) (h : List (Excl.Ev (Object.Ev (K × O) R) K W)) (x : XState K X L) : Prop :=
  (∀ t l, x.s.th t = some l → x.out (key l) = false) ∧
  ∃ m, (∀ k, x.out k = false → m k = x.s.mem k) ∧
    Z.sim.RelP (fun a => Exec (Excl.ObjectStep S) { obj := c0, th := fun _ => .idle } h a) { mem := m, th := x.s.th }

theorem step_agree (Z : Keyed I S key) {s s' : State (K → X) L} {e : Option (Object.Ev (K × O) R)} (st : Step I s e s')
    {out : K → Bool} {m : K → X} (hm : ∀ k, out k = false → m k = s.mem k)
    (hk : ∀ t l, s.th t = some l → out (key l) = false) :
    ∃ m', (∀ k, out k = false → m' k = s'.mem k) ∧ Step I { mem := m, th := s.th } e { mem := m', th := s'.th } := by
  cases st with
  | inv t op h => exact ⟨m, hm, .inv _ t op h⟩
  | ret t l r h hr => exact ⟨m, hm, .ret _ t l r h hr⟩
  | act t l l' m' h hs =>
    obtain ⟨y, h1, h2⟩ := (Z.key_step _ _ _ _ _ hs).2 m (hm _ (hk _ _ h))
    refine ⟨Function.update m (key l) y, fun k ho => ?_, .act _ t l l' _ h h2⟩
    rw [h1]
    by_cases e : k = key l
    · subst e; simp
    · simpa [Function.update_of_ne e] using hm k ho

theorem key_keep (Z : Keyed I S key) {s s' : State (K → X) L} {e : Option (Object.Ev (K × O) R)} (st : Step I s e s')
    {out : K → Bool} (ho : ∀ t op, e = some (.inv t op) → out op.1 = false)
    (hk : ∀ t l, s.th t = some l → out (key l) = false) : ∀ t l, s'.th t = some l → out (key l) = false := by
  intro u l hl
  cases st with
  | inv t op h =>
    by_cases e : u = t
    · subst e
      simp only [Function.update_self, Option.some.injEq] at hl
      subst hl
      rw [Z.key_start]; exact ho _ _ rfl
    · simp only [Function.update_of_ne e] at hl; exact hk _ _ hl
  | ret t l r h hr =>
    by_cases e : u = t
    · subst e; simp at hl
    · simp only [Function.update_of_ne e] at hl; exact hk _ _ hl
  | act t l0 l' m' h hs =>
    by_cases e : u = t
    · subst e
      simp only [Function.update_self, Option.some.injEq] at hl
      subst hl
      rw [(Z.key_step _ _ _ _ _ hs).1]; exact hk _ _ h
    · simp only [Function.update_of_ne e] at hl; exact hk _ _ hl

theorem xinv_step (Z : Keyed I S key) {is : X → W → Prop} (his : ∀ x w, is x w ↔ Z.inv0 x ∧ Z.abs0 x = w) {c0 : K → W}
    {h : List (Excl.Ev (Object.Ev (K × O) R) K W)} {x x' : XState K X L} {e : Option (Excl.Ev (Object.Ev (K × O) R) K W)}
    (H : Z.XInv c0 h x) (st : XStep I key is x e x') : Z.XInv c0 (h ++ e.toList) x' := by
  obtain ⟨h1, m, h2, h3⟩ := H
  have prog : ∀ {e0 : Option (Object.Ev (K × O) R)} {s'}, Step I x.s e0 s' →
      (∀ t op, e0 = some (.inv t op) → x.out op.1 = false) →
      Z.XInv c0 (h ++ (e0.map Excl.Ev.call).toList) { x with s := s' } := by
    intro e0 s' hs ho
    obtain ⟨m', h4, h5⟩ := Z.step_agree hs h2 h1
    refine ⟨Z.key_keep hs ho h1, m', h4, Z.sim.relP_step ?_ ?_ h5 h3⟩
    · rintro rfl a ha; simpa using ha
    · intro a a' ha hst
      cases e0 with
      | none => simpa using Exec.tau ha (.tau _ _ hst)
      | some e1 => exact .ev ha (.call _ _ _ hst)
  cases st with
  | act s' hs => exact prog hs (fun t op e => by cases e)
  | inv s' t op hs ho => exact prog hs (fun t op e => by cases e; exact ho)
  | ret s' t r hs => exact prog hs (fun t op e => by cases e)
  | take k w ho hx hw =>
    obtain ⟨h4, T, h5, h6, h7⟩ := h3
    refine ⟨fun t l hl => ?_, m, fun k' hk' => ?_, h4, T, h5, h6, fun f hf => ?_⟩
    · dsimp only; rw [Function.update_of_ne (hx t l hl)]; exact h1 t l hl
    · by_cases e : k' = k
      · subst e; simp at hk'
      · dsimp only at hk'; rw [Function.update_of_ne e] at hk'; exact h2 _ hk'
    · have hv : Z.sim.abs m k = w := by
        rw [Z.abs_eq]
        dsimp only
        rw [h2 k ho]; exact ((his _ _).1 hw).2
      have := Exec.ev (h7 f hf) (Excl.With.take _ k)
      dsimp only at this
      rw [hv] at this
      exact this
  | raw k y ho =>
    refine ⟨h1, m, fun k' hk' => ?_, by simpa using h3⟩
    have e : k' ≠ k := fun e => by subst e; rw [hk'] at ho; cases ho
    simpa [Function.update_of_ne e] using h2 k' hk'
  | put k w ho hw =>
    obtain ⟨h4, T, h5, h6, h7⟩ := h3
    have hno : ∀ t l, x.s.th t = some l → key l ≠ k := fun t l hl e => by
      have := h1 t l hl
      rw [e, ho] at this; cases this
    refine ⟨fun t l hl => ?_, Function.update m k (x.s.mem k), fun k' hk' => ?_, ?_, T, h5, fun t => ?_, fun f hf => ?_⟩
    · dsimp only; rw [Function.update_of_ne (hno t l hl)]; exact h1 t l hl
    · by_cases e : k' = k
      · subst e; simp
      · dsimp only at hk' ⊢; rw [Function.update_of_ne e] at hk' ⊢; exact h2 _ hk'
    · refine (Z.inv_eq _).2 fun k' => ?_
      by_cases e : k' = k
      · subst e; simpa using ((his _ _).1 hw).1
      · simpa [Function.update_of_ne e] using (Z.inv_eq _).1 h4 k'
    · rcases h6 t with h | ⟨l, hl, hat⟩
      · exact .inl h
      · exact .inr ⟨l, hl, Z.at_congr _ _ _ _ _ (Function.update_of_ne (hno t l hl) _ _).symm hat⟩
    · have := Exec.ev (h7 f hf) (Excl.With.put _ k w)
      have e : Z.sim.abs (Function.update m k (x.s.mem k)) = Function.update (Z.sim.abs m) k w := by
        rw [Z.abs_eq, Z.abs_eq]
        funext k'
        by_cases e : k' = k
        · subst e; simpa using ((his _ _).1 hw).2
        · simp [Function.update_of_ne e]
      simp only
      rw [e]
      exact this

/-- Every history with exclusive accesses is linearizable, and every object in circulation holds a value of its type, the one the
linearization ends in. -/
theorem xlinearizable (Z : Keyed I S key) {is : X → W → Prop} (his : ∀ x w, is x w ↔ Z.inv0 x ∧ Z.abs0 x = w) {m : K → X}
    (hm : ∀ k, Z.inv0 (m k)) {out0 : K → Bool} {h : List (Excl.Ev (Object.Ev (K × O) R) K W)} {x : XState K X L}
    (hx : XRuns I key is m out0 h x) :
    ∃ c', Excl.LinearizableTo S (fun k => Z.abs0 (m k)) h c' ∧ ∀ k, x.out k = false → is (x.s.mem k) (c' k) := by
  have H : Z.XInv (fun k => Z.abs0 (m k)) h x := by
    unfold XRuns at hx
    generalize hi : ({ s := { mem := m, th := fun _ => none }, out := out0 } : XState K X L) = i at hx
    induction hx with
    | refl =>
      subst hi
      refine ⟨fun t l hl => by simp at hl, m, fun _ _ => rfl, (Z.inv_eq m).2 hm, fun _ => (· = .idle), fun _ => ⟨_, rfl⟩,
        fun t => Or.inl ⟨rfl, rfl⟩, fun f hf => ?_⟩
      rw [show f = fun _ => Status.idle from funext hf, Z.abs_eq]
      exact .refl _
    | tau _ st ih => simpa using Z.xinv_step his ih st
    | ev _ st ih => exact Z.xinv_step his ih st
  obtain ⟨-, m', h2, h3, T, h4, -, h6⟩ := H
  refine ⟨_, ⟨_, h6 (fun t => (h4 t).choose) (fun t => (h4 t).choose_spec), rfl⟩, fun k hk => ?_⟩
  rw [his, ← h2 k hk, Z.abs_eq]
  exact ⟨(Z.inv_eq _).1 h3 k, rfl⟩

end Keyed

/-- Programs made of whole-cell accesses. -/
def CodeSim.keyed {V : Type} [DecidableEq V] {c : Code V O R L} {S : Spec W O R} (Y : CodeSim c S) :
    Keyed (c.sys K) S Prod.fst where
  sim :=
    { abs := fun m k => Y.abs (m k)
      inv := fun m => ∀ k, Y.inv (m k)
      at_ := fun t m l T => ∃ st, T = (· = st) ∧ Y.toSim.at_ t m l st
      start := fun t m op h => ⟨_, rfl, Y.toSim.start t m op h⟩
      step := by
        rintro t m l l' m' _ hi ⟨st, rfl, hat⟩ hs
        obtain ⟨h1, ⟨h2, h3⟩ | ⟨op, r, rfl, h2, h3⟩⟩ := Y.toSim.step _ _ _ _ _ _ hi hat hs
        · refine ⟨h1, _, ⟨_, rfl, h3⟩, ⟨_, rfl⟩, ?_⟩
          rintro _ rfl
          exact .inl ⟨h2, rfl⟩
        · exact ⟨h1, _, ⟨_, rfl, h3⟩, Post.commit rfl h2⟩
      stable := by
        rintro t m l l' m' _ hi ⟨st, rfl, hat⟩ hs u k _ hu ⟨st', rfl, hat'⟩
        exact ⟨_, rfl, Y.toSim.stable _ _ _ _ _ _ hi hat hs _ _ _ hu hat'⟩
      ret := by
        rintro t m l _ r hi ⟨st, rfl, hat⟩ hr
        exact (Y.toSim.ret _ _ _ _ _ hi hat hr).symm }
  abs0 := Y.abs
  inv0 := Y.inv
  abs_eq _ := rfl
  inv_eq _ := Iff.rfl
  at_congr _ _ _ _ _ _ h := h
  key_start _ _ := rfl
  key_step := by
    rintro t ⟨k, l⟩ m l' m' (⟨j, hn, rfl, rfl⟩ | ⟨a, f, x, r, hn, hs, rfl, rfl⟩)
    · refine ⟨rfl, fun m₂ h => ⟨m' k, (Function.update_eq_self _ _).symm, .inl ⟨j, hn, rfl, ?_⟩⟩⟩
      rw [← h]; exact Function.update_eq_self _ _
    · refine ⟨rfl, fun m₂ h => ⟨x, rfl, .inr ⟨a, f, x, r, hn, ?_, rfl, rfl⟩⟩⟩
      rw [h]; exact hs

/-- Programs with load-linked and store-conditional. -/
def LlSc.RSim.keyed {V : Type} [DecidableEq V] {c : LlSc.Code V O R L} {S : Spec V O R} (Y : LlSc.RSim c S) :
    Keyed (c.sys K) S Prod.fst where
  sim := Y.toPSim
  abs0 c := c.val
  inv0 _ := True
  abs_eq _ := rfl
  inv_eq _ := ⟨fun _ _ => trivial, fun _ => trivial⟩
  at_congr := by
    rintro t m m' l T h ⟨T0, l', h1, h2, h3, h4, h5⟩
    exact ⟨T0, l', h1, h2, h3, h4, fun v hv => by rw [← h]; exact h5 v hv⟩
  key_start _ _ := rfl
  key_step := by
    rintro t l m l' m' h
    cases h with
    | tau k l ρ m l' hn =>
      refine ⟨rfl, fun m₂ h => ⟨m k, (Function.update_eq_self _ _).symm, ?_⟩⟩
      rw [← h, show Function.update m₂ _ _ = m₂ from Function.update_eq_self _ _]
      exact .tau _ _ _ _ _ hn
    | acc k l ρ m a f x r n hn hs hv =>
      refine ⟨rfl, fun m₂ h => ⟨_, rfl, ?_⟩⟩
      simp only at h
      exact .acc _ _ _ _ _ _ _ _ _ hn (h ▸ hs) (by rw [h]; exact hv)
    | ll k l ρ m f hn =>
      refine ⟨rfl, fun m₂ h => ⟨m k, (Function.update_eq_self _ _).symm, ?_⟩⟩
      simp only at h
      rw [← h, show Function.update m₂ _ _ = m₂ from Function.update_eq_self _ _]
      exact .ll _ _ _ _ _ hn
    | scOk k l m v f hn =>
      refine ⟨rfl, fun m₂ h => ⟨_, rfl, ?_⟩⟩
      simp only at h
      rw [← h]
      exact .scOk _ _ _ _ _ hn
    | scFail k l ρ m v f hn =>
      refine ⟨rfl, fun m₂ h => ⟨m k, (Function.update_eq_self _ _).symm, ?_⟩⟩
      simp only at h
      rw [← h, show Function.update m₂ _ _ = m₂ from Function.update_eq_self _ _]
      exact .scFail _ _ _ _ _ _ hn

end Verif.Lf
