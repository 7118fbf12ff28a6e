import Verif.Lf.Access
/-!
# Code with load-linked / store-conditional

Extends `Lf.Access` by a reservation (the exclusive monitor of Arm, the reservation of Power).

Trusted meaning: a store-conditional may succeed only if no write to the object happened since the
thread's last load-linked; it may always fail.  The number of writes so far is kept beside the
object's value (`Cell.ver`); a reservation remembers that number.  An access that leaves the value
as it was may or may not count as a write.

`PSim` is the general proof rule: a call is related to a *set* of possible statuses, because a call
that may still fail spuriously returns a value it read earlier.
-/
set_option autoImplicit false
set_option linter.unusedSectionVars false
namespace Verif.Lf
open Verif.Object

section PSim
variable {M L O R C : Type}

/-- How the possible statuses of a call may change in a step that takes the object from `c` to
`c'`: nothing happened, or the operation took effect. -/
def Post (S : Spec C O R) (c c' : C) (T T' : Status O R → Prop) : Prop :=
  (∃ st, T' st) ∧ ∀ st', T' st' → (c' = c ∧ T st') ∨
    ∃ op r, T (.pending op) ∧ st' = .done r ∧ S.sem op c c' r

theorem Post.same (S : Spec C O R) (c : C) {T : Status O R → Prop} (h : ∃ st, T st) :
    Post S c c T T := ⟨h, fun _ h => Or.inl ⟨rfl, h⟩⟩

theorem Post.commit {S : Spec C O R} {c c' : C} {T : Status O R → Prop} {op : O} {r : R}
    (h : T (.pending op)) (hs : S.sem op c c' r) : Post S c c' T (· = .done r) :=
  ⟨⟨_, rfl⟩, fun st e => Or.inr ⟨op, r, h, e, hs⟩⟩

/-- Simulation by sets of possible statuses. -/
structure PSim (I : Sys M L O R) (S : Spec C O R) where
  abs : M → C
  inv : M → Prop
  at_ : Tid → M → L → (Status O R → Prop) → Prop
  start : ∀ t m op, inv m → at_ t m (I.start t op) (· = .pending op)
  step : ∀ t m l l' m' T, inv m → at_ t m l T → I.step t l m l' m' →
    inv m' ∧ ∃ T', at_ t m' l' T' ∧ Post S (abs m) (abs m') T T'
  stable : ∀ t m l l' m' T, inv m → at_ t m l T → I.step t l m l' m' →
    ∀ u k T', u ≠ t → at_ u m k T' → at_ u m' k T'
  ret : ∀ t m l T r, inv m → at_ t m l T → I.ret l = some r → T (.done r)

namespace PSim
variable {I : Sys M L O R} {S : Spec C O R}

/-- All combinations of possible statuses are reached by the specification. -/
def Rel (X : PSim I S) (c0 : C) (h : List (Object.Ev O R)) (s : State M L) : Prop :=
  X.inv s.mem ∧ ∃ T : Tid → Status O R → Prop,
    (∀ t, ∃ st, T t st) ∧
    (∀ t, (s.th t = none ∧ T t = (· = .idle)) ∨ ∃ l, s.th t = some l ∧ X.at_ t s.mem l (T t)) ∧
    ∀ f : Tid → Status O R, (∀ t, T t (f t)) →
      Exec (Object.Step S) { obj := c0, th := fun _ => .idle } h { obj := X.abs s.mem, th := f }

theorem exec (X : PSim I S) {m : M} (hm : X.inv m) {h s} (hx : Runs I m h s) :
    X.Rel (X.abs m) h s := by
  generalize hi : ({ mem := m, th := fun _ => none } : State M L) = i at hx
  unfold Runs at hx
  rw [hi] at hx
  induction hx with
  | refl =>
    subst hi
    refine ⟨hm, fun _ => (· = .idle), fun _ => ⟨_, rfl⟩, fun t => Or.inl ⟨rfl, rfl⟩, fun f hf => ?_⟩
    rw [show f = fun _ => Status.idle from funext hf]
    exact .refl _
  | tau _ st ih =>
    obtain ⟨h1, T, hne, h2, h3⟩ := ih
    cases st with
    | act t l l' m' h hs =>
      rcases h2 t with h | ⟨k, hk, hat⟩
      · simp_all
      obtain rfl : k = l := by simp_all
      obtain ⟨hi', T', hat', ⟨st0, hst0⟩, hp⟩ := X.step _ _ _ _ _ _ h1 hat hs
      refine ⟨hi', Function.update T t T', fun u => ?_, fun u => ?_, fun f hf => ?_⟩
      · by_cases hu : u = t
        · subst hu; exact ⟨st0, by simpa using hst0⟩
        · simpa [Function.update_of_ne hu] using hne u
      · by_cases hu : u = t
        · subst hu; exact Or.inr ⟨l', by simp, by simpa using hat'⟩
        · simp only [Function.update_of_ne hu]
          rcases h2 u with h | ⟨k', hk', hat''⟩
          · exact Or.inl h
          · exact Or.inr ⟨k', hk', X.stable _ _ _ _ _ _ h1 hat hs _ _ _ hu hat''⟩
      · have hft : T' (f t) := by simpa using hf t
        have hfu : ∀ u, u ≠ t → T u (f u) := fun u hu => by
          simpa [Function.update_of_ne hu] using hf u
        rcases hp _ hft with ⟨e, hT⟩ | ⟨op, r, hT, e, hsem⟩
        · rw [e]
          refine h3 f fun u => ?_
          by_cases hu : u = t
          · subst hu; exact hT
          · exact hfu u hu
        · have hg := h3 (Function.update f t (.pending op)) fun u => by
            by_cases hu : u = t
            · subst hu; simpa using hT
            · simpa [Function.update_of_ne hu] using hfu u hu
          have hc := Exec.tau hg (Object.Step.commit _ t op (X.abs m') r (by simp) hsem)
          simp only [Function.update_idem] at hc
          rw [← e, Function.update_eq_self] at hc
          exact hc
  | ev _ st ih =>
    obtain ⟨h1, T, hne, h2, h3⟩ := ih
    cases st with
    | inv t op h =>
      rcases h2 t with ⟨_, hid⟩ | ⟨k, hk, _⟩
      · refine ⟨h1, Function.update T t (· = .pending op), fun u => ?_, fun u => ?_, fun f hf => ?_⟩
        · by_cases hu : u = t
          · subst hu; exact ⟨.pending op, by simp⟩
          · simpa [Function.update_of_ne hu] using hne u
        · by_cases hu : u = t
          · subst hu; exact Or.inr ⟨I.start u op, by simp, by simpa using X.start u _ op h1⟩
          · simp only [Function.update_of_ne hu]; exact h2 u
        · have hft : f t = .pending op := by simpa using hf t
          have hg := h3 (Function.update f t .idle) fun u => by
            by_cases hu : u = t
            · subst hu; simp [hid]
            · simpa [Function.update_of_ne hu] using hf u
          have hc := Exec.ev hg (Object.Step.inv _ t op (by simp))
          simp only [Function.update_idem] at hc
          rw [← hft, Function.update_eq_self] at hc
          exact hc
      · simp_all
    | ret t l r h hr =>
      rcases h2 t with h | ⟨k, hk, hat⟩
      · simp_all
      obtain rfl : k = l := by simp_all
      have e := X.ret _ _ _ _ _ h1 hat hr
      refine ⟨h1, Function.update T t (· = .idle), fun u => ?_, fun u => ?_, fun f hf => ?_⟩
      · by_cases hu : u = t
        · subst hu; exact ⟨.idle, by simp⟩
        · simpa [Function.update_of_ne hu] using hne u
      · by_cases hu : u = t
        · subst hu; exact Or.inl (by simp)
        · simp only [Function.update_of_ne hu]; exact h2 u
      · have hft : f t = .idle := by simpa using hf t
        have hg := h3 (Function.update f t (.done r)) fun u => by
          by_cases hu : u = t
          · subst hu; simpa using e
          · simpa [Function.update_of_ne hu] using hf u
        have hc := Exec.ev hg (Object.Step.ret _ t r (by simp))
        have hu : Function.update f t Status.idle = f := by rw [← hft, Function.update_eq_self]
        simp only [Function.update_idem, hu] at hc
        exact hc

/-- Every history is linearizable and ends in the object state found in memory. -/
theorem linearizable (X : PSim I S) {m : M} (hm : X.inv m) {h s} (hx : Runs I m h s) :
    LinearizableTo S (X.abs m) h (X.abs s.mem) := by
  obtain ⟨_, T, hne, _, h3⟩ := X.exec hm hx
  exact ⟨_, h3 (fun t => (hne t).choose) (fun t => (hne t).choose_spec), rfl⟩

end PSim
end PSim

namespace LlSc
variable {V O R L K : Type} [DecidableEq V] [DecidableEq K]

/-- What the program does next. -/
inductive Next (V R L : Type) where
  | ret (r : R)
  | tau (l : L)
  | acc (a : Acc V) (k : Res V → L)
  /-- load-linked: reads the object and takes a reservation -/
  | ll (k : V → L)
  /-- store-conditional: the argument of `k` says whether it stored -/
  | sc (v : V) (k : Bool → L)

/-- A family of programs, one per operation. -/
structure Code (V O R L : Type) where
  start : O → L
  next : L → Next V R L

/-- An object in memory: its value and how often it was written. -/
structure Cell (V : Type) where
  val : V
  ver : Nat

/-- One step of a thread working on object `k` with reservation `ρ`. -/
inductive Code.Step (c : Code V O R L) :
    (K × L × Option Nat) → (K → Cell V) → (K × L × Option Nat) → (K → Cell V) → Prop where
  | tau (k l ρ m l') (h : c.next l = .tau l') : Code.Step c (k, l, ρ) m (k, l', ρ) m
  | acc (k l ρ) (m : K → Cell V) (a f x r n) (h : c.next l = .acc a f) (hs : a.sem (m k).val x r)
      (hn : (x = (m k).val ∧ n = (m k).ver) ∨ n = (m k).ver + 1) :
      Code.Step c (k, l, ρ) m (k, f r, ρ) (Function.update m k ⟨x, n⟩)
  | ll (k l ρ) (m : K → Cell V) (f) (h : c.next l = .ll f) :
      Code.Step c (k, l, ρ) m (k, f (m k).val, some (m k).ver) m
  | scOk (k l) (m : K → Cell V) (v f) (h : c.next l = .sc v f) :
      Code.Step c (k, l, some (m k).ver) m (k, f true, none)
        (Function.update m k ⟨v, (m k).ver + 1⟩)
  | scFail (k l ρ m v f) (h : c.next l = .sc v f) :
      Code.Step c (k, l, ρ) m (k, f false, none) m

/-- The programs running on many objects (named by `K`), any number of threads. -/
def Code.sys (K : Type) [DecidableEq K] (c : Code V O R L) :
    Sys (K → Cell V) (K × L × Option Nat) (K × O) R where
  start _ op := (op.1, c.start op.2, none)
  step _ l m l' m' := c.Step l m l' m'
  ret l := match c.next l.2.1 with
    | .ret r => some r
    | _ => none

/-- `l'` is reached from `l` by local steps only. -/
inductive Code.Adv (c : Code V O R L) : L → L → Prop where
  | refl (l) : Code.Adv c l l
  | head {l k l'} (h : c.next l = .tau k) (t : Code.Adv c k l') : Code.Adv c l l'

/-- Running alone from here (every store-conditional with a reservation succeeds), the call ends,
whatever the accesses with several outcomes return, with a result and a value in `Q`.  The flag says
whether the reservation is held; an access that changes the value ends it. -/
inductive Code.Ends (c : Code V O R L) (Q : R → V → Prop) : L → Bool → V → Prop where
  | ret {l ρ x r} (h : c.next l = .ret r) (hq : Q r x) : Code.Ends c Q l ρ x
  | tau {l ρ x l'} (h : c.next l = .tau l') (t : Code.Ends c Q l' ρ x) : Code.Ends c Q l ρ x
  | acc {l ρ x a f} (h : c.next l = .acc a f)
      (t : ∀ x' r, a.sem x x' r → Code.Ends c Q (f r) (ρ && decide (x' = x)) x') : Code.Ends c Q l ρ x
  | ll {l ρ x f} (h : c.next l = .ll f) (t : Code.Ends c Q (f x) true x) : Code.Ends c Q l ρ x
  | sc {l x v f} (h : c.next l = .sc v f) (t : Code.Ends c Q (f true) false v) :
      Code.Ends c Q l true x

theorem Code.Adv.ends {c : Code V O R L} {Q : R → V → Prop} {l l' : L} {ρ : Bool} {x : V}
    (h : c.Adv l l') (t : c.Ends Q l' ρ x) : c.Ends Q l ρ x := by
  induction h with
  | refl => exact t
  | head e _ ih => exact .tau e (ih t)

/-- Proof obligations, stated only at the memory accesses and at the returns. -/
structure RSim (c : Code V O R L) (S : Spec V O R) where
  /-- the call is about to access memory or return at this point -/
  A : L → (Status O R → Prop) → Prop
  /-- what is known of the object while the reservation holds -/
  G : L → V → Prop
  nt : ∀ l T k, A l T → c.next l ≠ .tau k
  start : ∀ op, ∃ l, c.Adv (c.start op) l ∧ A l (· = .pending op)
  acc : ∀ l T a f x x' r, A l T → c.next l = .acc a f → a.sem x x' r →
    ∃ l' T', c.Adv (f r) l' ∧ A l' T' ∧ Post S x x' T T' ∧ (x' = x → G l x → G l' x)
  ll : ∀ l T f x, A l T → c.next l = .ll f →
    ∃ l' T', c.Adv (f x) l' ∧ A l' T' ∧ Post S x x T T' ∧ G l' x
  scOk : ∀ l T v f x, A l T → c.next l = .sc v f → G l x →
    ∃ l' T', c.Adv (f true) l' ∧ A l' T' ∧ Post S x v T T'
  scFail : ∀ l T v f x, A l T → c.next l = .sc v f →
    ∃ l' T', c.Adv (f false) l' ∧ A l' T' ∧ Post S x x T T'
  ret : ∀ l T r, A l T → c.next l = .ret r → T (.done r)

namespace RSim
variable {c : Code V O R L} {S : Spec V O R}

/-- Possible statuses of a call on the named object. -/
def lift (k : K) (T : Status O R → Prop) : Status (K × O) R → Prop :=
  fun st => ∃ st0, T st0 ∧ st = liftStatus k st0

theorem lift_eq (k : K) (st0 : Status O R) :
    lift k (· = st0) = (· = liftStatus k st0) := by
  funext st; simp [lift]

theorem lift_post {m m' : K → V} {k : K} {T T' : Status O R → Prop}
    (h : Post S (m k) (m' k) T T') (hm : m' = Function.update m k (m' k)) :
    Post (S.many (K := K)) m m' (lift k T) (lift k T') := by
  obtain ⟨⟨st0, h0⟩, h1⟩ := h
  refine ⟨⟨_, st0, h0, rfl⟩, ?_⟩
  rintro st' ⟨st1, h2, rfl⟩
  rcases h1 _ h2 with ⟨e, hT⟩ | ⟨op, r, hT, rfl, hs⟩
  · refine Or.inl ⟨?_, st1, hT, rfl⟩
    rw [hm, e, Function.update_eq_self]
  · exact Or.inr ⟨(k, op), r, ⟨_, hT, rfl⟩, rfl, m' k, hs, hm⟩

theorem adv_tau {l k l' : L} (h : c.next l = .tau k) (ha : c.Adv l l')
    (hn : ∀ j, c.next l' ≠ .tau j) : c.Adv k l' := by
  cases ha with
  | refl => exact absurd h (hn _)
  | head h' t =>
    rw [h] at h'
    cases h'
    exact t

/-- What is known about a call. -/
def At (X : RSim c S) (m : K → Cell V) (l : K × L × Option Nat)
    (T : Status (K × O) R → Prop) : Prop :=
  ∃ T0 l', T = lift l.1 T0 ∧ c.Adv l.2.1 l' ∧ X.A l' T0 ∧ (∃ st, T0 st) ∧
    ∀ v, l.2.2 = some v → v ≤ (m l.1).ver ∧ (v = (m l.1).ver → X.G l' (m l.1).val)

/-- Every step of any thread keeps what is known about the others. -/
theorem At.stable (X : RSim c S) {l m l' m'} (h : c.Step (K := K) l m l' m')
    {k T} (ha : X.At m k T) : X.At m' k T := by
  obtain ⟨T0, j, rfl, h1, h2, hne, h3⟩ := ha
  refine ⟨T0, j, rfl, h1, h2, hne, fun v hv => ?_⟩
  obtain ⟨h4, h5⟩ := h3 v hv
  cases h with
  | tau | ll | scFail => exact ⟨h4, h5⟩
  | acc o _ _ _ a f x r n hn hs hv' =>
    by_cases ho : k.1 = o
    · subst ho
      simp only [Function.update_self]
      rcases hv' with ⟨rfl, rfl⟩ | rfl
      · exact ⟨h4, h5⟩
      · exact ⟨by omega, fun e => by omega⟩
    · simpa [Function.update_of_ne ho] using ⟨h4, h5⟩
  | scOk o _ _ v' f hn =>
    by_cases ho : k.1 = o
    · subst ho
      simp only [Function.update_self]
      exact ⟨by omega, fun e => by omega⟩
    · simpa [Function.update_of_ne ho] using ⟨h4, h5⟩

theorem At.step (X : RSim c S) {l m l' m'} (h : c.Step (K := K) l m l' m')
    {T} (ha : X.At m l T) : ∃ T', X.At m' l' T' ∧
      Post (S.many (K := K)) (fun k => (m k).val) (fun k => (m' k).val) T T' := by
  obtain ⟨T0, j, rfl, h1, h2, hne, h3⟩ := ha
  cases h with
  | tau k l0 ρ m l1 hn =>
    refine ⟨_, ⟨T0, j, rfl, adv_tau hn h1 fun k' => X.nt _ _ _ h2, h2, hne, h3⟩,
      lift_post (Post.same S _ hne) (Function.update_eq_self _ _).symm⟩
  | acc k l0 ρ _ a f x r n hn hs hv' =>
    obtain rfl : j = l0 := by
      cases h1 with
      | refl => rfl
      | head h' _ => simp [hn] at h'
    obtain ⟨l1, T1, ha, hA, hp, hg⟩ := X.acc _ _ _ _ _ _ _ h2 hn hs
    refine ⟨_, ⟨T1, l1, rfl, ha, hA, hp.1, fun v hv => ?_⟩, lift_post (by simpa using hp) ?_⟩
    · obtain ⟨h4, h5⟩ := h3 v hv
      simp only at h4 h5 ⊢
      simp only [Function.update_self]
      rcases hv' with ⟨rfl, rfl⟩ | rfl
      · exact ⟨h4, fun e => hg rfl (h5 e)⟩
      · exact ⟨by omega, fun e => by omega⟩
    · funext j
      by_cases hj : j = k
      · subst hj; simp
      · simp [Function.update_of_ne hj]
  | ll k l0 ρ m f hn =>
    obtain rfl : j = l0 := by
      cases h1 with
      | refl => rfl
      | head h' _ => simp [hn] at h'
    obtain ⟨l1, T1, ha, hA, hp, hg⟩ := X.ll _ _ _ (m k).val h2 hn
    refine ⟨_, ⟨T1, l1, rfl, ha, hA, hp.1, fun v hv => ?_⟩,
      lift_post hp (Function.update_eq_self _ _).symm⟩
    simp only [Option.some.injEq] at hv
    subst hv
    exact ⟨Nat.le_refl _, fun _ => hg⟩
  | scOk k l0 _ v f hn =>
    obtain rfl : j = l0 := by
      cases h1 with
      | refl => rfl
      | head h' _ => simp [hn] at h'
    obtain ⟨l1, T1, ha, hA, hp⟩ := X.scOk _ _ _ _ (m k).val h2 hn ((h3 _ rfl).2 rfl)
    refine ⟨_, ⟨T1, l1, rfl, ha, hA, hp.1, fun v hv => by simp at hv⟩, lift_post (by simpa using hp) ?_⟩
    funext j
    by_cases hj : j = k
    · subst hj; simp
    · simp [Function.update_of_ne hj]
  | scFail k l0 ρ m v f hn =>
    obtain rfl : j = l0 := by
      cases h1 with
      | refl => rfl
      | head h' _ => simp [hn] at h'
    obtain ⟨l1, T1, ha, hA, hp⟩ := X.scFail _ _ _ _ (m k).val h2 hn
    exact ⟨_, ⟨T1, l1, rfl, ha, hA, hp.1, fun v hv => by simp at hv⟩,
      lift_post hp (Function.update_eq_self _ _).symm⟩

/-- The obligations give a simulation of the whole system. -/
def toPSim (X : RSim c S) : PSim (c.sys K) (S.many (K := K)) where
  abs m := fun k => (m k).val
  inv _ := True
  at_ _ m l T := X.At m l T
  start t m op _ := by
    obtain ⟨l, h1, h2⟩ := X.start op.2
    exact ⟨(· = .pending op.2), l, (lift_eq (K := K) op.1 (.pending op.2)).symm, h1, h2, ⟨_, rfl⟩,
      fun v hv => by simp [Code.sys] at hv⟩
  step t m l l' m' T _ ha hs := ⟨trivial, At.step X hs ha⟩
  stable t m l l' m' T _ _ hs u k T' _ h := At.stable X hs h
  ret := by
    rintro t m ⟨k, l, ρ⟩ T r _ ⟨T0, j, rfl, h1, h2, hne, -⟩ hr
    cases hn : c.next l with
    | acc | tau | ll | sc => simp [Code.sys, hn] at hr
    | ret r' =>
      simp [Code.sys, hn] at hr
      subst hr
      obtain rfl : j = l := by
        cases h1 with
        | refl => rfl
        | head h' _ => simp [hn] at h'
      exact ⟨_, X.ret _ _ _ h2 hn, rfl⟩

/-- Histories are linearizable; the final memory is the linearization's. -/
theorem linearizable (X : RSim c S) {m : K → Cell V} {h s} (hx : Runs (c.sys K) m h s) :
    LinearizableTo (S.many (K := K)) (fun k => (m k).val) h (fun k => (s.mem k).val) :=
  (toPSim X).linearizable (m := m) trivial hx

end RSim
end LlSc
end Verif.Lf
