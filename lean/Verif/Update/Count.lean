import Verif.Spec.Update
import Mathlib.Algebra.BigOperators.Group.Finset.Basic
import Mathlib.Algebra.BigOperators.Group.Finset.Piecewise
import Mathlib.Logic.Function.Iterate
/-!
# What a history of `fetch_update` calls says, and no update is lost

Only about the specification (`Spec/Update.lean`).
-/
set_option autoImplicit false
set_option linter.unusedSectionVars false
namespace Verif.Update
open Verif.Object

variable {K V I P : Type} [DecidableEq K]

/-- Read off a history: each thread's open calls of `fetch_update`, innermost first, with the object and the last value the closure was
called with; and the number of calls on `k` that have returned `Ok`. -/
structure Seen (K V : Type) where
  open_ : Tid → List (K × Option V)
  oks : Nat

/-- The effect of one event. -/
def Seen.next (k : K) (q : Seen K V) : Ev K V I P → Seen K V
  | .update t k' _ _ => { q with open_ := Function.update q.open_ t ((k', none) :: q.open_ t) }
  | .ask t v =>
    match q.open_ t with
    | (k', _) :: l => { q with open_ := Function.update q.open_ t ((k', some v) :: l) }
    | [] => q
  | .finish t r =>
    match q.open_ t, r with
    | (k', _) :: l, .ok _ => { open_ := Function.update q.open_ t l, oks := if k' = k then q.oks + 1 else q.oks }
    | _ :: l, _ => { q with open_ := Function.update q.open_ t l }
    | [], _ => q
  | _ => q

/-- The whole history. -/
def seen (k : K) (h : List (Ev K V I P)) : Seen K V := h.foldl (Seen.next k) ⟨fun _ => [], 0⟩

theorem seen_snoc (k : K) (h : List (Ev K V I P)) (e : Ev K V I P) : seen k (h ++ [e]) = (seen k h).next k e := by
  simp [seen, List.foldl_append]

/-- The thread of an event. -/
def Ev.tid : Ev K V I P → Tid
  | .inv t _ | .ret t _ | .update t _ _ _ | .ask t _ | .reply t _ | .panic t | .finish t _ => t

/-! ## Proof internals -/

/-- The value the closure was last called with, at stages that depend on it. -/
def shown : Stage V → Option V
  | .asked v | .replied v _ | .over (.ok v) | .over (.err v) => some v
  | _ => none

/-- An open call in the history and in the specification. -/
inductive Entry (k : K) (G : V → V → Prop) (Pd : I → Prop) : List (Frame K V I P) → List (K × Option V) → Prop where
  | nil : Entry k G Pd [] []
  | pending (i : I) (h : Pd i) {l m} (x : Entry k G Pd l m) : Entry k G Pd (.pending i :: l) m
  | done (p : P) {l m} (x : Entry k G Pd l m) : Entry k G Pd (.done p :: l) m
  | upd (k' : K) (s f : MemOrd) (st : Stage V) (o : Option V) (h1 : ∀ v, shown st = some v → o = some v)
      (h2 : ∀ v w, st = .replied v w → k' = k → G v w) {l m} (x : Entry k G Pd l m) :
      Entry k G Pd (.upd k' s f st :: l) ((k', o) :: m)

/-- Calls on `k` that have done their work and not returned. -/
def overs (k : K) : List (Frame K V I P) → Nat
  | .upd k' _ _ (.over (.ok _)) :: l => (if k' = k then 1 else 0) + overs k l
  | _ :: l => overs k l
  | [] => 0

theorem sum_update (N : Nat) (c : List (Frame K V I P) → Nat) (f : Tid → List (Frame K V I P)) (t : Tid) (ht : t < N)
    (x : List (Frame K V I P)) :
    ∑ u ∈ Finset.range N, c (Function.update f t x u) + c (f t) = ∑ u ∈ Finset.range N, c (f u) + c x := by
  have h1 := Finset.add_sum_erase (Finset.range N) (fun u => c (f u)) (Finset.mem_range.2 ht)
  have h2 := Finset.add_sum_erase (Finset.range N) (fun u => c (Function.update f t x u)) (Finset.mem_range.2 ht)
  have h3 : ∑ u ∈ (Finset.range N).erase t, c (Function.update f t x u) = ∑ u ∈ (Finset.range N).erase t, c (f u) :=
    Finset.sum_congr rfl fun u hu => by rw [Function.update_of_ne (Finset.ne_of_mem_erase hu)]
  simp only [Function.update_self] at h2
  rw [h3] at h2
  omega

/-- Invariant. -/
structure Inv (T : Spec (K → V) I P) (k : K) (G : V → V → Prop) (Pd : I → Prop) (N : Nat) (c : K → V) (h : List (Ev K V I P)) (s : State K V I P) : Prop where
  entry : ∀ t, Entry k G Pd (s.th t) ((seen k h).open_ t)
  lt : ∀ t, s.th t ≠ [] → t < N
  val : (∀ i, Pd i → ∀ m m' p, T.sem i m m' p → m' k = m k) → ∀ g : V → V, (∀ v w, G v w → w = g v) →
    s.cells k = g^[(seen k h).oks + ∑ t ∈ Finset.range N, overs k (s.th t)] (c k)

theorem Entry.upd_inv {k : K} {G : V → V → Prop} {Pd : I → Prop} {k' : K} {s f : MemOrd} {st : Stage V} {l : List (Frame K V I P)}
    {m : List (K × Option V)} (x : Entry k G Pd (.upd k' s f st :: l) m) :
    ∃ o m', m = (k', o) :: m' ∧ (∀ v, shown st = some v → o = some v) ∧ (∀ v w, st = .replied v w → k' = k → G v w) ∧
      Entry k G Pd l m' := by
  cases x with
  | upd k' s f st o h1 h2 x => exact ⟨_, _, rfl, h1, h2, x⟩

theorem inv_exec {T : Spec (K → V) I P} {k : K} {G : V → V → Prop} {Pd : I → Prop} {c : K → V} {N : Nat} {h : List (Ev K V I P)} {s : State K V I P}
    (x : Exec (Step T) ⟨c, fun _ => []⟩ h s) (hN : ∀ e ∈ h, e.tid < N)
    (hops : ∀ t i, Ev.inv t i ∈ h → Pd i)
    (hg : ∀ h1 t w h2, h = h1 ++ .reply t (some w) :: h2 → ∀ v l, (seen k h1).open_ t = (k, some v) :: l → G v w) :
    Inv T k G Pd N c h s := by
  generalize hi : (⟨c, fun _ => []⟩ : State K V I P) = i0 at x
  induction x with
  | refl =>
    subst hi
    exact ⟨fun t => .nil, fun t ht => absurd rfl ht, fun _ _ _ => by simp [seen, overs]⟩
  | @tau h s1 s2 x st ih =>
    obtain ⟨h1, h2, h3⟩ := ih hN hops hg
    have key : ∀ {t l l'} (cs : K → V), s1.th t = l → l ≠ [] → Entry k G Pd l' ((seen k h).open_ t) →
        ((∀ i, Pd i → ∀ m m' p, T.sem i m m' p → m' k = m k) → ∀ g : V → V, (∀ v w, G v w → w = g v) →
          cs k = g^[overs k l' - overs k l] (s1.cells k)) → overs k l ≤ overs k l' →
        Inv T k G Pd N c h ⟨cs, Function.update s1.th t l'⟩ := by
      intro t l l' cs hl hne he hc hle
      have ht : t < N := h2 t (by rw [hl]; exact hne)
      refine ⟨fun u => ?_, fun u hu => ?_, ?_⟩
      · by_cases e : u = t
        · subst e; simpa using he
        · simpa only [Function.update_of_ne e] using h1 u
      · by_cases e : u = t
        · subst e; exact ht
        · simp only [Function.update_of_ne e] at hu; exact h2 u hu
      · have := sum_update N (overs k) s1.th t ht l'
        rw [hl] at this
        intro q1 g q2
        simp only
        rw [hc q1 g q2, h3 q1 g q2, ← Function.iterate_add_apply]
        exact congrArg (fun n => g^[n] (c k)) (by omega)
    cases st with
    | commit t i c' p st h hs =>
      have e := h1 t
      rw [h] at e
      cases e with
      | pending _ hp e =>
        refine key c' h (by simp) (.done p e) ?_ (by simp [overs])
        intro q1 g q2
        simp only [overs, Nat.sub_self, Function.iterate_zero, id]
        exact q1 _ hp _ _ _ hs
    | reject t k' so f st h hf =>
      have e := h1 t
      rw [h] at e
      obtain ⟨o, m, e1, -, -, e2⟩ := e.upd_inv
      refine key s1.cells h (by simp) ?_ (by simp [overs]) (by simp [overs])
      rw [e1]; exact .upd _ _ _ _ _ (by simp [shown]) (by simp) e2
    | look t k' so f st h hf =>
      have e := h1 t
      rw [h] at e
      obtain ⟨o, m, e1, -, -, e2⟩ := e.upd_inv
      refine key s1.cells h (by simp) ?_ (by simp [overs]) (by simp [overs])
      rw [e1]; exact .upd _ _ _ _ _ (by simp [shown]) (by simp) e2
    | again t k' so f v w st h =>
      have e := h1 t
      rw [h] at e
      obtain ⟨o, m, e1, -, -, e2⟩ := e.upd_inv
      refine key s1.cells h (by simp) ?_ (by simp [overs]) (by simp [overs])
      rw [e1]; exact .upd _ _ _ _ _ (by simp [shown]) (by simp) e2
    | replace t k' so f v w st h hv =>
      have e := h1 t
      rw [h] at e
      obtain ⟨o, m, e1, e4, e3, e2⟩ := e.upd_inv
      refine key _ h (by simp) ?_ ?_ (by simp [overs])
      · rw [e1]; exact .upd _ _ _ _ _ (by simpa [shown] using e4 v rfl) (by simp) e2
      · intro q1 g q2
        by_cases ek : k' = k
        · subst ek
          simp only [overs, if_true, Function.update_self, Nat.add_sub_cancel, Function.iterate_one]
          rw [hv]; exact q2 _ _ (e3 _ _ rfl rfl)
        · simp only [overs, if_neg ek, Nat.zero_add, Nat.sub_self, Function.iterate_zero, id, Function.update_of_ne (Ne.symm ek)]
  | @ev h s1 e s2 x st ih =>
    obtain ⟨h1, h2, h3⟩ := ih (fun e he => hN e (by simp [he])) (fun t i hm => hops t i (by simp [hm]))
      (fun a t w b hab => hg a t w (b ++ [e]) (by rw [hab]; simp))
    have key : ∀ {t l'} (op' : Tid → List (K × Option V)), e.tid = t → (seen k (h ++ [e])).open_ = op' →
        (∀ u, u ≠ t → op' u = (seen k h).open_ u) → Entry k G Pd l' (op' t) →
        (seen k (h ++ [e])).oks + overs k l' = (seen k h).oks + overs k (s1.th t) →
        Inv T k G Pd N c (h ++ [e]) ⟨s1.cells, Function.update s1.th t l'⟩ := by
      intro t l' op' ht ho hu he hc
      have htN : t < N := ht ▸ hN e (by simp)
      refine ⟨fun u => ?_, fun u hu => ?_, ?_⟩
      · rw [ho]
        by_cases e : u = t
        · subst e; simpa using he
        · simp only [Function.update_of_ne e]; rw [hu u e]; exact h1 u
      · by_cases e : u = t
        · subst e; exact htN
        · simp only [Function.update_of_ne e] at hu; exact h2 u hu
      · have := sum_update N (overs k) s1.th t htN l'
        intro q1 g q2
        simp only
        rw [h3 q1 g q2]
        exact congrArg (fun n => g^[n] (c k)) (by omega)
    cases st with
    | inv t i hm =>
      refine key (t := t) _ rfl rfl (fun u _ => by rw [seen_snoc]; rfl) ?_ (by rw [seen_snoc]; simp [Seen.next, overs])
      rw [seen_snoc]
      exact .pending i (hops t i (by simp)) (h1 t)
    | ret t p st hs =>
      have e := h1 t
      rw [hs] at e
      cases e with
      | done _ e =>
        refine key (t := t) _ rfl rfl (fun u _ => by rw [seen_snoc]; rfl) ?_ (by rw [seen_snoc, hs]; simp [Seen.next, overs])
        rw [seen_snoc]
        exact e
    | update t k' so f hm =>
      refine key (t := t) _ rfl rfl (fun u hu => by rw [seen_snoc]; simp [Seen.next, Function.update_of_ne hu]) ?_
        (by rw [seen_snoc]; simp [Seen.next, overs])
      rw [seen_snoc]
      simp only [Seen.next, Function.update_self]
      exact .upd _ _ _ _ _ (by simp [shown]) (by simp) (h1 t)
    | ask t k' so f v st hs =>
      have e := h1 t
      rw [hs] at e
      obtain ⟨o, m, e1, -, -, e2⟩ := e.upd_inv
      refine key (t := t) _ rfl rfl (fun u hu => by rw [seen_snoc]; simp [Seen.next, e1, Function.update_of_ne hu]) ?_
        (by rw [seen_snoc, hs]; simp [Seen.next, overs, e1])
      rw [seen_snoc]
      simp only [Seen.next, e1, Function.update_self]
      exact .upd _ _ _ _ _ (by simp [shown]) (by simp) e2
    | yes t k' so f v w st hs =>
      have e := h1 t
      rw [hs] at e
      obtain ⟨o, m, e1, e3, -, e2⟩ := e.upd_inv
      refine key (t := t) _ rfl rfl (fun u _ => by rw [seen_snoc]; rfl) ?_ (by rw [seen_snoc, hs]; simp [Seen.next, overs])
      rw [seen_snoc]
      simp only [Seen.next, e1]
      refine .upd _ _ _ _ _ (by simpa [shown] using e3 v rfl) (fun v' w' hw hk => ?_) e2
      cases hw
      subst hk
      have := e3 v rfl
      subst this
      exact hg h t w [] rfl v _ e1
    | no t k' so f v st hs =>
      have e := h1 t
      rw [hs] at e
      obtain ⟨o, m, e1, e3, -, e2⟩ := e.upd_inv
      refine key (t := t) _ rfl rfl (fun u _ => by rw [seen_snoc]; rfl) ?_ (by rw [seen_snoc, hs]; simp [Seen.next, overs])
      rw [seen_snoc]
      simp only [Seen.next, e1]
      exact .upd _ _ _ _ _ (by simpa [shown] using e3 v rfl) (by simp) e2
    | panic t k' so f v st hs =>
      have e := h1 t
      rw [hs] at e
      obtain ⟨o, m, e1, e3, -, e2⟩ := e.upd_inv
      refine key (t := t) _ rfl rfl (fun u _ => by rw [seen_snoc]; rfl) ?_ (by rw [seen_snoc, hs]; simp [Seen.next, overs])
      rw [seen_snoc]
      simp only [Seen.next, e1]
      exact .upd _ _ _ _ _ (by simp [shown]) (by simp) e2
    | finish t k' so f r st hs =>
      have e := h1 t
      rw [hs] at e
      obtain ⟨o, m, e1, e3, -, e2⟩ := e.upd_inv
      refine key (t := t) _ rfl rfl (fun u hu => by rw [seen_snoc]; cases r <;> simp [Seen.next, e1, Function.update_of_ne hu]) ?_ ?_
      · rw [seen_snoc]
        cases r <;> simp only [Seen.next, e1, Function.update_self] <;> exact e2
      · rw [seen_snoc, hs]
        cases r <;> simp only [Seen.next, e1, overs]
        by_cases ek : k' = k <;> simp [ek] <;> omega

end Verif.Update
