import Verif.Lf.Access
/-!
# Code over an atomic that is itself code

A `Client` is the code of a set of operations, each call of which makes calls of another object.  `Over`
says what happens when that other object is an implementation of which only the histories are known:
threads run the client, their calls become calls of the implementation, and the implementation answers.
`Client.sys` is the same client on an ideal object, every call being one indivisible step.

`compose`: if the histories of the implementation are linearizable, the client behaves as on the ideal object.
-/
set_option autoImplicit false
namespace Verif.Compose
open Verif.Object Verif.Lf

/-- What the client does next: finish, compute, or call `a` and continue with the answer. -/
inductive Next (A Q R L : Type) where
  | ret (r : R)
  | tau (l : L)
  | call (a : A) (k : Q → L)

/-- Operations `O` with results `R`, made of calls `A` with answers `Q`. -/
structure Client (A Q O R L : Type) where
  start : O → L
  next : L → Next A Q R L

variable {A Q O R L I P C D : Type}

/-- The points the code of an operation can get to, whatever the answers to its calls. -/
inductive Reach (c : Client A Q O R L) (op : O) : L → Prop where
  | start : Reach c op (c.start op)
  | tau {l k} (h : Reach c op l) (hn : c.next l = .tau k) : Reach c op k
  | call {l a k q} (h : Reach c op l) (hn : c.next l = .call a k) : Reach c op (k q)

/-- The client on an ideal object `S`: a call is one step. -/
def Client.sys (c : Client A Q O R L) (S : Spec C A Q) : Sys C L O R where
  start _ op := c.start op
  step _ l m l' m' :=
    (∃ k, c.next l = .tau k ∧ l' = k ∧ m' = m) ∨
    (∃ a k q, c.next l = .call a k ∧ S.sem a m m' q ∧ l' = k q)
  ret l := match c.next l with
    | .ret r => some r
    | _ => none

/-- Where a thread is: outside, in the client's code, or waiting for the answer `p` to a call `i`, which
goes to `g`. -/
inductive Th (L P : Type) where
  | idle
  | run (l : L)
  | wait (g : P → L)

/-- Threads running the client over an implementation.  `calls a i d`: a call `a` is made by calling the
implementation's `i`, whose answer `p` is `d p` to the client.  First list: the calls of the implementation
and its answers; second list: the calls of the client's operations and their returns. -/
inductive Run (c : Client A Q O R L) (calls : A → I → (P → Q) → Prop) :
    List (Object.Ev I P) → List (Object.Ev O R) → (Tid → Th L P) → Prop where
  | nil : Run c calls [] [] (fun _ => .idle)
  | inv {hi ho w} (x : Run c calls hi ho w) (t op) (h : w t = .idle) :
      Run c calls hi (ho ++ [.inv t op]) (Function.update w t (.run (c.start op)))
  | tau {hi ho w} (x : Run c calls hi ho w) (t l k) (h : w t = .run l) (hn : c.next l = .tau k) :
      Run c calls hi ho (Function.update w t (.run k))
  | call {hi ho w} (x : Run c calls hi ho w) (t l a k i d) (h : w t = .run l) (hn : c.next l = .call a k)
      (hc : calls a i d) :
      Run c calls (hi ++ [.inv t i]) ho (Function.update w t (.wait fun p => k (d p)))
  | answer {hi ho w} (x : Run c calls hi ho w) (t g p) (h : w t = .wait g) :
      Run c calls (hi ++ [.ret t p]) ho (Function.update w t (.run (g p)))
  | ret {hi ho w} (x : Run c calls hi ho w) (t l r) (h : w t = .run l) (hn : c.next l = .ret r) :
      Run c calls hi (ho ++ [.ret t r]) (Function.update w t .idle)

/-- `ho` is a history of the client over an implementation whose histories are `B`. -/
def Over (c : Client A Q O R L) (calls : A → I → (P → Q) → Prop) (B : List (Object.Ev I P) → Prop)
    (ho : List (Object.Ev O R)) : Prop :=
  ∃ hi w, B hi ∧ Run c calls hi ho w

/-- The implementation's object `T` is, seen through `abs` and `calls`, the ideal object `S`. -/
structure Bridge (T : Spec D I P) (S : Spec C A Q) (calls : A → I → (P → Q) → Prop) where
  abs : D → C
  sem : ∀ a i d x x' p, calls a i d → T.sem i x x' p → S.sem a (abs x) (abs x') (d p)

/-- A thread of the client on the ideal object, given where it is and how far the implementation's call is. -/
def Match (c : Client A Q O R L) (calls : A → I → (P → Q) → Prop) :
    Th L P → Status I P → Option L → Prop
  | .idle, st, l => st = .idle ∧ l = none
  | .run l', st, l => st = .idle ∧ l = some l'
  | .wait g, .pending i, l => ∃ l' a k d, l = some l' ∧ c.next l' = .call a k ∧ calls a i d ∧ g = fun p => k (d p)
  | .wait g, .done p, l => l = some (g p)
  | .wait _, .idle, _ => False

/-- Machine, ideal machine and implementation agree. -/
def Agree (c : Client A Q O R L) {calls : A → I → (P → Q) → Prop} {T : Spec D I P} {S : Spec C A Q}
    (B : Bridge T S calls) (m : D) (ho : List (Object.Ev O R)) (w : Tid → Th L P) (a : Object.State D I P) : Prop :=
  ∃ s, Runs (c.sys S) (B.abs m) ho s ∧ s.mem = B.abs a.obj ∧ ∀ t, Match c calls (w t) (a.th t) (s.th t)

/-- The implementation's indivisible moments are steps of the client on the ideal object. -/
theorem Agree.commit {c : Client A Q O R L} {calls : A → I → (P → Q) → Prop} {T : Spec D I P} {S : Spec C A Q}
    {B : Bridge T S calls} {m : D} {ho w} {a b : Object.State D I P} (h : Agree c B m ho w b)
    (st : Object.Step T b none a) : Agree c B m ho w a := by
  obtain ⟨s, hr, hm, ht⟩ := h
  cases st with
  | commit t op c' r hp hs =>
    have h1 := ht t
    rw [hp] at h1
    cases hwt : w t with
    | idle => rw [hwt] at h1; cases h1.1
    | run l => rw [hwt] at h1; cases h1.1
    | wait g =>
      rw [hwt] at h1
      obtain ⟨l, a, k, d, hl, hn, hc, rfl⟩ := h1
      have hsem := B.sem _ _ _ _ _ _ hc hs
      refine ⟨_, .tau hr (.act s t l (k (d r)) (B.abs c') hl (Or.inr ⟨a, k, d r, hn, hm ▸ hsem, rfl⟩)), rfl,
        fun u => ?_⟩
      by_cases hu : u = t
      · subst hu; rw [hwt]; simp [Match]
      · simpa only [Function.update_of_ne hu] using ht u

theorem run_runs {c : Client A Q O R L} {calls : A → I → (P → Q) → Prop} {T : Spec D I P} {S : Spec C A Q}
    (B : Bridge T S calls) {m : D} {hi ho w} (hw : Run c calls hi ho w) :
    ∀ a, Exec (Object.Step T) { obj := m, th := fun _ => .idle } hi a → Agree c B m ho w a := by
  induction hw with
  | nil =>
    intro a hx
    generalize hh : ([] : List (Object.Ev I P)) = h0 at hx
    generalize hi : ({ obj := m, th := fun _ => .idle } : Object.State D I P) = i at hx
    induction hx with
    | refl => subst hi; exact ⟨_, .refl _, rfl, fun t => ⟨rfl, rfl⟩⟩
    | @tau h s s' hx st ih =>
      subst hh hi
      exact (ih rfl).commit st
    | ev => simp at hh
  | inv x t op h ih =>
    intro a hx
    obtain ⟨s, hr, hm, ht⟩ := ih a hx
    have h1 := ht t
    rw [h] at h1
    refine ⟨_, .ev hr (.inv s t op h1.2), hm, fun u => ?_⟩
    by_cases hu : u = t
    · subst hu; simp [Match, h1.1, Client.sys]
    · simpa only [Function.update_of_ne hu] using ht u
  | tau x t l k h hn ih =>
    intro a hx
    obtain ⟨s, hr, hm, ht⟩ := ih a hx
    have h1 := ht t
    rw [h] at h1
    refine ⟨_, .tau hr (.act s t l k s.mem h1.2 (Or.inl ⟨k, hn, rfl, rfl⟩)), hm, fun u => ?_⟩
    by_cases hu : u = t
    · subst hu; simp [Match, h1.1]
    · simpa only [Function.update_of_ne hu] using ht u
  | ret x t l r h hn ih =>
    intro a hx
    obtain ⟨s, hr, hm, ht⟩ := ih a hx
    have h1 := ht t
    rw [h] at h1
    refine ⟨_, .ev hr (.ret s t l r h1.2 (by simp [Client.sys, hn])), hm, fun u => ?_⟩
    by_cases hu : u = t
    · subst hu; simp [Match, h1.1]
    · simpa only [Function.update_of_ne hu] using ht u
  | @call hi ho w x t l a k i d h hn hc ih =>
    intro b hx
    generalize hh : hi ++ [Object.Ev.inv t i] = h0 at hx
    generalize hi0 : ({ obj := m, th := fun _ => .idle } : Object.State D I P) = i0 at hx
    induction hx with
    | refl => simp at hh
    | @tau h s s' hx st ih2 =>
      subst hh hi0
      exact (ih2 rfl).commit st
    | @ev h s e s' hx st _ =>
      subst hi0
      have e2 := List.append_inj_left' hh rfl
      have e1 := List.append_inj_right' hh rfl
      simp only [List.cons.injEq, and_true] at e1
      subst e1 e2
      obtain ⟨q, hr, hm, ht⟩ := ih _ hx
      have h1 := ht t
      rw [‹w t = .run l›] at h1
      cases st with
      | inv _ _ hidle =>
        refine ⟨q, hr, hm, fun u => ?_⟩
        by_cases hu : u = t
        · subst hu
          simp only [Function.update_self, Match]
          exact ⟨l, a, k, d, h1.2, hn, hc, rfl⟩
        · simpa only [Function.update_of_ne hu] using ht u
  | @answer hi ho w x t g p h ih =>
    intro b hx
    generalize hh : hi ++ [Object.Ev.ret t p] = h0 at hx
    generalize hi0 : ({ obj := m, th := fun _ => .idle } : Object.State D I P) = i0 at hx
    induction hx with
    | refl => simp at hh
    | @tau h s s' hx st ih2 =>
      subst hh hi0
      exact (ih2 rfl).commit st
    | @ev h s e s' hx st _ =>
      subst hi0
      have e2 := List.append_inj_left' hh rfl
      have e1 := List.append_inj_right' hh rfl
      simp only [List.cons.injEq, and_true] at e1
      subst e1 e2
      obtain ⟨q, hr, hm, ht⟩ := ih _ hx
      have h1 := ht t
      rw [‹w t = .wait g›] at h1
      cases st with
      | ret _ _ hd =>
        rw [hd] at h1
        refine ⟨q, hr, hm, fun u => ?_⟩
        by_cases hu : u = t
        · subst hu
          simp only [Function.update_self, Match]
          exact ⟨trivial, h1⟩
        · simpa only [Function.update_of_ne hu] using ht u

/-- A client of a linearizable implementation behaves as on the ideal object. -/
theorem compose {c : Client A Q O R L} {calls : A → I → (P → Q) → Prop} {T : Spec D I P} {S : Spec C A Q}
    (B : Bridge T S calls) {m m' : D} {hi ho w} (hi_lin : LinearizableTo T m hi m') (hw : Run c calls hi ho w) :
    ∃ s, Runs (c.sys S) (B.abs m) ho s ∧ s.mem = B.abs m' := by
  obtain ⟨a, hx, rfl⟩ := hi_lin
  obtain ⟨s, hr, hm, _⟩ := run_runs B hw a hx
  exact ⟨s, hr, hm⟩

/-- Every call of the implementation is made by the code of an operation the thread has called. -/
theorem run_calls {c : Client A Q O R L} {calls : A → I → (P → Q) → Prop} {hi ho w} (hw : Run c calls hi ho w) :
    (∀ t i, Object.Ev.inv t i ∈ hi → ∃ op l a k d, Object.Ev.inv t op ∈ ho ∧ Reach c op l ∧ c.next l = .call a k ∧
      calls a i d) ∧
    ∀ t, match w t with
      | .idle => True
      | .run l => ∃ op, Object.Ev.inv t op ∈ ho ∧ Reach c op l
      | .wait g => ∃ op, Object.Ev.inv t op ∈ ho ∧ ∀ p, Reach c op (g p) := by
  induction hw with
  | nil => simp
  | @inv hi ho w x t op h ih =>
    refine ⟨fun u i hm => ?_, fun u => ?_⟩
    · obtain ⟨op', l, a, k, d, h1, h2⟩ := ih.1 u i hm
      exact ⟨op', l, a, k, d, List.mem_append_left _ h1, h2⟩
    · by_cases hu : u = t
      · subst hu
        simp only [Function.update_self]
        exact ⟨op, by simp, .start⟩
      · have := ih.2 u
        simp only [Function.update_of_ne hu]
        cases hwu : w u <;> simp only [hwu] at this ⊢ <;> obtain ⟨op', h1, h2⟩ := this <;>
          exact ⟨op', List.mem_append_left _ h1, h2⟩
  | @tau hi ho w x t l k h hn ih =>
    refine ⟨ih.1, fun u => ?_⟩
    by_cases hu : u = t
    · subst hu
      have := ih.2 u
      simp only [h] at this
      simp only [Function.update_self]
      obtain ⟨op, h1, h2⟩ := this
      exact ⟨op, h1, .tau h2 hn⟩
    · simpa only [Function.update_of_ne hu] using ih.2 u
  | @call hi ho w x t l a k i d h hn hc ih =>
    have hl := ih.2 t
    simp only [h] at hl
    obtain ⟨op, h1, h2⟩ := hl
    refine ⟨fun u j hm => ?_, fun u => ?_⟩
    · rcases List.mem_append.1 hm with hm | hm
      · exact ih.1 u j hm
      · simp only [List.mem_singleton, Object.Ev.inv.injEq] at hm
        obtain ⟨rfl, rfl⟩ := hm
        exact ⟨op, l, a, k, d, h1, h2, hn, hc⟩
    · by_cases hu : u = t
      · subst hu
        simp only [Function.update_self]
        exact ⟨op, h1, fun p => .call h2 hn⟩
      · simpa only [Function.update_of_ne hu] using ih.2 u
  | @answer hi ho w x t g p h ih =>
    refine ⟨fun u i hm => ih.1 u i ?_, fun u => ?_⟩
    · rcases List.mem_append.1 hm with hm | hm
      · exact hm
      · simp at hm
    · by_cases hu : u = t
      · subst hu
        have := ih.2 u
        simp only [h] at this
        simp only [Function.update_self]
        obtain ⟨op, h1, h2⟩ := this
        exact ⟨op, h1, h2 p⟩
      · simpa only [Function.update_of_ne hu] using ih.2 u
  | @ret hi ho w x t l r h hn ih =>
    refine ⟨fun u i hm => ?_, fun u => ?_⟩
    · obtain ⟨op', l, a, k, d, h1, h2⟩ := ih.1 u i hm
      exact ⟨op', l, a, k, d, List.mem_append_left _ h1, h2⟩
    · by_cases hu : u = t
      · subst hu; simp
      · have := ih.2 u
        simp only [Function.update_of_ne hu]
        cases hwu : w u <;> simp only [hwu] at this ⊢ <;> obtain ⟨op', h1, h2⟩ := this <;>
          exact ⟨op', List.mem_append_left _ h1, h2⟩

end Verif.Compose
