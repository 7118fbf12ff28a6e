import Verif.Compose.Machine
/-!
# Clients on many objects, and what has to be shown of a client
-/
set_option autoImplicit false
set_option linter.unusedSectionVars false
namespace Verif.Compose
open Verif.Object Verif.Lf

variable {A Q O R L I P C D V W K : Type} [DecidableEq K]

/-- What the client does next, on object `k`. -/
def Next.at_ (k : K) : Next A Q R L → Next (K × A) Q R (K × L)
  | .ret r => .ret r
  | .tau l => .tau (k, l)
  | .call a g => .call (k, a) (fun q => (k, g q))

/-- The client's operations on objects named by `K`. -/
def Client.many (K : Type) (c : Client A Q O R L) : Client (K × A) Q (K × O) R (K × L) where
  start op := (op.1, c.start op.2)
  next l := (c.next l.2).at_ l.1

/-- What has to be shown of a client on one object `S` to be the object `T`: `at_ l st` says where the
specification is when the client is at `l`. -/
structure CSim (c : Client A Q O R L) (S : Spec V A Q) (T : Spec W O R) where
  abs : V → W
  inv : V → Prop
  at_ : L → Status O R → Prop
  start : ∀ op, at_ (c.start op) (.pending op)
  tau : ∀ l st k x, at_ l st → c.next l = .tau k → inv x →
    at_ k st ∨ ∃ op r', st = .pending op ∧ T.sem op (abs x) (abs x) r' ∧ at_ k (.done r')
  step : ∀ l st a f x x' q, at_ l st → c.next l = .call a f → inv x → S.sem a x x' q →
    inv x' ∧ ((abs x' = abs x ∧ at_ (f q) st) ∨
      ∃ op r', st = .pending op ∧ T.sem op (abs x) (abs x') r' ∧ at_ (f q) (.done r'))
  ret : ∀ l st r, at_ l st → c.next l = .ret r → st = .done r

theorem Next.at_tau {n : Next A Q R L} {k : K} {l : K × L} (h : n.at_ k = .tau l) : ∃ j, n = .tau j ∧ l = (k, j) := by
  cases n <;> simp [Next.at_] at h
  exact ⟨_, rfl, h.symm⟩

theorem Next.at_call {n : Next A Q R L} {k : K} {a : K × A} {g} (h : n.at_ k = .call a g) :
    ∃ b f, n = .call b f ∧ a = (k, b) ∧ g = fun q => (k, f q) := by
  cases n <;> simp [Next.at_] at h
  exact ⟨_, _, rfl, h.1.symm, h.2.symm⟩

theorem Next.at_ret {n : Next A Q R L} {k : K} {r : R} (h : n.at_ k = .ret r) : n = .ret r := by
  cases n <;> simp [Next.at_] at h
  rw [h]

theorem Reach.many {c : Client A Q O R L} {op : K × O} {l : K × L} (h : Reach (c.many K) op l) :
    l.1 = op.1 ∧ Reach c op.2 l.2 := by
  induction h with
  | start => exact ⟨rfl, .start⟩
  | tau _ hn ih =>
    obtain ⟨j, hn', rfl⟩ := Next.at_tau hn
    exact ⟨ih.1, .tau ih.2 hn'⟩
  | call _ hn ih =>
    obtain ⟨b, f, hn', rfl, rfl⟩ := Next.at_call hn
    exact ⟨ih.1, .call ih.2 hn'⟩

/-- The client on many ideal objects. -/
def CSim.toSim {c : Client A Q O R L} {S : Spec V A Q} {T : Spec W O R} (X : CSim c S T) :
    Sim ((c.many K).sys (S.many (K := K))) (T.many (K := K)) where
  abs m := fun k => X.abs (m k)
  inv m := ∀ k, X.inv (m k)
  at_ _ _ l st := ∃ st0, X.at_ l.2 st0 ∧ st = liftStatus l.1 st0
  start t m op _ := ⟨_, X.start _, rfl⟩
  step := by
    rintro t m ⟨k, l⟩ l' m' st hm ⟨st0, hat, rfl⟩ (⟨j, hn, rfl, rfl⟩ | ⟨a, f, q, hn, hs, rfl⟩)
    · obtain ⟨j, hn', rfl⟩ := Next.at_tau hn
      refine ⟨hm, ?_⟩
      rcases X.tau _ _ _ _ hat hn' (hm k) with hat' | ⟨op, r', rfl, hsem, hat'⟩
      · exact Or.inl ⟨rfl, st0, hat', rfl⟩
      · refine Or.inr ⟨(k, op), r', rfl, ⟨X.abs (m' k), hsem, funext fun j => ?_⟩, .done r', hat', rfl⟩
        by_cases hj : j = k
        · subst hj; simp
        · simp [Function.update_of_ne hj]
    · obtain ⟨a, f, hn', rfl, rfl⟩ := Next.at_call hn
      obtain ⟨x, hs, rfl⟩ := hs
      obtain ⟨hi, hd⟩ := X.step _ _ _ _ _ _ _ hat hn' (hm k) hs
      refine ⟨fun j => ?_, ?_⟩
      · by_cases hj : j = k
        · subst hj; simpa using hi
        · simpa [Function.update_of_ne hj] using hm j
      · rcases hd with ⟨e, hat'⟩ | ⟨op, r', rfl, hsem, hat'⟩
        · refine Or.inl ⟨funext fun j => ?_, st0, hat', rfl⟩
          by_cases hj : j = k
          · subst hj; simpa using e
          · simp [Function.update_of_ne hj]
        · refine Or.inr ⟨(k, op), r', rfl, ⟨X.abs x, hsem, funext fun j => ?_⟩, .done r', hat', rfl⟩
          by_cases hj : j = k
          · subst hj; simp
          · simp [Function.update_of_ne hj]
  stable t m l l' m' st _ _ _ u k st' _ h := h
  ret := by
    rintro t m ⟨k, l⟩ st r hm ⟨st0, hat, rfl⟩ hr
    simp only [Client.sys, Client.many] at hr
    cases hn : c.next l with
    | call a f => simp [Next.at_, hn] at hr
    | tau l' => simp [Next.at_, hn] at hr
    | ret r' =>
      simp [Next.at_, hn] at hr
      subst hr
      rw [X.ret _ _ _ hat hn]; rfl

/-- A client that is right on an ideal object is linearizable over any linearizable implementation of that
object, and the contents at the end are those of the implementation. -/
theorem CSim.over {c : Client A Q O R L} {S : Spec V A Q} {T : Spec W O R} (X : CSim c S T)
    {calls : K × A → I → (P → Q) → Prop} {U : Spec D I P} (B : Bridge U (S.many (K := K)) calls)
    {m m' : D} {hi ho w} (hm : ∀ k, X.inv (B.abs m k)) (hl : LinearizableTo U m hi m')
    (hw : Run (c.many K) calls hi ho w) :
    LinearizableTo (T.many (K := K)) (fun k => X.abs (B.abs m k)) ho (fun k => X.abs (B.abs m' k)) := by
  obtain ⟨s, hr, he⟩ := compose B hl hw
  have := X.toSim.linearizable (m := B.abs m) hm hr
  rw [he] at this
  exact this

/-! ## Code made of whole-cell accesses -/

/-- An atomic cell with the accesses of `Lf/Access.lean`. -/
def cell (V : Type) [DecidableEq V] : Spec V (Acc V) (Res V) where
  sem a := a.sem

/-- Code made of accesses, as a client. -/
def ofNext : Lf.Next V R L → Next (Acc V) (Res V) R L
  | .ret r => .ret r
  | .tau l => .tau l
  | .acc a k => .call a k

def ofCode (c : Code V O R L) : Client (Acc V) (Res V) O R L where
  start := c.start
  next l := ofNext (c.next l)

def ofSim [DecidableEq V] {c : Code V O R L} {S : Spec W O R} (X : CodeSim c S) : CSim (ofCode c) (cell V) S where
  abs := X.abs
  inv := X.inv
  at_ := X.at_
  start := X.start
  tau l st k x hat hn hi := X.tau l st k x hat (by
    cases h : c.next l <;> simp [ofCode, ofNext, h] at hn
    rw [hn]) hi
  step l st a f x x' q hat hn hi hs := X.step l st a f x x' q hat (by
    cases h : c.next l <;> simp [ofCode, ofNext, h] at hn
    rw [hn.1, hn.2]) hi hs
  ret l st r hat hn := X.ret l st r hat (by
    cases h : c.next l <;> simp [ofCode, ofNext, h] at hn
    rw [hn])

end Verif.Compose
