import Verif.Lf.Access
/-!
# The shapes of code the crate builds operations from

An operation on an atomic is one of: a rejected call, one access, a compare-exchange loop around a
pure function, or `fetch_update`.  `Prog.code` gives the program, `Prog.sim` says that if each shape
computes what the sequential specification says, all concurrent histories are linearizable.
-/
set_option linter.unusedSectionVars false
namespace Verif.Lf
open Verif.Object

/-- A `FnMut(V) -> Option<V>`: its answer for the next argument, given the previous arguments. -/
abbrev Closure (V : Type) := List V → V → Option V

/-- Code shapes. -/
inductive Prog (V R : Type) where
  /-- returns (panics) without touching memory -/
  | stop (r : R)
  /-- one access, then decode its answer -/
  | one (a : Acc V) (dec : Res V → R)
  /-- `let mut prev = <first read>; loop { next = f(prev); match compare_exchange_weak(prev, next,
  order, Relaxed) { Ok(x) => return x, Err(p) => prev = p } }`; `rd` is the first read -/
  | loop (rd : Acc V) (f : V → V) (o : MemOrd) (dec : V → R)
  /-- `let mut prev = self.load(fetch); while let Some(next) = f(prev) { match
  self.compare_exchange_weak(prev, next, set, fetch) { x @ Ok(_) => return x, Err(p) => prev = p } }
  Err(prev)` -/
  | update (set fetch : MemOrd) (f : Closure V) (dec : Res V → R)

variable {V W O R L K : Type} [DecidableEq V] [DecidableEq K]

/-- Program points. -/
inductive Prog.Pc (V R : Type) where
  | start (p : Prog V R)
  | fin (r : R)
  | loop (f : V → V) (o : MemOrd) (dec : V → R) (prev : V)
  | update (set fetch : MemOrd) (f : Closure V) (dec : Res V → R) (hist : List V) (prev : V)

/-- After the first read of a loop. A loop's first read never panics (Relaxed). -/
def Prog.afterRead (f : V → V) (o : MemOrd) (dec : V → R) (p : Prog V R) : Res V → Prog.Pc V R
  | .val v => .loop f o dec v
  | _ => .start p

/-- After the compare-exchange of a loop. -/
def Prog.afterCas (f : V → V) (o : MemOrd) (dec : V → R) (prev : V) : Res V → Prog.Pc V R
  | .ok x => .fin (dec x)
  | .err x => .loop f o dec x
  | _ => .loop f o dec prev

/-- After the first load of `fetch_update`. -/
def Prog.afterLoad (s g : MemOrd) (f : Closure V) (dec : Res V → R) : Res V → Prog.Pc V R
  | .val v => .update s g f dec [] v
  | r => .fin (dec r)

/-- After the compare-exchange of `fetch_update`. -/
def Prog.afterUpd (s g : MemOrd) (f : Closure V) (dec : Res V → R) (hist : List V) :
    Res V → Prog.Pc V R
  | .err x => .update s g f dec hist x
  | r => .fin (dec r)

/-- The code. -/
def Prog.next : Prog.Pc V R → Next V R (Prog.Pc V R)
  | .start (.stop r) => .tau (.fin r)
  | .start (.one a dec) => .acc a (fun r => .fin (dec r))
  | .start (.loop rd f o dec) => .acc rd (Prog.afterRead f o dec (.loop rd f o dec))
  | .start (.update s g f dec) => .acc (.op (.load g)) (Prog.afterLoad s g f dec)
  | .fin r => .ret r
  | .loop f o dec prev => .acc (.casWeak prev (f prev) o .relaxed) (Prog.afterCas f o dec prev)
  | .update s g f dec hist prev =>
    match f hist prev with
    | none => .ret (dec (.err prev))
    | some nx => .acc (.casWeak prev nx s g) (Prog.afterUpd s g f dec (hist ++ [prev]))

/-- The operations `O`, each with its program. -/
def Prog.code (prog : O → Prog V R) : Code V O R (Prog.Pc V R) where
  start op := .start (prog op)
  next := Prog.next

/-- A read that leaves the cell alone and answers with a value. -/
def Acc.isRead (a : Acc V) : Prop := ∀ x x' r, a.sem x x' r → x' = x ∧ ∃ v, r = .val v

theorem isRead_load {o : MemOrd} (h1 : o ≠ .release) (h2 : o ≠ .acqRel) :
    (Acc.op (.load o) : Acc V).isRead := by
  intro x x' r h
  cases o <;> simp_all [Acc.sem, Op.onCell, Op.ordOk]

theorem isRead_peek : (Acc.peek : Acc V).isRead := fun _ _ _ h => h

/-- `p`, run alone, does what the sequential meaning `S` says. -/
def Prog.Implements (p : Prog V R) (S : V → V → R → Prop) : Prop :=
  match p with
  | .stop r => ∀ x, S x x r
  | .one a dec => ∀ x x' r, a.sem x x' r → S x x' (dec r)
  | .loop rd f _ dec => rd.isRead ∧ ∀ x, S x (f x) (dec x)
  | .update _ g f dec =>
    ((g = .release ∨ g = .acqRel) ∧ ∀ x, S x x (dec .panic)) ∨
    (g ≠ .release ∧ g ≠ .acqRel ∧
      (∀ hist x w, f hist x = some w → S x w (dec (.ok x))) ∧
      (∀ hist x, f hist x = none → S x x (dec (.err x))))

/-- What the specification knows at a program point. -/
def Prog.At (S : Spec V O R) : Prog.Pc V R → Status O R → Prop
  | .start p, st => ∃ op, st = .pending op ∧ p.Implements (S.sem op)
  | .fin r, st => st = .done r
  | .loop f _ dec _, st => ∃ op, st = .pending op ∧ ∀ x, S.sem op x (f x) (dec x)
  | .update _ g f dec hist prev, st =>
    g ≠ .release ∧ g ≠ .acqRel ∧
      ((f hist prev = none ∧ st = .done (dec (.err prev))) ∨
        (f hist prev ≠ none ∧ ∃ op, st = .pending op ∧
          (∀ hist x w, f hist x = some w → S.sem op x w (dec (.ok x))) ∧
          (∀ hist x, f hist x = none → S.sem op x x (dec (.err x)))))

theorem Prog.at_update {S : Spec V O R} {s g : MemOrd} {f : Closure V} {dec : Res V → R} {hist x op}
    (h1 : g ≠ .release) (h2 : g ≠ .acqRel)
    (h3 : ∀ hist x w, f hist x = some w → S.sem op x w (dec (.ok x)))
    (h4 : ∀ hist x, f hist x = none → S.sem op x x (dec (.err x))) :
    (Prog.At S (.update s g f dec hist x) (.pending op)) ∨
      ∃ op' r', (Status.pending op : Status O R) = .pending op' ∧
        S.sem op' x x r' ∧ Prog.At S (.update s g f dec hist x) (.done r') := by
  by_cases h : f hist x = none
  · exact Or.inr ⟨_, _, rfl, h4 hist x h, h1, h2, Or.inl ⟨h, rfl⟩⟩
  · exact Or.inl ⟨h1, h2, Or.inr ⟨h, op, rfl, h3, h4⟩⟩

theorem casWeak_cases {cur new : V} {s f : MemOrd} {x x' : V} {r : Res V}
    (h1 : f ≠ .release) (h2 : f ≠ .acqRel) (h : (Acc.casWeak cur new s f).sem x x' r) :
    (x = cur ∧ x' = new ∧ r = .ok cur) ∨ (x' = x ∧ r = .err x) := by
  rcases h with h | ⟨_, h, h'⟩
  · have ho : (Op.cas cur new s f).ordOk = true := by cases f <;> simp [Op.ordOk] at h1 h2 ⊢
    simp only [Op.onCell, ho, if_true] at h
    split at h
    · rename_i e
      simp only [Prod.mk.injEq] at h
      exact Or.inl ⟨e, h.1, e ▸ h.2⟩
    · simp only [Prod.mk.injEq] at h
      exact Or.inr h
  · exact Or.inr ⟨h, h'⟩

/-- If each operation's program computes the sequential meaning, the code simulates the object. -/
def Prog.sim {prog : O → Prog V R} {S : Spec V O R} (H : ∀ op, (prog op).Implements (S.sem op)) :
    CodeSim (Prog.code prog) S where
  abs := id
  inv _ := True
  at_ := Prog.At S
  start op := ⟨op, rfl, H op⟩
  tau := by
    intro l st k x hat hn _
    cases l with
    | start p =>
      obtain ⟨op, rfl, hp⟩ := hat
      cases p with
      | stop r =>
        simp only [Prog.code, Prog.next, Next.tau.injEq] at hn
        subst hn
        exact Or.inr ⟨op, r, rfl, hp x, rfl⟩
      | one => simp [Prog.code, Prog.next] at hn
      | loop => simp [Prog.code, Prog.next] at hn
      | update => simp [Prog.code, Prog.next] at hn
    | fin => simp [Prog.code, Prog.next] at hn
    | loop => simp [Prog.code, Prog.next] at hn
    | update s g f dec hist prev => cases hf : f hist prev <;> simp [Prog.code, Prog.next, hf] at hn
  step := by
    intro l st a k x x' r hat hn _ hs
    refine ⟨trivial, ?_⟩
    cases l with
    | start p =>
      obtain ⟨op, rfl, hp⟩ := hat
      cases p with
      | stop r => simp [Prog.code, Prog.next] at hn
      | one a' dec =>
        simp only [Prog.code, Prog.next, Next.acc.injEq] at hn
        obtain ⟨rfl, rfl⟩ := hn
        exact Or.inr ⟨op, _, rfl, hp _ _ _ hs, rfl⟩
      | loop rd f o dec =>
        simp only [Prog.code, Prog.next, Next.acc.injEq] at hn
        obtain ⟨rfl, rfl⟩ := hn
        obtain ⟨hrd, hf⟩ := hp
        obtain ⟨rfl, v, rfl⟩ := hrd _ _ _ hs
        exact Or.inl ⟨rfl, op, rfl, hf⟩
      | update s g f dec =>
        simp only [Prog.code, Prog.next, Next.acc.injEq] at hn
        obtain ⟨rfl, rfl⟩ := hn
        rcases hp with ⟨hb, hp⟩ | ⟨h1, h2, h3, h4⟩
        · have ho : (Op.load g : Op V).ordOk = false := by
            rcases hb with rfl | rfl <;> rfl
          simp [Acc.sem, Op.onCell, ho] at hs
          obtain ⟨rfl, rfl⟩ := hs
          exact Or.inr ⟨op, _, rfl, hp _, rfl⟩
        · obtain ⟨rfl, v, rfl⟩ := isRead_load h1 h2 _ _ _ hs
          have hv : v = x' := by
            cases g <;> simp_all [Acc.sem, Op.onCell, Op.ordOk]
          subst hv
          rcases Prog.at_update (s := s) (hist := []) (x := v) h1 h2 h3 h4 with h | h
          · exact Or.inl ⟨rfl, h⟩
          · exact Or.inr h
    | fin => simp [Prog.code, Prog.next] at hn
    | loop f o dec prev =>
      simp only [Prog.code, Prog.next, Next.acc.injEq] at hn
      obtain ⟨rfl, rfl⟩ := hn
      obtain ⟨op, rfl, hf⟩ := hat
      rcases casWeak_cases (by simp) (by simp) hs with ⟨rfl, rfl, rfl⟩ | ⟨rfl, rfl⟩
      · exact Or.inr ⟨op, _, rfl, hf _, rfl⟩
      · exact Or.inl ⟨rfl, op, rfl, hf⟩
    | update s g f dec hist prev =>
      obtain ⟨h1, h2, hat⟩ := hat
      cases hf : f hist prev with
      | none => simp [Prog.code, Prog.next, hf] at hn
      | some w =>
        simp only [Prog.code, Prog.next, hf, Next.acc.injEq] at hn
        obtain ⟨rfl, rfl⟩ := hn
        rcases hat with ⟨h, _⟩ | ⟨_, op, rfl, h3, h4⟩
        · simp [hf] at h
        rcases casWeak_cases h1 h2 hs with ⟨rfl, rfl, rfl⟩ | ⟨rfl, rfl⟩
        · exact Or.inr ⟨op, _, rfl, h3 _ _ _ hf, rfl⟩
        · rcases Prog.at_update (s := s) (hist := hist ++ [prev]) (x := x') h1 h2 h3 h4 with h | h
          · exact Or.inl ⟨rfl, h⟩
          · exact Or.inr h
  ret := by
    intro l st r hat hn
    cases l with
    | start p => cases p <;> simp [Prog.code, Prog.next] at hn
    | fin r' => simp only [Prog.code, Prog.next, Next.ret.injEq] at hn; subst hn; exact hat
    | loop => simp [Prog.code, Prog.next] at hn
    | update s g f dec hist prev =>
      obtain ⟨_, _, hat⟩ := hat
      cases hf : f hist prev with
      | none =>
        simp only [Prog.code, Prog.next, hf, Next.ret.injEq] at hn
        subst hn
        rcases hat with ⟨_, h⟩ | ⟨h, _⟩
        · exact h
        · exact absurd hf h
      | some w => simp [Prog.code, Prog.next, hf] at hn

/-- Histories are linearizable, and memory ends as the linearization says. -/
theorem Prog.linearizable {prog : O → Prog V R} {S : Spec V O R}
    (H : ∀ op, (prog op).Implements (S.sem op)) {m : K → V} {h s}
    (hx : Runs ((Prog.code prog).sys K) m h s) :
    LinearizableTo (S.many (K := K)) m h s.mem :=
  (Prog.sim H).linearizable (m := m) (fun _ => trivial) hx

end Verif.Lf
