import Verif.Asm.Machine
import Verif.Lf.LlScFree
/-!
# Proving a block correct at its memory accesses

`Points` asks for an assertion at every memory access of a block and what has to be shown there;
`Points.local_` turns it into the obligations of `Asm.Local`.
-/
set_option autoImplicit false
set_option linter.unusedSectionVars false
namespace Verif.Asm
open Verif.Object Verif.Lf

variable {C ι St V W R K : Type} [DecidableEq V] [DecidableEq K]

/-- `(pc', s')` is reached from `(pc, s)` by register-only instructions and branches. -/
inductive Go (A : Blocks C ι St V W R) (c : C) : Nat → St → Nat → St → Prop where
  | refl (pc s) : Go A c pc s pc s
  | go {pc s i s' pc' s''} (hp : (A.prog c)[pc]? = some i) (h : A.sem c i s = .go s')
      (t : Go A c (pc + 1) s' pc' s'') : Go A c pc s pc' s''
  | br {pc s i b n pc' s''} (hp : (A.prog c)[pc]? = some i) (h : A.sem c i s = .br b n)
      (t : Go A c (if b then n else pc + 1) s pc' s'') : Go A c pc s pc' s''

theorem Go.adv {A : Blocks C ι St V W R} {c : C} {pc : Nat} {s : St} {pc' : Nat} {s' : St}
    (h : Go A c pc s pc' s') (hf : Option W) (n : Nat) :
    A.code.Adv ⟨c, pc, hf, n, s⟩ ⟨c, pc', hf, n, s'⟩ := by
  induction h with
  | refl => exact .refl _
  | go hp h _ ih => exact A.adv_go hp h ih
  | br hp h _ ih => exact A.adv_br hp h ih

theorem Go.trans {A : Blocks C ι St V W R} {c : C} {pc : Nat} {s : St} {pc' : Nat} {s' : St}
    {pc'' s''} (h : Go A c pc s pc' s') (h' : Go A c pc' s' pc'' s'') : Go A c pc s pc'' s'' := by
  induction h with
  | refl => exact h'
  | go hp h _ ih => exact .go hp h (ih h')
  | br hp h _ ih => exact .br hp h (ih h')

/-- A register-only stretch. -/
theorem Go.run {A : Blocks C ι St V W R} {c : C} (body : List ι) {pc : Nat} {s s' : St}
    (hp : ∀ i, i < body.length → (A.prog c)[pc + i]? = body[i]?)
    (hr : A.run c body s = some s') : Go A c pc s (pc + body.length) s' := by
  induction body generalizing pc s with
  | nil =>
    simp only [Blocks.run, Option.some.injEq] at hr
    subst hr
    exact .refl _ _
  | cons i is ih =>
    have h0 := hp 0 (by simp)
    simp only [Nat.add_zero, List.getElem?_cons_zero] at h0
    simp only [Blocks.run] at hr
    cases he : A.sem c i s with
    | go s1 =>
      simp only [he] at hr
      refine .go h0 he ?_
      have := ih (pc := pc + 1) (fun j hj => ?_) hr
      · simpa [Nat.add_assoc, Nat.add_comm 1] using this
      · have h1 := hp (j + 1) (by simpa using hj)
        simp only [List.getElem?_cons_succ] at h1
        rw [← h1]
        simp [Nat.add_assoc, Nat.add_comm 1]
    | br | acc | ll | ll2 | sc | fault => simp [he] at hr

/-- What a call may do after an access that took the object from `x` to `x'`. -/
def Cont (A : Blocks C ι St V W R) (S : Spec V C (Option R)) (c : C)
    (P : Nat → St → Option (Option R) → Prop) (G : Nat → St → V → Prop)
    (g : Prop) (x x' : V) (e : Option (Option R)) (pc : Nat) (s : St) : Prop :=
  (∃ pc' s' e', Go A c pc s pc' s' ∧ P pc' s' e' ∧ x' = x ∧ (g → G pc' s' x) ∧
      (∀ r, e' = some r → e = some r ∨ S.sem c x x r)) ∨
  (∃ pc' s', Go A c pc s pc' s' ∧ (A.prog c)[pc']? = none ∧
      (S.sem c x x' (some (A.out c s')) ∨ (x' = x ∧ e = some (some (A.out c s')))))

/-- What has to be shown at an access. -/
def Ok (A : Blocks C ι St V W R) (S : Spec V C (Option R)) (c : C)
    (P : Nat → St → Option (Option R) → Prop) (G : Nat → St → V → Prop)
    (e : Option (Option R)) (pc : Nat) (s : St) : Eff St V W → Prop
  | .acc a k => ∀ x x' r, a.sem x x' r → Cont A S c P G (G pc s x) x x' e (pc + 1) (k r)
  | .ll k => ∀ x, Cont A S c P G True x x e (pc + 1) (k x)
  | .ll2 word k =>
    (∀ x, Cont A S c P G True x x e (pc + 1) (k (word x false) (word x true))) ∧
    (∀ w0 w1 x, Cont A S c P G False x x e (pc + 1) (k w0 w1))
  | .sc v k => (∀ x, G pc s x → Cont A S c P G False x v e (pc + 1) (k true)) ∧
    (∀ x, Cont A S c P G False x x e (pc + 1) (k false))
  | .go _ | .br _ _ | .fault => False

/-- Assertions at the accesses of a block. -/
structure Points (A : Blocks C ι St V W R) (S : Spec V C (Option R)) (c : C) where
  P : Nat → St → Option (Option R) → Prop
  G : Nat → St → V → Prop
  start : ∃ pc s, Go A c 0 (A.entry c) pc s ∧ P pc s none
  ok : ∀ pc s e, P pc s e → ∃ i, (A.prog c)[pc]? = some i ∧ Ok A S c P G e pc s (A.sem c i s)

/-- From this point of the block, running alone (see `LlSc.Code.Ends`) ends in `Q`. -/
def Ends (A : Blocks C ι St V W R) (c : C) (Q : Option R → V → Prop) (pc : Nat) (s : St) (ρ : Bool)
    (x : V) : Prop :=
  ∀ n, A.code.Ends Q ⟨c, pc, none, n, s⟩ ρ x

namespace Ends
variable {A : Blocks C ι St V W R} {c : C} {Q : Option R → V → Prop} {pc : Nat} {s : St} {ρ : Bool} {x : V}

theorem go {pc' : Nat} {s' : St} (h : Go A c pc s pc' s') (t : Ends A c Q pc' s' ρ x) :
    Ends A c Q pc s ρ x := fun n => (h.adv none n).ends (t n)

theorem done (h : (A.prog c)[pc]? = none) (hq : Q (some (A.out c s)) x) : Ends A c Q pc s ρ x :=
  fun _ => .ret (by show A.next _ = _; simp [Blocks.next, h]) hq

theorem acc {i : ι} {a : Acc V} {k : Res V → St} (hp : (A.prog c)[pc]? = some i)
    (hs : A.sem c i s = .acc a k) (t : ∀ x' r, a.sem x x' r → Ends A c Q (pc + 1) (k r) (ρ && decide (x' = x)) x') :
    Ends A c Q pc s ρ x :=
  fun n => .acc (a := a) (f := fun r => ⟨c, pc + 1, none, n, k r⟩)
    (by show A.next _ = _; simp [Blocks.next, hp, hs, Loc.to_]) fun x' r hr => t x' r hr n

theorem ll {i : ι} {k : V → St} (hp : (A.prog c)[pc]? = some i) (hs : A.sem c i s = .ll k)
    (t : Ends A c Q (pc + 1) (k x) true x) : Ends A c Q pc s ρ x :=
  fun n => .ll (f := fun x => ⟨c, pc + 1, none, n, k x⟩)
    (by show A.next _ = _; simp [Blocks.next, hp, hs, Loc.to_]) (t n)

theorem sc {i : ι} {v : V} {k : Bool → St} (hp : (A.prog c)[pc]? = some i) (hs : A.sem c i s = .sc v k)
    (t : Ends A c Q (pc + 1) (k true) false v) : Ends A c Q pc s true x :=
  fun n => .sc (f := fun ok => ⟨c, pc + 1, none, n, k ok⟩)
    (by show A.next _ = _; simp [Blocks.next, hp, hs, Loc.to_]) (t n)

theorem ll2 {i : ι} {word : V → Bool → W} {k : W → W → St} (hp : (A.prog c)[pc]? = some i)
    (hs : A.sem c i s = .ll2 word k)
    (t : Ends A c Q (pc + 1) (k (word x false) (word x true)) true x) : Ends A c Q pc s ρ x := by
  intro n
  refine .ll (f := fun x => ⟨c, pc, some (word x (A.order c n)), n, s⟩)
    (by show A.next _ = _; simp [Blocks.next, hp, hs]) ?_
  refine .acc (a := .op (.load .relaxed)) (f := fun r => match r with
        | .val y => ⟨c, pc + 1, none, n + 1, if A.order c n then k (word y false) (word x (A.order c n))
            else k (word x (A.order c n)) (word y true)⟩
        | _ => ⟨c, pc, some (word x (A.order c n)), n, s⟩)
    (by show A.next _ = _; simp [Blocks.next, hp, hs, Loc.to_]; funext r; cases r <;> rfl) fun x' r hr => ?_
  obtain ⟨rfl, rfl⟩ : x' = x ∧ r = .val x := by simpa [Acc.sem, Op.onCell, Op.ordOk] using hr
  have := t (n + 1)
  simp only [decide_true, Bool.and_true]
  cases A.order c n <;> exact this

end Ends

/-- From this point of the block only registers are used until the end. -/
def Rest (A : Blocks C ι St V W R) (c : C) (pc : Nat) (s : St) : Prop :=
  ∃ pc' s', Go A c pc s pc' s' ∧ (A.prog c)[pc']? = none

/-- A write, if it happens, is the last access of the call. -/
def Once (A : Blocks C ι St V W R) (c : C) (pc : Nat) : Eff St V W → Prop
  | .acc a k => ∀ x x' r, a.sem x x' r → a.Reads r ∨ Rest A c (pc + 1) (k r)
  | .sc _ k => Rest A c (pc + 1) (k true)
  | _ => True

/-- From this point of the block, while nobody writes (see `LlSc.Code.Stops`), the call returns or writes. -/
def Stops (A : Blocks C ι St V W R) (c : C) (pc : Nat) (s : St) (ρ : Bool) (x : V) : Prop :=
  ∀ n, A.code.Stops ⟨c, pc, none, n, s⟩ ρ x

namespace Stops
variable {A : Blocks C ι St V W R} {c : C} {pc : Nat} {s : St} {ρ : Bool} {x : V}

theorem go {pc' : Nat} {s' : St} (h : Go A c pc s pc' s') (t : Stops A c pc' s' ρ x) :
    Stops A c pc s ρ x := fun n => (h.adv none n).stops (t n)

theorem done (h : (A.prog c)[pc]? = none) : Stops A c pc s ρ x :=
  fun _ => .ret (by show A.next _ = _; simp [Blocks.next, h]; rfl)

theorem rest (h : Rest A c pc s) : Stops A c pc s ρ x := by
  obtain ⟨pc', s', h1, h2⟩ := h
  exact .go h1 (.done h2)

theorem acc {i : ι} {a : Acc V} {k : Res V → St} (hp : (A.prog c)[pc]? = some i)
    (hs : A.sem c i s = .acc a k) (t : ∀ r, a.sem x x r → ¬ a.Spurious x r → Stops A c (pc + 1) (k r) ρ x) :
    Stops A c pc s ρ x :=
  fun n => .acc (a := a) (f := fun r => ⟨c, pc + 1, none, n, k r⟩)
    (by show A.next _ = _; simp [Blocks.next, hp, hs, Loc.to_]) fun r hr hn => t r hr hn n

theorem ll {i : ι} {k : V → St} (hp : (A.prog c)[pc]? = some i) (hs : A.sem c i s = .ll k)
    (t : Stops A c (pc + 1) (k x) true x) : Stops A c pc s ρ x :=
  fun n => .ll (f := fun x => ⟨c, pc + 1, none, n, k x⟩)
    (by show A.next _ = _; simp [Blocks.next, hp, hs, Loc.to_]) (t n)

theorem sc {i : ι} {v : V} {k : Bool → St} (hp : (A.prog c)[pc]? = some i) (hs : A.sem c i s = .sc v k)
    (t : ρ = false → Stops A c (pc + 1) (k false) false x) : Stops A c pc s ρ x := by
  intro n
  have h : A.code.next ⟨c, pc, none, n, s⟩ = .sc v fun ok => ⟨c, pc + 1, none, n, k ok⟩ := by
    show A.next _ = _; simp [Blocks.next, hp, hs, Loc.to_]
  cases ρ with
  | true => exact .sc h
  | false => exact .scFail h (t rfl n)

theorem ll2 {i : ι} {word : V → Bool → W} {k : W → W → St} (hp : (A.prog c)[pc]? = some i)
    (hs : A.sem c i s = .ll2 word k)
    (t : Stops A c (pc + 1) (k (word x false) (word x true)) true x) : Stops A c pc s ρ x := by
  intro n
  refine .ll (f := fun x => ⟨c, pc, some (word x (A.order c n)), n, s⟩)
    (by show A.next _ = _; simp [Blocks.next, hp, hs]) ?_
  refine .acc (a := .op (.load .relaxed)) (f := fun r => match r with
        | .val y => ⟨c, pc + 1, none, n + 1, if A.order c n then k (word y false) (word x (A.order c n))
            else k (word x (A.order c n)) (word y true)⟩
        | _ => ⟨c, pc, some (word x (A.order c n)), n, s⟩)
    (by show A.next _ = _; simp [Blocks.next, hp, hs, Loc.to_]; funext r; cases r <;> rfl) fun r hr _ => ?_
  obtain rfl : r = .val x := by simpa [Acc.sem, Op.onCell, Op.ordOk] using hr
  have := t (n + 1)
  cases A.order c n <;> exact this

end Stops

/-- A call correct at every access, that ends when left alone. -/
structure Correct (A : Blocks C ι St V W R) (S : Spec V C (Option R)) (c : C) extends Points A S c where
  ends : ∀ x, Ends A c (fun r y => S.sem c x y r) 0 (A.entry c) false x
  /-- a write is the last access -/
  once : ∀ pc s e, P pc s e → ∃ i, (A.prog c)[pc]? = some i ∧ Once A c pc (A.sem c i s)
  /-- while nobody writes, the call returns or writes -/
  stops : ∀ pc s e, P pc s e → ∀ ρ x, Stops A c pc s ρ x

namespace Points
variable {A : Blocks C ι St V W R} {S : Spec V C (Option R)} {c : C}

/-- A half already read is only remembered inside a split load-linked. -/
def HalfOk (A : Blocks C ι St V W R) (l : Loc C St W) : Prop :=
  l.half = none ∨ ∃ i word k, (A.prog l.call)[l.pc]? = some i ∧ A.sem l.call i l.st = .ll2 word k

/-- Pending at an access. -/
def pend (X : Points A S c) (l : Loc C St W) (e : Option (Option R)) : Prop :=
  l.call = c ∧ X.P l.pc l.st e ∧ HalfOk A l

/-- What is known at an access. -/
def known (X : Points A S c) (l : Loc C St W) (x : V) : Prop :=
  match l.half with
  | none => X.G l.pc l.st x
  | some w => ∀ i word k, (A.prog l.call)[l.pc]? = some i → A.sem l.call i l.st = .ll2 word k →
      w = word x (A.order l.call l.cnt)

theorem cont (X : Points A S c) {g : Prop} {x x' : V} {e : Option (Option R)} {pc : Nat} {s : St}
    (h : Cont A S c X.P X.G g x x' e pc s) (n : Nat) :
    Goes A S c X.pend X.known g x x' e ⟨c, pc, none, n, s⟩ := by
  rcases h with ⟨pc', s', e', h1, h2, h3, h4, h5⟩ | ⟨pc', s', h1, h2, h3⟩
  · exact Or.inl ⟨⟨c, pc', none, n, s'⟩, e', h1.adv none n, ⟨rfl, h2, Or.inl rfl⟩, h3, h4, h5⟩
  · refine Or.inr ⟨⟨c, pc', none, n, s'⟩, _, h1.adv none n, ?_, h3⟩
    show A.next _ = _
    simp [Blocks.next, h2]

theorem weaken {pend : Loc C St W → Option (Option R) → Prop} {G : Loc C St W → V → Prop}
    {g g' : Prop} {x x' : V} {e : Option (Option R)} {l : Loc C St W} (hg : g' → g)
    (h : Goes A S c pend G g x x' e l) : Goes A S c pend G g' x x' e l := by
  rcases h with ⟨l', e', h1, h2, h3, h4, h5⟩ | h
  · exact Or.inl ⟨l', e', h1, h2, h3, fun h => h4 (hg h), h5⟩
  · exact Or.inr h

theorem load_relaxed {x x' : V} {r : Res V} (h : (Acc.op (.load .relaxed)).sem x x' r) :
    x' = x ∧ r = .val x := by
  simpa [Acc.sem, Op.onCell, Op.ordOk] using h

/-- The obligations for one call. -/
def local_ (X : Points A S c) : Local A S c where
  pend := X.pend
  G := X.known
  call l e h := h.1
  start := by
    obtain ⟨pc, s, h1, h2⟩ := X.start
    exact ⟨⟨c, pc, none, 0, s⟩, h1.adv none 0, rfl, h2, Or.inl rfl⟩
  nt := by
    rintro ⟨c', pc, hf, n, s⟩ e ⟨hc, hP, -⟩
    simp only at hc hP
    subst hc
    obtain ⟨i, hi, hok⟩ := X.ok _ _ _ hP
    show (∀ k, A.next _ ≠ _) ∧ ∀ r, A.next _ ≠ _
    simp only [Blocks.next, hi]
    cases hs : A.sem c' i s with
    | go | br | fault => simp [hs, Ok] at hok
    | acc | ll | sc => simp
    | ll2 word k => cases hf <;> simp
  acc := by
    rintro ⟨c', pc, hf, n, s⟩ e a f x x' r ⟨hc, hP, hh⟩ hn hsem
    simp only at hc hP
    subst hc
    obtain ⟨i, hi, hok⟩ := X.ok _ _ _ hP
    change A.next _ = _ at hn
    simp only [Blocks.next, hi] at hn
    cases hs : A.sem c' i s with
    | go | br | fault => simp [hs, Ok] at hok
    | ll | sc => simp [hs] at hn
    | acc a' k =>
      simp only [hs, LlSc.Next.acc.injEq] at hn
      obtain ⟨rfl, rfl⟩ := hn
      have hhf : hf = none := by
        rcases hh with h | ⟨i', w, k', h1, h2⟩
        · exact h
        · simp only at h1 h2
          rw [hi] at h1; cases h1
          rw [hs] at h2; cases h2
      subst hhf
      rw [hs] at hok
      exact X.cont (hok x x' r hsem) n
    | ll2 word k =>
      cases hf with
      | none => simp [hs] at hn
      | some w =>
        simp only [hs, LlSc.Next.acc.injEq] at hn
        obtain ⟨rfl, rfl⟩ := hn
        obtain ⟨rfl, rfl⟩ := load_relaxed hsem
        rw [hs] at hok
        by_cases hg : w = word x' (A.order c' n)
        · subst hg
          refine weaken (g := True) (fun _ => trivial) ?_
          have := X.cont (hok.1 x') (n + 1)
          simp only [Loc.to_]
          cases A.order c' n <;> exact this
        · refine weaken (g := False) (fun h => hg (h i word k hi hs)) ?_
          simp only [Loc.to_]
          cases A.order c' n
          · exact X.cont (hok.2 _ _ x') (n + 1)
          · exact X.cont (hok.2 _ _ x') (n + 1)
  ll := by
    rintro ⟨c', pc, hf, n, s⟩ e f x ⟨hc, hP, hh⟩ hn
    simp only at hc hP
    subst hc
    obtain ⟨i, hi, hok⟩ := X.ok _ _ _ hP
    change A.next _ = _ at hn
    simp only [Blocks.next, hi] at hn
    cases hs : A.sem c' i s with
    | go | br | fault => simp [hs, Ok] at hok
    | acc | sc => simp [hs] at hn
    | ll k =>
      simp only [hs, LlSc.Next.ll.injEq] at hn
      subst hn
      have hhf : hf = none := by
        rcases hh with h | ⟨i', w, k', h1, h2⟩
        · exact h
        · simp only at h1 h2
          rw [hi] at h1; cases h1
          rw [hs] at h2; cases h2
      subst hhf
      rw [hs] at hok
      exact X.cont (hok x) n
    | ll2 word k =>
      cases hf with
      | some w => simp [hs] at hn
      | none =>
        simp only [hs, LlSc.Next.ll.injEq] at hn
        subst hn
        refine Or.inl ⟨_, e, .refl _, ⟨rfl, hP, Or.inr ⟨i, word, k, hi, hs⟩⟩, rfl, fun _ => ?_,
          fun r h => Or.inl h⟩
        intro i' word' k' h1 h2
        simp only at h1 h2
        rw [hi] at h1; cases h1
        rw [hs] at h2; cases h2
        rfl
  scOk := by
    rintro ⟨c', pc, hf, n, s⟩ e v f x ⟨hc, hP, hh⟩ hn hG
    simp only at hc hP
    subst hc
    obtain ⟨i, hi, hok⟩ := X.ok _ _ _ hP
    change A.next _ = _ at hn
    simp only [Blocks.next, hi] at hn
    cases hs : A.sem c' i s with
    | go | br | fault => simp [hs, Ok] at hok
    | acc | ll => simp [hs] at hn
    | ll2 word k => cases hf <;> simp [hs] at hn
    | sc v' k =>
      simp only [hs, LlSc.Next.sc.injEq] at hn
      obtain ⟨rfl, rfl⟩ := hn
      have hhf : hf = none := by
        rcases hh with h | ⟨i', w, k', h1, h2⟩
        · exact h
        · simp only at h1 h2
          rw [hi] at h1; cases h1
          rw [hs] at h2; cases h2
      subst hhf
      rw [hs] at hok
      exact X.cont (hok.1 x hG) n
  scFail := by
    rintro ⟨c', pc, hf, n, s⟩ e v f x ⟨hc, hP, hh⟩ hn
    simp only at hc hP
    subst hc
    obtain ⟨i, hi, hok⟩ := X.ok _ _ _ hP
    change A.next _ = _ at hn
    simp only [Blocks.next, hi] at hn
    cases hs : A.sem c' i s with
    | go | br | fault => simp [hs, Ok] at hok
    | acc | ll => simp [hs] at hn
    | ll2 word k => cases hf <;> simp [hs] at hn
    | sc v' k =>
      simp only [hs, LlSc.Next.sc.injEq] at hn
      obtain ⟨rfl, rfl⟩ := hn
      have hhf : hf = none := by
        rcases hh with h | ⟨i', w, k', h1, h2⟩
        · exact h
        · simp only at h1 h2
          rw [hi] at h1; cases h1
          rw [hs] at h2; cases h2
      subst hhf
      rw [hs] at hok
      exact X.cont (hok.2 x) n

end Points

/-- Blocks whose accesses are all shown correct: every concurrent history of any number of threads
and objects is linearizable, and ends with the linearization's values in memory. -/
theorem linearizable {A : Blocks C ι St V W R} {S : Spec V C (Option R)} (X : ∀ c, Points A S c)
    {m : K → LlSc.Cell V} {h s} (hx : Runs (A.code.sys K) m h s) :
    LinearizableTo (S.many (K := K)) (fun k => (m k).val) h (fun k => (s.mem k).val) :=
  (rsim A S fun c => (X c).local_).linearizable hx

/-- Left alone, every call ends, having done what is specified. -/
theorem finishes {A : Blocks C ι St V W R} {S : Spec V C (Option R)} {c : C} (X : Correct A S c) (x : V) :
    A.code.Ends (fun r y => S.sem c x y r) (A.code.start c) false x := X.ends x 0

end Verif.Asm
