import Verif.Lf.LlSc
/-!
# Inline-assembly blocks as programs

The part that is the same for every architecture.  A block is a list of instructions; `sem` gives
the meaning of an instruction in a processor state, as one of the effects `Eff`; running past the
end of the list ends the block.  `Blocks.code` turns a family of blocks into programs over the 16-byte
object (`Lf.LlSc`).  An instruction the processor does not have, an access to anything but the
object and a point the Rust code calls `unreachable!` are the effect `fault`, which makes the call
return `none`; no specification allows that result.
-/
set_option autoImplicit false
set_option linter.unusedSectionVars false
namespace Verif.Asm
open Verif.Object Verif.Lf
open Verif.Lf.LlSc (RSim)

/-- What an instruction does. `St` is the processor state, `V` the object's value, `W` a half. -/
inductive Eff (St V W : Type) where
  /-- registers and flags only -/
  | go (s : St)
  /-- a branch: taken or not -/
  | br (taken : Bool) (target : Nat)
  /-- one indivisible access to the object -/
  | acc (a : Acc V) (k : Res V → St)
  /-- load-linked that reads the whole object at once -/
  | ll (k : V → St)
  /-- load-linked that reads the two halves separately, in either order -/
  | ll2 (word : V → Bool → W) (k : W → W → St)
  /-- store-conditional -/
  | sc (v : V) (k : Bool → St)
  | fault

/-- A family of blocks, one for each call. -/
structure Blocks (C ι St V W R : Type) where
  /-- the instructions -/
  prog : C → List ι
  /-- processor state at entry -/
  entry : C → St
  sem : C → ι → St → Eff St V W
  /-- what the Rust code makes of the processor state at exit -/
  out : C → St → R
  /-- which half the `n`-th split load-linked reads first (`true`: the second) -/
  order : C → Nat → Bool

variable {C ι St V W R K : Type} [DecidableEq V] [DecidableEq K]

/-- Program point of a call. -/
structure Loc (C St W : Type) where
  call : C
  pc : Nat
  /-- the half a split load-linked has already read -/
  half : Option W
  /-- number of split load-linked instructions executed -/
  cnt : Nat
  st : St

/-- Next instruction. -/
def Loc.to_ (l : Loc C St W) (s : St) : Loc C St W := { l with pc := l.pc + 1, st := s }

/-- One instruction (or half of a split load-linked). -/
def Blocks.next (A : Blocks C ι St V W R) (l : Loc C St W) : LlSc.Next V (Option R) (Loc C St W) :=
  match (A.prog l.call)[l.pc]? with
  | none => .ret (some (A.out l.call l.st))
  | some i =>
    match A.sem l.call i l.st with
    | .go s => .tau (l.to_ s)
    | .br taken target => .tau { l with pc := if taken then target else l.pc + 1 }
    | .acc a k => .acc a fun r => l.to_ (k r)
    | .ll k => .ll fun x => l.to_ (k x)
    | .ll2 word k =>
      match l.half with
      | none => .ll fun x => { l with half := some (word x (A.order l.call l.cnt)) }
      | some w => .acc (.op (.load .relaxed)) fun r =>
        match r with
        | .val x =>
          let o := A.order l.call l.cnt
          { l.to_ (if o then k (word x false) w else k w (word x true)) with
            half := none, cnt := l.cnt + 1 }
        | _ => l
    | .sc v k => .sc v fun ok => l.to_ (k ok)
    | .fault => .ret none

/-- The blocks as programs. -/
def Blocks.code (A : Blocks C ι St V W R) : LlSc.Code V C (Option R) (Loc C St W) where
  start c := { call := c, pc := 0, half := none, cnt := 0, st := A.entry c }
  next := A.next

/-! ## Straight-line code -/

/-- Run register-only instructions. -/
def Blocks.run (A : Blocks C ι St V W R) (c : C) : List ι → St → Option St
  | [], s => some s
  | i :: is, s => match A.sem c i s with
    | .go s' => A.run c is s'
    | _ => none

theorem Adv.trans {c : LlSc.Code V C (Option R) (Loc C St W)} {a b d : Loc C St W} (h : c.Adv a b)
    (h' : c.Adv b d) : c.Adv a d := by
  induction h with
  | refl => exact h'
  | head e _ ih => exact .head e (ih h')

/-- A register-only stretch is passed. -/
theorem Blocks.adv_run (A : Blocks C ι St V W R) (body : List ι) (l : Loc C St W) (s : St)
    (hp : ∀ i, i < body.length → (A.prog l.call)[l.pc + i]? = body[i]?)
    (hr : A.run l.call body l.st = some s) :
    A.code.Adv l { l with pc := l.pc + body.length, st := s } := by
  induction body generalizing l with
  | nil =>
    simp only [Blocks.run, Option.some.injEq] at hr
    subst hr
    exact .refl _
  | cons i is ih =>
    have h0 := hp 0 (by simp)
    simp only [Nat.add_zero, List.getElem?_cons_zero] at h0
    simp only [Blocks.run] at hr
    cases he : A.sem l.call i l.st with
    | go s' =>
      simp only [he] at hr
      have hn : A.code.next l = .tau (l.to_ s') := by simp [Blocks.code, Blocks.next, h0, he]
      refine .head hn ?_
      have := ih (l.to_ s') (fun j hj => ?_) hr
      · simpa [Loc.to_, Nat.add_assoc, Nat.add_comm 1] using this
      · have h1 := hp (j + 1) (by simpa using hj)
        simp only [List.getElem?_cons_succ] at h1
        rw [← h1]
        simp [Loc.to_, Nat.add_assoc, Nat.add_comm 1]
    | br | acc | ll | ll2 | sc | fault => simp [he] at hr

theorem Blocks.adv_go (A : Blocks C ι St V W R) {l : Loc C St W} {i : ι} {s : St} {l' : Loc C St W}
    (hp : (A.prog l.call)[l.pc]? = some i) (hs : A.sem l.call i l.st = .go s)
    (h : A.code.Adv (l.to_ s) l') : A.code.Adv l l' :=
  .head (by simp [Blocks.code, Blocks.next, hp, hs]) h

theorem Blocks.adv_br (A : Blocks C ι St V W R) {l : Loc C St W} {i : ι} {b : Bool} {t : Nat}
    {l' : Loc C St W} (hp : (A.prog l.call)[l.pc]? = some i)
    (hs : A.sem l.call i l.st = .br b t)
    (h : A.code.Adv { l with pc := if b then t else l.pc + 1 } l') : A.code.Adv l l' :=
  .head (by simp [Blocks.code, Blocks.next, hp, hs]) h

/-! ## Reasoning call by call -/

/-- After an access that took the object from `x` to `x'`, the call `c` at `l1` (coming from the
access at `l`, with early result `e`): it goes on to the next access, or it ends having done its
operation. -/
def Goes (A : Blocks C ι St V W R) (S : Spec V C (Option R)) (c : C)
    (pend : Loc C St W → Option (Option R) → Prop) (G : Loc C St W → V → Prop)
    (g : Prop) (x x' : V) (e : Option (Option R)) (l1 : Loc C St W) : Prop :=
  (∃ l' e', A.code.Adv l1 l' ∧ pend l' e' ∧ x' = x ∧ (g → G l' x) ∧
      (∀ r, e' = some r → e = some r ∨ S.sem c x x r)) ∨
  (∃ l' r, A.code.Adv l1 l' ∧ A.code.next l' = .ret r ∧
      (S.sem c x x' r ∨ (x' = x ∧ e = some r)))

/-- Obligations for one call. `pend l e`: the call is about to access memory at `l`, its operation
has not happened, unless (`e = some r`) it is taken to have happened already with result `r`. -/
structure Local (A : Blocks C ι St V W R) (S : Spec V C (Option R)) (c : C) where
  pend : Loc C St W → Option (Option R) → Prop
  G : Loc C St W → V → Prop
  call : ∀ l e, pend l e → l.call = c
  start : ∃ l, A.code.Adv (A.code.start c) l ∧ pend l none
  nt : ∀ l e, pend l e → (∀ k, A.code.next l ≠ .tau k) ∧ ∀ r, A.code.next l ≠ .ret r
  acc : ∀ l e a f x x' r, pend l e → A.code.next l = .acc a f → a.sem x x' r →
    Goes A S c pend G (G l x) x x' e (f r)
  ll : ∀ l e f x, pend l e → A.code.next l = .ll f → Goes A S c pend G True x x e (f x)
  scOk : ∀ l e v f x, pend l e → A.code.next l = .sc v f → G l x →
    Goes A S c pend G False x v e (f true)
  scFail : ∀ l e v f x, pend l e → A.code.next l = .sc v f →
    Goes A S c pend G False x x e (f false)

/-- Possible statuses of a call that is about to access memory. -/
def poss (c : C) (e : Option (Option R)) : Status C (Option R) → Prop :=
  fun st => st = .pending c ∨ ∃ r, e = some r ∧ st = .done r

section
variable (A : Blocks C ι St V W R) (S : Spec V C (Option R)) (X : ∀ c, Local A S c)

/-- The call is about to access memory, or about to return. -/
def AtAcc (l : Loc C St W) (T : Status C (Option R) → Prop) : Prop :=
  (∃ e, (X l.call).pend l e ∧ T = poss l.call e) ∨ (∃ r, A.code.next l = .ret r ∧ T = (· = .done r))

/-- What is known while the reservation holds. -/
def Known (l : Loc C St W) (x : V) : Prop := (X l.call).G l x ∨ ∃ r, A.code.next l = .ret r

theorem goes {c : C} {g : Prop} {x x' : V} {e : Option (Option R)} {l1 : Loc C St W}
    (h : Goes A S c (X c).pend (X c).G g x x' e l1) :
    ∃ l' T', A.code.Adv l1 l' ∧ AtAcc A S X l' T' ∧ Post S x x' (poss c e) T' ∧
      (g → Known A S X l' x) := by
  rcases h with ⟨l', e', h1, h2, rfl, h4, h5⟩ | ⟨l', r', h1, h2, h3⟩
  · have hc := (X c).call _ _ h2
    subst hc
    refine ⟨l', poss l'.call e', h1, Or.inl ⟨e', h2, rfl⟩, ⟨⟨_, Or.inl rfl⟩, ?_⟩,
      fun hg => Or.inl (h4 hg)⟩
    rintro st' (rfl | ⟨r', rfl, rfl⟩)
    · exact Or.inl ⟨rfl, Or.inl rfl⟩
    · rcases h5 r' rfl with rfl | h6
      · exact Or.inl ⟨rfl, Or.inr ⟨r', rfl, rfl⟩⟩
      · exact Or.inr ⟨_, r', Or.inl rfl, rfl, h6⟩
  · refine ⟨l', _, h1, Or.inr ⟨r', h2, rfl⟩, ⟨⟨_, rfl⟩, ?_⟩, fun _ => Or.inr ⟨r', h2⟩⟩
    rintro st' rfl
    rcases h3 with h3 | ⟨rfl, rfl⟩
    · exact Or.inr ⟨c, r', Or.inl rfl, rfl, h3⟩
    · exact Or.inl ⟨rfl, Or.inr ⟨r', rfl, rfl⟩⟩

/-- Call by call suffices. -/
def rsim : RSim A.code S where
  A l T := AtAcc A S X l T
  G l x := Known A S X l x
  nt l T k h := by
    rcases h with ⟨e, h, -⟩ | ⟨r, h, -⟩
    · exact ((X l.call).nt l e h).1 k
    · rw [h]; simp
  start c := by
    obtain ⟨l, h1, h2⟩ := (X c).start
    have hc := (X c).call _ _ h2
    subst hc
    exact ⟨l, h1, Or.inl ⟨none, h2, by funext st; simp [poss]⟩⟩
  acc l T a f x x' r h hn hs := by
    rcases h with ⟨e, h, rfl⟩ | ⟨r', h, -⟩
    · obtain ⟨l', T', h1, h2, h3, h4⟩ := goes A S X ((X l.call).acc l e a f x x' r h hn hs)
      refine ⟨l', T', h1, h2, h3, fun _ hg => h4 ?_⟩
      rcases hg with hg | ⟨r', hg⟩
      · exact hg
      · rw [hn] at hg; simp at hg
    · rw [hn] at h; simp at h
  ll l T f x h hn := by
    rcases h with ⟨e, h, rfl⟩ | ⟨r', h, -⟩
    · obtain ⟨l', T', h1, h2, h3, h4⟩ := goes A S X ((X l.call).ll l e f x h hn)
      exact ⟨l', T', h1, h2, h3, h4 trivial⟩
    · rw [hn] at h; simp at h
  scOk l T v f x h hn hg := by
    rcases h with ⟨e, h, rfl⟩ | ⟨r', h, -⟩
    · rcases hg with hg | ⟨r', hg⟩
      · obtain ⟨l', T', h1, h2, h3, -⟩ := goes A S X ((X l.call).scOk l e v f x h hn hg)
        exact ⟨l', T', h1, h2, h3⟩
      · rw [hn] at hg; simp at hg
    · rw [hn] at h; simp at h
  scFail l T v f x h hn := by
    rcases h with ⟨e, h, rfl⟩ | ⟨r', h, -⟩
    · obtain ⟨l', T', h1, h2, h3, -⟩ := goes A S X ((X l.call).scFail l e v f x h hn)
      exact ⟨l', T', h1, h2, h3⟩
    · rw [hn] at h; simp at h
  ret l T r h hn := by
    rcases h with ⟨e, h, -⟩ | ⟨r', h, rfl⟩
    · exact absurd hn (((X l.call).nt l e h).2 r)
    · rw [hn] at h; cases h; rfl

end
end Verif.Asm
