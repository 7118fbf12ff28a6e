import Verif.Lf.CodeFree
import Verif.X86.Sim
import Verif.Stmt.Machine
import Verif.Props.Rv
/-!
# Lock-freedom of the 128-bit blocks on x86-64, of straight-line operations and of sub-word operations (C66)
-/
set_option autoImplicit false
namespace Verif.X86
open Verif.Lf Verif.Object

theorem over_tauN {l : Loc} {n : Nat} {r} (h : step (tauN n l) = .ret r) : code.Over l := by
  induction n generalizing l with
  | zero => exact .ret (r := r) h
  | succ n ih =>
    cases hl : step l with
    | tau k => rw [tauN_tau hl] at h; exact .tau (l' := k) hl (ih h)
    | ret r => exact .ret (r := r) hl
    | acc a f => rw [tauN_acc hl, hl] at h; cases h

theorem stops_tauN {l : Loc} {n : Nat} {x : BitVec 128} (h : code.Stops (tauN n l) x) : code.Stops l x := by
  induction n generalizing l with
  | zero => exact h
  | succ n ih =>
    cases hl : step l with
    | tau k => rw [tauN_tau hl] at h; exact .tau (l' := k) hl (ih h)
    | ret r => rw [tauN_ret hl] at h; exact h
    | acc a f => rw [tauN_acc hl] at h; exact h

theorem over_stops {l : Loc} {x : BitVec 128} (h : code.Over l) : code.Stops l x := by
  induction h with
  | ret h => exact .ret h
  | tau h _ ih => exact .tau h ih

theorem anchor_stops {c : Call} {x : BitVec 128} : ∀ (k : Nat) (l : Loc), Anchor c l → rank x l < k → code.Stops l x := by
  intro k
  induction k with
  | zero => intro l _ h; omega
  | succ k ih =>
    intro l ha hk
    obtain ⟨a, f, hst, hok⟩ := anchor_ok ha
    refine .acc (a := a) (f := f) hst fun r hr _ => ?_
    rcases hok x x r hr with ⟨-, n, h2, h3⟩ | ⟨r', -, -, n, h2⟩
    · exact stops_tauN (ih _ h2 (by omega))
    · exact over_stops (over_tauN h2)

/-- The blocks are lock-free. -/
def free : CodeFree code fun _ => True where
  inv l := (∃ c n, Anchor c (tauN n l)) ∨ code.Over l
  start op := .inl ⟨op, start_anchor op⟩
  tau l l' hi h := by
    have h' : step l = .tau l' := h
    rcases hi with ⟨c, n, ha⟩ | ho
    · cases n with
      | zero =>
        obtain ⟨a, f, hst, -⟩ := anchor_ok ha
        simp only [tauN] at hst
        rw [h'] at hst; cases hst
      | succ n => rw [tauN_tau h'] at ha; exact .inl ⟨c, n, ha⟩
    · rcases ho.step with ⟨r, hr⟩ | ⟨l1, hr, t⟩
      · rw [h] at hr; cases hr
      · rw [h] at hr; cases hr; exact .inr t
  acc l a f x x' r _ hi h hs := by
    refine ⟨trivial, ?_⟩
    have h' : step l = .acc a f := h
    rcases hi with ⟨c, n, ha⟩ | ho
    · rw [tauN_acc h'] at ha
      obtain ⟨a', f', hst, hok⟩ := anchor_ok ha
      rw [h'] at hst
      obtain ⟨rfl, rfl⟩ := Next.acc.inj hst
      rcases hok x x' r hs with ⟨-, n, h2, -⟩ | ⟨r', -, -, n, h2⟩
      · exact .inl ⟨c, n, h2⟩
      · exact .inr (over_tauN h2)
    · rcases ho.step with ⟨r, hr⟩ | ⟨l1, hr, t⟩ <;> (rw [h] at hr; cases hr)
  once l a f x x' r _ hi h hs := by
    have h' : step l = .acc a f := h
    rcases hi with ⟨c, n, ha⟩ | ho
    · rw [tauN_acc h'] at ha
      obtain ⟨a', f', hst, hok⟩ := anchor_ok ha
      rw [h'] at hst
      obtain ⟨rfl, rfl⟩ := Next.acc.inj hst
      rcases hok x x' r hs with ⟨e, -⟩ | ⟨r', -, -, n, h2⟩
      · exact .inl e
      · exact .inr (over_tauN h2)
    · rcases ho.step with ⟨r, hr⟩ | ⟨l1, hr, t⟩ <;> (rw [h] at hr; cases hr)
  stops l x _ hi := by
    rcases hi with ⟨c, n, ha⟩ | ho
    · exact stops_tauN (anchor_stops _ _ ha (Nat.lt_succ_self _))
    · exact over_stops ho
  looks l cur new s g f _ h := by
    exfalso
    change step l = _ at h
    unfold step at h
    repeat' split at h
    all_goals cases h

end Verif.X86

namespace Verif.Lf
open Verif.Object

variable {I F V O K : Type} [DecidableEq V] [DecidableEq K]

/-- The program is fit for lock-freedom: it makes at most one access, and looks at a weak compare-exchange. -/
def Stmt.Fit (acc : I → Acc V) (S : V → V → Res V → Prop) (p : Stmt I F V) : Prop :=
  p.Pending acc S ∨ ∃ r, p.Done r

theorem Stmt.Done.over {acc : I → Acc V} {prog : O → Stmt I F V} {r : Res V} {p : Stmt I F V} (h : p.Done r) :
    (Stmt.code acc prog).Over p := by
  induction p with
  | panic => exact absurd h id
  | ret r => exact .ret (r := r) rfl
  | fence f k ih => exact .tau (l' := k) rfl (ih h)
  | acc i k => exact absurd h id

theorem Code.Over.stops {R L : Type} {c : Code V O R L} {l : L} (h : c.Over l) (x : V) : c.Stops l x := by
  induction h with
  | ret h => exact .ret h
  | tau h _ ih => exact .tau h ih

theorem Stmt.stops {acc : I → Acc V} {prog : O → Stmt I F V} {S : V → V → Res V → Prop} (p : Stmt I F V) (x : V)
    (h : p.Fit acc S) : (Stmt.code acc prog).Stops p x := by
  induction p with
  | panic => exact .tau (l' := .ret .panic) rfl (.ret (r := .panic) rfl)
  | ret r => exact .ret (r := r) rfl
  | fence f k ih => exact .tau (l' := k) rfl (ih h)
  | acc i k _ =>
    refine .acc (a := acc i) (f := k) rfl fun r hr _ => ?_
    rcases h with h | ⟨r', h⟩
    · obtain ⟨r', -, h⟩ := h _ _ _ hr
      exact h.over.stops x
    · exact absurd h id

/-- Straight-line operations are lock-free. -/
def Stmt.free {acc : I → Acc V} {prog : O → Stmt I F V} {S : Spec V O (Res V)}
    (H : ∀ op, (prog op).Pending acc (S.sem op)) (P : Stmt I F V → Prop) (hP : ∀ op, P (prog op))
    (hf : ∀ f k, P (.fence f k) → P k) (ha : ∀ i k r, P (.acc i k) → P (k r)) (hp : P (.ret .panic))
    (look : ∀ i k cur new s g, P (.acc i k) → acc i = .casWeak cur new s g → k (.ok cur) ≠ k (.err cur)) :
    CodeFree (Stmt.code acc prog) fun _ => True where
  inv p := (∃ op, p.Fit acc (S.sem op)) ∧ P p
  start op := ⟨⟨op, .inl (H op)⟩, hP op⟩
  tau l l' hi h := by
    obtain ⟨⟨op, hi⟩, hl⟩ := hi
    cases l with
    | panic => simp only [Stmt.code, Stmt.next, Next.tau.injEq] at h; subst h; exact ⟨⟨op, .inr ⟨_, rfl⟩⟩, hp⟩
    | ret | acc => simp [Stmt.code, Stmt.next] at h
    | fence f k => simp only [Stmt.code, Stmt.next, Next.tau.injEq] at h; subst h; exact ⟨⟨op, hi⟩, hf _ _ hl⟩
  acc l a f x x' r _ hi h hs := by
    refine ⟨trivial, ?_⟩
    obtain ⟨⟨op, hi⟩, hl⟩ := hi
    cases l with
    | panic | ret | fence => simp [Stmt.code, Stmt.next] at h
    | acc i k =>
      simp only [Stmt.code, Stmt.next, Next.acc.injEq] at h
      obtain ⟨rfl, rfl⟩ := h
      rcases hi with hi | ⟨r', h⟩
      · obtain ⟨r', -, h⟩ := hi _ _ _ hs
        exact ⟨⟨op, .inr ⟨_, h⟩⟩, ha _ _ _ hl⟩
      · exact absurd h id
  once l a f x x' r _ hi h hs := by
    obtain ⟨⟨op, hi⟩, hl⟩ := hi
    cases l with
    | panic | ret | fence => simp [Stmt.code, Stmt.next] at h
    | acc i k =>
      simp only [Stmt.code, Stmt.next, Next.acc.injEq] at h
      obtain ⟨rfl, rfl⟩ := h
      rcases hi with hi | ⟨r', h⟩
      · obtain ⟨r', -, h⟩ := hi _ _ _ hs
        exact .inr h.over
      · exact absurd h id
  stops l x _ hi := Stmt.stops l x hi.1.choose_spec
  looks l cur new s g f hi h := by
    cases l with
    | panic | ret | fence => simp [Stmt.code, Stmt.next] at h
    | acc i k =>
      simp only [Stmt.code, Stmt.next, Next.acc.injEq] at h
      obtain ⟨e, rfl⟩ := h
      exact look i _ cur new s g hi.2 e

end Verif.Lf

namespace Verif.Rv
open Verif.Lf Verif.Object

/-- The sub-word operations are lock-free. -/
def lfCert (L : Nat) : LfCert (sys L) (fun _ _ _ _ => False) fun _ => True where
  inv _ := True
  done l := ∃ r, l = .fin r
  start _ _ := trivial
  step _ _ _ _ _ _ _ _ := ⟨trivial, trivial⟩
  done_step t l m l' m' _ _ hd hs := by
    obtain ⟨r, rfl⟩ := hd
    obtain ⟨c, h, -⟩ := hs
    cases h
  write t l m l' m' _ _ hs _ := by
    obtain ⟨c, -, -, rfl⟩ := hs
    exact .inr ⟨_, rfl⟩
  live t l m _ _ := by
    cases l with
    | start c => exact .inr ⟨_, _, ⟨c, rfl, rfl, rfl⟩, id⟩
    | fin r => exact .inl ⟨r, rfl⟩
  acc m l _ _ := by
    have fin : ∀ r, Acc (fun l' l => ∃ t : Tid, (sys L).step t l m l' m ∧ ¬ False) (.fin r) :=
      fun r => ⟨_, fun l' ⟨_, ⟨c, h, _⟩, _⟩ => by cases h⟩
    cases l with
    | fin r => exact fin r
    | start c =>
      refine ⟨_, fun l' ⟨_, ⟨c', h, _, h'⟩, _⟩ => ?_⟩
      subst h'
      exact fin _

end Verif.Rv
