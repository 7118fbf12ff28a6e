import Verif.Lf.LlScFree
import Verif.Lf.Prog
/-!
# Lock-freedom of code made of accesses
-/
set_option autoImplicit false
set_option linter.unusedSectionVars false
namespace Verif.Lf
open Verif.Object

variable {V O R L K : Type} [DecidableEq V] [DecidableEq K]

/-- The call only has to return. -/
inductive Code.Over (c : Code V O R L) : L → Prop where
  | ret {l r} (h : c.next l = .ret r) : Code.Over c l
  | tau {l l'} (h : c.next l = .tau l') (t : Code.Over c l') : Code.Over c l

/-- While nobody writes, without spurious failures, the call returns or writes. -/
inductive Code.Stops (c : Code V O R L) : L → V → Prop where
  | ret {l x r} (h : c.next l = .ret r) : Code.Stops c l x
  | tau {l x l'} (h : c.next l = .tau l') (t : Code.Stops c l' x) : Code.Stops c l x
  | acc {l x a f} (h : c.next l = .acc a f)
      (t : ∀ r, a.sem x x r → ¬ a.Spurious x r → Code.Stops c (f r) x) : Code.Stops c l x

/-- What suffices for lock-freedom of code made of accesses. -/
structure CodeFree (c : Code V O R L) (P : V → Prop) where
  inv : L → Prop
  start : ∀ op, inv (c.start op)
  tau : ∀ l l', inv l → c.next l = .tau l' → inv l'
  acc : ∀ l a f x x' r, P x → inv l → c.next l = .acc a f → a.sem x x' r → P x' ∧ inv (f r)
  /-- a write is the last access -/
  once : ∀ l a f x x' r, P x → inv l → c.next l = .acc a f → a.sem x x' r → x' = x ∨ c.Over (f r)
  stops : ∀ l x, P x → inv l → c.Stops l x
  /-- it is looked at whether a weak compare-exchange has succeeded -/
  looks : ∀ l cur new s g f, inv l → c.next l = .acc (.casWeak cur new s g) f → f (.ok cur) ≠ f (.err cur)

theorem Code.Over.step {c : Code V O R L} {l : L} (h : c.Over l) :
    (∃ r, c.next l = .ret r) ∨ ∃ l', c.next l = .tau l' ∧ c.Over l' := by
  cases h with
  | ret h => exact .inl ⟨_, h⟩
  | tau h t => exact .inr ⟨_, h, t⟩

theorem Code.Stops.acc_ {c : Code V O R L} {l : L} {x : V} (h : c.Stops l x) :
    ∀ (m : K → V) (k : K), m k = x →
      _root_.Acc (fun l' l => ∃ t : Tid, (c.sys K).step t l m l' m ∧ ¬ c.Spurious l m l' m) (k, l) := by
  induction h with
  | @ret l x r h =>
    intro m k hx
    refine ⟨_, fun l' ⟨_, hs, _⟩ => ?_⟩
    rcases hs with ⟨_, h', _⟩ | ⟨_, _, _, _, h', _⟩ <;> (simp only [h] at h'; cases h')
  | @tau l x l1 h _ ih =>
    intro m k hx
    refine ⟨_, fun l' ⟨_, hs, _⟩ => ?_⟩
    rcases hs with ⟨_, h', rfl, _⟩ | ⟨_, _, _, _, h', _⟩ <;> (simp only [h] at h'; cases h')
    exact ih m k hx
  | @acc l x a f h _ ih =>
    intro m k hx
    refine ⟨_, fun l' ⟨_, hs, hn⟩ => ?_⟩
    rcases hs with ⟨_, h', rfl, _⟩ | ⟨_, _, y, r, h', hs', rfl, hm⟩ <;> (simp only [h] at h'; cases h')
    have hk : m k = y := by
      have := congrFun hm k
      rwa [Function.update_self] at this
    obtain rfl : y = x := by rw [← hk, hx]
    simp only [hx] at hs'
    exact ih r hs' (fun hsp => hn ⟨a, f, r, h, by simp only [hx]; exact hs', by simp only [hx]; exact hsp, rfl⟩) m k hx

/-- The certificate of lock-freedom. -/
def CodeFree.cert {c : Code V O R L} {P : V → Prop} (X : CodeFree c P) : LfCert (c.sys K) c.Spurious fun m => ∀ k, P (m k) where
  inv l := X.inv l.2
  done l := c.Over l.2
  start t op := X.start op.2
  step t l m l' m' hP hi hs := by
    rcases hs with ⟨k, h, rfl, rfl⟩ | ⟨a, f, x, r, h, hs, rfl, rfl⟩
    · exact ⟨hP, X.tau _ _ hi h⟩
    · obtain ⟨h1, h2⟩ := X.acc _ _ _ _ _ _ (hP _) hi h hs
      refine ⟨fun k => ?_, h2⟩
      by_cases hk : k = l.1
      · subst hk; rw [Function.update_self]; exact h1
      · rw [Function.update_of_ne hk]; exact hP k
  done_step t l m l' m' hP hi hd hs := by
    rcases hs with ⟨k, h, rfl, rfl⟩ | ⟨a, f, x, r, h, hs, rfl, -⟩
    · rcases hd.step with ⟨r, h'⟩ | ⟨l', h', t⟩
      · rw [h] at h'; cases h'
      · rw [h] at h'; cases h'; exact ⟨t, rfl⟩
    · rcases hd.step with ⟨r, h'⟩ | ⟨l', h', t⟩ <;> (rw [h] at h'; cases h')
  write t l m l' m' hP hi hs hn := by
    rcases hs with ⟨k, h, rfl, rfl⟩ | ⟨a, f, x, r, h, hs, rfl, rfl⟩
    · exact .inl rfl
    · rcases X.once _ _ _ _ _ _ (hP _) hi h hs with rfl | h
      · exact .inl (Function.update_eq_self ..)
      · exact .inr h
  live t l m hP hi := by
    obtain ⟨k, l⟩ := l
    cases h : c.next l with
    | ret r => exact .inl ⟨r, by simp [Code.sys, h]⟩
    | tau l1 =>
      refine .inr ⟨_, _, .inl ⟨l1, h, rfl, rfl⟩, ?_⟩
      rintro ⟨_, _, _, h', _⟩
      simp only [h] at h'; cases h'
    | acc a f =>
      have hs := a.exec_sem false (m k)
      refine .inr ⟨_, _, .inr ⟨a, f, _, _, h, hs, rfl, rfl⟩, ?_⟩
      rintro ⟨a', f', r, h', hs', hr, e⟩
      simp only [h] at h'; cases h'
      simp only [Prod.mk.injEq, true_and] at e
      cases a with
      | casWeak cur new s g =>
        obtain ⟨hc, rfl⟩ := hr
        simp only at hc
        simp only [hc, Acc.exec, Bool.false_and, Bool.false_eq_true, if_false, Op.onCell, if_true] at e
        split at e
        · exact X.looks _ _ _ _ _ _ hi h e
        · next ho =>
          rcases hs' with hs' | hs'
          · simp [Op.onCell, ho] at hs'
          · exact ho hs'.1
      | _ => exact hr.elim
  acc m l hP hi := (X.stops l.2 (m l.1) (hP l.1) hi).acc_ m l.1 rfl

theorem CodeFree.lockFreeFrom {c : Code V O R L} {P : V → Prop} (X : CodeFree c P) :
    LockFreeFrom (c.sys K) c.Spurious fun m => ∀ k, P (m k) := X.cert.lockFree

theorem CodeFree.lockFree {c : Code V O R L} (X : CodeFree c fun _ => True) : LockFree (c.sys K) c.Spurious :=
  ⟨fun m h s _ => X.lockFreeFrom.1 m h s fun _ => trivial, fun m N σ e _ => X.lockFreeFrom.2 m N σ e fun _ => trivial⟩

/-- The program is fit for lock-freedom: the first read of a loop is a read, and a single weak compare-exchange is
looked at. -/
def Prog.Fit : Prog V R → Prop
  | .loop rd _ _ _ => rd.isRead
  | .one (.casWeak cur _ _ _) dec => dec (.ok cur) ≠ dec (.err cur)
  | _ => True

theorem Acc.stays {cur new : V} {s g : MemOrd} {x x' : V} {r : Res V} (h : (Acc.casWeak cur new s g).sem x x' r) :
    x' = x ∨ ∃ y, r = .ok y := by
  rcases h with h | h
  · simp only [Op.onCell] at h
    repeat' split at h
    all_goals simp_all
  · exact .inl h.2.1

/-- The crate's code shapes are lock-free. -/
def Prog.free {prog : O → Prog V R} (H : ∀ op, (prog op).Fit) : CodeFree (Prog.code prog) fun _ => True where
  inv l := match l with
    | .start p => p.Fit
    | _ => True
  start op := H op
  tau l l' hi h := by
    cases l with
    | start p =>
      cases p with
      | stop r => simp only [Prog.code, Prog.next, Next.tau.injEq] at h; subst h; trivial
      | one | loop | update => simp [Prog.code, Prog.next] at h
    | fin | loop => simp [Prog.code, Prog.next] at h
    | update s g f dec hist prev => cases hf : f hist prev <;> simp [Prog.code, Prog.next, hf] at h
  acc l a f x x' r _ hi h hs := by
    refine ⟨trivial, ?_⟩
    cases l with
    | start p =>
      cases p with
      | stop r => simp [Prog.code, Prog.next] at h
      | one a' dec =>
        simp only [Prog.code, Prog.next, Next.acc.injEq] at h
        obtain ⟨rfl, rfl⟩ := h
        trivial
      | loop rd f o dec =>
        simp only [Prog.code, Prog.next, Next.acc.injEq] at h
        obtain ⟨rfl, rfl⟩ := h
        obtain ⟨rfl, v, rfl⟩ := hi _ _ _ hs
        trivial
      | update s g f dec =>
        simp only [Prog.code, Prog.next, Next.acc.injEq] at h
        obtain ⟨rfl, rfl⟩ := h
        cases r <;> trivial
    | fin => simp [Prog.code, Prog.next] at h
    | loop f o dec prev =>
      simp only [Prog.code, Prog.next, Next.acc.injEq] at h
      obtain ⟨rfl, rfl⟩ := h
      cases r <;> trivial
    | update s g f dec hist prev =>
      cases hf : f hist prev with
      | none => simp [Prog.code, Prog.next, hf] at h
      | some w =>
        simp only [Prog.code, Prog.next, hf, Next.acc.injEq] at h
        obtain ⟨rfl, rfl⟩ := h
        cases r <;> trivial
  once l a f x x' r _ hi h hs := by
    cases l with
    | start p =>
      cases p with
      | stop r => simp [Prog.code, Prog.next] at h
      | one a' dec =>
        simp only [Prog.code, Prog.next, Next.acc.injEq] at h
        obtain ⟨rfl, rfl⟩ := h
        exact .inr (.ret (r := dec r) rfl)
      | loop rd f o dec =>
        simp only [Prog.code, Prog.next, Next.acc.injEq] at h
        obtain ⟨rfl, rfl⟩ := h
        exact .inl (hi _ _ _ hs).1
      | update s g f dec =>
        simp only [Prog.code, Prog.next, Next.acc.injEq] at h
        obtain ⟨rfl, rfl⟩ := h
        exact .inl (Acc.Reads.same (a := .op (.load g)) trivial hs)
    | fin => simp [Prog.code, Prog.next] at h
    | loop f o dec prev =>
      simp only [Prog.code, Prog.next, Next.acc.injEq] at h
      obtain ⟨rfl, rfl⟩ := h
      rcases Acc.stays hs with h | ⟨y, rfl⟩
      · exact .inl h
      · exact .inr (.ret (r := dec y) rfl)
    | update s g f dec hist prev =>
      cases hf : f hist prev with
      | none => simp [Prog.code, Prog.next, hf] at h
      | some w =>
        simp only [Prog.code, Prog.next, hf, Next.acc.injEq] at h
        obtain ⟨rfl, rfl⟩ := h
        rcases Acc.stays hs with h | ⟨y, rfl⟩
        · exact .inl h
        · exact .inr (.ret (r := dec (.ok y)) rfl)
  stops := by
    have fin : ∀ r x, (Prog.code prog).Stops (.fin r) x := fun r x => .ret (r := r) rfl
    have loop1 : ∀ f o (dec : V → R) x, (Prog.code prog).Stops (.loop f o dec x) x := by
      intro f o dec x
      refine .acc (a := .casWeak x (f x) o .relaxed) (f := Prog.afterCas f o dec x) rfl fun r hr hn => ?_
      rcases casWeak_cases (by simp) (by simp) hr with ⟨-, -, rfl⟩ | ⟨-, rfl⟩
      · exact fin _ _
      · exact absurd ⟨rfl, rfl⟩ hn
    have loop : ∀ f o (dec : V → R) p x, (Prog.code prog).Stops (.loop f o dec p) x := by
      intro f o dec p x
      refine .acc (a := .casWeak p (f p) o .relaxed) (f := Prog.afterCas f o dec p) rfl fun r hr hn => ?_
      rcases casWeak_cases (by simp) (by simp) hr with ⟨-, -, rfl⟩ | ⟨-, rfl⟩
      · exact fin _ _
      · exact loop1 _ _ _ _
    have upd1 : ∀ s g f (dec : Res V → R) h x, (Prog.code prog).Stops (.update s g f dec h x) x := by
      intro s g f dec h x
      cases hf : f h x with
      | none => exact .ret (r := dec (.err x)) (by simp [Prog.code, Prog.next, hf])
      | some w =>
        refine .acc (a := .casWeak x w s g) (f := Prog.afterUpd s g f dec (h ++ [x]))
          (by simp [Prog.code, Prog.next, hf]) fun r hr hn => ?_
        cases r with
        | err y =>
          have hy : y = x := by
            rcases hr with hr | hr
            · simp only [Op.onCell] at hr
              repeat' split at hr
              all_goals simp_all
            · simpa using hr.2.2
          exact absurd ⟨rfl, by rw [hy]⟩ hn
        | ok | val | unit | panic => exact fin _ _
    have upd : ∀ s g f (dec : Res V → R) h p x, (Prog.code prog).Stops (.update s g f dec h p) x := by
      intro s g f dec h p x
      cases hf : f h p with
      | none => exact .ret (r := dec (.err p)) (by simp [Prog.code, Prog.next, hf])
      | some w =>
        refine .acc (a := .casWeak p w s g) (f := Prog.afterUpd s g f dec (h ++ [p]))
          (by simp [Prog.code, Prog.next, hf]) fun r hr hn => ?_
        cases r with
        | err y =>
          have hy : y = x := by
            rcases hr with hr | hr
            · simp only [Op.onCell] at hr
              repeat' split at hr
              all_goals simp_all
            · simpa using hr.2.2
          subst hy
          exact upd1 _ _ _ _ _ _
        | ok | val | unit | panic => exact fin _ _
    intro l x _ hi
    cases l with
    | start p =>
      cases p with
      | stop r => exact .tau (l' := .fin r) rfl (fin _ _)
      | one a dec => exact .acc (a := a) (f := fun r => .fin (dec r)) rfl fun r _ _ => fin _ _
      | loop rd f o dec =>
        refine .acc (a := rd) (f := Prog.afterRead f o dec (.loop rd f o dec)) rfl fun r hr _ => ?_
        obtain ⟨-, v, rfl⟩ := hi _ _ _ hr
        exact loop _ _ _ _ _
      | update s g f dec =>
        refine .acc (a := .op (.load g)) (f := Prog.afterLoad s g f dec) rfl fun r hr _ => ?_
        cases r with
        | val v => exact upd _ _ _ _ _ _ _
        | ok | err | unit | panic => exact fin _ _
    | fin r => exact fin _ _
    | loop f o dec p => exact loop _ _ _ _ _
    | update s g f dec h p => exact upd _ _ _ _ _ _ _
  looks l cur new s g f hi h := by
    cases l with
    | start p =>
      cases p with
      | stop r => simp [Prog.code, Prog.next] at h
      | one a' dec =>
        simp only [Prog.code, Prog.next, Next.acc.injEq] at h
        obtain ⟨rfl, rfl⟩ := h
        intro e
        exact hi (Prog.Pc.fin.inj e)
      | loop rd f o dec =>
        simp only [Prog.code, Prog.next, Next.acc.injEq] at h
        obtain ⟨rfl, rfl⟩ := h
        obtain ⟨-, v, e⟩ := hi cur _ _ (Acc.exec_sem (.casWeak cur new s g) false cur)
        exfalso
        simp only [Acc.exec, Bool.false_and, Bool.false_eq_true, if_false, Op.onCell, if_true] at e
        split at e <;> cases e
      | update s g f dec => simp [Prog.code, Prog.next] at h
    | fin => simp [Prog.code, Prog.next] at h
    | loop f o dec prev =>
      simp only [Prog.code, Prog.next, Next.acc.injEq] at h
      obtain ⟨e, rfl⟩ := h
      intro e; cases e
    | update s g f dec hist prev =>
      cases hf : f hist prev with
      | none => simp [Prog.code, Prog.next, hf] at h
      | some w =>
        simp only [Prog.code, Prog.next, hf, Next.acc.injEq] at h
        obtain ⟨e, rfl⟩ := h
        intro e; cases e

/-- Operations of these shapes are lock-free. -/
theorem Prog.lockFree {prog : O → Prog V R} (H : ∀ op, (prog op).Fit) :
    LockFree ((Prog.code prog).sys K) (Prog.code prog).Spurious := (Prog.free H).lockFree

end Verif.Lf
