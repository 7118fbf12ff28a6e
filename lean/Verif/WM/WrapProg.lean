import Verif.WM.WrapStep
import Verif.Lf.Prog
/-!
# The shapes of code, in weak memory

`Prog.wsim`: if each shape (one access, a compare-exchange loop, `fetch_update`) computes what the
specification says, is the kind of access it says and uses the orderings asked for at the access at which
it takes effect, then over native atomics in weak memory each operation is one access.
-/
set_option autoImplicit false
set_option linter.unusedSectionVars false
namespace Verif.WM.Derived
open Verif.Lf (Acc Next Code Prog Closure)

variable {V O R L M : Type} [DecidableEq V] {S : Spec V O R} {op : O}

/-- What has to be shown of the program `p` of `op`. -/
def WOk (S : Spec V O R) (op : O) : Prog V R → Prop
  | .stop r => S.kind op r = .nothing ∧ ∀ x, S.sem op x x r
  | .one a dec => a ≠ .peek ∧ ∀ i g rd wr ord r, Calls a dec i g → Out i rd wr ord r → Fits S id op rd wr ord (g r)
  | .loop rd f o dec => (rd = .peek ∨ ∃ q, rd = .op (.load q) ∧ q ≠ .release ∧ q ≠ .acqRel) ∧
      (∀ x, S.kind op (dec x) = .write ∧ S.sem op x (f x) (dec x)) ∧ o.AtLeast (S.succ op)
  | .update s g f dec =>
    ((g = .release ∨ g = .acqRel) ∧ S.kind op (dec .panic) = .nothing ∧ ∀ x, S.sem op x x (dec .panic)) ∨
    ((g ≠ .release ∧ g ≠ .acqRel) ∧ s.AtLeast (S.succ op) ∧
      (∀ hist x y, f hist x = some y → S.kind op (dec (.ok x)) = .write ∧ S.sem op x y (dec (.ok x))) ∧
      (∀ hist x, f hist x = none →
        S.kind op (dec (.err x)) = .read ∧ S.sem op x x (dec (.err x)) ∧ g.AtLeast (S.fail op)))

theorem calls_comp {a : Acc V} {f : Res V → L} {k : L → M} {i : Op V} {g : Res V → M}
    (h : Calls a (fun r => k (f r)) i g) : ∃ g', Calls a f i g' ∧ ∀ r, g r = k (g' r) := by
  generalize e : (fun r => k (f r)) = f' at h
  cases h with
  | op => subst e; exact ⟨f, .op _ f, fun _ => rfl⟩
  | cas c n s g => subst e; exact ⟨f, .cas c n s g f, fun _ => rfl⟩
  | spur c n s g => subst e; exact ⟨_, .spur c n s g f, fun _ => rfl⟩

/-- What an access says of the cell. -/
theorem out_sem {a : Acc V} {f : Res V → L} {i : Op V} {g : Res V → L} {rd wr : Option V} {ord : MemOrd} {r : Res V}
    (hc : Calls a f i g) (h : Out i rd wr ord r) :
    ∃ r0, g r = f r0 ∧ ∀ x, (∀ y, rd = some y → y = x) → a.sem x (wr.getD x) r0 := by
  cases hc with
  | op =>
    refine ⟨r, rfl, fun x hx => ?_⟩
    cases h with
    | panic _ h => simp [Acc.sem, Op.onCell, h]
    | load o y h => simp [Acc.sem, Op.onCell, h, hx y rfl]
    | store y o h => simp [Acc.sem, Op.onCell, h]
    | swap y o z => simp [Acc.sem, Op.onCell, hx z rfl, Op.ordOk]
    | rmw u o z => simp [Acc.sem, Op.onCell, hx z rfl, Op.ordOk]
    | casOk c n s f h => simp [Acc.sem, Op.onCell, h, ← hx c rfl]
    | casErr c n s f y h hy =>
      obtain rfl := hx y rfl
      simp [Acc.sem, Op.onCell, h, hy]
  | cas c n s q =>
    refine ⟨r, rfl, fun x hx => ?_⟩
    cases h with
    | panic _ h => simp [Acc.sem, Op.onCell, h]
    | casOk _ _ _ _ h => simp [Acc.sem, Op.onCell, h, ← hx c rfl]
    | casErr c n s f y h hy =>
      obtain rfl := hx y rfl
      simp [Acc.sem, Op.onCell, h, hy]
  | spur c n s q =>
    refine ⟨_, rfl, fun x hx => ?_⟩
    cases h with
    | panic _ h =>
      have h' : (Op.cas c n s q).ordOk = false := by cases q <;> simp_all [Op.ordOk]
      simp [Acc.sem, Op.onCell, h', spurious]
    | load o y h =>
      have h' : (Op.cas c n s ord).ordOk = true := by cases ord <;> simp_all [Op.ordOk]
      simp [Acc.sem, Op.onCell, h', spurious, hx y rfl]

/-- The answers of an access, by kind. -/
def KOk (S : Spec V O R) (op : O) (dec : Res V → R) : Acc V → Prop
  | .op (.load _) => S.kind op (dec .panic) = .nothing ∧ ∀ x, S.kind op (dec (.val x)) = .read
  | .op (.store _ _) => S.kind op (dec .panic) = .nothing ∧ S.kind op (dec .unit) = .store
  | .op (.swap _ _) | .op (.rmw _ _) => ∀ x, S.kind op (dec (.val x)) = .write
  | .op (.cas _ _ _ _) | .casWeak _ _ _ _ =>
    S.kind op (dec .panic) = .nothing ∧ (∀ x, S.kind op (dec (.ok x)) = .write) ∧ ∀ x, S.kind op (dec (.err x)) = .read
  | .peek => False

theorem wok_one {a : Acc V} {dec : Res V → R} (hI : (Prog.one a dec).Implements (S.sem op)) (hK : KOk S op dec a)
    (hs : a.succ.AtLeast (S.succ op)) (hf : a.fail.AtLeast (S.fail op)) : WOk S op (.one a dec) := by
  refine ⟨by rintro rfl; exact hK, fun i g rd wr ord r hc ho => ?_⟩
  obtain ⟨r0, e, h0⟩ := out_sem hc ho
  have hsem : ∀ x, (∀ y, rd = some y → y = x) → S.sem op x (wr.getD x) (dec r0) := fun x hx => hI _ _ _ (h0 x hx)
  rw [← e] at hsem
  clear h0 e hI
  cases hc with
  | op =>
    cases ho with
    | panic i h =>
      refine ⟨?_, fun x => hsem x (by simp)⟩
      cases i with
      | load => exact hK.1
      | store => exact hK.1
      | swap => simp [Op.ordOk] at h
      | rmw => simp [Op.ordOk] at h
      | cas => exact hK.1
    | load o y h => exact ⟨hK.2 y, hsem y (by simp), hf⟩
    | store y o h => exact ⟨hK.2, fun z => hsem z (by simp), hs⟩
    | swap y o z => exact .inl ⟨hK z, hsem z (by simp), hs⟩
    | rmw u o z => exact .inl ⟨hK z, hsem z (by simp), hs⟩
    | casOk c n s f h => exact .inl ⟨hK.2.1 c, hsem c (by simp), hs⟩
    | casErr c n s f y h hy => exact ⟨hK.2.2 y, hsem y (by simp), hf⟩
  | cas c n s q =>
    cases ho with
    | panic i h => exact ⟨hK.1, fun x => hsem x (by simp)⟩
    | casOk _ _ _ _ h => exact .inl ⟨hK.2.1 c, hsem c (by simp), hs⟩
    | casErr c n s f y h hy => exact ⟨hK.2.2 y, hsem y (by simp), hf⟩
  | spur c n s q =>
    cases ho with
    | panic i h => exact ⟨hK.1, fun x => hsem x (by simp)⟩
    | load o y h => exact ⟨hK.2.2 y, hsem y (by simp), hf⟩

/-- Two specifications, one allowing what the other does. -/
theorem WOk.conv {O' : Type} {S' : Spec V O' R} {op' : O'} {p : Prog V R} (h : WOk S op p)
    (h1 : ∀ x y r, S.sem op x y r → S'.sem op' x y r) (h2 : ∀ r, S'.kind op' r = S.kind op r)
    (h3 : S'.succ op' = S.succ op) (h4 : S'.fail op' = S.fail op) : WOk S' op' p := by
  cases p with
  | stop r => exact ⟨by rw [h2]; exact h.1, fun x => h1 _ _ _ (h.2 x)⟩
  | one a dec =>
    refine ⟨h.1, fun i g rd wr ord r hc ho => ?_⟩
    have k := h.2 i g rd wr ord r hc ho
    cases rd <;> cases wr <;> simp only [Fits, h2, h3, h4] at k ⊢
    · exact ⟨k.1, fun x => h1 _ _ _ (k.2 x)⟩
    · exact ⟨k.1, fun x => h1 _ _ _ (k.2.1 x), k.2.2⟩
    · exact ⟨k.1, h1 _ _ _ k.2.1, k.2.2⟩
    · rcases k with k | k | k
      · exact .inl ⟨k.1, h1 _ _ _ k.2.1, k.2.2⟩
      · exact .inr (.inl ⟨k.1, fun x => h1 _ _ _ (k.2.1 x), k.2.2⟩)
      · exact .inr (.inr ⟨k.1, k.2.1, h1 _ _ _ k.2.2.1, k.2.2.2⟩)
  | loop rd f o dec =>
    exact ⟨h.1, fun x => ⟨by rw [h2]; exact (h.2.1 x).1, h1 _ _ _ (h.2.1 x).2⟩, by rw [h3]; exact h.2.2⟩
  | update s g f dec =>
    rcases h with ⟨a, b, k⟩ | ⟨a, b, k, l⟩
    · exact .inl ⟨a, by rw [h2]; exact b, fun x => h1 _ _ _ (k x)⟩
    · refine .inr ⟨a, by rw [h3]; exact b, fun hist x y e => ?_, fun hist x e => ?_⟩
      · rw [h2]; exact ⟨(k hist x y e).1, h1 _ _ _ (k hist x y e).2⟩
      · rw [h2, h4]; exact ⟨(l hist x e).1, h1 _ _ _ (l hist x e).2.1, (l hist x e).2.2⟩

/-! ## The simulation -/

/-- `op` is still to take effect. -/
def At (S : Spec V O R) : Prog.Pc V R → O → Prop
  | .start p, op => WOk S op p
  | .fin _, _ => False
  | .loop f o dec _, op => (∀ x, S.kind op (dec x) = .write ∧ S.sem op x (f x) (dec x)) ∧ o.AtLeast (S.succ op)
  | .update s g f dec hist prev, op => f hist prev ≠ none ∧ (g ≠ .release ∧ g ≠ .acqRel) ∧ s.AtLeast (S.succ op) ∧
      (∀ hist x y, f hist x = some y → S.kind op (dec (.ok x)) = .write ∧ S.sem op x y (dec (.ok x))) ∧
      (∀ hist x, f hist x = none →
        S.kind op (dec (.err x)) = .read ∧ S.sem op x x (dec (.err x)) ∧ g.AtLeast (S.fail op))

/-- It has, and `r` is its result. -/
def Dn : Prog.Pc V R → R → Prop
  | .fin r', r => r' = r
  | .update _ _ f dec hist prev, r => f hist prev = none ∧ r = dec (.err prev)
  | _, _ => False

/-- A read of `x` in `fetch_update`. -/
theorem at_read {s g : MemOrd} {f : Closure V} {dec : Res V → R} (hist : List V) (x : V)
    (hg : g ≠ .release ∧ g ≠ .acqRel) (hs : s.AtLeast (S.succ op))
    (h1 : ∀ hist x y, f hist x = some y → S.kind op (dec (.ok x)) = .write ∧ S.sem op x y (dec (.ok x)))
    (h2 : ∀ hist x, f hist x = none →
        S.kind op (dec (.err x)) = .read ∧ S.sem op x x (dec (.err x)) ∧ g.AtLeast (S.fail op)) :
    (Skips (id : V → V) (some x) none ∧ At S (.update s g f dec hist x) op) ∨
      ∃ r', Fits S id op (some x) none g r' ∧ Dn (.update s g f dec hist x) r' := by
  by_cases h : f hist x = none
  · exact .inr ⟨dec (.err x), h2 hist x h, h, rfl⟩
  · exact .inl ⟨.inl rfl, h, hg, hs, h1, h2⟩

/-- The programs `prog`, if each is right, make each operation one access. -/
def Prog.wsim {prog : O → Prog V R} (H : ∀ op, WOk S op (prog op)) : WSim (Prog.code prog) S where
  abs := id
  inv _ := True
  at_ := At S
  dn := Dn
  start := H
  tau := by
    intro l op k ha hn
    cases l with
    | start p =>
      cases p with
      | stop r =>
        simp only [Prog.code, Prog.next, Next.tau.injEq] at hn
        subst hn
        exact .inr ⟨r, ha.1, ha.2, rfl⟩
      | one => simp [Prog.code, Prog.next] at hn
      | loop => simp [Prog.code, Prog.next] at hn
      | update => simp [Prog.code, Prog.next] at hn
    | fin => simp [Prog.code, Prog.next] at hn
    | loop => simp [Prog.code, Prog.next] at hn
    | update s g f dec hist prev => cases hf : f hist prev <;> simp [Prog.code, Prog.next, hf] at hn
  peek := by
    intro l op f y ha hn
    cases l with
    | start p =>
      cases p with
      | stop r => simp [Prog.code, Prog.next] at hn
      | one a dec =>
        simp only [Prog.code, Prog.next, Next.acc.injEq] at hn
        exact absurd hn.1 ha.1
      | loop rd f' o dec =>
        simp only [Prog.code, Prog.next, Next.acc.injEq] at hn
        obtain ⟨-, rfl⟩ := hn
        exact ha.2
      | update => simp [Prog.code, Prog.next] at hn
    | fin => simp [Prog.code, Prog.next] at hn
    | loop => simp [Prog.code, Prog.next] at hn
    | update s g f dec hist prev => cases hf : f hist prev <;> simp [Prog.code, Prog.next, hf] at hn
  acc := by
    intro l op a f i g rd wr ord r ha hn hc ho _
    refine ⟨fun _ _ => trivial, ?_⟩
    cases l with
    | start p =>
      cases p with
      | stop r => simp [Prog.code, Prog.next] at hn
      | one a dec =>
        simp only [Prog.code, Prog.next, Next.acc.injEq] at hn
        obtain ⟨rfl, rfl⟩ := hn
        obtain ⟨g', hc', e⟩ := calls_comp (k := Prog.Pc.fin) hc
        exact .inr ⟨g' r, ha.2 _ _ _ _ _ _ hc' ho, by rw [e]; rfl⟩
      | loop q f' o dec =>
        simp only [Prog.code, Prog.next, Next.acc.injEq] at hn
        obtain ⟨rfl, rfl⟩ := hn
        obtain ⟨hq, hr⟩ := ha
        rcases hq with rfl | ⟨q, rfl, h1, h2⟩
        · cases hc
        · cases hc
          cases ho with
          | panic _ h => cases q <;> simp [Op.ordOk] at h h1 h2
          | load _ x h => exact .inl ⟨.inl rfl, hr⟩
      | update s q f' dec =>
        simp only [Prog.code, Prog.next, Next.acc.injEq] at hn
        obtain ⟨rfl, rfl⟩ := hn
        cases hc
        rcases ha with ⟨hq, hk, hs⟩ | ⟨hq, hs, h1, h2⟩
        · cases ho with
          | panic _ h => exact .inr ⟨dec .panic, ⟨hk, hs⟩, rfl⟩
          | load _ x h => rcases hq with rfl | rfl <;> simp [Op.ordOk] at h
        · cases ho with
          | panic _ h => cases q <;> simp [Op.ordOk] at h hq
          | load _ x h => exact at_read [] x hq hs h1 h2
    | fin => simp [Prog.code, Prog.next] at hn
    | loop f' o dec prev =>
      simp only [Prog.code, Prog.next, Next.acc.injEq] at hn
      obtain ⟨rfl, rfl⟩ := hn
      obtain ⟨hk, hs⟩ := ha
      cases hc with
      | cas =>
        cases ho with
        | panic _ h => simp [Op.ordOk] at h
        | casOk c n s f h => exact .inr ⟨_, .inl ⟨(hk prev).1, (hk prev).2, hs⟩, rfl⟩
        | casErr c n s f y h hy => exact .inl ⟨.inl rfl, hk, hs⟩
      | spur =>
        cases ho with
        | panic _ h => simp [Op.ordOk] at h
        | load _ x h => exact .inl ⟨.inl rfl, hk, hs⟩
    | update s q f' dec hist prev =>
      obtain ⟨hne, hq, hs, h1, h2⟩ := ha
      cases hf : f' hist prev with
      | none => exact absurd hf hne
      | some nx =>
        simp only [Prog.code, Prog.next, hf, Next.acc.injEq] at hn
        obtain ⟨rfl, rfl⟩ := hn
        cases hc with
        | cas =>
          cases ho with
          | panic _ h => cases q <;> simp [Op.ordOk] at h hq
          | casOk c n s f h =>
            obtain ⟨k1, k2⟩ := h1 hist prev nx hf
            exact .inr ⟨_, .inl ⟨k1, k2, hs⟩, rfl⟩
          | casErr c n s f y h hy => exact at_read _ y hq hs h1 h2
        | spur =>
          cases ho with
          | panic _ h => cases q <;> simp [Op.ordOk] at h hq
          | load _ x h => exact at_read _ x hq hs h1 h2
  ret := by
    intro l op r ha hn
    cases l with
    | start p => cases p <;> simp [Prog.code, Prog.next] at hn
    | fin => exact ha
    | loop => simp [Prog.code, Prog.next] at hn
    | update s g f dec hist prev =>
      cases hf : f hist prev with
      | none => exact ha.1 hf
      | some nx => simp [Prog.code, Prog.next, hf] at hn
  tau_dn := by
    intro l r k hd hn
    cases l with
    | start p => exact hd.elim
    | fin => simp [Prog.code, Prog.next] at hn
    | loop => exact hd.elim
    | update s g f dec hist prev => cases hf : f hist prev <;> simp [Prog.code, Prog.next, hf] at hn
  acc_dn := by
    intro l r a f hd hn
    cases l with
    | start p => exact hd.elim
    | fin => simp [Prog.code, Prog.next] at hn
    | loop => exact hd.elim
    | update s g f dec hist prev => simp [Prog.code, Prog.next, hd.1] at hn
  ret_dn := by
    intro l r r' hd hn
    cases l with
    | start p => exact hd.elim
    | fin q =>
      simp only [Prog.code, Prog.next, Next.ret.injEq] at hn
      exact hn.symm.trans hd
    | loop => exact hd.elim
    | update s g f dec hist prev =>
      simp only [Prog.code, Prog.next, hd.1, Next.ret.injEq] at hn
      exact hn.symm.trans hd.2.symm

end Verif.WM.Derived
