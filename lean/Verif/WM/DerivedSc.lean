import Verif.WM.DerivedImage
import Verif.Spec.DerivedSync
import Verif.WM.ScStep
/-!
# Sequentially consistent operations of any kind are linearizable in weak memory

From the same for native atomics (`WM/ScStep.lean`), through the image of the history.  The native
linearization says when each call takes effect; the result of the call is known only at its return, so
here too the choice is left open (`ρ`) until then.  A call that has not returned by the end is left
without effect unless what stands for it changed the cell.
-/
set_option autoImplicit false
set_option linter.unusedSectionVars false
namespace Verif.WM.Derived
variable {W X O R : Type} [DecidableEq W]

abbrev Engaged (O : Type) (W : Type) := Tid → Option (Obj × O × Op W)

/-- `Image` for histories without the clients' accesses. -/
inductive ImgF (S : Spec W O R) : List (Object.Ev (Obj × O) R) → List (Verif.Ev W) → Engaged O W → Prop where
  | nil : ImgF S [] [] (fun _ => none)
  | inv {h n p} (x : ImgF S h n p) (t o op i) (hi : MayStand S op i) :
      ImgF S (h ++ [.inv t (o, op)]) (n ++ [.inv t o i]) (Function.update p t (some (o, op, i)))
  | ret {h n p} (x : ImgF S h n p) (t r o op i m) (hp : p t = some (o, op, i)) (hs : Stands S op r i m) :
      ImgF S (h ++ [.ret t r]) (n ++ [.ret t m]) p

/-! ## Restricting to some objects -/

def flags (P : Obj → Bool) (m : Tid → Bool) : List (Ev O R X) → Tid → Bool
  | [] => m
  | .inv t o _ :: h => flags P (Function.update m t (P o)) h
  | .ret _ _ :: h => flags P m h
  | .client _ _ _ :: h => flags P m h

theorem only_append {P : Obj → Bool} (h k : List (Ev O R X)) :
    ∀ m, only P m (h ++ k) = only P m h ++ only P (flags P m h) k := by
  induction h with
  | nil => intro m; rfl
  | cons e h ih =>
    intro m
    cases e with
    | inv t o op =>
      simp only [List.cons_append, only, flags, ih]
      cases hP : P o <;> simp
    | ret t r =>
      simp only [List.cons_append, only, flags, ih]
      split <;> simp
    | client t a r => simp only [List.cons_append, only, flags, ih]

theorem flags_append {P : Obj → Bool} (h k : List (Ev O R X)) : ∀ m, flags P m (h ++ k) = flags P (flags P m h) k := by
  induction h with
  | nil => intro m; rfl
  | cons e h ih => intro m; cases e <;> simp only [List.cons_append, flags, ih]

theorem img_only {S : Spec W O R} {P : Obj → Bool} {h : List (Ev O R X)} {n : List (WM.Ev W X)}
    {p : Tid → Option (O × Op W)} (x : Image S h n p) :
    ∃ q, ImgF S (history P h) (WM.history P n) q ∧ Sc.flags P (fun _ => false) n = flags P (fun _ => false) h ∧
      ∀ t op i, p t = some (op, i) → flags P (fun _ => false) h t = true → ∃ o, q t = some (o, op, i) := by
  induction x with
  | nil => exact ⟨_, .nil, rfl, fun t op i h => by cases h⟩
  | @inv h n p _ t o op i hp hi ih =>
    obtain ⟨q, hq, hf, ho⟩ := ih
    simp only [history, WM.history, only_append, Sc.only_append, flags_append, Sc.flags_append, flags, Sc.flags, hf] at hq ⊢
    cases hP : P o with
    | true =>
      refine ⟨Function.update q t (some (o, op, i)), ?_, trivial, ?_⟩
      · simp only [only, WM.only, hP, if_true]
        exact .inv hq t o op i hi
      · intro u op' i' hu hfl
        by_cases e : u = t
        · subst e
          simp only [Function.update_self, Option.some.injEq, Prod.mk.injEq] at hu
          obtain ⟨rfl, rfl⟩ := hu
          exact ⟨o, by rw [Function.update_self]⟩
        · rw [Function.update_of_ne e] at hu hfl ⊢
          exact ho u op' i' hu hfl
    | false =>
      refine ⟨q, ?_, trivial, ?_⟩
      · simp only [only, WM.only, hP, Bool.false_eq_true, if_false, List.append_nil]
        exact hq
      · intro u op' i' hu hfl
        by_cases e : u = t
        · subst e; simp at hfl
        · rw [Function.update_of_ne e] at hu hfl
          exact ho u op' i' hu hfl
  | @ret h n p _ t r op i m hp hs ih =>
    obtain ⟨q, hq, hf, ho⟩ := ih
    simp only [history, WM.history, only_append, Sc.only_append, flags_append, Sc.flags_append, flags, Sc.flags, hf] at hq ⊢
    refine ⟨q, ?_, trivial, ?_⟩
    · cases hfl : flags P (fun _ => false) h t with
      | true =>
        obtain ⟨o, hqt⟩ := ho t op i hp hfl
        simp only [only, WM.only, hfl, if_true]
        exact .ret hq t r o op i m hqt hs
      | false =>
        simp only [only, WM.only, hfl, Bool.false_eq_true, if_false, List.append_nil]
        exact hq
    · intro u op' i' hu hfl
      by_cases e : u = t
      · subst e; simp at hu
      · rw [Function.update_of_ne e] at hu
        exact ho u op' i' hu hfl
  | @client h n p _ t a r ih =>
    obtain ⟨q, hq, hf, ho⟩ := ih
    simp only [history, WM.history, only_append, Sc.only_append, flags_append, Sc.flags_append, flags, Sc.flags, hf] at hq ⊢
    refine ⟨q, ?_, trivial, ho⟩
    simp only [only, WM.only, List.append_nil]
    exact hq

/-! ## The simulation -/

/-- A native operation that, answering `m`, changes nothing. -/
def NoEff (i : Op W) (m : Res W) : Prop := ∀ c, (i.onCell c).2 = m → (i.onCell c).1 = c

/-- What a call that took effect natively, with answer `m`, is here. -/
def Fate (S : Spec W O R) (op : O) (i : Op W) (m : Res W) : Option R → Prop
  | some r => Stands S op r i m
  | none => NoEff i m

def thOf (q : Option (Obj × O × Op W)) (f : Option R) : Atomic.Th W → Object.Status (Obj × O) R
  | .idle => .idle
  | .pending _ _ =>
    match q with
    | some (o, op, _) => .pending (o, op)
    | none => .idle
  | .done _ =>
    match f, q with
    | some r, _ => .done r
    | none, some (o, op, _) => .pending (o, op)
    | none, none => .idle

def absSt (a : Atomic.State W) (q : Engaged O W) (ρ : Tid → Option R) : Object.State (Obj → W) (Obj × O) R where
  obj := a.cell
  th t := thOf (q t) (ρ t) (a.th t)

/-- What is known of the calls. -/
structure Known (S : Spec W O R) (a : Atomic.State W) (q : Engaged O W) : Prop where
  pending : ∀ t o i, a.th t = .pending o i → ∃ op, q t = some (o, op, i) ∧ MayStand S op i
  done : ∀ t m, a.th t = .done m → ∃ o op i c, q t = some (o, op, i) ∧ MayStand S op i ∧ m = (i.onCell c).2

theorem snoc_inj {E : Type} {a b : List E} {x y : E} (h : a ++ [x] = b ++ [y]) : a = b ∧ x = y := by
  have := List.append_inj' h rfl
  exact ⟨this.1, by simpa using this.2⟩

theorem ImgF.nil_inv {S : Spec W O R} {h : List (Object.Ev (Obj × O) R)} {q : Engaged O W} (x : ImgF S h [] q) :
    h = [] := by
  generalize hn : ([] : List (Verif.Ev W)) = n at x
  cases x with
  | nil => rfl
  | inv => simp at hn
  | ret => simp at hn

theorem ImgF.snoc_inv {S : Spec W O R} {h : List (Object.Ev (Obj × O) R)} {n : List (Verif.Ev W)} {e : Verif.Ev W}
    {q : Engaged O W} (x : ImgF S h (n ++ [e]) q) :
    (∃ h' p t o op i, ImgF S h' n p ∧ MayStand S op i ∧ h = h' ++ [.inv t (o, op)] ∧ e = .inv t o i ∧
      q = Function.update p t (some (o, op, i))) ∨
    (∃ h' t r o op i m, ImgF S h' n q ∧ q t = some (o, op, i) ∧ Stands S op r i m ∧ h = h' ++ [.ret t r] ∧ e = .ret t m) := by
  generalize hn : n ++ [e] = n' at x
  cases x with
  | nil => simp at hn
  | inv x t o op i hi =>
    obtain ⟨rfl, rfl⟩ := snoc_inj hn
    exact .inl ⟨_, _, t, o, op, i, x, hi, rfl, rfl, rfl⟩
  | ret x t r o op i m hp hs =>
    obtain ⟨rfl, rfl⟩ := snoc_inj hn
    exact .inr ⟨_, t, r, o, op, i, m, x, hp, hs, rfl, rfl⟩

theorem known {S : Spec W O R} {w0 : Obj → W} {n : List (Verif.Ev W)} {a : Atomic.State W}
    (x : Exec Atomic.Step (Atomic.init w0) n a) : ∀ (h : List (Object.Ev (Obj × O) R)) (q : Engaged O W), ImgF S h n q →
      Known S a q := by
  induction x with
  | refl => exact fun h q _ => ⟨(fun t o i h => by cases h), (fun t m h => by cases h)⟩
  | @tau n a a' _ st ih =>
    intro h q hq
    have K := ih h q hq
    cases st with
    | commit t o i hp =>
      refine ⟨?_, ?_⟩
      · intro u o' i' hu
        by_cases e : u = t
        · subst e; simp at hu
        · exact K.pending u o' i' (by simpa [Function.update_of_ne e] using hu)
      · intro u m hu
        by_cases e : u = t
        · subst e
          simp only [Function.update_self, Atomic.Th.done.injEq] at hu
          obtain ⟨op, h1, h2⟩ := K.pending u o i hp
          exact ⟨o, op, i, _, h1, h2, hu.symm⟩
        · exact K.done u m (by simpa [Function.update_of_ne e] using hu)
  | @ev n a e a' _ st ih =>
    intro h q hq
    rcases hq.snoc_inv with ⟨h', p, t, o, op, i, hp, hi, rfl, rfl, rfl⟩ | ⟨h', t, r, o, op, i, m, hp, hqt, hs, rfl, rfl⟩
    · have K := ih h' p hp
      cases st with
      | inv _ _ _ hidle =>
        refine ⟨?_, ?_⟩
        · intro u o' i' hu
          by_cases e : u = t
          · subst e
            simp only [Function.update_self, Atomic.Th.pending.injEq] at hu
            obtain ⟨rfl, rfl⟩ := hu
            exact ⟨op, by rw [Function.update_self], hi⟩
          · rw [Function.update_of_ne e]
            exact K.pending u o' i' (by simpa [Function.update_of_ne e] using hu)
        · intro u m hu
          by_cases e : u = t
          · subst e; simp at hu
          · rw [Function.update_of_ne e]
            exact K.done u m (by simpa [Function.update_of_ne e] using hu)
    · have K := ih h' q hp
      cases st with
      | ret _ _ hd =>
        refine ⟨?_, ?_⟩
        · intro u o' i' hu
          by_cases e : u = t
          · subst e; simp at hu
          · exact K.pending u o' i' (by simpa [Function.update_of_ne e] using hu)
        · intro u m hu
          by_cases e : u = t
          · subst e; simp at hu
          · exact K.done u m (by simpa [Function.update_of_ne e] using hu)

theorem absSt_update {a a' : Atomic.State W} {q q' : Engaged O W} {ρ ρ' : Tid → Option R} {t : Tid} {x : Atomic.Th W}
    {st : Object.Status (Obj × O) R} (h0 : a'.th = Function.update a.th t x) (h1 : thOf (q' t) (ρ' t) x = st)
    (h2 : ∀ u, u ≠ t → q' u = q u) (h3 : ∀ u, u ≠ t → ρ' u = ρ u) :
    (absSt a' q' ρ' : Object.State _ _ R) = ⟨a'.cell, Function.update (absSt a q ρ).th t st⟩ := by
  simp only [absSt, Object.State.mk.injEq, true_and]
  funext u
  by_cases e : u = t
  · subst e; simp only [h0, Function.update_self, h1]
  · simp only [h0, Function.update_of_ne e, h2 u e, h3 u e]

theorem stands_sem {S : Spec W O R} {op : O} {r : R} {i : Op W} {c : W} (h : Stands S op r i (i.onCell c).2) :
    S.sem op c (i.onCell c).1 r := by
  generalize hm : (i.onCell c).2 = m at h
  cases h with
  | nothing _ hk hs => simpa [Op.onCell, Op.ordOk] using hs c
  | read x _ hk hs ok =>
    simp only [Op.onCell, ok, if_true, Res.val.injEq] at hm ⊢
    subst hm; exact hs
  | write x y _ hk hs =>
    simp only [Op.onCell, Op.ordOk, if_true, Res.val.injEq] at hm ⊢
    subst hm; rw [Function.update_self]; exact hs
  | store y _ hk hs ok =>
    simp only [Op.onCell, ok, if_true]
    exact hs c

theorem follow {S : Spec W O R} {w0 : Obj → W} {n : List (Verif.Ev W)} {a : Atomic.State W}
    (x : Exec Atomic.Step (Atomic.init w0) n a) : ∀ (h : List (Object.Ev (Obj × O) R)) (q : Engaged O W), ImgF S h n q →
      ∀ ρ : Tid → Option R, (∀ t m o op i, a.th t = .done m → q t = some (o, op, i) → Fate S op i m (ρ t)) →
        Exec (Object.Step S.cells) ⟨w0, fun _ => .idle⟩ h (absSt a q ρ) := by
  induction x with
  | refl =>
    intro h q hq ρ _
    rw [hq.nil_inv]
    exact .refl _
  | @tau n a a' xa st ih =>
    intro h q hq ρ hρ
    have K := known xa h q hq
    cases st with
    | commit t o i hp =>
      obtain ⟨op, hqt, hi⟩ := K.pending t o i hp
      have F := hρ t _ o op i (Function.update_self ..) hqt
      have hold : ∀ u m o' op' i', a.th u = .done m → q u = some (o', op', i') → Fate S op' i' m (ρ u) := by
        intro u m o' op' i' hu hqu
        have e : u ≠ t := by rintro rfl; rw [hp] at hu; cases hu
        exact hρ u m o' op' i' (by simpa [Function.update_of_ne e] using hu) hqu
      have ex := ih h q hq ρ hold
      cases hr : ρ t with
      | none =>
        rw [hr] at F
        have hc := F _ rfl
        convert ex using 1
        rw [absSt_update (a := a) (q := q) (ρ := ρ) (t := t) (x := .done (i.onCell (a.cell o)).2) (st := .pending (o, op)) rfl
          (by simp [thOf, hr, hqt]) (fun _ _ => rfl) (fun _ _ => rfl)]
        have e1 : Function.update a.cell o (i.onCell (a.cell o)).1 = a.cell := by rw [hc, Function.update_eq_self]
        have e2 : Function.update (absSt a q ρ).th t (.pending (o, op)) = (absSt a q ρ).th := by
          have : (absSt a q ρ).th t = .pending (o, op) := by simp [absSt, thOf, hp, hqt]
          rw [← this, Function.update_eq_self]
        rw [e2]
        show Object.State.mk (Function.update a.cell o (i.onCell (a.cell o)).1) _ = _
        rw [e1]
        rfl
      | some r =>
        rw [hr] at F
        have st := Object.Step.commit (S := S.cells) (absSt a q ρ) t (o, op)
          (Function.update a.cell o (i.onCell (a.cell o)).1) r (by simp [absSt, thOf, hp, hqt])
          ⟨_, stands_sem F, rfl⟩
        refine .tau ex ?_
        convert st using 1
        rw [absSt_update (a := a) (q := q) (ρ := ρ) (t := t) (x := .done (i.onCell (a.cell o)).2) (st := .done r) rfl
          (by simp [thOf, hr]) (fun _ _ => rfl) (fun _ _ => rfl)]
  | @ev n a e a' xa st ih =>
    intro h q hq ρ hρ
    rcases hq.snoc_inv with ⟨h', p, t, o, op, i, hp, hi, rfl, rfl, rfl⟩ | ⟨h', t, r, o, op, i, m, hp, hqt, hs, rfl, rfl⟩
    · cases st with
      | inv _ _ _ hidle =>
        have hold : ∀ u m o' op' i', a.th u = .done m → p u = some (o', op', i') → Fate S op' i' m (ρ u) := by
          intro u m o' op' i' hu hqu
          have e : u ≠ t := by rintro rfl; rw [hidle] at hu; cases hu
          exact hρ u m o' op' i' (by simpa [Function.update_of_ne e] using hu) (by rw [Function.update_of_ne e]; exact hqu)
        have ex := ih h' p hp ρ hold
        have st := Object.Step.inv (S := S.cells) (absSt a p ρ) t (o, op) (by simp [absSt, thOf, hidle])
        refine .ev ex ?_
        convert st using 1
        rw [absSt_update (a := a) (q := p) (ρ := ρ) (t := t) (x := .pending o i) (st := .pending (o, op)) rfl
          (by simp [thOf]) (fun u e => Function.update_of_ne e ..) (fun _ _ => rfl)]
        rfl
    · cases st with
      | ret _ _ hd =>
        have hold : ∀ u m' o' op' i', a.th u = .done m' → q u = some (o', op', i') →
            Fate S op' i' m' (Function.update ρ t (some r) u) := by
          intro u m' o' op' i' hu hqu
          by_cases e : u = t
          · subst e
            rw [hqt] at hqu; cases hqu
            rw [hd] at hu; cases hu
            rw [Function.update_self]; exact hs
          · rw [Function.update_of_ne e]
            exact hρ u m' o' op' i' (by simpa [Function.update_of_ne e] using hu) hqu
        have ex := ih h' q hp (Function.update ρ t (some r)) hold
        have st := Object.Step.ret (S := S.cells) (absSt a q (Function.update ρ t (some r))) t r
          (by simp [absSt, thOf, hd])
        refine .ev ex ?_
        convert st using 1
        rw [absSt_update (a := a) (q := q) (ρ := Function.update ρ t (some r)) (t := t) (x := .idle) (st := .idle) rfl
          (by simp [thOf]) (fun _ _ => rfl) (fun u e => (Function.update_of_ne e ..).symm)]
        rfl

/-- A fate for a call that took effect natively. -/
theorem exists_fate {S : Spec W O R} {op : O} {i : Op W} (h : MayStand S op i) (c : W) :
    ∃ f, Fate S op i (i.onCell c).2 f := by
  have hl : ∀ ord m, NoEff (Op.load ord : Op W) m := by
    intro ord m c _
    simp only [Op.onCell]
    split <;> rfl
  rcases h with rfl | ⟨r, m, hs⟩
  · exact ⟨none, hl _ _⟩
  · cases hs with
    | nothing => exact ⟨none, hl _ _⟩
    | read => exact ⟨none, hl _ _⟩
    | write x y _ hk hs =>
      by_cases e : c = x
      · subst e
        refine ⟨some r, ?_⟩
        simp only [Op.onCell, Op.ordOk, if_true]
        exact .write c y r hk hs
      · refine ⟨none, ?_⟩
        intro c' hc
        simp only [Op.onCell, Op.ordOk, if_true, Res.val.injEq] at hc ⊢
        subst hc
        rw [Function.update_of_ne e]; rfl
    | store y _ hk hs ok =>
      refine ⟨some r, ?_⟩
      simp only [Op.onCell, ok, if_true]
      exact .store y r hk hs ok

theorem image_seqCst {S : Spec W O R} (L : Legal S) {P : Obj → Bool} {h : List (Ev O R X)} {n : List (WM.Ev W X)}
    {p : Tid → Option (O × Op W)} (x : Image S h n p) (hq : S.AllSeqCst P h) : WM.AllSeqCst P n := by
  induction x with
  | nil => intro t o i hm; simp at hm
  | @inv h n p _ t o op i hp hi ih =>
    have hq' : S.AllSeqCst P h := fun t o op hm => hq t o op (List.mem_append_left _ hm)
    intro u o' i' hm hP
    rcases List.mem_append.1 hm with hm | hm
    · exact ih hq' u o' i' hm hP
    · simp only [List.mem_singleton, WM.Ev.inv.injEq] at hm
      obtain ⟨rfl, rfl, rfl⟩ := hm
      obtain ⟨h1, h2⟩ := hq u o' op (by simp) hP
      rcases hi with rfl | ⟨r, m, hs⟩
      · exact h2
      · cases hs with
        | nothing _ hk hs => exact absurd ⟨h1, h2⟩ (L.nothing op r hk hs)
        | read => exact h2
        | write => exact h1
        | store => exact h1
  | @ret h n p _ t r op i m hp hs ih =>
    intro u o' i' hm hP
    refine ih (fun t o op hm => hq t o op (List.mem_append_left _ hm)) u o' i' ?_ hP
    simpa using hm
  | @client h n p _ t a r ih =>
    intro u o' i' hm hP
    refine ih (fun t o op hm => hq t o op (List.mem_append_left _ hm)) u o' i' ?_ hP
    simpa using hm

/-- Sequentially consistent operations are linearizable. -/
theorem sc_linearizable {S : Spec W O R} (L : Legal S) {w0 : Obj → W} {x0 : Nat → X} {h : List (Ev O R X)}
    (hb : Behaviour S w0 x0 h) {P : Obj → Bool} (hq : S.AllSeqCst P h) :
    Object.Linearizable S.cells w0 (history P h) := by
  obtain ⟨n, p, hi, hn⟩ := exists_image L hb
  obtain ⟨q, hf, -, -⟩ := img_only (P := P) hi
  obtain ⟨a, xa⟩ := Sc.native_linearizable hn (image_seqCst L hi hq)
  have K := known xa _ q hf
  have hρ : ∀ t, ∃ f : Option R, ∀ m o op i, a.th t = .done m → q t = some (o, op, i) → Fate S op i m f := by
    intro t
    cases ht : a.th t with
    | idle => exact ⟨none, fun m o op i h => by cases h⟩
    | pending => exact ⟨none, fun m o op i h => by cases h⟩
    | done m =>
      obtain ⟨o, op, i, c, h1, h2, rfl⟩ := K.done t m ht
      obtain ⟨f, hf⟩ := exists_fate h2 c
      refine ⟨f, fun m' o' op' i' e1 e2 => ?_⟩
      rw [h1] at e2; cases e2; cases e1
      exact hf
  choose ρ hρ using hρ
  exact ⟨_, _, follow xa _ q hf ρ (fun t m o op i => hρ t m o op i), rfl⟩

end Verif.WM.Derived
