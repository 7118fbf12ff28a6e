import Verif.Spec.Tso
import Verif.Lf.Access
/-!
# Programs on an x86 processor's memory

`tso` runs a `Code` (programs made of whole-cell accesses, `Lf.Access`) on the memory of `Spec.Tso`.
`locked l` says that the instruction at `l` is a locked one. `TSim` are the obligations from which it follows
that the programs behave like native accesses.
-/
set_option autoImplicit false
set_option linter.unusedSectionVars false
namespace Verif.Tso
open Verif.Object Verif.Lf

variable {K V O R L : Type} [DecidableEq K] [DecidableEq V]

/-- One step of thread `t` in a call on the object at `k`: registers only (a locked instruction on a private
location waits for the buffer), an unlocked load, an unlocked store, a locked access. -/
inductive CodeStep (c : Code V O R L) (locked : L → Bool) (t : Tid) (k : K) : L → Mem K V → L → Mem K V → Prop where
  | drain {l m m'} (h : Drain m m') : CodeStep c locked t k l m l m'
  | tau {l l' m} (h : c.next l = .tau l') (hb : locked l = true → m.buf t = []) : CodeStep c locked t k l m l' m
  | load {l o f m r} (h : c.next l = .acc (.op (.load o)) f) (hl : locked l = false)
      (hs : (Acc.op (.load o)).sem (m.view t k) (m.view t k) r) : CodeStep c locked t k l m (f r) m
  | store {l v o f m} (h : c.next l = .acc (.op (.store v o)) f) (hl : locked l = false) :
      CodeStep c locked t k l m (f .unit) (m.push t k v)
  | locked {l a f m x r} (h : c.next l = .acc a f) (hl : locked l = true) (hb : m.buf t = [])
      (hs : a.sem (m.mem k) x r) : CodeStep c locked t k l m (f r) (m.write k x)

/-- The programs on many objects. -/
def tso (K : Type) [DecidableEq K] (c : Code V O R L) (locked : L → Bool) : Sys (Mem K V) (K × L) (K × O) R where
  start _ op := (op.1, c.start op.2)
  step t l m l' m' := l'.1 = l.1 ∧ CodeStep c locked t l.1 l.2 m l'.2 m'
  ret l := match c.next l.2 with
    | .ret r => some r
    | _ => none

/-- Obligations: where a call is (`at_`), as a native call. -/
structure TSim (c : Code V O R L) (locked : L → Bool) (S : Spec V O R) (cls : O → Cls V) where
  at_ : L → Loc O R → Prop
  start : ∀ op, at_ (c.start op) (.pending op)
  tau : ∀ l st l', at_ l st → c.next l = .tau l' → at_ l' st ∨
    (locked l = true ∧ ((∃ r, st = .wait r ∧ at_ l' (.done r)) ∨
      ∃ op r, st = .pending op ∧ cls op = .fence ∧ (∀ x, S.sem op x x r) ∧ at_ l' (.done r)))
  load : ∀ l st o f x r, at_ l st → c.next l = .acc (.op (.load o)) f → locked l = false →
    (Acc.op (.load o)).sem x x r → at_ (f r) st ∨
      ∃ op r', st = .pending op ∧ cls op = .load ∧ S.sem op x x r' ∧ at_ (f r) (.done r')
  store : ∀ l st v o f, at_ l st → c.next l = .acc (.op (.store v o)) f → locked l = false →
    ∃ op w r', st = .pending op ∧ cls op = .store v w ∧ (∀ x, S.sem op x v r') ∧
      at_ (f .unit) (if w then .wait r' else .done r')
  acc : ∀ l st a f x x' r, at_ l st → c.next l = .acc a f → locked l = true → a.sem x x' r →
    (x' = x ∧ at_ (f r) st) ∨
      ∃ op r', st = .pending op ∧ S.sem op x x' r' ∧ at_ (f r) (.done r') ∧
        (cls op = .rmw ∨ (cls op = .load ∧ x' = x) ∨ ∃ w, cls op = .store x' w ∧ ∀ y, S.sem op y x' r')
  ret : ∀ l st r, at_ l st → c.next l = .ret r → st = .done r

theorem write_self' (m : Mem K V) (k : K) : m.write k (m.mem k) = m := by
  rw [Mem.write, Function.update_eq_self]

theorem push_drain {m : Mem K V} {t : Tid} (hb : m.buf t = []) (k : K) (v : V) : Drain (m.push t k v) (m.write k v) := by
  have h : (m.push t k v).buf t = (k, v) :: [] := by simp [Mem.push, hb]
  have := Drain.mk h
  have e : ({ mem := Function.update (m.push t k v).mem k v, buf := Function.update (m.push t k v).buf t [] } : Mem K V) =
      m.write k v := by
    have : Function.update (m.push t k v).buf t [] = m.buf := by
      funext u
      by_cases hu : u = t
      · subst hu; simp [hb]
      · simp [Function.update_of_ne hu, Mem.push]
    rw [this]; rfl
  rw [e] at this
  exact this

/-- Every history of the programs is one of native calls. -/
theorem TSim.runs {c : Code V O R L} {locked : L → Bool} {S : Spec V O R} {cls : O → Cls V}
    (X : TSim c locked S cls) {M : Mem K V} {h : List (Object.Ev (K × O) R)} {s : Lf.State (Mem K V) (K × L)}
    (hx : Runs (tso K c locked) M h s) : ∃ s', Runs (native K S cls) M h s' ∧ s'.mem = s.mem := by
  have key : ∃ s', Runs (native K S cls) M h s' ∧ s'.mem = s.mem ∧
      ∀ t, (s.th t = none ∧ s'.th t = none) ∨ ∃ k l st, s.th t = some (k, l) ∧ s'.th t = some (k, st) ∧ X.at_ l st := by
    generalize hi : ({ mem := M, th := fun _ => none } : Lf.State (Mem K V) (K × L)) = i at hx
    unfold Runs at hx
    rw [hi] at hx
    induction hx with
    | refl => subst hi; exact ⟨_, .refl _, rfl, fun _ => Or.inl ⟨rfl, rfl⟩⟩
    | @tau h s s2 _ st ih =>
      obtain ⟨s', hr, hm, ht⟩ := ih
      cases st with
      | act t l l' m' hth hs =>
        obtain ⟨k, l⟩ := l
        obtain ⟨k', l'⟩ := l'
        obtain ⟨hk, hs⟩ := hs
        simp only at hk hs
        subst hk
        rcases ht t with ⟨h0, -⟩ | ⟨k, l1, st, h1, h2, h3⟩
        · rw [hth] at h0; cases h0
        rw [hth] at h1
        simp only [Option.some.injEq, Prod.mk.injEq] at h1
        obtain ⟨rfl, rfl⟩ := h1
        -- one native step
        have one : ∀ {st' : Loc O R} {m2 : Mem K V}, Native S cls t k' st s'.mem st' m2 →
            Runs (native K S cls) M h { mem := m2, th := Function.update s'.th t (some (k', st')) } :=
          fun hn => .tau hr (.act s' t (k', st) (k', _) _ h2 ⟨rfl, hn⟩)
        have at2 : ∀ {l2 : L} {st' : Loc O R} {f : Tid → Option (K × Loc O R)}, X.at_ l2 st' →
            f t = some (k', st') → (∀ u, u ≠ t → f u = s'.th u) →
            ∀ u, (Function.update s.th t (some (k', l2)) u = none ∧ f u = none) ∨
              ∃ k l st, Function.update s.th t (some (k', l2)) u = some (k, l) ∧ f u = some (k, st) ∧ X.at_ l st := by
          intro l2 st' f ha hf hf' u
          by_cases hu : u = t
          · subst hu; exact Or.inr ⟨k', l2, st', by simp, hf, ha⟩
          · rw [Function.update_of_ne hu, hf' u hu]; exact ht u
        have stay : ∀ {l2 : L}, X.at_ l2 st → ∀ u, (Function.update s.th t (some (k', l2)) u = none ∧ s'.th u = none) ∨
              ∃ k l st, Function.update s.th t (some (k', l2)) u = some (k, l) ∧ s'.th u = some (k, st) ∧ X.at_ l st :=
          fun ha => at2 ha h2 fun _ _ => rfl
        have upd : ∀ (st' : Loc O R) (u : Tid), u ≠ t → Function.update s'.th t (some (k', st')) u = s'.th u :=
          fun _ u hu => Function.update_of_ne hu _ _
        cases hs with
        | drain hd => exact ⟨_, one (.drain (by rw [hm]; exact hd)), rfl, at2 h3 (by simp) (upd _)⟩
        | tau hn hb =>
          rcases X.tau _ _ _ h3 hn with ha | ⟨hl, ⟨r, rfl, ha⟩ | ⟨op, r, rfl, hc, hsem, ha⟩⟩
          · exact ⟨s', hr, hm, stay ha⟩
          · exact ⟨_, one (.waited (by rw [hm]; exact hb hl)), hm, at2 ha (by simp) (upd _)⟩
          · exact ⟨_, one (.fence hc (by rw [hm]; exact hb hl) (hsem _)), hm, at2 ha (by simp) (upd _)⟩
        | load hn hl hs =>
          rcases X.load _ _ _ _ _ _ h3 hn hl hs with ha | ⟨op, r', rfl, hc, hsem, ha⟩
          · exact ⟨s', hr, hm, stay ha⟩
          · exact ⟨_, one (.load hc (by rw [hm]; exact hsem)), hm, at2 ha (by simp) (upd _)⟩
        | store hn hl =>
          obtain ⟨op, w, r', rfl, hc, hsem, ha⟩ := X.store _ _ _ _ _ h3 hn hl
          cases w with
          | false => exact ⟨_, one (.store hc hsem), by rw [hm], at2 ha (by simp) (upd _)⟩
          | true => exact ⟨_, one (.storeWait hc hsem), by rw [hm], at2 ha (by simp) (upd _)⟩
        | @locked _ a f x r hn hl hb hs =>
          rcases X.acc _ _ _ _ _ _ _ h3 hn hl hs with ⟨hxx, ha⟩ | ⟨op, r', rfl, hsem, ha, hc⟩
          · subst hxx
            exact ⟨s', hr, by rw [hm, write_self'], stay ha⟩
          · have hb' : s'.mem.buf t = [] := by rw [hm]; exact hb
            rcases hc with hc | ⟨hc, rfl⟩ | ⟨w, hc, hall⟩
            · exact ⟨_, one (.rmw hc hb' (by rw [hm]; exact hsem)), by rw [hm], at2 ha (by simp) (upd _)⟩
            · refine ⟨_, one (.load (r := r') hc ?_), by rw [hm]; exact (write_self' _ _).symm, at2 ha (by simp) (upd _)⟩
              have : s'.mem.view t k' = s.mem.mem k' := by rw [hm]; simp [Mem.view, hb, newest]
              rw [this]; exact hsem
            · cases w with
              | false =>
                have r1 := one (.store hc hall)
                have r2 := Exec.tau r1 (.act _ t (k', .done r') (k', .done r') _ (by simp) ⟨rfl, .drain (push_drain hb' k' x)⟩)
                refine ⟨_, r2, by rw [hm], at2 ha (by simp) fun u hu => by simp [Function.update_of_ne hu]⟩
              | true =>
                have r1 := one (.storeWait hc hall)
                have r2 := Exec.tau r1 (.act _ t (k', .wait r') (k', .wait r') _ (by simp) ⟨rfl, .drain (push_drain hb' k' x)⟩)
                have r3 := Exec.tau r2 (.act _ t (k', .wait r') (k', .done r') _ (by simp)
                  ⟨rfl, .waited (by simpa [Mem.write] using hb')⟩)
                refine ⟨_, r3, by rw [hm], at2 ha (by simp) fun u hu => by simp [Function.update_of_ne hu]⟩
    | @ev h s e s2 _ st ih =>
      obtain ⟨s', hr, hm, ht⟩ := ih
      cases st with
      | inv t op hth =>
        rcases ht t with ⟨-, h0⟩ | ⟨k, l1, st, h1, h2, h3⟩
        · refine ⟨_, .ev hr (.inv s' t op h0), hm, fun u => ?_⟩
          by_cases hu : u = t
          · subst hu
            exact Or.inr ⟨op.1, c.start op.2, .pending op.2, by simp [tso], by simp [native], X.start _⟩
          · simp only [Function.update_of_ne hu]; exact ht u
        · rw [hth] at h1; cases h1
      | ret t l r hth hret =>
        rcases ht t with ⟨h0, -⟩ | ⟨k, l1, st, h1, h2, h3⟩
        · rw [hth] at h0; cases h0
        rw [hth] at h1
        simp only [Option.some.injEq] at h1
        subst h1
        have hn : c.next l1 = .ret r := by
          simp only [tso] at hret
          cases h4 : c.next l1 with
          | ret r' => rw [h4] at hret; simp at hret; rw [hret]
          | tau l' => rw [h4] at hret; cases hret
          | acc a f => rw [h4] at hret; cases hret
        obtain rfl := X.ret _ _ _ h3 hn
        refine ⟨_, .ev hr (.ret s' t (k, .done r) r h2 rfl), hm, fun u => ?_⟩
        by_cases hu : u = t
        · subst hu; exact Or.inl (by simp)
        · simp only [Function.update_of_ne hu]; exact ht u
  obtain ⟨s', h1, h2, -⟩ := key
  exact ⟨s', h1, h2⟩

end Verif.Tso
