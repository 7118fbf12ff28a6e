import Verif.Spec.CsFair
import Verif.Props.Bounded
/-!
# Progress of operations in critical sections (C72)
-/
set_option autoImplicit false
set_option linter.unusedSectionVars false
namespace Verif.Cs
open Verif.Object Verif.Irq

section
variable {n : Nat} {C : Type} [DecidableEq C] {K : Cfg n C} {m : Mem n C} {σ : Nat → State n C}
  {e : Nat → Option (Object.Ev (Obj × Op (Val n C) × Nat) (Res (Val n C) × Nat))} {who : Nat → Option Tid}

/-- A step of some context is a step, and conversely. -/
theorem step_iff {s s' : State n C} {ev} : Step K s ev s' ↔ ∃ t, StepOf K t s ev s' := by
  constructor
  · intro h
    cases h with
    | enter t h hf => exact ⟨t, .enter s h hf⟩
    | leave t h => exact ⟨t, .leave s h⟩
    | inv t o op h => exact ⟨t, .inv s o op h⟩
    | act t pc m' held' pc' h ha => exact ⟨t, .act s pc m' held' pc' h ha⟩
    | ret t r h => exact ⟨t, .ret s r h⟩
  · rintro ⟨t, h⟩
    cases h with
    | enter h hf => exact .enter s t h hf
    | leave h => exact .leave s t h
    | inv o op h => exact .inv s t o op h
    | act pc m' held' pc' h ha => exact .act s t pc m' held' pc' h ha
    | ret r h => exact .ret s t r h

/-- The others' program points and depths do not change. -/
theorem stepOf_other {s s' : State n C} {ev} {t u : Tid} (h : StepOf K t s ev s') (hu : u ≠ t) :
    s'.th u = s.th u ∧ s'.held u = s.held u := by
  cases h with
  | enter h hf => exact ⟨rfl, Function.update_of_ne hu _ _⟩
  | leave h => exact ⟨rfl, Function.update_of_ne hu _ _⟩
  | inv o op h => exact ⟨Function.update_of_ne hu _ _, rfl⟩
  | ret r h => exact ⟨Function.update_of_ne hu _ _, rfl⟩
  | act pc m' held' pc' h ha =>
    refine ⟨Function.update_of_ne hu _ _, ?_⟩
    cases ha <;> first | rfl | exact Function.update_of_ne hu _ _

theorem go_or_waits {s : State n C} {t : Tid} (hp : s.th t ≠ none) : CanGo K t s ∨
    (∃ o op, s.th t = some (.acq o op)) ∧ ∃ u, u ≠ t ∧ s.held u ≠ 0 := by
  rcases cs_waits_only_at_entry K s t hp with ⟨pc, m', held', pc', h, ha⟩ | ⟨r, s', h⟩ | h
  · exact .inl ⟨hp, _, _, .act _ pc m' held' pc' h ha⟩
  · obtain ⟨u, hu⟩ := step_iff.1 h
    refine .inl ⟨hp, some (.ret t r), s', ?_⟩
    generalize he : (some (Object.Ev.ret t r) : Option _) = e0 at hu
    cases hu with
    | ret r' h' => cases he; exact .ret _ r' h'
    | _ => cases he
  · exact .inr h

namespace Endless

theorem next (X : Endless K m σ e who) (i : Nat) : σ (i + 1) = σ i ∧ e i = none ∧ who i = none ∨
    ∃ t, who i = some t ∧ StepOf K t (σ i) (e i) (σ (i + 1)) := by
  have := X.step i
  cases h : who i with
  | none => rw [h] at this; exact .inl ⟨this.2, this.1, rfl⟩
  | some t => rw [h] at this; exact .inr ⟨t, rfl, this⟩

theorem rel (X : Endless K m σ e who) (i : Nat) : ∃ a, Rel K (σ i) a := by
  induction i with
  | zero =>
    rw [X.start]
    exact ⟨⟨m, fun _ => .idle⟩, fun t u h => absurd rfl h, fun _ => rfl, fun _ => trivial, fun _ _ => rfl⟩
  | succ i ih =>
    obtain ⟨a, ha⟩ := ih
    rcases X.next i with ⟨h, -⟩ | ⟨t, -, h⟩
    · rw [h]; exact ⟨a, ha⟩
    · obtain ⟨a', h', -⟩ := sim_step (step_iff.2 ⟨t, h⟩) ha
      exact ⟨a', h'⟩

theorem excl (X : Endless K m σ e who) {i : Nat} {t u : Tid} (ht : (σ i).held t ≠ 0) (hu : (σ i).held u ≠ 0) : t = u := by
  obtain ⟨a, ha⟩ := X.rel i
  exact ha.excl t u ht hu

theorem other (X : Endless K m σ e who) {i : Nat} {t : Tid} (h : who i ≠ some t) :
    (σ (i + 1)).th t = (σ i).th t ∧ (σ (i + 1)).held t = (σ i).held t := by
  rcases X.next i with ⟨h', -⟩ | ⟨u, hu, st⟩
  · rw [h']; exact ⟨rfl, rfl⟩
  · exact stepOf_other st fun e => h (by rw [hu, e])

/-- A call that stays open for ever makes only finitely many steps. -/
theorem settles (X : Endless K m σ e who) {t : Tid} {i : Nat} (hp : ∀ j, i ≤ j → (σ j).th t ≠ none) :
    ∃ N, i ≤ N ∧ ∀ j, N ≤ j → who j ≠ some t := by
  have key : ∀ k j, i ≤ j → (∀ pc, (σ j).th t = some pc → left pc ≤ k) → ∃ N, i ≤ N ∧ ∀ j, N ≤ j → who j ≠ some t := by
    intro k
    induction k with
    | zero =>
      intro j hj hk
      refine ⟨j, hj, ?_⟩
      have : ∀ d, (σ (j + d)).th t = (σ j).th t ∧ who (j + d) ≠ some t := by
        have nomove : ∀ d, (σ (j + d)).th t = (σ j).th t → who (j + d) ≠ some t := by
          intro d hd hw
          rcases X.next (j + d) with ⟨-, -, h⟩ | ⟨u, hu, st⟩
          · rw [h] at hw; cases hw
          · rw [hw] at hu
            cases hu
            have hne := hp (j + d) (by omega)
            have hne' := hp (j + d + 1) (by omega)
            generalize σ (j + d) = s0 at st hd hne
            generalize σ (j + d + 1) = s1 at st hne'
            generalize e (j + d) = e0 at st
            cases st with
            | enter h hf => exact hne h
            | leave h => exact hne h
            | inv o op h => exact hne h
            | act pc m' held' pc' h ha =>
              have h1 := left_act ha
              have h2 := hk pc (by rw [← hd]; exact h)
              omega
            | ret r h => exact hne' (by simp)
        intro d
        induction d with
        | zero => exact ⟨rfl, nomove 0 rfl⟩
        | succ d ih =>
          have h := ((X.other ih.2).1).trans ih.1
          exact ⟨h, nomove (d + 1) h⟩
      intro k hk
      have := (this (k - j)).2
      rwa [show j + (k - j) = k by omega] at this
    | succ k ih =>
      intro j hj hk
      by_cases hm : ∃ d, who (j + d) = some t ∧ ∀ d', d' < d → who (j + d') ≠ some t
      · obtain ⟨d, hd, hb⟩ := hm
        have hc : ∀ d', d' ≤ d → (σ (j + d')).th t = (σ j).th t := by
          intro d'
          induction d' with
          | zero => intro _; rfl
          | succ d' ih' => intro h; exact ((X.other (hb d' (by omega))).1).trans (ih' (by omega))
        refine ih (j + d + 1) (by omega) fun pc' hpc' => ?_
        rcases X.next (j + d) with ⟨-, -, h⟩ | ⟨u, hu, st⟩
        · rw [h] at hd; cases hd
        · rw [hd] at hu
          cases hu
          have hne := hp (j + d) (by omega)
          have hd' := hc d (le_refl _)
          generalize σ (j + d) = s0 at st hd' hne
          generalize σ (j + d + 1) = s1 at st hpc'
          generalize e (j + d) = e0 at st
          cases st with
          | enter h hf => exact absurd h hne
          | leave h => exact absurd h hne
          | inv o op h => exact absurd h hne
          | act pc m' held' pc1 h ha =>
            have h1 := left_act ha
            have h2 := hk pc (by rw [← hd']; exact h)
            simp only [Function.update_self, Option.some.injEq] at hpc'
            subst hpc'
            omega
          | ret r h => simp at hpc'
      · refine ⟨j, hj, fun l hl hw => hm ?_⟩
        have hex : ∃ d, who (j + d) = some t := ⟨l - j, by rw [show j + (l - j) = l by omega]; exact hw⟩
        classical
        exact ⟨Nat.find hex, Nat.find_spec hex, fun d' h => Nat.find_min hex h⟩
  cases hpc : (σ i).th t with
  | none => exact absurd hpc (hp i (le_refl _))
  | some pc => exact key (left pc) i (le_refl _) fun pc' h => by rw [hpc] at h; cases h; exact le_refl _

/-- A call that stays open for ever is, again and again, at its entry, with another context in the critical section. -/
theorem stuck (X : Endless K m σ e who) (F : FairOps K σ who) {t : Tid} {i : Nat} (hp : ∀ j, i ≤ j → (σ j).th t ≠ none) (N : Nat) :
    ∃ j, N ≤ j ∧ (∃ o op, (σ j).th t = some (.acq o op)) ∧ ∃ u, u ≠ t ∧ (σ j).held u ≠ 0 := by
  obtain ⟨M, h1, h2⟩ := X.settles hp
  by_contra hc
  obtain ⟨j, h3, h4⟩ := F (max M N) t fun j hj => by
    rcases go_or_waits (K := K) (hp j (by omega)) with h | h
    · exact h
    · exact absurd ⟨j, by omega, h⟩ hc
  exact h2 j (by omega) h4

end Endless

/-- **C72a.** If no operation that can go on is stopped for ever, and user code leaves its critical sections, then everybody who is in the
critical section leaves it. -/
theorem sections_end (X : Endless K m σ e who) (F : FairOps K σ who) (U : SectionsEnd σ) {t : Tid} {i : Nat}
    (h : (σ i).held t ≠ 0) : ∃ j, i ≤ j ∧ (σ j).held t = 0 := by
  by_contra hc
  obtain ⟨j, hj, h1 | h1⟩ := U i t h
  · exact hc ⟨j, hj, h1⟩
  · obtain ⟨k, hk, -, u, hu, h2⟩ := X.stuck F h1 j
    refine hu (X.excl h2 fun h3 => hc ⟨k, by omega, h3⟩)

theorem open_or_returns (X : Endless K m σ e who) {t : Tid} {i : Nat} (hp : (σ i).th t ≠ none) (hr : ¬ ReturnsAt e t i) :
    ∀ j, i ≤ j → (σ j).th t ≠ none := by
  intro j hj
  obtain ⟨d, rfl⟩ := Nat.exists_eq_add_of_le hj
  clear hj
  induction d with
  | zero => exact hp
  | succ d ih =>
    by_cases hw : who (i + d) = some t
    · rcases X.next (i + d) with ⟨-, -, h⟩ | ⟨u, hu, st⟩
      · rw [h] at hw; cases hw
      · rw [hw] at hu
        cases hu
        have hr' : ∀ r, e (i + d) ≠ some (.ret t r) := fun r h => hr ⟨i + d, by omega, r, h⟩
        rw [show i + (d + 1) = i + d + 1 from rfl]
        generalize σ (i + d) = s0 at st ih
        generalize σ (i + d + 1) = s1 at st
        generalize e (i + d) = e0 at st hr'
        cases st with
        | enter h hf => exact absurd h ih
        | leave h => exact absurd h ih
        | inv o op h => exact absurd h ih
        | act pc m' held' pc' h ha => simp
        | ret r h => exact absurd rfl (hr' _)
    · rw [show i + (d + 1) = i + d + 1 from rfl, (X.other hw).1]; exact ih

/-- **C72b.** Then every call returns, unless other contexts enter the critical section (with calls or in user code) infinitely often
meanwhile. -/
theorem cs_returns_or_overtaken (X : Endless K m σ e who) (F : FairOps K σ who) (U : SectionsEnd σ) {t : Tid} {i : Nat}
    (hp : (σ i).th t ≠ none) : ReturnsAt e t i ∨ ∀ N, ∃ j, N ≤ j ∧ ∃ u, u ≠ t ∧ Enters σ u j := by
  by_contra hc
  rw [not_or] at hc
  obtain ⟨hr, hn⟩ := hc
  obtain ⟨N, hN⟩ := Classical.not_forall.1 hn
  have hop := open_or_returns X hp hr
  have keep : ∀ u, u ≠ t → ∀ j, N ≤ j → (σ j).held u = 0 → ∀ k, j ≤ k → (σ k).held u = 0 := by
    intro u hu j hj h0 k hk
    obtain ⟨d, rfl⟩ := Nat.exists_eq_add_of_le hk
    clear hk
    induction d with
    | zero => exact h0
    | succ d ih =>
      by_contra h1
      exact hN ⟨j + d, by omega, u, hu, ih, h1⟩
  obtain ⟨j, hj, -, u, hu, h1⟩ := X.stuck F hop N
  obtain ⟨k, hk, h2⟩ := sections_end X F U h1
  obtain ⟨l, hl, -, v, hv, h3⟩ := X.stuck F hop k
  by_cases e : v = u
  · subst e; exact h3 (keep v hu k (by omega) h2 l hl)
  · have h4 : (σ j).held v = 0 := by
      by_contra h4
      exact e (X.excl h4 h1)
    exact h3 (keep v hv j hj h4 l (by omega))

/-- **C72c.** An operation that is in the critical section, or past it, returns. -/
theorem cs_returns_once_entered (X : Endless K m σ e who) (F : FairOps K σ who) {t : Tid} {i : Nat} (hi : inside ((σ i).th t) = true) :
    ReturnsAt e t i := by
  by_contra hr
  have hop := open_or_returns X (t := t) (i := i) (by intro h; rw [h] at hi; cases hi) hr
  have hpast : ∀ j, i ≤ j → ∀ o op, (σ j).th t ≠ some (.acq o op) ∧ (σ j).th t ≠ some (.start o op) := by
    intro j hj
    obtain ⟨d, rfl⟩ := Nat.exists_eq_add_of_le hj
    clear hj
    induction d with
    | zero => intro o op; refine ⟨fun h => ?_, fun h => ?_⟩ <;> (rw [Nat.add_zero] at h; rw [h] at hi; cases hi)
    | succ d ih =>
      intro o op
      by_cases hw : who (i + d) = some t
      · rcases X.next (i + d) with ⟨-, -, h⟩ | ⟨u, hu, st⟩
        · rw [h] at hw; cases hw
        · rw [hw] at hu
          cases hu
          have hne := hop (i + d) (by omega)
          rw [show i + (d + 1) = i + d + 1 from rfl]
          generalize σ (i + d) = s0 at st ih hne
          generalize σ (i + d + 1) = s1 at st
          generalize e (i + d) = e0 at st
          cases st with
          | enter h hf => exact absurd h hne
          | leave h => exact absurd h hne
          | inv o op h => exact absurd h hne
          | act pc m' held' pc' h ha =>
            simp only [Function.update_self]
            cases ha with
            | goAcq => exact absurd h (ih _ _).2
            | _ => exact ⟨by simp, by simp⟩
          | ret r h => simp
      · rw [show i + (d + 1) = i + d + 1 from rfl, (X.other hw).1]; exact ih o op
  obtain ⟨j, hj, ⟨o, op, h⟩, -⟩ := X.stuck F hop i
  exact (hpast j hj o op).1 h

/-- **C72d.** So if user code has no critical sections of its own, whenever a call does not return, infinitely many others do. -/
theorem cs_returns_forever (X : Endless K m σ e who) (F : FairOps K σ who)
    (U : ∀ i t, (σ i).held t ≠ 0 → inside ((σ i).th t) = true) {t : Tid} {i : Nat} (hp : (σ i).th t ≠ none) :
    ReturnsAt e t i ∨ ∀ N, ∃ u, u ≠ t ∧ ReturnsAt e u N := by
  have hU : SectionsEnd σ := by
    intro i t h
    by_contra hc
    have h0 : ∀ j, i ≤ j → (σ j).held t ≠ 0 := fun j hj h => hc ⟨j, hj, .inl h⟩
    refine hc ⟨i, le_refl _, .inr fun j hj hn => ?_⟩
    have := U j t (h0 j hj)
    rw [hn] at this; cases this
  rcases cs_returns_or_overtaken X F hU hp with h | h
  · exact .inl h
  · refine .inr fun N => ?_
    obtain ⟨j, hj, u, hu, -, h1⟩ := h N
    obtain ⟨k, hk, r, hr⟩ := cs_returns_once_entered X F (U (j + 1) u h1)
    exact ⟨u, hu, k, by omega, r, hr⟩

/-- **C72e.** There is no deadlock: in every reachable state, if an operation cannot go on, it waits for a context in the critical section
which is in user code or in an operation that can go on. -/
theorem cs_no_deadlock {h : List (Object.Ev (Obj × Op (Val n C) × Nat) (Res (Val n C) × Nat))} {s : State n C}
    (x : Exec (Step K) (init m) h s) {t : Tid} (hp : s.th t ≠ none) (hw : ¬ CanGo K t s) :
    ∃ u, u ≠ t ∧ s.held u ≠ 0 ∧ (s.th u = none ∨ CanGo K u s) := by
  obtain ⟨a, -, hr⟩ := sim_exec m x
  rcases go_or_waits (K := K) hp with h | ⟨-, u, hu, hh⟩
  · exact absurd h hw
  · refine ⟨u, hu, hh, ?_⟩
    by_cases hn : s.th u = none
    · exact .inl hn
    · rcases go_or_waits (K := K) hn with h | ⟨-, v, hv, hh'⟩
      · exact .inr h
      · exact absurd (hr.excl v u hh' hh) hv

end

/-! ## Non-vacuity: the second alternative of C72b cannot be dropped -/
namespace Starve

abbrev K : Cfg 1 Nat := Cfg.feature

abbrev op : Op (Val 1 Nat) := .load .seqCst

/-- Context 1 waits at the entry of a `load`; context 0 is inside at odd moments. -/
def at_ (i : Nat) : State 1 Nat where
  mem := fun _ _ => 4
  held := fun t => if t = 0 ∧ i % 2 = 1 then 1 else 0
  th := fun t => if t = 1 then some (.acq 0 op) else none

def σ : Nat → State 1 Nat
  | 0 => init fun _ _ => 4
  | 1 => { init (fun _ _ => 4) with th := Function.update (fun _ => none) 1 (some (.start 0 op)) }
  | i + 2 => at_ i

def e : Nat → Option (Object.Ev (Obj × Op (Val 1 Nat) × Nat) (Res (Val 1 Nat) × Nat))
  | 0 => some (.inv 1 (0, op, 0))
  | _ => none

def who : Nat → Option Tid
  | 0 | 1 => some 1
  | _ => some 0

theorem even_step (i : Nat) (h : i % 2 = 0) : StepOf K 0 (at_ i) none (at_ (i + 1)) := by
  have := StepOf.enter (K := K) (t := 0) (at_ i) rfl (fun u hu => by simp [at_, hu])
  have e : at_ (i + 1) = { at_ i with held := Function.update (at_ i).held 0 ((at_ i).held 0 + 1) } := by
    have h' : (i + 1) % 2 = 1 := by omega
    simp only [at_, State.mk.injEq, true_and, and_true]
    funext t
    by_cases ht : t = 0
    · subst ht; simp [h, h']
    · simp [ht, Function.update_of_ne ht]
  rw [e]; exact this

theorem odd_step (i : Nat) (h : i % 2 = 1) : StepOf K 0 (at_ i) none (at_ (i + 1)) := by
  have := StepOf.leave (K := K) (t := 0) (at_ i) rfl
  have e : at_ (i + 1) = { at_ i with held := Function.update (at_ i).held 0 ((at_ i).held 0 - 1) } := by
    have h' : ¬ (i + 1) % 2 = 1 := by omega
    simp only [at_, State.mk.injEq, true_and, and_true]
    funext t
    by_cases ht : t = 0
    · subst ht; simp [h, h']
    · simp [ht, Function.update_of_ne ht]
  rw [e]; exact this

/-- The run exists. -/
theorem endless : Endless K (fun _ _ => 4) σ e who where
  start := rfl
  step i := by
    match i with
    | 0 => exact .inv (init _) 0 op rfl
    | 1 =>
      have := StepOf.act (K := K) (t := 1) (σ 1) (.start 0 op) _ _ _ rfl (.goAcq rfl rfl rfl)
      have e : at_ 0 = { mem := (σ 1).mem, held := (σ 1).held, th := Function.update (σ 1).th 1 (some (.acq 0 op)) } := by
        simp only [at_, σ, init, State.mk.injEq, true_and]
        refine ⟨by funext t; simp, ?_⟩
        funext t
        by_cases ht : t = 1
        · subst ht; simp
        · simp [ht]
      show StepOf K 1 (σ 1) none (at_ 0)
      rw [e]; exact this
    | i + 2 =>
      show StepOf K 0 (at_ i) none (at_ (i + 1))
      rcases Nat.mod_two_eq_zero_or_one i with h | h
      · exact even_step i h
      · exact odd_step i h

/-- It is fair: context 1 cannot go on at odd moments. -/
theorem fair : FairOps K σ who := by
  intro i t h
  exfalso
  obtain ⟨h1, e0, s', st⟩ := h (i + i % 2 + 3) (by omega)
  have hm : (i + i % 2 + 1) % 2 = 1 := by omega
  have ht : t = 1 := by
    by_contra ht
    exact h1 (by simp [σ, at_, ht])
  subst ht
  have hs : σ (i + i % 2 + 3) = at_ (i + i % 2 + 1) := rfl
  rw [hs] at st h1
  generalize hg : at_ (i + i % 2 + 1) = s0 at st
  have hth : s0.th 1 = some (.acq 0 op) := by rw [← hg]; simp [at_]
  have hfree : ¬ s0.free 1 := by
    intro hf
    have := hf 0 (by decide)
    rw [← hg] at this
    simp [at_, hm] at this
  cases st with
  | enter h hf => rw [hth] at h; cases h
  | leave h => rw [hth] at h; cases h
  | inv o op h => rw [hth] at h; cases h
  | ret r h => rw [hth] at h; cases h
  | act pc m' held' pc' h ha =>
    rw [hth] at h
    cases h
    generalize hpc : (Pc.acq 0 op : Pc 1 Nat) = pc0 at ha
    cases ha with
    | acqRd hf _ => exact hfree hf
    | acqWr hf => exact hfree hf
    | _ => cases hpc

/-- User code leaves its critical sections. -/
theorem ends : SectionsEnd σ := by
  intro i t _
  refine ⟨2 * i + 2, by omega, .inl ?_⟩
  show (at_ (2 * i)).held t = 0
  simp [at_]

/-- The call never returns: context 0 enters and leaves its critical section for ever. -/
theorem starves : (σ 1).th 1 ≠ none ∧ ¬ ReturnsAt e 1 1 := by
  refine ⟨by simp [σ], ?_⟩
  rintro ⟨j, hj, r, h⟩
  match j with
  | 0 => omega
  | j + 1 => cases h

example : ∀ N, ∃ j, N ≤ j ∧ ∃ u, u ≠ 1 ∧ Enters σ u j :=
  (cs_returns_or_overtaken endless fair ends starves.1).resolve_left starves.2

end Starve

end Verif.Cs
