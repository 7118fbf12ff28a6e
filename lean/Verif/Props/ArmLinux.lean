import Verif.Spec.ArmLinux
import Verif.Arm.Barrier
import Verif.Lf.Run
import Verif.Props.Kuser
/-!
# Narrow atomics and fences on Arm Linux before v6 (C48)
-/
set_option autoImplicit false
namespace Verif.ArmLinux
open Verif.Lf Verif.Object
open Verif.Arm (IsAcquire IsRelease KeptInOrder Acquiring Releasing)

variable {V : Type} [DecidableEq V]

theorem prog_pending (up : Bool) (c : Call V) : (prog up c).Pending id (spec.sem c) := by
  cases c with
  | load o =>
    cases o
    case release | acqRel => intro x; simp [spec, Op.onCell, Op.ordOk]
    all_goals
      intro x x' v h
      refine ⟨v, ?_, rfl⟩
      simpa [spec, Acc.sem, Op.onCell, Op.ordOk] using h
  | store w o =>
    cases o
    case acquire | acqRel => intro x; simp [spec, Op.onCell, Op.ordOk]
    all_goals
      intro x x' v h
      refine ⟨v, ?_, rfl⟩
      simpa [spec, Acc.sem, Op.onCell, Op.ordOk] using h
  | cas weak old new s f =>
    have key : ∀ (s' : MemOrd) (x x' : V) (v : Res V), f ≠ .release → f ≠ .acqRel →
        (if weak then Acc.casWeak old new s' f else .op (.cas old new s' f)).sem x x' v →
        spec.sem (.cas weak old new s f) x x' v := by
      intro s' x x' v h1 h2 h
      have hk : ∀ s'', (Op.cas old new s'' f).ordOk = true := by
        intro s''; cases f <;> simp_all [Op.ordOk]
      cases weak
      · simpa [spec, Acc.sem, Op.onCell, hk] using h
      · simpa [spec, Acc.sem, Op.onCell, hk] using h
    cases f
    case release | acqRel =>
      intro x
      cases weak <;> simp [spec, Op.onCell, Op.ordOk]
    all_goals
      intro x x' v h
      refine ⟨v, key _ x x' v (by simp) (by simp) h, ?_⟩
      dsimp only [id]
      split <;> rfl
  | swap v o =>
    intro x x' v h
    exact ⟨v, h, rfl⟩
  | rmw f o =>
    intro x x' v h
    exact ⟨v, h, rfl⟩

/-- **C48c.** Every concurrent history of narrow operations is linearizable with respect to a plain
integer, whatever the orderings; operations called with an ordering they do not allow panic and leave the
object alone. (Adding barriers has not duplicated or dropped an access or changed a result.) -/
theorem armLinux_linearizable (up : Bool) {K : Type} [DecidableEq K] (m : K → V)
    (h : List (Object.Ev (K × Call V) (Res V))) (s) (hx : Runs ((code up).sys K) m h s) :
    LinearizableTo (spec.many (K := K)) m h s.mem :=
  Stmt.linearizable (prog_pending up) hx

theorem NoWrite.isWr {t : List Ev} (h : NoWrite t) : ∀ e ∈ t, e.isWr = false := by
  intro e he
  rcases h e he with rfl | rfl <;> rfl

theorem read_in (u v : List Ev) : ∃ (i : Nat) (a : Arm.Acq) (m : Bool), (u ++ .rd .plain false :: v)[i]? = some (Arm.Ev.rd a m) :=
  ⟨u.length, .plain, false, by simp⟩

/-- What the events of a call are. -/
inductive Shape : Call V → List Ev → Res V → Prop where
  | panic {c} : Shape c [] .panic
  | load {o x b} (h : b = [] ∧ o = .relaxed ∨ b = [.full]) : Shape (.load o) (.rd .plain false :: b) (.val x)
  | store {v o a b} (h1 : a = [] ∧ o = .relaxed ∨ a = [.full]) (h2 : b = [] ∧ o ≠ .seqCst ∨ b = [.full]) :
      Shape (.store v o) (a ++ .wr false false :: b) .unit
  | ok {w old new s f u x} (hu : NoWrite u) : Shape (.cas w old new s f) (u ++ changed) (.ok x)
  | err {w old new s f u b x} (hu : NoWrite u) (h : b = [] ∧ f = .relaxed ∨ b = [.full]) :
      Shape (.cas w old new s f) (u ++ .rd .plain false :: b) (.err x)
  | swap {v o u r} (hu : NoWrite u) : Shape (.swap v o) (u ++ changed) r
  | rmw {g o u r} (hu : NoWrite u) : Shape (.rmw g o) (u ++ changed) r

theorem shape {up : Bool} {c : Call V} {t : List Ev} {r : Res V} (h : c.Events up t r) : Shape c t r := by
  cases c with
  | load o =>
    cases o
    all_goals
      simp only [Call.Events, prog, load, MemOrd.assertLoad] at h
    case release | acqRel => cases h; exact .panic
    all_goals
      cases h with
      | acc hs he h =>
        simp only [InnerEvents] at he
        subst he
        simp [Acc.sem, Op.onCell, Op.ordOk] at hs
        obtain ⟨rfl, rfl⟩ := hs
        first
        | (cases h; exact .load (Or.inl ⟨rfl, rfl⟩))
        | (cases h with | fence h => cases h; exact .load (Or.inr rfl))
  | store v o =>
    cases o
    all_goals
      simp only [Call.Events, prog, store, MemOrd.assertStore] at h
    case acquire | acqRel => cases h; exact .panic
    case relaxed =>
      cases h with
      | acc hs he h =>
        simp only [InnerEvents] at he
        subst he
        simp [Acc.sem, Op.onCell, Op.ordOk] at hs
        obtain ⟨rfl, rfl⟩ := hs
        cases h
        exact .store (a := []) (Or.inl ⟨rfl, rfl⟩) (Or.inl ⟨rfl, by simp⟩)
    all_goals
      cases h with
      | fence h => cases h with
        | acc hs he h =>
          simp only [InnerEvents] at he
          subst he
          simp [Acc.sem, Op.onCell, Op.ordOk] at hs
          obtain ⟨rfl, rfl⟩ := hs
          first
          | (cases h; exact .store (a := [.full]) (Or.inr rfl) (Or.inl ⟨rfl, by simp⟩))
          | (cases h with | fence h => cases h; exact .store (a := [.full]) (Or.inr rfl) (Or.inr rfl))
  | cas weak old new s f =>
    simp only [Call.Events, prog, cas] at h
    cases hf : MemOrd.assertCas s f with
    | panic => rw [hf] at h; cases h; exact .panic
    | ok =>
      rw [hf] at h
      cases h with
      | acc hs he h =>
        rename_i x x' v e t
        have hv : (∃ y, v = .ok y) ∨ ∃ y, v = .err y := by
          have hk : ∀ s'', (Op.cas old new s'' f).ordOk = true := by
            intro s''; cases f <;> simp_all [Op.ordOk, MemOrd.assertCas]
          cases weak
          · simp only [Bool.false_eq_true, if_false, id, Acc.sem, Op.onCell, hk, if_true] at hs
            split at hs
            · simp only [Prod.mk.injEq] at hs; exact Or.inl ⟨_, hs.2⟩
            · simp only [Prod.mk.injEq] at hs; exact Or.inr ⟨_, hs.2⟩
          · simp only [id, Acc.sem, Op.onCell, hk, if_true] at hs
            rcases hs with hs | hs
            · split at hs
              · simp only [Prod.mk.injEq] at hs; exact Or.inl ⟨_, hs.2⟩
              · simp only [Prod.mk.injEq] at hs; exact Or.inr ⟨_, hs.2⟩
            · exact Or.inr ⟨_, hs.2.2⟩
        rcases hv with ⟨y, rfl⟩ | ⟨y, rfl⟩
        · have he' : ∃ u, NoWrite u ∧ e = u ++ changed := by
            cases weak <;> simpa [InnerEvents] using he
          obtain ⟨u, hu, rfl⟩ := he'
          simp only [isErr, Bool.false_eq_true, and_false, if_false] at h
          cases h
          rw [List.append_nil]
          exact .ok hu
        · have he' : ∃ u, NoWrite u ∧ e = u ++ [.rd .plain false] := by
            cases weak <;> simpa [InnerEvents] using he
          obtain ⟨u, hu, rfl⟩ := he'
          by_cases hr : f = .relaxed
          · subst hr
            simp only [ne_eq, not_true_eq_false, false_and, if_false] at h
            cases h
            rw [List.append_nil]
            exact .err hu (Or.inl ⟨rfl, rfl⟩)
          · simp only [isErr, ne_eq, hr, not_false_eq_true, and_self, if_true] at h
            cases h with
            | fence h =>
              cases h
              rw [List.append_assoc]
              exact .err hu (Or.inr rfl)
  | swap v o =>
    cases h with
    | acc hs he h =>
      obtain ⟨u, hu, rfl⟩ := he
      cases h
      rw [List.append_nil]
      exact .swap hu
  | rmw g o =>
    cases h with
    | acc hs he h =>
      obtain ⟨u, hu, rfl⟩ := he
      cases h
      rw [List.append_nil]
      exact .rmw hu

theorem fenced_changed (u : List Ev) (i : Nat) (h : Arm.Mem (u ++ changed) i) : Arm.Fenced (u ++ changed) i := by
  have e : u ++ changed = (u ++ [.full, .rd .plain false, .wr false false]) ++ [.full] := by simp [changed]
  rw [e] at h ⊢
  exact Arm.fenced_last i h

theorem read_changed (u : List Ev) : ∃ (i : Nat) (a : Arm.Acq) (m : Bool), (u ++ changed)[i]? = some (Arm.Ev.rd a m) := by
  have e : u ++ changed = (u ++ [.full]) ++ .rd .plain false :: [.wr false false, .full] := by simp [changed]
  rw [e]; exact read_in _ _

theorem fenced_read (u : List Ev) (i : Nat) (h : Arm.Mem (u ++ .rd .plain false :: [.full]) i) :
    Arm.Fenced (u ++ .rd .plain false :: [.full]) i := by
  have e : u ++ .rd .plain false :: [.full] = (u ++ [.rd .plain false]) ++ [Arm.Ev.full] := by simp
  rw [e] at h ⊢
  exact Arm.fenced_last i h

/-- **C48d.** An operation whose ordering asks for acquire, on the outcome it had, is an acquire operation:
its last read is ordered before everything after it. That includes compare-exchanges that fail, for which
the inner operation alone does not suffice (`inner_failure_not_acquire`). -/
theorem armLinux_acquire (up : Bool) (c : Call V) (t : List Ev) (r : Res V) (h : c.Events up t r) (hp : r ≠ .panic)
    (ha : c.AsksAcquire r) : IsAcquire t := by
  have hs := shape h
  clear h
  cases hs with
  | panic => exact absurd rfl hp
  | load h =>
    rcases h with ⟨-, rfl⟩ | rfl
    · rcases ha with h | h | h <;> cases h
    · exact Arm.acquire_of_full (read_in [] _) (fenced_read [])
  | store => exact absurd ha id
  | ok hu => exact Arm.acquire_of_full (read_changed _) (fenced_changed _)
  | err hu h =>
    rcases h with ⟨-, rfl⟩ | rfl
    · rcases ha with ⟨-, y, h⟩ | ⟨h | h | h, -⟩ <;> cases h
    · exact Arm.acquire_of_full (read_in _ _) (fenced_read _)
  | swap hu => exact Arm.acquire_of_full (read_changed _) (fenced_changed _)
  | rmw hu => exact Arm.acquire_of_full (read_changed _) (fenced_changed _)

/-- **C48e.** One whose ordering asks for release is a release operation: everything before it is ordered
before its writes. -/
theorem armLinux_release (up : Bool) (c : Call V) (t : List Ev) (r : Res V) (h : c.Events up t r)
    (ha : c.AsksRelease) : IsRelease t := by
  have hs := shape h
  clear h
  cases hs with
  | panic => intro pre post i j ⟨r, m, hj⟩; simp at hj
  | load h => exact absurd ha id
  | store h1 h2 =>
    rcases h1 with ⟨-, rfl⟩ | rfl
    · rcases ha with h | h | h <;> cases h
    · exact Arm.release_after (a := []) (by simp)
  | ok hu => exact Arm.release_after hu.isWr
  | err hu h =>
    refine Arm.isRelease ?_
    rintro i ⟨r, m, hi⟩
    exfalso
    have hmem := List.mem_of_getElem? hi
    simp only [List.mem_append, List.mem_cons] at hmem
    rcases hmem with hm | hm | hm
    · have := hu.isWr _ hm
      simp [Arm.Ev.isWr] at this
    · cases hm
    · rcases h with ⟨rfl, -⟩ | rfl <;> simp at hm
  | swap hu => exact Arm.release_after hu.isWr
  | rmw hu => exact Arm.release_after hu.isWr

/-- **C48f.** A sequentially consistent operation is kept in order with every later operation of the thread
(so with every later sequentially consistent one), a store followed by a load included. -/
theorem armLinux_seqCst (up : Bool) (c : Call V) (t u : List Ev) (r : Res V) (h : c.Events up t r)
    (hp : r ≠ .panic) (ha : c.AsksSeqCst r) : KeptInOrder t u := by
  have hs := shape h
  clear h
  refine Arm.kept_of_full ?_
  cases hs with
  | panic => exact absurd rfl hp
  | load h =>
    rcases h with ⟨-, rfl⟩ | rfl
    · cases ha
    · exact fenced_read []
  | @store v o a b h1 h2 =>
    rcases h2 with ⟨-, h⟩ | rfl
    · exact absurd ha h
    · intro i hm
      have e : a ++ .wr false false :: [.full] = (a ++ [.wr false false]) ++ [Arm.Ev.full] := by simp
      rw [e] at hm ⊢
      exact Arm.fenced_last i hm
  | ok hu => exact fenced_changed _
  | err hu h =>
    rcases h with ⟨-, rfl⟩ | rfl
    · rcases ha with ⟨-, y, h⟩ | ⟨h, -⟩ <;> cases h
    · exact fenced_read _
  | swap hu => exact fenced_changed _
  | rmw hu => exact fenced_changed _

/-- **C48g.** The same across modules: a sequentially consistent narrow operation and a 64-bit one are
kept in order either way round. -/
theorem armLinux_mixed (up : Bool) (c : Call V) (t : List Ev) (r : Res V) (h : c.Events up t r)
    (hp : r ≠ .panic) (ha : c.AsksSeqCst r) {E : Kuser.Env} (hE : E.Ok) (hk : E.hasKuser = true) (d : Kuser.Call)
    (u : List Ev) (r' : Res (BitVec 64)) (hd : d.Events E u r') : KeptInOrder t u ∧ KeptInOrder u t :=
  ⟨armLinux_seqCst up c t u r h hp ha, Kuser.kuser_seqCst hE hk d u t r' hd⟩

/-- **C48h.** Without this module's barrier a failing compare-exchange would not be an acquire operation. -/
theorem inner_failure_not_acquire : ¬ IsAcquire [Arm.Ev.rd .plain false] := by
  rintro ⟨-, h⟩
  have hr : Arm.LastRead [Arm.Ev.rd .plain false] 0 := by
    refine ⟨⟨.plain, false, rfl⟩, ?_⟩
    intro j a m hj
    match j, hj with
    | 0, _ => exact Nat.le_refl _
  have := h [] [.rd .plain false] 0 1 hr (by simp) ⟨.rd .plain false, rfl, Or.inl rfl⟩
  have key : ∀ i j, ¬ Arm.Bob [Arm.Ev.rd .plain false, .rd .plain false] i j := by
    have hall : ∀ (i : Nat) (e : Arm.Ev), [Arm.Ev.rd .plain false, .rd .plain false][i]? = some e → e = .rd .plain false := by
      intro i e h
      have := List.mem_of_getElem? h
      simp at this
      exact this
    intro i j hb
    cases hb with
    | full _ _ _ _ h => cases hall _ _ h
    | ld _ _ _ _ h => cases hall _ _ h
    | acq h ha => have := hall _ _ h; simp only [Arm.Ev.rd.injEq] at this; exact ha this.1
    | rel _ h => cases hall _ _ h
    | relAcq h => cases hall _ _ h
    | amo _ _ _ _ h => cases hall _ _ h
  have key' : ∀ i j, ¬ Arm.Ordered [Arm.Ev.rd .plain false, .rd .plain false] i j := by
    intro i j ho
    induction ho with
    | one h => exact key _ _ h
    | trans _ _ ih => exact ih
  exact key' _ _ this

/-- **C50 (this target).** `fence` panics exactly for `Relaxed`; otherwise everything the thread did before is
ordered before everything it does after. -/
theorem armLinux_fence (o : MemOrd) : (fence o = none ↔ o = .relaxed) ∧
    ∀ t, fence o = some t → ∀ pre post i j, i < pre.length → pre.length + t.length ≤ j →
      Arm.Mem (pre ++ t ++ post) i → Arm.Mem (pre ++ t ++ post) j → Arm.Ordered (pre ++ t ++ post) i j := by
  constructor
  · cases o <;> simp [fence]
  · intro t ht pre post i j hi hj hmi hmj
    have : t = [.full] := by cases o <;> simp [fence] at ht <;> exact ht.symm
    subst this
    simp only [List.length_cons, List.length_nil] at hj
    exact .one (.full hmi hmj (k := pre.length) (by omega) (by omega) (by simp))

/-! ## Concrete cases -/

/-- A failing `SeqCst` compare-exchange, whose runtime loop went round once. -/
example : (Call.cas false (5 : Nat) 6 .seqCst .seqCst).Events false
    [.rd .plain false, .full, .rd .plain false, .full, .rd .plain false, .full] (.err 7) := by
  show Stmt.Events id barrierEvents InnerEvents (prog false (.cas false (5 : Nat) 6 .seqCst .seqCst))
    ([.rd .plain false, .full, .rd .plain false, .full, .rd .plain false] ++ ([.full] ++ [])) _
  refine .acc (x := 7) (x' := 7) (v := .err 7) (by simp [Acc.sem, Op.onCell, Op.ordOk])
    ⟨[.rd .plain false, .full, .rd .plain false, .full], by simp [NoWrite], rfl⟩ ?_
  exact .fence (f := Barrier.barrier) (.ret _)

/-- A `SeqCst` store. -/
example : (Call.store (5 : Nat) .seqCst).Events true [.full, .wr false false, .full] .unit := by
  show Stmt.Events id barrierEvents InnerEvents (prog true (.store (5 : Nat) .seqCst))
    ([.full] ++ ([.wr false false] ++ ([.full] ++ []))) _
  exact .fence (.acc (x := 3) (x' := 5) (v := .unit) (by simp [Acc.sem, Op.onCell, Op.ordOk]) rfl (.fence (f := Barrier.barrier) (.ret _)))

/-- A run: thread 0 stores, thread 1's compare-exchange fails, a bad ordering panics. -/
example : ((code (V := Nat) true).outcome
    [.call 0 () (.store 5 .seqCst), .go 0, .call 1 () (.cas true 4 9 .release .acquire), .go 0, .go 1, .go 1, .ret 1,
     .go 0, .ret 0, .call 0 () (.load .release), .go 0, .ret 0] (fun _ => 3) ()) =
    some ([(1, .err 5), (0, .unit), (0, .panic)], 5) := by
  decide +kernel

end Verif.ArmLinux
