import Verif.Fallback.Inv
/-!
# The fallback simulates the specification (proof internals)
-/
namespace Verif
namespace Fallback
set_option linter.unusedSectionVars false
variable {V : Type} [DecidableEq V]

namespace Cfg
variable {c : Cfg V}

theorem owns_update {s : State V c.W} {owner : Nat → Option Tid} {t : Tid} {pc' : Pc V c.W}
    (own : ∀ t l, c.owns (s.pc t) = some l ↔ owner l = some t)
    (h : c.owns pc' = c.owns (s.pc t)) :
    ∀ u l, c.owns (Function.update s.pc t pc' u) = some l ↔ owner l = some u := by
  intro u l
  by_cases hu : u = t
  · subst hu; rw [Function.update_self, h]; exact own _ _
  · rw [Function.update_of_ne hu]; exact own _ _

/-- Thread `t` moves while the set of lock owners stays the same. -/
theorem Rel.keep {s : State V c.W} {a : Revisable.State V} {owner : Nat → Option Tid}
    (R : c.Rel s a owner) (t : Tid) (pc' : Pc V c.W) (mem' : Loc → BitVec c.W)
    (x : Revisable.Th V)
    (hh : c.holds pc' = c.holds (s.pc t))
    (hd : c.dirty (s.pc t) → c.dirty pc')
    (hlo : ∀ l, mem' (.lo l) = s.mem (.lo l))
    (hhi : ∀ l, c.owns pc' = some l → c.hc (s.pc t) (s.ver l) ≤ c.hc pc' (s.ver l) ∧
      (c.wide = true → mem' (.hi l) = BitVec.ofNat c.W (c.hc pc' (s.ver l))))
    (hhi' : ∀ l, c.owns pc' ≠ some l → mem' (.hi l) = s.mem (.hi l))
    (hmem : ∀ o i, i < c.n o → c.owns pc' = some (c.lockOf o) →
      mem' (.chunk o i) = c.memAt pc' o i (a.cell o))
    (hmem' : ∀ o i, i < c.n o → c.owns pc' ≠ some (c.lockOf o) →
      mem' (.chunk o i) = s.mem (.chunk o i))
    (hTR : c.TR s.ver a.cell
      (c.H { s with mem := mem', pc := Function.update s.pc t pc' } owner)
      (c.D { s with mem := mem', pc := Function.update s.pc t pc' } owner) (s.start t) pc' x) :
    c.Rel { s with mem := mem', pc := Function.update s.pc t pc' }
      { a with th := Function.update a.th t x } owner := by
  have ho : c.owns pc' = c.owns (s.pc t) := by unfold owns; rw [hh]
  have own' := owns_update (pc' := pc') R.own ho
  have ownt : ∀ l, owner l = some t ↔ c.owns pc' = some l := by
    intro l; rw [ho]; exact (R.own t l).symm
  have Hne : ∀ l, owner l ≠ some t →
      c.H { s with mem := mem', pc := Function.update s.pc t pc' } owner l = c.H s owner l := by
    intro l hl
    unfold H
    cases h : owner l with
    | none => rfl
    | some u =>
      have : u ≠ t := fun e => hl (by rw [h, e])
      simp [Function.update_of_ne this]
  have Heq : ∀ l, owner l = some t →
      c.H { s with mem := mem', pc := Function.update s.pc t pc' } owner l = c.hc pc' (s.ver l) := by
    intro l hl; unfold H; simp [hl]
  have Hold : ∀ l, owner l = some t → c.H s owner l = c.hc (s.pc t) (s.ver l) := by
    intro l hl; unfold H; simp [hl]
  refine ⟨own', ?_, ?_, ?_, ?_, ?_, ?_, R.fit⟩
  · intro l hl; simp only [hlo]; exact R.free l hl
  · intro l u hl; simp only [hlo]; exact R.held l u hl
  · intro u k p hu
    by_cases h : u = t
    · subst h; simp only [Function.update_self] at hu; rw [hh] at hu; exact R.prev _ _ _ hu
    · simp only [Function.update_of_ne h] at hu; exact R.prev _ _ _ hu
  · intro hw l
    by_cases h : owner l = some t
    · rw [Heq l h]; exact (hhi l ((ownt l).1 h)).2 hw
    · rw [Hne l h]; simp only; rw [hhi' l (fun e => h ((ownt l).2 e))]; exact R.hi hw l
  · intro o i hi
    by_cases h : owner (c.lockOf o) = some t
    · simp only [h, Function.update_self]; exact hmem o i hi ((ownt _).1 h)
    · simp only
      rw [hmem' o i hi (fun e => h ((ownt _).2 e)), R.mem o i hi]
      cases h2 : owner (c.lockOf o) with
      | none => rfl
      | some u =>
        have : u ≠ t := fun e => h (by rw [h2, e])
        simp [Function.update_of_ne this]
  · intro u
    by_cases hu : u = t
    · subst hu; simp only [Function.update_self]; exact hTR
    · simp only [Function.update_of_ne hu]
      refine (R.th u).frame c (fun _ => le_refl _) ?_ ?_ (fun _ _ => rfl) ?_
      · intro l
        by_cases h : owner l = some t
        · rw [Heq l h, Hold l h]; exact (hhi l ((ownt l).1 h)).1
        · rw [Hne l h]
      · rintro l - ⟨v, h1, h2⟩
        refine ⟨v, h1, ?_⟩
        by_cases hv : v = t
        · subst hv; simp only [Function.update_self]; exact hd h2
        · simp only [Function.update_of_ne hv]; exact h2
      · intro l hl
        refine ⟨rfl, Hne l ?_⟩
        rw [(R.own u l).1 hl]; intro e; exact hu (Option.some.inj e)

/-- A non-owner moves without writing. -/
theorem Rel.keepN {s : State V c.W} {a : Revisable.State V} {owner : Nat → Option Tid}
    (R : c.Rel s a owner) (t : Tid) (pc' : Pc V c.W) (x : Revisable.Th V)
    (h1 : c.holds pc' = none) (h2 : c.holds (s.pc t) = none)
    (hTR : c.TR s.ver a.cell (c.H s owner) (c.D s owner) (s.start t) pc' x) :
    c.Rel { s with pc := Function.update s.pc t pc' }
      { a with th := Function.update a.th t x } owner := by
  have ho : ∀ l, c.owns pc' ≠ some l := by intro l; simp [owns, h1]
  have ho2 : ∀ l, owner l ≠ some t := by
    intro l e; have := (R.own t l).2 e; simp [owns, h2] at this
  have hndirty : ¬ c.dirty (s.pc t) := by
    intro hd; cases hp : s.pc t <;> rw [hp] at h2 hd <;> simp [holds, dirty] at h2 hd
  refine R.keep t pc' s.mem x (by rw [h1, h2]) (fun h => absurd h hndirty) (fun _ => rfl)
    (fun l e => absurd e (ho l)) (fun _ _ => rfl) (fun o i _ e => absurd e (ho _))
    (fun _ _ _ _ => rfl) ?_
  have eH : c.H { s with mem := s.mem, pc := Function.update s.pc t pc' } owner = c.H s owner := by
    funext l; unfold H
    cases h : owner l with
    | none => rfl
    | some u =>
      have : u ≠ t := fun e => ho2 l (by rw [h, e])
      simp [Function.update_of_ne this]
  have eD : c.D { s with mem := s.mem, pc := Function.update s.pc t pc' } owner = c.D s owner := by
    funext l; unfold D
    apply propext; apply exists_congr; intro u
    apply and_congr_right; intro h
    have : u ≠ t := fun e => ho2 l (by rw [h, e])
    simp [Function.update_of_ne this]
  rw [eH, eD]; exact hTR

/-- An owner moves without writing (and without becoming clean). -/
theorem Rel.keepO {s : State V c.W} {a : Revisable.State V} {owner : Nat → Option Tid}
    (R : c.Rel s a owner) (t : Tid) (pc' : Pc V c.W) (x : Revisable.Th V)
    (hh : c.holds pc' = c.holds (s.pc t))
    (hd : c.dirty (s.pc t) → c.dirty pc')
    (hhc : ∀ l, c.owns pc' = some l → c.hc pc' (s.ver l) = c.hc (s.pc t) (s.ver l))
    (hmem : ∀ o i, i < c.n o → c.owns pc' = some (c.lockOf o) →
      c.memAt pc' o i (a.cell o) = c.memAt (s.pc t) o i (a.cell o))
    (hTR : ∀ H D, (∀ l, c.owns pc' = some l → H l = c.hc pc' (s.ver l)) →
      c.TR s.ver a.cell H D (s.start t) pc' x) :
    c.Rel { s with pc := Function.update s.pc t pc' }
      { a with th := Function.update a.th t x } owner := by
  have ho : c.owns pc' = c.owns (s.pc t) := by unfold owns; rw [hh]
  refine R.keep t pc' s.mem x hh hd (fun _ => rfl) ?_ (fun _ _ => rfl) ?_
    (fun _ _ _ _ => rfl) ?_
  · intro l hl
    refine ⟨by rw [hhc l hl], fun hw => ?_⟩
    rw [hhc l hl, R.hi hw]; unfold H; rw [(R.own t l).1 (by rw [← ho]; exact hl)]
  · intro o i hi hl
    rw [hmem o i hi hl, R.mem o i hi, (R.own t _).1 (by rw [← ho]; exact hl)]
  · apply hTR
    intro l hl
    unfold H; rw [(R.own t l).1 (by rw [← ho]; exact hl)]; simp

theorem Pend.mk {k : Call V} {x : Revisable.Th V} (h : Pend k x) :
    ∃ cand, x = .pending k.obj k.op cand := h.2

/-- The result a load is ready to return: its object and the value. -/
def final : Revisable.Th V → Option (Obj × V)
  | .pending o (.load _) (some (.val v)) => some (o, v)
  | _ => none

/-- What one step does to loads in progress: they stay in progress until they return, and when a
load settles on a value, that value is what memory holds at this very moment. -/
def Fresh (c : Cfg V) (a : Revisable.State V) (e : Option (Ev V)) (a' : Revisable.State V)
    (s' : State V c.W) : Prop :=
  (∀ u o v, final (a'.th u) = some (o, v) → final (a.th u) = some (o, v) ∨
    ∀ i, i < c.n o → s'.mem (.chunk o i) = c.split o v i) ∧
  (∀ u o ord x, a.th u = .pending o (.load ord) x →
    (∃ x', a'.th u = .pending o (.load ord) x') ∨ ∃ r, e = some (.ret u r))

/-- One step of the fallback is matched by at most one step of the specification. -/
def Matched (c : Cfg V) (a : Revisable.State V) (e : Option (Ev V)) (s' : State V c.W) : Prop :=
  ∃ a' owner', Exec Revisable.Step a e.toList a' ∧ c.Rel s' a' owner' ∧ Fresh c a e a' s'

theorem Fresh.refl (a : Revisable.State V) (e : Option (Ev V)) (s' : State V c.W) :
    Fresh c a e a s' := ⟨fun _ _ _ h => Or.inl h, fun _ _ _ x h => Or.inl ⟨x, h⟩⟩

theorem a_same (a : Revisable.State V) (t : Tid) :
    ({ a with th := Function.update a.th t (a.th t) } : Revisable.State V) = a := by
  simp

/-- Helper: a move matched by no specification step. -/
theorem matched_refl {s' : State V c.W} {a : Revisable.State V} {owner : Nat → Option Tid}
    (t : Tid) (h : c.Rel s' { a with th := Function.update a.th t (a.th t) } owner) :
    Matched c a none s' := ⟨a, owner, .refl _, by rw [a_same] at h; exact h, Fresh.refl _ _ _⟩

theorem holds_enter (k : Call V) : c.holds (c.enter k) = none := by
  unfold enter; split <;> (try split) <;> rfl

theorem holds_start (k : Call V) : c.holds (c.start k) = none := by
  unfold start; split
  · rfl
  · split
    · rfl
    · exact holds_enter k

theorem holds_finish (k : Call V) (r : Res V) : c.holds (c.finish k r) = none := by
  unfold finish; split <;> rfl

theorem TR_finish {ver cell H D st} (k : Call V) (r : Res V) {x : Revisable.Th V}
    (h : x = .done r ∨ ∃ o op, x = .pending o op (some r)) :
    c.TR ver cell H D st (c.finish k r) x := by
  unfold finish; split <;> exact h

theorem checks_ordOk (op : Op V) : (checks op = .ok) ↔ op.ordOk = true := by
  cases op with
  | load o => cases o <;> simp [checks, MemOrd.assertLoad, Op.ordOk]
  | store v o => cases o <;> simp [checks, MemOrd.assertStore, Op.ordOk]
  | swap v o => simp [checks, Op.ordOk]
  | cas a b s f => cases f <;> simp [checks, MemOrd.assertCas, Op.ordOk]
  | rmw f o => simp [checks, Op.ordOk]

theorem TR_enter {ver cell H D st} {k : Call V} {x : Revisable.Th V} (hp : Pend k x)
    (h1 : st ≤ ver (c.lockOf k.obj)) (h2 : st / c.B ≤ H (c.lockOf k.obj)) :
    c.TR ver cell H D st (c.enter k) x := by
  unfold enter
  split
  · rename_i o ho
    split
    · exact ⟨hp, ⟨o, ho⟩, h1, h2⟩
    · rename_i hw
      exact ⟨hp, ⟨o, ho⟩, h1, fun h => absurd h hw⟩
  · exact hp

end Cfg
end Fallback
end Verif
