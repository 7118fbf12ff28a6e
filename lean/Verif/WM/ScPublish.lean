import Mathlib.Tactic.Order
import Mathlib.Data.Finset.Max
import Mathlib.Data.Finset.Range
import Mathlib.Data.Finset.Filter
import Mathlib.Data.Finset.Card
import Verif.WM.NativeFacts
import Verif.Spec.ScOrder
/-!
# Advancing the published view

Part of the proof that sequentially consistent operations are linearizable.  In that proof an operation
takes effect, in the specification, when the global view of the sequentially consistent fences passes
the place in modification order of the write it makes or reads.  Here: when that view advances from
`S` to `S'`, the operations whose places it passes can be committed one after the other.
-/
set_option autoImplicit false
set_option linter.unusedSectionVars false
namespace Verif.WM.Sc
open Verif.WM.Native (Loc)
variable {V : Type}

abbrev Ms (V : Type) := List (Msg Loc V)

/-- The initial write. -/
def m0 (v : V) : Msg Loc V := ⟨0, 0, v, ⊥⟩

/-- A well-formed list of writes: disjoint places, none empty but the initial one. -/
structure Wf (v : V) (L : Ms V) : Prop where
  sep : ∀ m ∈ L, ∀ m' ∈ L, m = m' ∨ m.ts ≤ m'.frm ∨ m'.ts ≤ m.frm
  pos : ∀ m ∈ L, m.frm < m.ts ∨ m = m0 v
  ini : m0 v ∈ L

theorem Wf.frm_le {v : V} {L : Ms V} (w : Wf v L) {m : Msg Loc V} (hm : m ∈ L) : m.frm ≤ m.ts := by
  rcases w.pos m hm with h | h
  · exact h.le
  · subst h; exact le_rfl

theorem Wf.eq {v : V} {L : Ms V} (w : Wf v L) {m m' : Msg Loc V} (hm : m ∈ L) (hm' : m' ∈ L)
    (e : m.ts = m'.ts) : m = m' := by
  rcases w.sep m hm m' hm' with h | h | h
  · exact h
  · rcases w.pos m' hm' with k | k
    · exact absurd (h.trans_lt k) (by rw [e]; exact lt_irrefl _)
    · rcases w.pos m hm with k2 | k2
      · have : m.ts = 0 := by rw [e, k]; rfl
        rw [this] at k2; exact absurd k2 (by simp)
      · rw [k, k2]
  · rcases w.pos m hm with k | k
    · exact absurd (h.trans_lt k) (by rw [e]; exact lt_irrefl _)
    · rcases w.pos m' hm' with k2 | k2
      · have : m'.ts = 0 := by rw [← e, k]; rfl
        rw [this] at k2; exact absurd k2 (by simp)
      · rw [k, k2]

/-- `m` is the last write at or before `τ`. -/
def Last (L : Ms V) (τ : Ts) (m : Msg Loc V) : Prop := m ∈ L ∧ m.ts ≤ τ ∧ ∀ m' ∈ L, m'.ts ≤ τ → m'.ts ≤ m.ts

theorem Last.eq {v : V} {L : Ms V} (w : Wf v L) {τ : Ts} {m m' : Msg Loc V} (h : Last L τ m)
    (h' : Last L τ m') : m = m' :=
  w.eq h.1 h'.1 (le_antisymm (h'.2.2 m h.1 h.2.1) (h.2.2 m' h'.1 h'.2.1))

theorem exists_last {v : V} {L : Ms V} (w : Wf v L) (τ : Ts) : ∃ m, Last L τ m := by
  classical
  have : ∀ K : Ms V, (∃ m ∈ K, m.ts ≤ τ) → ∃ m, Last K τ m := by
    intro K
    induction K with
    | nil => rintro ⟨m, hm, -⟩; cases hm
    | cons a K ih =>
      intro hx
      by_cases hK : ∃ m ∈ K, m.ts ≤ τ
      · obtain ⟨m, h1, h2, h3⟩ := ih hK
        by_cases ha : a.ts ≤ τ ∧ m.ts ≤ a.ts
        · refine ⟨a, List.mem_cons_self, ha.1, ?_⟩
          intro m' hm' ht
          rcases List.mem_cons.1 hm' with e | hm'
          · rw [e]
          · exact (h3 m' hm' ht).trans ha.2
        · refine ⟨m, List.mem_cons_of_mem _ h1, h2, ?_⟩
          intro m' hm' ht
          rcases List.mem_cons.1 hm' with e | hm'
          · subst e
            exact (le_total m'.ts m.ts).resolve_right fun h => ha ⟨ht, h⟩
          · exact h3 m' hm' ht
      · obtain ⟨m, hm, ht⟩ := hx
        rcases List.mem_cons.1 hm with e | hm
        · subst e
          refine ⟨m, List.mem_cons_self, ht, ?_⟩
          intro m' hm' ht'
          rcases List.mem_cons.1 hm' with e | hm'
          · rw [e]
          · exact absurd ⟨m', hm', ht'⟩ hK
        · exact absurd ⟨m, hm, ht⟩ hK
  exact this L ⟨_, w.ini, by simp [m0]⟩

open Classical in
/-- The contents of the object once everything up to `τ` has happened. -/
noncomputable def curv (v : V) (L : Ms V) (τ : Ts) : V :=
  if h : ∃ m, Last L τ m then h.choose.val else v

theorem curv_eq {v : V} {L : Ms V} (w : Wf v L) {τ : Ts} {m : Msg Loc V} (h : Last L τ m) :
    curv v L τ = m.val := by
  have hx : ∃ m, Last L τ m := ⟨m, h⟩
  rw [curv, dif_pos hx, Last.eq w hx.choose_spec h]

theorem curv_congr {v : V} {L : Ms V} (w : Wf v L) {τ τ' : Ts} (hl : τ ≤ τ')
    (hn : ∀ m ∈ L, m.ts ≤ τ' → m.ts ≤ τ) : curv v L τ = curv v L τ' := by
  obtain ⟨m, h1, h2, h3⟩ := exists_last w τ
  rw [curv_eq w ⟨h1, h2, h3⟩, curv_eq w (m := m) ⟨h1, h2.trans hl, fun m' hm' ht => h3 m' hm' (hn m' hm' ht)⟩]

/-- Where in modification order an operation takes effect: the write it makes (`wr`) or reads. -/
structure Tgt (V : Type) where
  ts : Ts
  wr : Bool
  res : Res V

variable [DecidableEq V]

/-- The operation `op` takes effect at `g`, given the writes `L`. -/
def Valid (L : Ms V) (op : Op V) (g : Tgt V) : Prop :=
  ∃ m ∈ L, m.ts = g.ts ∧
    if g.wr then ∀ p ∈ L, p.ts < m.ts → (∀ q ∈ L, q.ts < m.ts → q.ts ≤ p.ts) → op.onCell p.val = (m.val, g.res)
    else op.onCell m.val = (m.val, g.res)

/-- A call in progress: object, operation, whether its first fence has been made, and where it takes
(or will take) effect. -/
structure Call (V : Type) where
  o : Obj
  op : Op V
  b : Bool
  tg : Option (Tgt V)

/-- Has the call taken effect, when `S` is published? -/
def Call.th (c : Call V) (S : View Loc) : Atomic.Th V :=
  match c.tg with
  | none => .pending c.o c.op
  | some g => if c.b = true ∧ g.ts ≤ S (.obj c.o) then .done g.res else .pending c.o c.op

/-- The state of the specification. -/
noncomputable def absD (P : Obj → Bool) (v0 : Obj → V) (M : Obj → Ms V) (D : Tid → Option (Call V))
    (S : View Loc) : Atomic.State V where
  cell o := if P o then curv (v0 o) (M o) (S (.obj o)) else v0 o
  th t := match D t with
    | none => .idle
    | some c => c.th S

/-- What is needed to advance from `S` to `S'`. -/
structure Can (P : Obj → Bool) (v0 : Obj → V) (M : Obj → Ms V) (D : Tid → Option (Call V))
    (S S' : View Loc) : Prop where
  fin : ∃ N, ∀ t, N ≤ t → D t = none
  wf : ∀ o, P o = true → Wf (v0 o) (M o)
  inP : ∀ t c, D t = some c → P c.o = true
  valid : ∀ t c g, D t = some c → c.tg = some g → Valid (M c.o) c.op g
  later : ∀ t c g, D t = some c → c.tg = some g → c.b = false →
    S' (.obj c.o) ≤ g.ts ∧ (g.wr = true → S' (.obj c.o) < g.ts)
  dist : ∀ t c g t' c' g', D t = some c → c.tg = some g → g.wr = true → D t' = some c' → c'.tg = some g' →
    g'.wr = true → c.o = c'.o → g.ts = g'.ts → t = t'
  author : ∀ o, P o = true → ∀ m ∈ M o, S (.obj o) < m.ts → m.ts ≤ S' (.obj o) →
    ∃ t c g, D t = some c ∧ c.o = o ∧ c.tg = some g ∧ g.wr = true ∧ g.ts = m.ts
  le : S ≤ S'

/-- A state between `absD .. S` and `absD .. S'`: `R` is published, and some of the reads at `R` are
still to take effect. -/
structure Inter (P : Obj → Bool) (v0 : Obj → V) (M : Obj → Ms V) (D : Tid → Option (Call V))
    (S S' : View Loc) (a : Atomic.State V) (R : View Loc) : Prop where
  lo : S ≤ R
  hi : R ≤ S'
  cell : ∀ o, a.cell o = if P o then curv (v0 o) (M o) (R (.obj o)) else v0 o
  idle : ∀ t, D t = none → a.th t = .idle
  none : ∀ t c, D t = some c → c.tg = none → a.th t = .pending c.o c.op
  early : ∀ t c, D t = some c → c.b = false → a.th t = .pending c.o c.op
  write : ∀ t c g, D t = some c → c.tg = some g → c.b = true → g.wr = true →
    a.th t = if g.ts ≤ R (.obj c.o) then .done g.res else .pending c.o c.op
  read : ∀ t c g, D t = some c → c.tg = some g → c.b = true → g.wr = false →
    (a.th t = .done g.res ∧ g.ts ≤ R (.obj c.o)) ∨ (a.th t = .pending c.o c.op ∧ R (.obj c.o) ≤ g.ts)

/-- Still to be committed. -/
def Todo (D : Tid → Option (Call V)) (S' : View Loc) (a : Atomic.State V) (t : Tid) : Prop :=
  ∃ c g, D t = some c ∧ c.tg = some g ∧ c.b = true ∧ g.ts ≤ S' (.obj c.o) ∧ a.th t = .pending c.o c.op

/-- The place of a call. -/
def place (D : Tid → Option (Call V)) (t : Tid) : Ts :=
  match D t with
  | some ⟨_, _, _, some g⟩ => g.ts
  | _ => 0

theorem place_eq {D : Tid → Option (Call V)} {t : Tid} {c : Call V} {g : Tgt V} (h : D t = some c)
    (hg : c.tg = some g) : place D t = g.ts := by
  obtain ⟨o, op, b, tg⟩ := c
  simp only at hg; subst hg
  simp [place, h]

variable {P : Obj → Bool} {v0 : Obj → V} {M : Obj → Ms V} {D : Tid → Option (Call V)} {S S' : View Loc}

/-- Commit a write that is next. -/
theorem commit_write (C : Can P v0 M D S S') {a : Atomic.State V} {R : View Loc} (I : Inter P v0 M D S S' a R)
    {t : Tid} {c : Call V} {g : Tgt V} (hD : D t = some c) (hg : c.tg = some g) (hb : c.b = true)
    (hs : g.ts ≤ S' (.obj c.o)) (hw : g.wr = true) (hp : a.th t = .pending c.o c.op)
    (hmin : ∀ u, Todo D S' a u → g.ts ≤ place D u) :
    ∃ a' R', Atomic.Step a Option.none a' ∧ Inter P v0 M D S S' a' R' ∧
      (∀ u, Todo D S' a' u → Todo D S' a u ∧ u ≠ t) := by
  have hP := C.inP t c hD
  have w := C.wf c.o hP
  have hR : R (.obj c.o) < g.ts := by
    have := I.write t c g hD hg hb hw
    rw [hp] at this
    by_contra hx
    rw [if_pos (le_of_not_gt hx)] at this; cases this
  obtain ⟨m, hm, hmt, hv⟩ := C.valid t c g hD hg
  rw [if_pos hw] at hv
  obtain ⟨p, p1, p2, p3⟩ := exists_last w (R (.obj c.o))
  -- every write below `m` is at or below `R`
  have below : ∀ q ∈ M c.o, q.ts < m.ts → q.ts ≤ R (.obj c.o) := by
    intro q hq hlt
    by_contra hx
    have hx := lt_of_not_ge hx
    obtain ⟨u, cu, gu, e1, e2, e3, e4, e5⟩ := C.author c.o hP q hq ((I.lo _).trans_lt hx) (by
      rw [hmt] at hlt; exact hlt.le.trans hs)
    have hbu : cu.b = true := by
      by_contra hb'
      have := (C.later u cu gu e1 e3 (by simpa using hb')).2 e4
      rw [e2, e5] at this
      rw [hmt] at hlt
      exact absurd (hlt.le.trans hs) (not_le_of_gt this)
    have hth := I.write u cu gu e1 e3 hbu e4
    rw [e2, e5, if_neg (not_le_of_gt hx)] at hth
    have := hmin u ⟨cu, gu, e1, e3, hbu, by rw [e2, e5]; rw [hmt] at hlt; exact hlt.le.trans hs, by rw [e2]; exact hth⟩
    rw [place_eq e1 e3, e5, ← hmt] at this
    exact absurd hlt (not_lt_of_ge this)
  have hop := hv p p1 (by rw [hmt]; exact p2.trans_lt hR) (fun q hq hlt => p3 q hq (below q hq hlt))
  have hc : a.cell c.o = p.val := by rw [I.cell, if_pos hP, curv_eq w ⟨p1, p2, p3⟩]
  refine ⟨_, Function.update R (.obj c.o) g.ts, Atomic.Step.commit a t c.o c.op hp, ?_, ?_⟩
  · have hne : ∀ o, o ≠ c.o → (Loc.obj o) ≠ Loc.obj c.o := fun o h e => h (by injection e)
    refine ⟨?_, ?_, ?_, ?_, ?_, ?_, ?_, ?_⟩
    · intro l
      by_cases h : l = .obj c.o
      · subst h; rw [Function.update_self]; exact (I.lo _).trans hR.le
      · rw [Function.update_of_ne h]; exact I.lo _
    · intro l
      by_cases h : l = .obj c.o
      · subst h; rw [Function.update_self]; exact hs
      · rw [Function.update_of_ne h]; exact I.hi _
    · intro o
      by_cases h : o = c.o
      · subst h
        simp only [Function.update_self]
        rw [if_pos hP, hc, hop]
        rw [curv_eq w (m := m) ⟨hm, hmt.le, fun m' _ ht => by rw [hmt]; exact ht⟩]
      · simp only [Function.update_of_ne h, Function.update_of_ne (hne o h)]
        exact I.cell o
    · intro u hu
      have : u ≠ t := by rintro rfl; rw [hD] at hu; cases hu
      simp only [Function.update_of_ne this]
      exact I.idle u hu
    · intro u cu h1 h2
      have : u ≠ t := by rintro rfl; rw [hD] at h1; cases h1; rw [hg] at h2; cases h2
      simp only [Function.update_of_ne this]
      exact I.none u cu h1 h2
    · intro u cu h1 h2
      have : u ≠ t := by rintro rfl; rw [hD] at h1; cases h1; rw [hb] at h2; cases h2
      simp only [Function.update_of_ne this]
      exact I.early u cu h1 h2
    · intro u cu gu h1 h2 h3 h4
      by_cases hu : u = t
      · subst hu
        rw [hD] at h1; cases h1
        rw [hg] at h2; cases h2
        simp only [Function.update_self, le_refl, if_true]
        rw [hc, hop]
      · simp only [Function.update_of_ne hu]
        rw [I.write u cu gu h1 h2 h3 h4]
        by_cases ho : cu.o = c.o
        · rw [ho, Function.update_self]
          by_cases hx : gu.ts ≤ R (.obj c.o)
          · rw [if_pos hx, if_pos (hx.trans hR.le)]
          · rw [if_neg hx, if_neg]
            intro hle
            have hth := I.write u cu gu h1 h2 h3 h4
            rw [ho, if_neg hx] at hth
            have := hmin u ⟨cu, gu, h1, h2, h3, by rw [ho]; exact hle.trans hs, by rw [ho]; exact hth⟩
            rw [place_eq h1 h2] at this
            exact hu (C.dist u cu gu t c g h1 h2 h4 hD hg hw ho (le_antisymm hle this))
        · rw [Function.update_of_ne (hne _ ho)]
    · intro u cu gu h1 h2 h3 h4
      have hu : u ≠ t := by
        rintro rfl
        rw [hD] at h1; cases h1
        rw [hg] at h2; cases h2
        rw [hw] at h4; cases h4
      simp only [Function.update_of_ne hu]
      by_cases ho : cu.o = c.o
      · rcases I.read u cu gu h1 h2 h3 h4 with ⟨k1, k2⟩ | ⟨k1, k2⟩
        · rw [ho] at k2 ⊢
          rw [Function.update_self]
          exact .inl ⟨k1, k2.trans hR.le⟩
        · refine .inr ⟨k1, ?_⟩
          rw [ho, Function.update_self]
          by_contra hx
          have hx := lt_of_not_ge hx
          have := hmin u ⟨cu, gu, h1, h2, h3, by rw [ho]; exact hx.le.trans hs, k1⟩
          rw [place_eq h1 h2] at this
          exact absurd hx (not_lt_of_ge this)
      · rw [Function.update_of_ne (hne _ ho)]
        exact I.read u cu gu h1 h2 h3 h4
  · rintro u ⟨cu, gu, h1, h2, h3, h4, h5⟩
    have hu : u ≠ t := by
      rintro rfl
      simp only [Function.update_self] at h5; cases h5
    simp only [Function.update_of_ne hu] at h5
    exact ⟨⟨cu, gu, h1, h2, h3, h4, h5⟩, hu⟩

/-- Commit a read at the published place. -/
theorem commit_read (C : Can P v0 M D S S') {a : Atomic.State V} {R : View Loc} (I : Inter P v0 M D S S' a R)
    {t : Tid} {c : Call V} {g : Tgt V} (hD : D t = some c) (hg : c.tg = some g) (hb : c.b = true)
    (hs : R (.obj c.o) = g.ts) (hw : g.wr = false) (hp : a.th t = .pending c.o c.op) :
    ∃ a' R', Atomic.Step a Option.none a' ∧ Inter P v0 M D S S' a' R' ∧
      (∀ u, Todo D S' a' u → Todo D S' a u ∧ u ≠ t) := by
  have hP := C.inP t c hD
  have w := C.wf c.o hP
  obtain ⟨m, hm, hmt, hv⟩ := C.valid t c g hD hg
  rw [hw] at hv
  simp only [Bool.false_eq_true, if_false] at hv
  have hc : a.cell c.o = m.val := by
    rw [I.cell, if_pos hP, curv_eq w (m := m) ⟨hm, by rw [hmt, hs], fun m' _ ht => by rw [hmt, ← hs]; exact ht⟩]
  refine ⟨_, R, Atomic.Step.commit a t c.o c.op hp, ?_, ?_⟩
  · refine ⟨I.lo, I.hi, ?_, ?_, ?_, ?_, ?_, ?_⟩
    · intro o
      by_cases h : o = c.o
      · subst h
        simp only [Function.update_self]
        rw [← I.cell, hc, hv]
      · simp only [Function.update_of_ne h]
        exact I.cell o
    · intro u hu
      have : u ≠ t := by rintro rfl; rw [hD] at hu; cases hu
      simp only [Function.update_of_ne this]
      exact I.idle u hu
    · intro u cu h1 h2
      have : u ≠ t := by rintro rfl; rw [hD] at h1; cases h1; rw [hg] at h2; cases h2
      simp only [Function.update_of_ne this]
      exact I.none u cu h1 h2
    · intro u cu h1 h2
      have : u ≠ t := by rintro rfl; rw [hD] at h1; cases h1; rw [hb] at h2; cases h2
      simp only [Function.update_of_ne this]
      exact I.early u cu h1 h2
    · intro u cu gu h1 h2 h3 h4
      have : u ≠ t := by
        rintro rfl
        rw [hD] at h1; cases h1
        rw [hg] at h2; cases h2
        rw [hw] at h4; cases h4
      simp only [Function.update_of_ne this]
      exact I.write u cu gu h1 h2 h3 h4
    · intro u cu gu h1 h2 h3 h4
      by_cases hu : u = t
      · subst hu
        rw [hD] at h1; cases h1
        rw [hg] at h2; cases h2
        simp only [Function.update_self]
        exact .inl ⟨by rw [hc, hv], hs.ge⟩
      · simp only [Function.update_of_ne hu]
        exact I.read u cu gu h1 h2 h3 h4
  · rintro u ⟨cu, gu, h1, h2, h3, h4, h5⟩
    have hu : u ≠ t := by
      rintro rfl
      simp only [Function.update_self] at h5; cases h5
    simp only [Function.update_of_ne hu] at h5
    exact ⟨⟨cu, gu, h1, h2, h3, h4, h5⟩, hu⟩

/-- One of the calls that are still to be committed can be. -/
theorem commit_next (C : Can P v0 M D S S') {a : Atomic.State V} {R : View Loc} (I : Inter P v0 M D S S' a R)
    (hx : ∃ t, Todo D S' a t) :
    ∃ a' R' t, Atomic.Step a Option.none a' ∧ Inter P v0 M D S S' a' R' ∧ Todo D S' a t ∧
      (∀ u, Todo D S' a' u → Todo D S' a u ∧ u ≠ t) := by
  classical
  obtain ⟨N, hN⟩ := C.fin
  have hlt : ∀ t, Todo D S' a t → t < N := by
    rintro t ⟨c, g, h1, -⟩
    by_contra h
    rw [hN t (Nat.le_of_not_lt h)] at h1; cases h1
  obtain ⟨t1, ht1⟩ := hx
  obtain ⟨t, ht, hmin⟩ := Finset.exists_min_image ((Finset.range N).filter (Todo D S' a)) (place D)
    ⟨t1, by simp [ht1, hlt t1 ht1]⟩
  simp only [Finset.mem_filter, Finset.mem_range] at ht hmin
  have hmin' : ∀ u, Todo D S' a u → place D t ≤ place D u := fun u hu => hmin u ⟨hlt u hu, hu⟩
  obtain ⟨c, g, h1, h2, h3, h4, h5⟩ := ht.2
  rw [place_eq h1 h2] at hmin'
  cases hw : g.wr with
  | true =>
    obtain ⟨a', R', k1, k2, k3⟩ := commit_write C I h1 h2 h3 h4 hw h5 hmin'
    exact ⟨a', R', t, k1, k2, ht.2, k3⟩
  | false =>
    rcases I.read t c g h1 h2 h3 hw with ⟨k1, -⟩ | ⟨-, k2⟩
    · rw [k1] at h5; cases h5
    rcases k2.eq_or_lt with e | hl
    · obtain ⟨a', R', k1, k2, k3⟩ := commit_read C I h1 h2 h3 e hw h5
      exact ⟨a', R', t, k1, k2, ht.2, k3⟩
    · -- its write is next
      obtain ⟨m, hm, hmt, -⟩ := C.valid t c g h1 h2
      obtain ⟨u, cu, gu, e1, e2, e3, e4, e5⟩ := C.author c.o (C.inP t c h1) m hm
        (by rw [hmt]; exact (I.lo _).trans_lt hl) (by rw [hmt]; exact h4)
      have hbu : cu.b = true := by
        by_contra hb'
        have := (C.later u cu gu e1 e3 (by simpa using hb')).2 e4
        rw [e2, e5, hmt] at this
        exact absurd h4 (not_le_of_gt this)
      have hth := I.write u cu gu e1 e3 hbu e4
      rw [e2, e5, hmt, if_neg (not_le_of_gt hl)] at hth
      rw [← e2] at hth
      have hsu : gu.ts ≤ S' (.obj cu.o) := by rw [e2, e5, hmt]; exact h4
      obtain ⟨a', R', k1, k2, k3⟩ := commit_write C I e1 e3 hbu hsu e4 hth (fun x hx => by
        rw [e5, hmt]; exact hmin' x hx)
      exact ⟨a', R', u, k1, k2, ⟨cu, gu, e1, e3, hbu, hsu, hth⟩, k3⟩

theorem inter_done (C : Can P v0 M D S S') {a : Atomic.State V} {R : View Loc} (I : Inter P v0 M D S S' a R)
    (hx : ∀ t, ¬ Todo D S' a t) : a = absD P v0 M D S' := by
  obtain ⟨cell, th⟩ := a
  have e1 : cell = (absD P v0 M D S').cell := by
    funext o
    have := I.cell o
    simp only at this
    rw [this]
    simp only [absD]
    by_cases hP : P o = true
    · rw [if_pos hP, if_pos hP]
      refine curv_congr (C.wf o hP) (I.hi _) fun m hm ht => ?_
      by_contra hlt
      have hlt := lt_of_not_ge hlt
      obtain ⟨u, cu, gu, e1, e2, e3, e4, e5⟩ := C.author o hP m hm ((I.lo _).trans_lt hlt) ht
      have hbu : cu.b = true := by
        by_contra hb'
        have := (C.later u cu gu e1 e3 (by simpa using hb')).2 e4
        rw [e2, e5] at this
        exact absurd ht (not_le_of_gt this)
      have hth := I.write u cu gu e1 e3 hbu e4
      rw [e2, e5, if_neg (not_le_of_gt hlt)] at hth
      exact hx u ⟨cu, gu, e1, e3, hbu, by rw [e2, e5]; exact ht, by rw [e2]; exact hth⟩
    · rw [if_neg hP, if_neg hP]
  have e2 : th = (absD P v0 M D S').th := by
    funext t
    simp only [absD]
    cases hD : D t with
    | none => exact I.idle t hD
    | some c =>
      simp only [Call.th]
      cases hg : c.tg with
      | none => exact I.none t c hD hg
      | some g =>
        simp only
        cases hb : c.b with
        | false => simp only [Bool.false_eq_true, false_and, if_false]; exact I.early t c hD hb
        | true =>
          simp only [true_and]
          have hn : ¬ (g.ts ≤ S' (.obj c.o) ∧ th t = .pending c.o c.op) := fun hh =>
            hx t ⟨c, g, hD, hg, hb, hh.1, hh.2⟩
          cases hw : g.wr with
          | true =>
            have := I.write t c g hD hg hb hw
            simp only at this
            by_cases hs : g.ts ≤ S' (.obj c.o)
            · rw [if_pos hs]
              by_cases hr : g.ts ≤ R (.obj c.o)
              · rw [this, if_pos hr]
              · rw [if_neg hr] at this; exact absurd ⟨hs, this⟩ hn
            · rw [if_neg hs, this, if_neg fun h => hs (h.trans (I.hi _))]
          | false =>
            rcases I.read t c g hD hg hb hw with ⟨k1, k2⟩ | ⟨k1, k2⟩
            · rw [if_pos (k2.trans (I.hi _))]; exact k1
            · rw [if_neg fun hs => hn ⟨hs, k1⟩]; exact k1
  rw [e1, e2]

theorem advance_from (C : Can P v0 M D S S') : ∀ (n : Nat) (T : Finset Tid) (a : Atomic.State V) (R : View Loc),
    T.card = n → (∀ t, Todo D S' a t → t ∈ T) → Inter P v0 M D S S' a R →
    Exec Atomic.Step a [] (absD P v0 M D S') := by
  classical
  intro n
  induction n with
  | zero =>
    intro T a R hc hT I
    rw [Finset.card_eq_zero] at hc
    subst hc
    rw [inter_done C I fun t ht => by simpa using hT t ht]
    exact .refl _
  | succ n ih =>
    intro T a R hc hT I
    by_cases hx : ∃ t, Todo D S' a t
    · obtain ⟨a', R', t, k1, k2, k3, k4⟩ := commit_next C I hx
      have := ih (T.erase t) a' R' (by rw [Finset.card_erase_of_mem (hT t k3), hc]; rfl)
        (fun u hu => Finset.mem_erase.2 ⟨(k4 u hu).2, hT u (k4 u hu).1⟩) k2
      exact Exec.trans (Exec.one_tau k1) this
    · rw [inter_done C I fun t ht => hx ⟨t, ht⟩]
      exact .refl _

/-- **Advancing the published view commits the calls it passes.** -/
theorem advance (C : Can P v0 M D S S') : Exec Atomic.Step (absD P v0 M D S) [] (absD P v0 M D S') := by
  obtain ⟨N, hN⟩ := C.fin
  refine advance_from C _ (Finset.range N) _ S rfl ?_ ?_
  · rintro t ⟨c, g, h1, -⟩
    by_contra h
    rw [hN t (by simpa using h)] at h1; cases h1
  · refine ⟨le_rfl, C.le, fun o => rfl, ?_, ?_, ?_, ?_, ?_⟩
    · intro t h; simp only [absD, h]
    · intro t c h hg; simp only [absD, h, Call.th, hg]
    · intro t c h hb
      simp only [absD, h, Call.th, hb, Bool.false_eq_true, false_and, if_false]
      cases c.tg <;> rfl
    · intro t c g h hg hb hw
      simp only [absD, h, Call.th, hg, hb, true_and]
    · intro t c g h hg hb hw
      simp only [absD, h, Call.th, hg, hb, true_and]
      by_cases hs : g.ts ≤ S (.obj c.o)
      · exact .inl ⟨if_pos hs, hs⟩
      · exact .inr ⟨if_neg hs, (lt_of_not_ge hs).le⟩

end Verif.WM.Sc
