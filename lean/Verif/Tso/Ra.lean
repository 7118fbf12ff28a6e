import Verif.Spec.Ra
/-!
# A memory order gives release/acquire consistency

`TsoOrder` lists the writes in the order in which they reach memory, and says for each other operation how many of them were
in memory at that time.
-/
set_option autoImplicit false
namespace Verif.Tso
open Verif.Object

variable {K V O R : Type} {S : Spec V O R} {cls : O → Cls V} {m : K → V} {D : Tid → List (Act (K × O) R)}

/-- Number of writes in memory when the event happens: for a write, without itself. -/
def upper (wr : Event → Bool) (pos seen : Event → Nat) (e : Event) : Nat := if wr e then pos e else seen e

/-- … with itself. -/
def lower (wr : Event → Bool) (pos seen : Event → Nat) (e : Event) : Nat := if wr e then pos e + 1 else seen e

/-- The write is visible to the operation: it is in memory or the thread's own. -/
def Vis (wr : Event → Bool) (pos seen : Event → Nat) (e w : Event) : Prop :=
  pos w < upper wr pos seen e ∨ (w.1 = e.1 ∧ w.2 < e.2)

/-- Class of an event. -/
def clsOf (cls : O → Cls V) (D : Tid → List (Act (K × O) R)) (e : Event) : Option (Cls V) :=
  ((D e.1)[e.2]?).map fun a => cls a.op.2

def isWr (cls : O → Cls V) (D : Tid → List (Act (K × O) R)) (e : Event) : Bool :=
  match clsOf cls D e with
  | some c => c.writes
  | none => false

/-- A memory order. -/
structure TsoOrder (S : Spec V O R) (cls : O → Cls V) (m : K → V) (D : Tid → List (Act (K × O) R))
    (pos seen : Event → Nat) (val : Event → V) : Prop where
  total : ∀ e e', isWr cls D e = true → isWr cls D e' = true → pos e = pos e' → e = e'
  po : ∀ e e', Po D e e' → ¬ ((∃ v, clsOf cls D e = some (.store v false)) ∧ clsOf cls D e' = some .load) →
    lower (isWr cls D) pos seen e ≤ upper (isWr cls D) pos seen e'
  store : ∀ (e : Event) a v w, (D e.1)[e.2]? = some a → cls a.op.2 = .store v w → val e = v ∧ ∀ x, S.sem a.op.2 x v a.r
  src : ∀ (e : Event) a, (D e.1)[e.2]? = some a → (cls a.op.2).reads = true → ∃ s : Option Event,
    (∀ w, s = some w → Vis (isWr cls D) pos seen e w ∧ IsOn cls D Cls.writes w a.op.1 ∧
      ∀ w', Vis (isWr cls D) pos seen e w' → IsOn cls D Cls.writes w' a.op.1 → pos w' ≤ pos w) ∧
    (s = none → ∀ w', Vis (isWr cls D) pos seen e w' → ¬ IsOn cls D Cls.writes w' a.op.1) ∧
    (cls a.op.2 = .load → S.sem a.op.2 ((s.map val).getD (m a.op.1)) ((s.map val).getD (m a.op.1)) a.r) ∧
    (cls a.op.2 = .rmw → S.sem a.op.2 ((s.map val).getD (m a.op.1)) (val e) a.r)

theorem isWr_iff {e : Event} : isWr cls D e = true ↔ Is cls D Cls.writes e := by
  simp only [isWr, clsOf, Is]
  cases h : (D e.1)[e.2]? <;> simp

theorem IsOn.is {p : Cls V → Bool} {e : Event} {k : K} (h : IsOn cls D p e k) : Is cls D p e := by
  obtain ⟨a, h1, h2, -⟩ := h
  exact ⟨a, h1, h2⟩

theorem Is.lt {p : Cls V → Bool} {e : Event} (h : Is cls D p e) : e.2 < (D e.1).length := by
  obtain ⟨a, h1, -⟩ := h
  exact (List.getElem?_eq_some_iff.1 h1).1

/-- Not a plain store, and there. -/
def Firm (cls : O → Cls V) (D : Tid → List (Act (K × O) R)) (e : Event) : Prop :=
  ∃ c, clsOf cls D e = some c ∧ ∀ v, c ≠ .store v false

theorem upper_le_lower (wr : Event → Bool) (pos seen : Event → Nat) (e : Event) :
    upper wr pos seen e ≤ lower wr pos seen e := by
  unfold upper lower
  split <;> omega

theorem TsoOrder.ra {pos seen : Event → Nat} {val : Event → V} (T : TsoOrder S cls m D pos seen val) :
    ∃ rf, RaOrder S cls m D rf pos val (lower (isWr cls D) pos seen) := by
  classical
  -- sources
  have hsrc : ∀ e : Event, ∃ s : Option Event, ∀ a, (D e.1)[e.2]? = some a → (cls a.op.2).reads = true →
      (∀ w, s = some w → Vis (isWr cls D) pos seen e w ∧ IsOn cls D Cls.writes w a.op.1 ∧
        ∀ w', Vis (isWr cls D) pos seen e w' → IsOn cls D Cls.writes w' a.op.1 → pos w' ≤ pos w) ∧
      (s = none → ∀ w', Vis (isWr cls D) pos seen e w' → ¬ IsOn cls D Cls.writes w' a.op.1) ∧
      (cls a.op.2 = .load → S.sem a.op.2 ((s.map val).getD (m a.op.1)) ((s.map val).getD (m a.op.1)) a.r) ∧
      (cls a.op.2 = .rmw → S.sem a.op.2 ((s.map val).getD (m a.op.1)) (val e) a.r) := by
    intro e
    cases h : (D e.1)[e.2]? with
    | none => exact ⟨none, fun a ha => by cases ha⟩
    | some a =>
      by_cases hr : (cls a.op.2).reads = true
      · obtain ⟨s, hs⟩ := T.src e a h hr
        exact ⟨s, fun a' ha' _ => by cases ha'; exact hs⟩
      · exact ⟨none, fun a' ha' hr' => by cases ha'; exact absurd hr' hr⟩
  obtain ⟨rf, hrf⟩ := Classical.axiomOfChoice hsrc
  have hsource : ∀ e k, source m rf val e k = ((rf e).map val).getD (m k) := by
    intro e k
    unfold source
    cases rf e <;> rfl
  -- what is visible
  have sees : ∀ w e k, IsOn cls D Cls.writes w k → IsOn cls D Cls.reads e k → Vis (isWr cls D) pos seen e w →
      ∃ w', rf e = some w' ∧ pos w ≤ pos w' := by
    rintro w e k hw ⟨a, h1, h2, rfl⟩ hv
    obtain ⟨hs, hn, -⟩ := hrf e a h1 h2
    cases h : rf e with
    | none => exact absurd hw (hn h w hv)
    | some w' => exact ⟨w', rfl, (hs w' h).2.2 w hv hw⟩
  have rfw : ∀ e w, rf e = some w → Is cls D Cls.reads e → Vis (isWr cls D) pos seen e w ∧ Is cls D Cls.writes w := by
    rintro e w h ⟨a, h1, h2⟩
    obtain ⟨hs, -⟩ := hrf e a h1 h2
    exact ⟨(hs w h).1, (hs w h).2.1.is⟩
  have Tpo := T.po
  have up := upper_le_lower (isWr cls D) pos seen
  generalize hU : upper (isWr cls D) pos seen = U at *
  generalize hL : lower (isWr cls D) pos seen = L at *
  have hUw : ∀ {w}, Is cls D Cls.writes w → U w = pos w := fun {w} h => by
    rw [← hU, upper, if_pos (isWr_iff.2 h)]
  have hLw : ∀ {w}, Is cls D Cls.writes w → L w = pos w + 1 := fun {w} h => by
    rw [← hL, lower, if_pos (isWr_iff.2 h)]
  -- program order into a write, or from something firm
  have poW : ∀ {e w}, Po D e w → Is cls D Cls.writes w → L e ≤ U w := by
    intro e w h hw
    refine Tpo e w h ?_
    rintro ⟨-, h2⟩
    obtain ⟨a, h3, h4⟩ := hw
    simp only [clsOf, h3, Option.map_some, Option.some.injEq] at h2
    rw [h2] at h4; cases h4
  have poF : ∀ {e e'}, Po D e e' → Firm cls D e → L e ≤ U e' := by
    intro e e' h hf
    refine Tpo e e' h ?_
    rintro ⟨⟨v, h1⟩, -⟩
    obtain ⟨c, h2, h3⟩ := hf
    rw [h1] at h2
    exact h3 v (Option.some.inj h2).symm
  have firmR : ∀ {e}, Is cls D Cls.reads e → Firm cls D e := by
    rintro e ⟨a, h1, h2⟩
    refine ⟨cls a.op.2, by simp [clsOf, h1], fun v hv => ?_⟩
    rw [hv] at h2; cases h2
  have firmS : ∀ {e}, Is cls D Cls.waits e → Firm cls D e := by
    rintro e ⟨a, h1, h2⟩
    refine ⟨cls a.op.2, by simp [clsOf, h1], fun v hv => ?_⟩
    rw [hv] at h2; cases h2
  -- reads-from
  have rfE : ∀ {w e}, rf e = some w → Is cls D Cls.reads e → Po D w e ∨ L w ≤ U e := by
    intro w e h he
    obtain ⟨hv, hw⟩ := rfw e w h he
    rcases hv with hv | ⟨h1, h2⟩
    · right
      rw [hLw hw]
      rw [hU] at hv
      exact hv
    · exact Or.inl ⟨h1, h2, he.lt⟩
  -- happens before
  have key : ∀ {e f}, Hb cls D rf e f → Po D e f ∨ ∃ a, Firm cls D a ∧ L e ≤ U a ∧ (a = f ∨ Po D a f) := by
    intro e f h
    induction h with
    | single h =>
      rcases h with h | ⟨h, hr⟩
      · exact Or.inl h
      · rcases rfE h hr with h | h
        · exact Or.inl h
        · exact Or.inr ⟨_, firmR hr, h, Or.inl rfl⟩
    | @tail f g _ h ih =>
      have poTrans : ∀ {a}, Po D a f → Po D f g → Po D a g := fun h1 h2 =>
        ⟨h1.1.trans h2.1, Nat.lt_trans h1.2.1 h2.2.1, h2.2.2⟩
      have viaPo : Po D f g → Po D e g ∨ ∃ a, Firm cls D a ∧ L e ≤ U a ∧ (a = g ∨ Po D a g) := by
        intro h
        rcases ih with ih | ⟨a, h1, h2, rfl | h3⟩
        · exact Or.inl (poTrans ih h)
        · exact Or.inr ⟨a, h1, h2, Or.inr h⟩
        · exact Or.inr ⟨a, h1, h2, Or.inr (poTrans h3 h)⟩
      rcases h with h | ⟨h, hr⟩
      · exact viaPo h
      · rcases rfE h hr with h' | h'
        · exact viaPo h'
        · obtain ⟨-, hw⟩ := rfw g f h hr
          refine Or.inr ⟨g, firmR hr, ?_, Or.inl rfl⟩
          rcases ih with ih | ⟨a, h1, h2, rfl | h3⟩
          · exact Nat.le_trans (poW ih hw) (Nat.le_trans (up f) h')
          · exact Nat.le_trans h2 (Nat.le_trans (up a) h')
          · exact Nat.le_trans h2 (Nat.le_trans (up a) (Nat.le_trans (poW h3 hw) (Nat.le_trans (up f) h')))
  have ww : ∀ {w w'}, Is cls D Cls.writes w → Is cls D Cls.writes w' → Hb cls D rf w w' → pos w < pos w' := by
    intro w w' hw hw' h
    have : L w ≤ U w' := by
      rcases key h with h | ⟨a, h1, h2, rfl | h3⟩
      · exact poW h hw'
      · exact h2
      · exact Nat.le_trans h2 (Nat.le_trans (up a) (poW h3 hw'))
    rw [hLw hw, hUw hw'] at this
    exact this
  have firmI : ∀ {e}, Is cls D Cls.firm e → Firm cls D e := by
    rintro e ⟨a, h1, h2⟩
    refine ⟨cls a.op.2, by simp [clsOf, h1], fun v hv => ?_⟩
    rw [hv] at h2; cases h2
  have firmHb : ∀ {f g}, Firm cls D f → Hb cls D rf f g → (Is cls D Cls.writes g ∨ Firm cls D g) → L f ≤ U g := by
    intro f g hf h hg
    rcases key h with h | ⟨a, h1, h2, rfl | h3⟩
    · exact poF h hf
    · exact h2
    · exact Nat.le_trans h2 (Nat.le_trans (up a) (poF h3 h1))
  have before : ∀ {w f}, Is cls D Cls.writes w → Is cls D Cls.waits f → (w = f ∨ Hb cls D rf w f) → pos w + 1 ≤ L f := by
    intro w f hw hf h
    rw [← hLw hw]
    rcases h with rfl | h
    · exact Nat.le_refl _
    · refine Nat.le_trans ?_ (up f)
      rcases key h with h | ⟨a, h1, h2, rfl | h3⟩
      · refine Tpo w f h ?_
        rintro ⟨-, h2⟩
        obtain ⟨a, h3, h4⟩ := hf
        simp only [clsOf, h3, Option.map_some, Option.some.injEq] at h2
        rw [h2] at h4; cases h4
      · exact h2
      · exact Nat.le_trans h2 (Nat.le_trans (up a) (poF h3 h1))
  refine ⟨rf, ?_, T.store, ?_, ?_, ?_, ?_, ?_, ?_, ?_, ?_, ?_, ?_⟩
  · intro e a h1 h2
    rw [hsource]
    exact (hrf e a h1 (by rw [h2]; rfl)).2.2.1 h2
  · intro e a h1 h2
    rw [hsource]
    exact (hrf e a h1 (by rw [h2]; rfl)).2.2.2 h2
  · rintro e w k ⟨a, h1, h2, rfl⟩ h
    exact ((hrf e a h1 h2).1 w h).2.1
  · intro e e' h h' he
    exact T.total e e' (isWr_iff.2 h) (isWr_iff.2 h') he
  · -- acyclic
    have split : ∀ {e f}, Hb cls D rf e f → Po D e f ∨ ∃ w g, rf g = some w ∧ Is cls D Cls.reads g ∧
        (e = w ∨ Hb cls D rf e w) ∧ (g = f ∨ Hb cls D rf g f) := by
      intro e f h
      induction h with
      | single h =>
        rcases h with h | ⟨h, hr⟩
        · exact Or.inl h
        · exact Or.inr ⟨_, _, h, hr, Or.inl rfl, Or.inl rfl⟩
      | @tail f g h0 h ih =>
        rcases h with h | ⟨h, hr⟩
        · rcases ih with ih | ⟨w, g', h1, h2, h3, h4⟩
          · exact Or.inl ⟨ih.1.trans h.1, Nat.lt_trans ih.2.1 h.2.1, h.2.2⟩
          · refine Or.inr ⟨w, g', h1, h2, h3, Or.inr ?_⟩
            rcases h4 with rfl | h4
            · exact .single (Or.inl h)
            · exact .tail h4 (Or.inl h)
        · exact Or.inr ⟨f, g, h, hr, Or.inr h0, Or.inl rfl⟩
    intro e h
    rcases split h with h | ⟨w, g, h1, h2, h3, h4⟩
    · exact Nat.lt_irrefl _ h.2.1
    · have hw := (rfw g w h1 h2).2
      have : Hb cls D rf w w := by
        have hwg : Hb cls D rf w g := .single (Or.inr ⟨h1, h2⟩)
        rcases h4 with rfl | h4
        · rcases h3 with rfl | h3
          · exact hwg
          · exact hwg.trans h3
        · rcases h3 with rfl | h3
          · exact hwg.trans h4
          · exact (hwg.trans h4).trans h3
      exact Nat.lt_irrefl _ (ww hw hw this)
  · intro w w' k hw hw' h
    exact ww hw.is hw'.is h
  · intro w e k hw he h
    refine sees w e k hw he ?_
    rcases key h with h | ⟨a, h1, h2, h3⟩
    · exact Or.inr ⟨h.1, h.2.1⟩
    · left
      have : L w ≤ U e := by
        rcases h3 with rfl | h3
        · exact h2
        · exact Nat.le_trans h2 (Nat.le_trans (up a) (poF h3 h1))
      rw [hLw hw.is] at this
      rw [hU]; exact this
  · rintro e k ⟨a, h1, h2, rfl⟩
    simp only [Bool.and_eq_true] at h2
    have hw : Is cls D Cls.writes e := ⟨a, h1, h2.2⟩
    have hr : IsOn cls D Cls.reads e a.op.1 := ⟨a, h1, h2.1, rfl⟩
    constructor
    · intro w h
      obtain ⟨hv, hww⟩ := rfw e w h hr.is
      rcases hv with hv | hv
      · rw [hU, hUw hw] at hv; exact hv
      · have := poW (e := w) ⟨hv.1, hv.2, hw.lt⟩ hw
        rw [hLw hww, hUw hw] at this
        exact this
    · intro w hww h
      refine sees w e a.op.1 hww hr (Or.inl ?_)
      rw [hU, hUw hw]; exact h
  · intro f f' hf hf' h
    exact Nat.le_trans (firmHb (firmI hf) h (Or.inr (firmI hf'))) (up _)
  · intro w f f' e k hw hwf hf hf' hs hpe he hne
    refine sees w e k hw he (Or.inl ?_)
    have h1 := before hw.is hf hwf
    rw [hU]
    rcases hpe with rfl | h
    · cases hwr : isWr cls D f' with
      | false =>
        have : L f' = U f' := by rw [← hL, ← hU, lower, upper, hwr]; rfl
        rw [← this]; omega
      | true =>
        have hw' := isWr_iff.1 hwr
        rw [hUw hw']
        rw [hLw hw'] at hs
        exact Nat.lt_of_le_of_ne (by omega) fun h => hne (T.total _ _ (isWr_iff.2 hw.is) hwr h)
    · have := firmHb (firmI hf') h (Or.inr (firmR he.is))
      omega
  · intro w f f' w' k hw hwf hf hf' hs hpe hw' hne
    have h1 := before hw.is hf hwf
    rcases hpe with rfl | h
    · rw [hLw hw'.is] at hs
      exact Nat.lt_of_le_of_ne (by omega) fun h => hne (T.total _ _ (isWr_iff.2 hw.is) (isWr_iff.2 hw'.is) h)
    · have := firmHb (firmI hf') h (Or.inl hw'.is)
      rw [hUw hw'.is] at this
      omega

end Verif.Tso
