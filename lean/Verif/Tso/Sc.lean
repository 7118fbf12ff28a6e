import Verif.Spec.Tso
import Mathlib.Data.List.Forall2
/-!
# Native x86 accesses: sequential consistency of fenced programs, linearizability of waiting stores
-/
set_option autoImplicit false
set_option linter.unusedSectionVars false
namespace Verif.Tso
open Verif.Object Verif.Lf

variable {K V O R : Type} [DecidableEq K] {S : Spec V O R} {cls : O → Cls V}

/-- A store waiting in a buffer, as an action. -/
def IsStore (S : Spec V O R) (cls : O → Cls V) (a : Act (K × O) R) (p : K × V) : Prop :=
  (∃ w, cls a.op.2 = .store p.2 w) ∧ a.op.1 = p.1 ∧ ∀ x, S.sem a.op.2 x p.2 a.r

/-- The actions waiting in the buffer of `t`. -/
def Waiting (S : Spec V O R) (cls : O → Cls V) (t : Tid) (B : List (Act (K × O) R)) (b : List (K × V)) : Prop :=
  List.Forall₂ (IsStore S cls) B b ∧ ∀ a ∈ B, a.t = t

/-- A thread and the actions done by it so far (`D`), seen from its history. -/
def ThreadAt (th : Option (K × Loc (O) R)) (D : List (Act (K × O) R)) (ops : List (K × O))
    (rs : List R) : Prop :=
  match th with
  | none => ops = D.map Act.op ∧ rs = D.map Act.r
  | some (k, .pending op) => ops = D.map Act.op ++ [(k, op)] ∧ rs = D.map Act.r
  | some (_, .wait r) | some (_, .done r) => ops = D.map Act.op ∧ rs ++ [r] = D.map Act.r

/-- The last store not waited for, if there is one. -/
def Dirty (cls : O → Cls V) (D : List (Act (K × O) R)) : Prop :=
  ∃ (i : Nat) (a : Act (K × O) R) (v : V), D[i]? = some a ∧ cls a.op.2 = .store v false ∧
    ∀ (j : Nat) (b : Act (K × O) R), i < j → D[j]? = some b → (cls b.op.2).waits = false

/-- The invariant of runs. -/
structure Inv (S : Spec V O R) (cls : O → Cls V) (m : K → V) (h : List (Object.Ev (K × O) R))
    (s : Lf.State (Mem K V) (K × Loc O R)) (c : List (Act (K × O) R)) (B : Tid → List (Act (K × O) R)) : Prop where
  legal : Legal (S.many (K := K)) m c s.mem.mem
  waiting : ∀ t, Waiting S cls t (B t) (s.mem.buf t)
  thread : ∀ t, ThreadAt (s.th t) (only t c ++ B t) (calls t h) (results t h)
  dirty : ∀ t, B t ≠ [] → (∃ k r, s.th t = some (k, .wait r)) ∨ Dirty cls (only t c ++ B t)
  bound : ∃ N : Nat, ∀ t : Nat, N ≤ t → s.mem.buf t = []

theorem calls_append (t : Tid) (h h' : List (Object.Ev O R)) : calls t (h ++ h') = calls t h ++ calls t h' := by
  induction h with
  | nil => rfl
  | cons e h ih =>
    cases e with
    | inv u op => simp only [List.cons_append, calls]; split <;> simp [ih]
    | ret u r => simpa only [List.cons_append, calls] using ih

theorem results_append (t : Tid) (h h' : List (Object.Ev O R)) :
    results t (h ++ h') = results t h ++ results t h' := by
  induction h with
  | nil => rfl
  | cons e h ih =>
    cases e with
    | inv u op => simpa only [List.cons_append, results] using ih
    | ret u r => simp only [List.cons_append, results]; split <;> simp [ih]

theorem only_append (t : Tid) (l l' : List (Act O R)) : only t (l ++ l') = only t l ++ only t l' := by
  simp [only]

theorem only_self (a : Act O R) : only a.t [a] = [a] := by simp [only]

theorem only_other {t : Tid} {a : Act O R} (h : a.t ≠ t) : only t [a] = [] := by simp [only, h]

theorem only_all {t : Tid} {l : List (Act O R)} (h : ∀ a ∈ l, a.t = t) : only t l = l := by
  simp only [only]
  exact List.filter_eq_self.2 fun a ha => by simp [h a ha]

theorem only_none {t : Tid} {l : List (Act O R)} (h : ∀ a ∈ l, a.t ≠ t) : only t l = [] := by
  simp only [only]
  exact List.filter_eq_nil_iff.2 fun a ha => by simp [h a ha]

theorem Dirty.snoc {D : List (Act (K × O) R)} {a : Act (K × O) R} (h : Dirty cls D)
    (hw : (cls a.op.2).waits = false) : Dirty cls (D ++ [a]) := by
  obtain ⟨i, b, v, hi, hb, hj⟩ := h
  have hil := (List.getElem?_eq_some_iff.1 hi).1
  refine ⟨i, b, v, by rw [List.getElem?_append_left hil]; exact hi, hb, fun j d hij hd => ?_⟩
  by_cases hl : j < D.length
  · rw [List.getElem?_append_left hl] at hd
    exact hj j d hij hd
  · rw [List.getElem?_append_right (by omega)] at hd
    have : j - D.length = 0 := by
      have := (List.getElem?_eq_some_iff.1 hd).1
      simp at this
      omega
    rw [this] at hd
    simp at hd
    subst hd
    exact hw

theorem Dirty.here {D : List (Act (K × O) R)} {a : Act (K × O) R} {v : V} (h : cls a.op.2 = .store v false) :
    Dirty cls (D ++ [a]) := by
  refine ⟨D.length, a, v, by simp, h, fun j d hij hd => ?_⟩
  have := (List.getElem?_eq_some_iff.1 hd).1
  simp at this
  omega

theorem view_empty {m : Mem K V} {t : Tid} {k : K} (h : m.buf t = []) : m.view t k = m.mem k := by
  simp [Mem.view, h, newest]

theorem write_self (m : Mem K V) (k : K) : m.write k (m.mem k) = m := by
  rw [Mem.write, Function.update_eq_self]

theorem inv_init (m : K → V) : Inv S cls m [] { mem := Mem.flat m, th := fun _ => none } [] (fun _ => []) where
  legal := .nil _
  waiting t := ⟨.nil, by simp⟩
  thread t := ⟨rfl, rfl⟩
  dirty t h := absurd rfl h
  bound := ⟨0, fun _ _ => rfl⟩

/-- The oldest store of a buffer reaches memory: its action is done. -/
theorem Inv.drain {m : K → V} {h : List (Object.Ev (K × O) R)} {s : Lf.State (Mem K V) (K × Loc O R)}
    {c : List (Act (K × O) R)} {B : Tid → List (Act (K × O) R)} (I : Inv S cls m h s c B) {m' : Mem K V}
    (hd : Drain s.mem m') : ∃ c' B', Inv S cls m h { s with mem := m' } c' B' := by
  cases hd with
  | @mk t k v b hb =>
    have hw := I.waiting t
    rw [hb] at hw
    obtain ⟨h2, ht⟩ := hw
    cases hB : B t with
    | nil => rw [hB] at h2; cases h2
    | cons a B1 =>
      rw [hB] at h2 ht
      cases h2 with
      | cons ha h2 =>
        obtain ⟨hcl, hk, hsem⟩ := ha
        have hat : a.t = t := ht a (by simp)
        have e : ∀ u, only u (c ++ [a]) ++ Function.update B t B1 u = only u c ++ B u := by
          intro u
          rw [only_append]
          by_cases hu : u = t
          · subst hu; rw [← hat, only_self, hat]; simp [hB]
          · rw [only_other (by rw [hat]; exact fun e => hu e.symm)]; simp [Function.update_of_ne hu]
        refine ⟨c ++ [a], Function.update B t B1, ?_, fun u => ?_, fun u => ?_, fun u hu => ?_, ?_⟩
        · refine .snoc I.legal ⟨v, ?_, by simp only at hk; rw [hk]⟩
          exact hsem _
        · by_cases hu : u = t
          · subst hu; simp only [Function.update_self]; exact ⟨h2, fun a' ha' => ht a' (List.mem_cons_of_mem _ ha')⟩
          · simp only [Function.update_of_ne hu]; exact I.waiting u
        · rw [e]; exact I.thread u
        · rw [e]
          refine I.dirty u fun h0 => hu ?_
          by_cases hut : u = t
          · subst hut; rw [hB] at h0; cases h0
          · rw [Function.update_of_ne hut]; exact h0
        · obtain ⟨N, hN⟩ := I.bound
          refine ⟨N, fun u hu => ?_⟩
          by_cases hut : u = t
          · subst hut; have := hN _ hu; rw [hb] at this; cases this
          · simp only [Function.update_of_ne hut]; exact hN u hu

/-- Thread `t`, whose buffer is empty, does an action. -/
theorem Inv.commit {m : K → V} {h : List (Object.Ev (K × O) R)} {s : Lf.State (Mem K V) (K × Loc O R)}
    {c : List (Act (K × O) R)} {B : Tid → List (Act (K × O) R)} (I : Inv S cls m h s c B) {t : Tid} {k : K} {op : O}
    {x : V} {r : R} (hth : s.th t = some (k, .pending op)) (hb : s.mem.buf t = []) (hs : S.sem op (s.mem.mem k) x r) :
    ∃ c' B', Inv S cls m h { mem := s.mem.write k x, th := Function.update s.th t (some (k, .done r)) } c' B' := by
  have hB : B t = [] := by
    have h2 := (I.waiting t).1
    rw [hb] at h2
    cases h2' : B t with
    | nil => rfl
    | cons a l => rw [h2'] at h2; cases h2
  have e : ∀ u, u ≠ t → only u (c ++ [(⟨t, (k, op), r⟩ : Act (K × O) R)]) = only u c := by
    intro u hu
    rw [only_append, only_other (by exact fun e => hu e.symm), List.append_nil]
  have et : only t (c ++ [(⟨t, (k, op), r⟩ : Act (K × O) R)]) = only t c ++ [⟨t, (k, op), r⟩] := by
    rw [only_append]; exact congrArg _ (only_self (⟨t, (k, op), r⟩ : Act (K × O) R))
  refine ⟨c ++ [⟨t, (k, op), r⟩], B, ?_, I.waiting, fun u => ?_, fun u hu => ?_, I.bound⟩
  · exact .snoc I.legal ⟨x, hs, rfl⟩
  · by_cases hu : u = t
    · subst hu
      have := I.thread u
      rw [hth] at this
      simp only [ThreadAt, hB, List.append_nil] at this
      simp only [Function.update_self, ThreadAt, et, hB, List.append_nil, List.map_append, List.map_cons, List.map_nil]
      exact ⟨this.1, by rw [this.2]⟩
    · simp only [Function.update_of_ne hu, e u hu]; exact I.thread u
  · have hut : u ≠ t := by rintro rfl; exact hu hB
    simp only [Function.update_of_ne hut, e u hut]
    exact I.dirty u hu

/-- Thread `t` does a store. -/
theorem Inv.push {m : K → V} {h : List (Object.Ev (K × O) R)} {s : Lf.State (Mem K V) (K × Loc O R)}
    {c : List (Act (K × O) R)} {B : Tid → List (Act (K × O) R)} (I : Inv S cls m h s c B) {t : Tid} {k : K} {op : O}
    {v : V} {w : Bool} {r : R} {l : Loc O R} (hth : s.th t = some (k, .pending op)) (hc : cls op = .store v w)
    (hs : ∀ x, S.sem op x v r) (hl : l = if w then .wait r else .done r) :
    ∃ c' B', Inv S cls m h { mem := s.mem.push t k v, th := Function.update s.th t (some (k, l)) } c' B' := by
  refine ⟨c, Function.update B t (B t ++ [⟨t, (k, op), r⟩]), I.legal, fun u => ?_, fun u => ?_, fun u hu => ?_, ?_⟩
  · by_cases hu : u = t
    · subst hu
      simp only [Function.update_self, Mem.push]
      obtain ⟨h1, h2⟩ := I.waiting u
      refine ⟨List.rel_append h1 (.cons ⟨⟨w, hc⟩, rfl, hs⟩ .nil), ?_⟩
      intro a ha
      rcases List.mem_append.1 ha with ha | ha
      · exact h2 a ha
      · simp at ha; subst ha; rfl
    · simp only [Function.update_of_ne hu, Mem.push]; exact I.waiting u
  · by_cases hu : u = t
    · subst hu
      have := I.thread u
      rw [hth] at this
      simp only [ThreadAt] at this
      obtain ⟨h1, h2⟩ := this
      simp only [Function.update_self]
      have goal : calls u h = (only u c ++ (B u ++ [(⟨u, (k, op), r⟩ : Act (K × O) R)])).map Act.op ∧
          results u h ++ [r] = (only u c ++ (B u ++ [(⟨u, (k, op), r⟩ : Act (K × O) R)])).map Act.r := by
        rw [h1, h2]; simp
      cases w <;> (subst hl; exact goal)
    · simp only [Function.update_of_ne hu]; exact I.thread u
  · by_cases hut : u = t
    · subst hut
      simp only [Function.update_self]
      cases w with
      | true => subst hl; exact Or.inl ⟨k, r, rfl⟩
      | false =>
        refine Or.inr ?_
        rw [← List.append_assoc]
        exact Dirty.here hc
    · simp only [Function.update_of_ne hut] at hu ⊢
      exact I.dirty u hu
  · obtain ⟨N, hN⟩ := I.bound
    have hN' : N ≤ max N (t + 1) := Nat.le_max_left _ _
    have hN2 : t + 1 ≤ max N (t + 1) := Nat.le_max_right _ _
    refine ⟨max N (t + 1), fun u hu => ?_⟩
    have : u ≠ t := by rintro rfl; exact absurd (Nat.le_trans hN2 hu) (Nat.not_succ_le_self _)
    simp only [Mem.push, Function.update_of_ne this]
    exact hN u (Nat.le_trans hN' hu)

/-- In a fenced program a load finds the buffer empty. -/
theorem Inv.clean {m : K → V} {h : List (Object.Ev (K × O) R)} {s : Lf.State (Mem K V) (K × Loc O R)}
    {c : List (Act (K × O) R)} {B : Tid → List (Act (K × O) R)} (I : Inv S cls m h s c B) {t : Tid} {k : K} {op : O}
    (hf : Fenced (fun p : K × O => cls p.2) (calls t h)) (hth : s.th t = some (k, .pending op)) (hc : cls op = .load) :
    s.mem.buf t = [] := by
  have hB : B t = [] := by
    by_contra hB
    rcases I.dirty t hB with ⟨k', r, hk⟩ | ⟨i, a, v, hi, ha, hj⟩
    · rw [hth] at hk; cases hk
    have ht := I.thread t
    rw [hth] at ht
    obtain ⟨ht, -⟩ := ht
    have hil := (List.getElem?_eq_some_iff.1 hi).1
    have hD : ((only t c ++ B t).map Act.op).length = (only t c ++ B t).length := by rw [List.length_map]
    obtain ⟨j, w, h1, h2, h3, h4⟩ := hf i (only t c ++ B t).length a.op (k, op) v hil
      (by rw [ht, List.getElem?_append_left (by rw [hD]; exact hil), List.getElem?_map, hi]; rfl)
      (by rw [ht, ← hD, List.getElem?_concat_length]) ha hc
    rw [ht, List.getElem?_append_left (by rw [hD]; exact h2), List.getElem?_map] at h3
    cases hb : (only t c ++ B t)[j]? with
    | none => rw [hb] at h3; cases h3
    | some b =>
      rw [hb] at h3
      simp only [Option.map_some, Option.some.injEq] at h3
      subst h3
      rw [hj j b h1 hb] at h4
      cases h4
  have h2 := (I.waiting t).1
  rw [hB] at h2
  cases h3 : s.mem.buf t with
  | nil => rfl
  | cons p l => rw [h3] at h2; cases h2

theorem fenced_prefix {P : Type} {f : P → Cls V} {l l' : List P} (h : Fenced f (l ++ l')) : Fenced f l := by
  intro i j p q v hij hi hj hp hq
  have hil := (List.getElem?_eq_some_iff.1 hi).1
  have hjl := (List.getElem?_eq_some_iff.1 hj).1
  obtain ⟨k, w, h1, h2, h3, h4⟩ := h i j p q v hij (by rw [List.getElem?_append_left hil]; exact hi)
    (by rw [List.getElem?_append_left hjl]; exact hj) hp hq
  exact ⟨k, w, h1, h2, by rw [List.getElem?_append_left (by omega)] at h3; exact h3, h4⟩

/-- Runs keep the invariant. -/
theorem run_inv {m : K → V} {h : List (Object.Ev (K × O) R)} {s : Lf.State (Mem K V) (K × Loc O R)}
    (hx : Runs (native K S cls) (Mem.flat m) h s) (hf : ∀ t, Fenced (fun p : K × O => cls p.2) (calls t h)) :
    ∃ c B, Inv S cls m h s c B := by
  generalize hi : ({ mem := Mem.flat m, th := fun _ => none } : Lf.State (Mem K V) (K × Loc O R)) = i at hx
  unfold Runs at hx
  rw [hi] at hx
  induction hx with
  | refl => subst hi; exact ⟨_, _, inv_init m⟩
  | tau _ st ih =>
    obtain ⟨c, B, I⟩ := ih hf
    cases st with
    | act t l l' m' hth hs =>
      obtain ⟨k, l⟩ := l
      obtain ⟨k', l'⟩ := l'
      obtain ⟨hk, hs⟩ := hs
      simp only at hk hs
      subst hk
      cases hs with
      | drain hd =>
        obtain ⟨c', B', I'⟩ := I.drain hd
        refine ⟨c', B', ?_⟩
        rw [← hth, Function.update_eq_self]
        exact I'
      | load hc hsem =>
        have hb := I.clean (hf t) hth hc
        rw [view_empty hb] at hsem
        obtain ⟨c', B', I'⟩ := I.commit hth hb hsem
        refine ⟨c', B', ?_⟩
        rw [write_self] at I'
        exact I'
      | store hc hsem => exact I.push hth hc hsem rfl
      | storeWait hc hsem => exact I.push hth hc hsem rfl
      | @waited _ r hb =>
        refine ⟨c, B, I.legal, I.waiting, fun u => ?_, fun u hu => ?_, I.bound⟩
        · by_cases hu : u = t
          · subst hu
            have := I.thread u
            rw [hth] at this
            simp only [Function.update_self]
            exact this
          · simp only [Function.update_of_ne hu]; exact I.thread u
        · have hut : u ≠ t := by
            rintro rfl
            have h2 := (I.waiting u).1
            rw [hb] at h2
            cases h3 : B u with
            | nil => exact hu h3
            | cons a l => rw [h3] at h2; cases h2
          simp only [Function.update_of_ne hut]
          exact I.dirty u hu
      | rmw hc hb hsem => exact I.commit hth hb hsem
      | fence hc hb hsem =>
        obtain ⟨c', B', I'⟩ := I.commit hth hb hsem
        refine ⟨c', B', ?_⟩
        rw [write_self] at I'
        exact I'
  | @ev h s e s' _ st ih =>
    have hf' : ∀ t, Fenced (fun p : K × O => cls p.2) (calls t h) := fun t => by
      have := hf t
      rw [calls_append] at this
      exact fenced_prefix this
    obtain ⟨c, B, I⟩ := ih hf'
    cases st with
    | inv t op hth =>
      refine ⟨c, B, I.legal, I.waiting, fun u => ?_, fun u hu => ?_, I.bound⟩
      · rw [calls_append, results_append]
        by_cases hu : u = t
        · subst hu
          have := I.thread u
          rw [hth] at this
          simp only [ThreadAt] at this
          simp only [Function.update_self, calls, results, if_true, List.append_nil]
          exact ⟨by rw [this.1], this.2⟩
        · have : ¬ t = u := fun e => hu e.symm
          simp only [Function.update_of_ne hu, calls, results, if_neg this, List.append_nil]; exact I.thread u
      · rcases I.dirty u hu with ⟨k, r, hk⟩ | hd
        · by_cases hut : u = t
          · subst hut; rw [hth] at hk; cases hk
          · left; exact ⟨k, r, by simp only [Function.update_of_ne hut]; exact hk⟩
        · exact Or.inr hd
    | ret t l r hth hr =>
      obtain ⟨k, l⟩ := l
      cases l with
      | pending op => cases hr
      | wait r' => cases hr
      | done r' =>
        cases hr
        refine ⟨c, B, I.legal, I.waiting, fun u => ?_, fun u hu => ?_, I.bound⟩
        · rw [calls_append, results_append]
          by_cases hu : u = t
          · subst hu
            have := I.thread u
            rw [hth] at this
            simp only [ThreadAt] at this
            simp only [Function.update_self, calls, results, if_true, List.append_nil]
            exact this
          · have : ¬ t = u := fun e => hu e.symm
            simp only [Function.update_of_ne hu, calls, results, if_neg this, List.append_nil]; exact I.thread u
        · rcases I.dirty u hu with ⟨k', r'', hk⟩ | hd
          · by_cases hut : u = t
            · subst hut; rw [hth] at hk; cases hk
            · left; exact ⟨k', r'', by simp only [Function.update_of_ne hut]; exact hk⟩
          · exact Or.inr hd

/-- Waiting stores can be done whatever is in memory. -/
theorem legal_waiting {m m' : K → V} {c B : List (Act (K × O) R)} {b : List (K × V)}
    (h : Legal (S.many (K := K)) m c m') (hB : List.Forall₂ (IsStore S cls) B b) :
    ∃ m'', Legal (S.many (K := K)) m (c ++ B) m'' := by
  induction hB generalizing c m' with
  | nil => exact ⟨m', by rw [List.append_nil]; exact h⟩
  | @cons a p B b ha _ ih =>
    have := ih (c := c ++ [a]) (.snoc h ⟨p.2, ha.2.2 _, rfl⟩)
    simpa using this

/-- All buffers can be emptied. -/
theorem legal_all {m m' : K → V} {c : List (Act (K × O) R)} {B : Tid → List (Act (K × O) R)} {b : Tid → List (K × V)}
    (h : Legal (S.many (K := K)) m c m') (hB : ∀ t, List.Forall₂ (IsStore S cls) (B t) (b t)) (N : Nat) :
    ∃ m'', Legal (S.many (K := K)) m (c ++ (List.range N).flatMap B) m'' := by
  induction N with
  | zero => exact ⟨m', by simpa using h⟩
  | succ N ih =>
    obtain ⟨m1, h1⟩ := ih
    rw [List.range_succ, List.flatMap_append, ← List.append_assoc]
    simpa using legal_waiting h1 (hB N)

theorem only_flat {B : Tid → List (Act O R)} (hB : ∀ t, ∀ a ∈ B t, a.t = t) (t N : Nat) :
    only t ((List.range N).flatMap B) = if t < N then B t else [] := by
  induction N with
  | zero => simp [only]
  | succ N ih =>
    rw [List.range_succ, List.flatMap_append, only_append, ih]
    simp only [List.flatMap_cons, List.flatMap_nil, List.append_nil]
    by_cases h : t = N
    · subst h
      rw [if_neg (by omega), if_pos (by omega), only_all (hB t), List.nil_append]
    · have : only t (B N) = [] := only_none fun a ha => by rw [hB N a ha]; exact fun e => h e.symm
      rw [this, List.append_nil]
      by_cases h' : t < N
      · rw [if_pos h', if_pos (by omega)]
      · rw [if_neg h', if_neg (by omega)]

/-- Fenced programs are sequentially consistent. -/
theorem fenced_sc {m : K → V} {h : List (Object.Ev (K × O) R)} {s : Lf.State (Mem K V) (K × Loc O R)}
    (hx : Runs (native K S cls) (Mem.flat m) h s) (hf : ∀ t, Fenced (fun p : K × O => cls p.2) (calls t h)) :
    SeqConsistent (S.many (K := K)) m h := by
  obtain ⟨c, B, I⟩ := run_inv hx hf
  obtain ⟨N, hN⟩ := I.bound
  obtain ⟨m', hl⟩ := legal_all I.legal (fun t => (I.waiting t).1) N
  refine ⟨_, m', hl, fun t => ?_⟩
  have e : only t (c ++ (List.range N).flatMap B) = only t c ++ B t := by
    rw [only_append, only_flat fun t => (I.waiting t).2]
    by_cases ht : t < N
    · rw [if_pos ht]
    · rw [if_neg ht]
      have h2 := (I.waiting t).1
      rw [hN t (Nat.le_of_not_lt ht)] at h2
      cases h3 : B t with
      | nil => rfl
      | cons a l => rw [h3] at h2; cases h2
  rw [e]
  have ht := I.thread t
  cases hth : s.th t with
  | none =>
    rw [hth] at ht
    exact ⟨by rw [ht.1]; exact List.prefix_rfl, by rw [ht.2]; exact List.prefix_rfl⟩
  | some p =>
    rw [hth] at ht
    obtain ⟨k, l⟩ := p
    cases l with
    | pending op => exact ⟨by rw [ht.1]; exact List.prefix_append _ _, by rw [ht.2]; exact List.prefix_rfl⟩
    | wait r | done r => exact ⟨by rw [ht.1]; exact List.prefix_rfl, by rw [← ht.2]; exact List.prefix_append _ _⟩

/-! ## Only waiting stores -/

/-- A thread of the machine and of the object. -/
def WaitAt (S : Spec V O R) (th : Option (K × Loc O R)) (b : List (K × V))
    (st : Status (K × O) R) : Prop :=
  match th with
  | none => b = [] ∧ st = .idle
  | some (k, .pending op) => b = [] ∧ st = .pending (k, op)
  | some (_, .wait r) => (b = [] ∧ st = .done r) ∨
      ∃ k op v, b = [(k, v)] ∧ st = .pending (k, op) ∧ ∀ x, S.sem op x v r
  | some (_, .done r) => b = [] ∧ st = .done r

/-- When every store waits for the buffer, histories are linearizable. -/
theorem waiting_linearizable {m : K → V} {h : List (Object.Ev (K × O) R)} {s : Lf.State (Mem K V) (K × Loc O R)}
    (hx : Runs (native K S cls) (Mem.flat m) h s)
    (hw : ∀ t op v, op ∈ calls t h → cls op.2 ≠ .store v false) :
    Linearizable (S.many (K := K)) m h := by
  have key : ∃ a, Exec (Object.Step (S.many (K := K))) { obj := m, th := fun _ => .idle } h a ∧
      a.obj = s.mem.mem ∧ (∀ t, WaitAt S (s.th t) (s.mem.buf t) (a.th t)) ∧
      ∀ t k op, s.th t = some (k, .pending op) → (k, op) ∈ calls t h := by
    generalize hi : ({ mem := Mem.flat m, th := fun _ => none } : Lf.State (Mem K V) (K × Loc O R)) = i at hx
    unfold Runs at hx
    rw [hi] at hx
    induction hx with
    | refl => subst hi; exact ⟨_, .refl _, rfl, fun t => ⟨rfl, rfl⟩, fun _ _ _ h => by cases h⟩
    | @tau h s s' _ st ih =>
      obtain ⟨a, ha, ho, hat, hp⟩ := ih hw
      cases st with
      | act t l l' m' hth hs =>
        obtain ⟨k, l⟩ := l
        obtain ⟨k', l'⟩ := l'
        obtain ⟨hk, hs⟩ := hs
        simp only at hk hs
        subst hk
        have hpu : ∀ u k op, (∃ r, l' = .done r) ∨ (∃ r, l' = .wait r) →
            Function.update s.th t (some (k', l')) u = some (k, .pending op) → (k, op) ∈ calls u h := by
          intro u k op hl hu
          by_cases hut : u = t
          · subst hut
            simp only [Function.update_self, Option.some.injEq, Prod.mk.injEq] at hu
            rcases hl with ⟨r, hl⟩ | ⟨r, hl⟩ <;> (rw [hl] at hu; cases hu.2)
          · rw [Function.update_of_ne hut] at hu; exact hp u k op hu
        have one : ∀ {op : O} {x : V} {r : R}, s.th t = some (k', .pending op) → S.sem op (s.mem.mem k') x r →
            s.mem.buf t = [] → l' = .done r →
            ∃ a', Exec (Object.Step (S.many (K := K))) { obj := m, th := fun _ => .idle } h a' ∧
              a'.obj = (s.mem.write k' x).mem ∧
              (∀ u, WaitAt S (Function.update s.th t (some (k', l')) u) ((s.mem.write k' x).buf u) (a'.th u)) := by
          intro op x r hth' hsem hb hl
          have h1 := hat t
          rw [hth'] at h1
          refine ⟨_, .tau ha (.commit a t (k', op) _ r h1.2 ⟨x, by rw [ho]; exact hsem, rfl⟩), ?_, fun u => ?_⟩
          · simp only [Mem.write, ho]
          · by_cases hu : u = t
            · subst hu; simp only [Function.update_self, hl]; exact ⟨hb, rfl⟩
            · simp only [Function.update_of_ne hu]; exact hat u
        cases hs with
        | drain hd =>
          have e : Function.update s.th t (s.th t) = s.th := Function.update_eq_self _ _
          rw [← hth, e]
          cases hd with
          | @mk u k v b hb =>
            have h1 := hat u
            rw [hb] at h1
            cases hu : s.th u with
            | none => rw [hu] at h1; cases h1.1
            | some p =>
              obtain ⟨kk, l⟩ := p
              rw [hu] at h1
              cases l with
              | pending op => cases h1.1
              | done r => cases h1.1
              | wait r =>
                rcases h1 with ⟨h1, -⟩ | ⟨k2, op, v2, h1, h2, h3⟩
                · cases h1
                simp only [List.cons.injEq, Prod.mk.injEq] at h1
                obtain ⟨⟨rfl, rfl⟩, rfl⟩ := h1
                refine ⟨_, .tau ha (.commit a u (k, op) _ r h2 ⟨v, h3 _, rfl⟩), ?_, fun w => ?_, hp⟩
                · simp only [ho]
                · by_cases hw : w = u
                  · subst hw; simp only [Function.update_self, hu]; exact Or.inl ⟨rfl, rfl⟩
                  · simp only [Function.update_of_ne hw]; exact hat w
        | @load op _ r hc hsem =>
          have h1 := hat t
          rw [hth] at h1
          rw [view_empty h1.1] at hsem
          obtain ⟨a', e1, e2, e3⟩ := one hth hsem h1.1 rfl
          rw [write_self] at e2 e3
          exact ⟨a', e1, e2, e3, fun u k op => hpu u k op (Or.inl ⟨_, rfl⟩)⟩
        | @store op _ v r hc hsem => exact absurd hc (hw t (k', op) v (hp t k' op hth))
        | @storeWait op _ v r hc hsem =>
          have h1 := hat t
          rw [hth] at h1
          refine ⟨a, ha, ho, fun u => ?_, fun u k op => hpu u k op (Or.inr ⟨_, rfl⟩)⟩
          by_cases hu : u = t
          · subst hu
            simp only [Function.update_self, Mem.push]
            exact Or.inr ⟨k', op, v, by rw [h1.1]; rfl, h1.2, hsem⟩
          · simp only [Function.update_of_ne hu, Mem.push]; exact hat u
        | @waited _ r hb =>
          refine ⟨a, ha, ho, fun u => ?_, fun u k op => hpu u k op (Or.inl ⟨_, rfl⟩)⟩
          by_cases hu : u = t
          · subst hu
            have h1 := hat u
            rw [hth, hb] at h1
            simp only [Function.update_self]
            rcases h1 with h1 | ⟨_, _, _, h1, _⟩
            · exact ⟨hb, h1.2⟩
            · cases h1
          · simp only [Function.update_of_ne hu]; exact hat u
        | @rmw op _ x r hc hb hsem =>
          obtain ⟨a', e1, e2, e3⟩ := one hth hsem hb rfl
          exact ⟨a', e1, e2, e3, fun u k op => hpu u k op (Or.inl ⟨_, rfl⟩)⟩
        | @fence op _ r hc hb hsem =>
          obtain ⟨a', e1, e2, e3⟩ := one hth hsem hb rfl
          rw [write_self] at e2 e3
          exact ⟨a', e1, e2, e3, fun u k op => hpu u k op (Or.inl ⟨_, rfl⟩)⟩
    | @ev h s e s' _ st ih =>
      have hw' : ∀ t op v, op ∈ calls t h → cls op.2 ≠ .store v false := fun t op v ho =>
        hw t op v (by rw [calls_append]; exact List.mem_append_left _ ho)
      obtain ⟨a, ha, ho, hat, hp⟩ := ih hw'
      cases st with
      | inv t op hth =>
        have h1 := hat t
        rw [hth] at h1
        refine ⟨_, .ev ha (.inv a t op h1.2), ho, fun u => ?_, fun u k p hu => ?_⟩
        · by_cases hu : u = t
          · subst hu; simp only [Function.update_self]; exact ⟨h1.1, rfl⟩
          · simp only [Function.update_of_ne hu]; exact hat u
        · rw [calls_append]
          by_cases hut : u = t
          · subst hut
            simp only [Function.update_self, native, Option.some.injEq, Prod.mk.injEq, Loc.pending.injEq] at hu
            obtain ⟨rfl, rfl⟩ := hu
            simp [calls]
          · simp only [Function.update_of_ne hut] at hu
            exact List.mem_append_left _ (hp u k p hu)
      | ret t l r hth hr =>
        obtain ⟨k, l⟩ := l
        cases l with
        | pending op => cases hr
        | wait r' => cases hr
        | done r' =>
          cases hr
          have h1 := hat t
          rw [hth] at h1
          refine ⟨_, .ev ha (.ret a t r h1.2), ho, fun u => ?_, fun u k p hu => ?_⟩
          · by_cases hu : u = t
            · subst hu; simp only [Function.update_self]; exact ⟨h1.1, rfl⟩
            · simp only [Function.update_of_ne hu]; exact hat u
          · rw [calls_append]
            by_cases hut : u = t
            · subst hut; simp at hu
            · simp only [Function.update_of_ne hut] at hu
              exact List.mem_append_left _ (hp u k p hu)
  obtain ⟨a, ha, -⟩ := key
  exact ⟨_, a, ha, rfl⟩

end Verif.Tso
