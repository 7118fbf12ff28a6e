import Verif.Tso.Ra
import Verif.Tso.Sc
/-!
# Histories on x86's memory are release/acquire consistent

Along a run we note the operations done (`D`), the order in which writes reached memory (`c`), the writes in the buffers (`B`), how
many writes were in memory when a load or fence was done (`seen`), and the values written (`val`).
-/
set_option autoImplicit false
set_option linter.unusedSectionVars false
namespace Verif.Tso
open Verif.Object Verif.Lf

variable {K V O R : Type} [DecidableEq K] {S : Spec V O R} {cls : O → Cls V} {m : K → V} {D : Tid → List (Act (K × O) R)}

/-- A thread does one more operation. -/
def ext (D : Tid → List (Act (K × O) R)) (t : Tid) (a : Act (K × O) R) : Tid → List (Act (K × O) R) :=
  Function.update D t (D t ++ [a])

section ext
variable {t : Tid} {a : Act (K × O) R}

theorem look_ext {e : Event} (h : e ≠ (t, (D t).length)) : (ext D t a e.1)[e.2]? = (D e.1)[e.2]? := by
  obtain ⟨u, i⟩ := e
  by_cases hu : u = t
  · subst hu
    have hi : i ≠ (D u).length := fun hi => h (by rw [hi])
    simp only [ext, Function.update_self]
    rcases Nat.lt_or_ge i (D u).length with hl | hl
    · rw [List.getElem?_append_left hl]
    · rw [List.getElem?_eq_none (by simp; omega), List.getElem?_eq_none hl]
  · simp [ext, Function.update_of_ne hu]

theorem look_new : (ext D t a t)[(D t).length]? = some a := by simp [ext]

theorem look_old : (D t)[(D t).length]? = none := by simp

theorem clsOf_ext {e : Event} (h : e ≠ (t, (D t).length)) : clsOf cls (ext D t a) e = clsOf cls D e := by
  unfold clsOf; rw [look_ext h]

theorem isWr_ext {e : Event} (h : e ≠ (t, (D t).length)) : isWr cls (ext D t a) e = isWr cls D e := by
  unfold isWr; rw [clsOf_ext h]

theorem isOn_ext {e : Event} {p : Cls V → Bool} {k : K} (h : e ≠ (t, (D t).length)) :
    IsOn cls (ext D t a) p e k ↔ IsOn cls D p e k := by
  unfold IsOn; rw [look_ext h]

theorem isWr_new : isWr cls (ext D t a) (t, (D t).length) = (cls a.op.2).writes := by
  simp only [isWr, clsOf, look_new, Option.map_some]

theorem isWr_old : isWr cls D (t, (D t).length) = false := by
  simp [isWr, clsOf]

theorem isOn_old {p : Cls V → Bool} {k : K} : ¬ IsOn cls D p (t, (D t).length) k := by
  rintro ⟨b, h, -⟩
  simp at h

theorem po_ext {e e' : Event} (h : Po (ext D t a) e e') : e ≠ (t, (D t).length) ∧
    ((e' ≠ (t, (D t).length) ∧ Po D e e') ∨ (e' = (t, (D t).length) ∧ e.1 = t ∧ e.2 < (D t).length)) := by
  obtain ⟨u, i⟩ := e
  obtain ⟨u', j⟩ := e'
  obtain ⟨h1, h2, h3⟩ := h
  simp only at h1 h2 h3
  subst h1
  by_cases hu : u = t
  · subst hu
    simp only [ext, Function.update_self, List.length_append, List.length_cons, List.length_nil] at h3
    have hi : i < (D u).length := by omega
    refine ⟨fun h => ?_, ?_⟩
    · simp only [Prod.mk.injEq, true_and] at h; omega
    · by_cases hj : j = (D u).length
      · subst hj; exact Or.inr ⟨rfl, rfl, hi⟩
      · exact Or.inl ⟨fun h => hj (by simpa using h), rfl, h2, by simp only; omega⟩
  · simp only [ext, Function.update_of_ne hu] at h3
    exact ⟨fun h => hu (by simpa using congrArg Prod.fst h), Or.inl ⟨fun h => hu (by simpa using congrArg Prod.fst h), rfl, h2, h3⟩⟩

theorem len_ext {e : Event} (h : e.2 < (ext D t a e.1).length) :
    e = (t, (D t).length) ∨ (e ≠ (t, (D t).length) ∧ e.2 < (D e.1).length) := by
  by_cases he : e = (t, (D t).length)
  · exact Or.inl he
  · refine Or.inr ⟨he, ?_⟩
    have := look_ext (a := a) he
    rw [List.getElem?_eq_getElem h] at this
    exact (List.getElem?_eq_some_iff.1 this.symm).1

end ext

theorem isWr_lt {e : Event} (h : isWr cls D e = true) : e.2 < (D e.1).length := (isWr_iff.1 h).lt

theorem IsOn.wr {e : Event} {k : K} (h : IsOn cls D Cls.writes e k) : isWr cls D e = true := isWr_iff.2 h.is

/-! ## Order of writes known so far -/

/-- `w'` is `w` or comes before it in memory order, now or when the buffers are emptied. -/
def Le (c : List Event) (w' w : Event) : Prop :=
  w' = w ∨ (∃ n' n : Nat, n' < n ∧ c[n']? = some w' ∧ c[n]? = some w) ∨ (w' ∈ c ∧ w ∉ c) ∨ (w'.1 = w.1 ∧ w'.2 < w.2)

theorem get_snoc {c : List Event} {x : Event} {n : Nat} {w : Event} (h : c[n]? = some w) : (c ++ [x])[n]? = some w := by
  rw [List.getElem?_append_left (List.getElem?_eq_some_iff.1 h).1, h]

theorem snoc_get {c : List Event} {x : Event} {n : Nat} {w : Event} (h : (c ++ [x])[n]? = some w) :
    c[n]? = some w ∨ (n = c.length ∧ w = x) := by
  rcases Nat.lt_trichotomy n c.length with hn | hn | hn
  · rw [List.getElem?_append_left hn] at h; exact Or.inl h
  · subst hn; simp at h; exact Or.inr ⟨rfl, h.symm⟩
  · rw [List.getElem?_eq_none (by simp; omega)] at h; cases h

theorem Le.snoc {c : List Event} {x w' w : Event} (h : Le c w' w) : Le (c ++ [x]) w' w := by
  rcases h with h | ⟨n', n, h1, h2, h3⟩ | ⟨h1, h2⟩ | h
  · exact Or.inl h
  · exact Or.inr (Or.inl ⟨n', n, h1, get_snoc h2, get_snoc h3⟩)
  · obtain ⟨n', h3⟩ := List.mem_iff_getElem?.1 h1
    by_cases hw : w = x
    · subst hw
      exact Or.inr (Or.inl ⟨n', c.length, (List.getElem?_eq_some_iff.1 h3).1, get_snoc h3, by simp⟩)
    · exact Or.inr (Or.inr (Or.inl ⟨by simp [h1], by simp [h2, hw]⟩))
  · exact Or.inr (Or.inr (Or.inr h))

/-- The writes visible to `e` when `lim` writes are in memory. -/
def VisC (c : List Event) (lim : Nat) (e w : Event) : Prop :=
  (∃ n : Nat, n < lim ∧ c[n]? = some w) ∨ (w.1 = e.1 ∧ w.2 < e.2)

/-- `s` is the newest of the visible writes to `k`. -/
def Src (cls : O → Cls V) (D : Tid → List (Act (K × O) R)) (c : List Event) (lim : Nat) (e : Event) (k : K) (s : Option Event) : Prop :=
  (∀ w, s = some w → VisC c lim e w ∧ IsOn cls D Cls.writes w k ∧
    ∀ w', VisC c lim e w' → IsOn cls D Cls.writes w' k → Le c w' w) ∧
  (s = none → ∀ w', VisC c lim e w' → ¬ IsOn cls D Cls.writes w' k)

theorem visC_snoc {c : List Event} {x : Event} {lim : Nat} (hl : lim ≤ c.length) {e w : Event} :
    VisC (c ++ [x]) lim e w ↔ VisC c lim e w := by
  constructor
  · rintro (⟨n, h1, h2⟩ | h)
    · rcases snoc_get h2 with h | ⟨h, -⟩
      · exact Or.inl ⟨n, h1, h⟩
      · omega
    · exact Or.inr h
  · rintro (⟨n, h1, h2⟩ | h)
    · exact Or.inl ⟨n, h1, get_snoc h2⟩
    · exact Or.inr h

theorem Src.snoc {c : List Event} {x : Event} {lim : Nat} (hl : lim ≤ c.length) {e : Event} {k : K} {s : Option Event}
    (h : Src cls D c lim e k s) : Src cls D (c ++ [x]) lim e k s := by
  constructor
  · intro w hw
    obtain ⟨h1, h2, h3⟩ := h.1 w hw
    exact ⟨(visC_snoc hl).2 h1, h2, fun w' hv hi => (h3 w' ((visC_snoc hl).1 hv) hi).snoc⟩
  · intro hn w' hv
    exact h.2 hn w' ((visC_snoc hl).1 hv)

theorem Src.ext {c : List Event} {lim : Nat} {e : Event} {k : K} {s : Option Event} {t : Tid} {a : Act (K × O) R}
    (hc : ∀ w ∈ c, w ≠ (t, (D t).length)) (he : e.2 < (D e.1).length)
    (h : Src cls D c lim e k s) : Src cls (ext D t a) c lim e k s := by
  have hne : ∀ w, VisC c lim e w → w ≠ (t, (D t).length) := by
    rintro w (⟨n, -, h2⟩ | ⟨h1, h2⟩) rfl
    · exact hc _ (List.mem_of_getElem? h2) rfl
    · simp only at h1 h2
      subst h1
      omega
  constructor
  · intro w hw
    obtain ⟨h1, h2, h3⟩ := h.1 w hw
    exact ⟨h1, (isOn_ext (hne w h1)).2 h2, fun w' hv hi => h3 w' hv ((isOn_ext (hne w' hv)).1 hi)⟩
  · intro hn w' hv hi
    exact h.2 hn w' hv ((isOn_ext (hne w' hv)).1 hi)

/-! ## The invariant -/

structure Core (S : Spec V O R) (cls : O → Cls V) (m : K → V) (M : Mem K V) (D : Tid → List (Act (K × O) R)) (c : List Event)
    (B : Tid → List Nat) (seen : Event → Nat) (val : Event → V) : Prop where
  cw : ∀ e ∈ c, isWr cls D e = true
  cinc : ∀ (n n' : Nat) (t : Tid) (i j : Nat), c[n]? = some (t, i) → c[n']? = some (t, j) → n < n' → i < j
  cB : ∀ (t : Tid) (i j : Nat), (t, i) ∈ c → j ∈ B t → i < j
  Bw : ∀ (t : Tid) (j : Nat), j ∈ B t → isWr cls D (t, j) = true
  Binc : ∀ t, (B t).Pairwise (· < ·)
  all : ∀ (t : Tid) (i : Nat), isWr cls D (t, i) = true → (t, i) ∈ c ∨ i ∈ B t
  buf : ∀ t, List.Forall₂ (fun (i : Nat) (p : K × V) => IsOn cls D Cls.writes (t, i) p.1 ∧ val (t, i) = p.2) (B t) (M.buf t)
  mem : ∀ k, ∃ s : Option Event, M.mem k = (s.map val).getD (m k) ∧
    (∀ w, s = some w → IsOn cls D Cls.writes w k ∧ ∃ n : Nat, c[n]? = some w ∧
      ∀ (n' : Nat) (w' : Event), n < n' → c[n']? = some w' → ¬ IsOn cls D Cls.writes w' k) ∧
    (s = none → ∀ w ∈ c, ¬ IsOn cls D Cls.writes w k)
  seenLe : ∀ e : Event, e.2 < (D e.1).length → isWr cls D e = false → seen e ≤ c.length
  rr : ∀ e e', Po D e e' → isWr cls D e = false → isWr cls D e' = false → seen e ≤ seen e'
  rw_ : ∀ e e' (n : Nat), Po D e e' → isWr cls D e = false → c[n]? = some e' → seen e ≤ n
  wr_ : ∀ e e', Po D e e' → isWr cls D e = true → isWr cls D e' = false →
    ¬ ((∃ v, clsOf cls D e = some (.store v false)) ∧ clsOf cls D e' = some .load) → ∃ n : Nat, n < seen e' ∧ c[n]? = some e
  store : ∀ (e : Event) a v w, (D e.1)[e.2]? = some a → cls a.op.2 = .store v w → val e = v ∧ ∀ x, S.sem a.op.2 x v a.r
  load : ∀ (e : Event) a, (D e.1)[e.2]? = some a → cls a.op.2 = .load → ∃ s : Option Event,
    Src cls D c (seen e) e a.op.1 s ∧ S.sem a.op.2 ((s.map val).getD (m a.op.1)) ((s.map val).getD (m a.op.1)) a.r
  rmw : ∀ (e : Event) a, (D e.1)[e.2]? = some a → cls a.op.2 = .rmw → ∃ (n : Nat) (s : Option Event), c[n]? = some e ∧
    Src cls D c n e a.op.1 s ∧ S.sem a.op.2 ((s.map val).getD (m a.op.1)) (val e) a.r

section steps
variable {M : Mem K V} {c : List Event} {B : Tid → List Nat} {seen : Event → Nat} {val : Event → V}

theorem Core.notin (X : Core S cls m M D c B seen val) {t : Tid} : (t, (D t).length) ∉ c := fun h => by
  have := X.cw _ h
  rw [isWr_old] at this; cases this

theorem Core.notin' (X : Core S cls m M D c B seen val) {t : Tid} {w : Event} (h : w ∈ c) : w ≠ (t, (D t).length) := by
  rintro rfl; exact X.notin h

theorem Core.notB (X : Core S cls m M D c B seen val) {t : Tid} {j : Nat} (h : j ∈ B t) : j < (D t).length :=
  isWr_lt (X.Bw t j h)

theorem newest_spec {t : Tid} {k : K} {b : List Nat} {q : List (K × V)} (hi : b.Pairwise (· < ·))
    (h : List.Forall₂ (fun (i : Nat) (p : K × V) => IsOn cls D Cls.writes (t, i) p.1 ∧ val (t, i) = p.2) b q) :
    (∃ i ∈ b, newest k q = some (val (t, i)) ∧ IsOn cls D Cls.writes (t, i) k ∧
      ∀ j ∈ b, IsOn cls D Cls.writes (t, j) k → j ≤ i) ∨
    (newest k q = none ∧ ∀ j ∈ b, ¬ IsOn cls D Cls.writes (t, j) k) := by
  induction h with
  | nil => exact Or.inr ⟨rfl, fun j hj => by cases hj⟩
  | @cons i p b q hp _ ih =>
    rw [List.pairwise_cons] at hi
    have key : ∀ {k'}, IsOn cls D Cls.writes (t, i) k' → k' = p.1 := by
      rintro k' ⟨a, h1, -, rfl⟩
      obtain ⟨⟨a', h2, -, h3⟩, -⟩ := hp
      rw [h1] at h2; cases h2; exact h3
    rcases ih hi.2 with ⟨j, hj, h1, h2, h3⟩ | ⟨h1, h2⟩
    · refine Or.inl ⟨j, by simp [hj], by simp [newest, h1], h2, ?_⟩
      intro j' hj' ho
      rcases List.mem_cons.1 hj' with rfl | hj'
      · exact Nat.le_of_lt (hi.1 j hj)
      · exact h3 j' hj' ho
    · by_cases hk : p.1 = k
      · refine Or.inl ⟨i, by simp, by simp [newest, h1, hk, hp.2], hk ▸ hp.1, ?_⟩
        intro j' hj' ho
        rcases List.mem_cons.1 hj' with rfl | hj'
        · exact Nat.le_refl _
        · exact absurd ho (h2 j' hj')
      · refine Or.inr ⟨by simp [newest, h1, hk], ?_⟩
        intro j' hj' ho
        rcases List.mem_cons.1 hj' with rfl | hj'
        · exact hk (key ho).symm
        · exact h2 j' hj' ho

/-- What a load finds is the newest visible write. -/
theorem Core.view (X : Core S cls m M D c B seen val) (t : Tid) (k : K) : ∃ s : Option Event,
    Src cls D c c.length (t, (D t).length) k s ∧ M.view t k = (s.map val).getD (m k) := by
  have memc : ∀ {w}, VisC c c.length (t, (D t).length) w → isWr cls D w = true → w ∈ c ∨ (w.1 = t ∧ w.2 ∈ B t) := by
    rintro ⟨u, i⟩ (⟨n, -, h⟩ | ⟨h1, -⟩) hw
    · exact Or.inl (List.mem_of_getElem? h)
    · simp only at h1; subst h1
      rcases X.all u i hw with h | h
      · exact Or.inl h
      · exact Or.inr ⟨rfl, h⟩
  rcases newest_spec (k := k) (X.Binc t) (X.buf t) with ⟨i, hi, h1, h2, h3⟩ | ⟨h1, h2⟩
  · refine ⟨some (t, i), ⟨?_, fun h => by cases h⟩, by simp [Mem.view, h1]⟩
    rintro w hw
    cases hw
    refine ⟨Or.inr ⟨rfl, X.notB hi⟩, h2, fun w' hv ho => ?_⟩
    rcases memc hv ho.wr with h | ⟨h, h'⟩
    · refine Or.inr (Or.inr (Or.inl ⟨h, fun h => ?_⟩))
      exact Nat.lt_irrefl _ (X.cB t i i h hi)
    · obtain ⟨u, j⟩ := w'
      simp only at h h'; subst h
      rcases Nat.lt_or_eq_of_le (h3 j h' ho) with h | h
      · exact Or.inr (Or.inr (Or.inr ⟨rfl, h⟩))
      · subst h; exact Or.inl rfl
  · obtain ⟨s, hs, hs1, hs2⟩ := X.mem k
    refine ⟨s, ⟨?_, ?_⟩, by simp [Mem.view, h1, hs]⟩
    · intro w hw
      obtain ⟨ho, n, hn, hn'⟩ := hs1 w hw
      refine ⟨Or.inl ⟨n, (List.getElem?_eq_some_iff.1 hn).1, hn⟩, ho, fun w' hv ho' => ?_⟩
      rcases memc hv ho'.wr with h | ⟨h, h'⟩
      · obtain ⟨n', h⟩ := List.mem_iff_getElem?.1 h
        rcases Nat.lt_trichotomy n' n with h3 | h3 | h3
        · exact Or.inr (Or.inl ⟨n', n, h3, h, hn⟩)
        · subst h3; rw [h] at hn; cases hn; exact Or.inl rfl
        · exact absurd ho' (hn' n' w' h3 h)
      · obtain ⟨u, j⟩ := w'
        simp only at h h'; subst h
        exact absurd ho' (h2 j h')
    · intro hn w' hv ho'
      rcases memc hv ho'.wr with h | ⟨h, h'⟩
      · exact hs2 hn w' h ho'
      · obtain ⟨u, j⟩ := w'
        simp only at h h'; subst h
        exact h2 j h' ho'

/-- What a locked instruction finds is the newest write in memory. -/
theorem Core.cell (X : Core S cls m M D c B seen val) (t : Tid) (k : K) (hB : B t = []) : ∃ s : Option Event,
    Src cls D c c.length (t, (D t).length) k s ∧ M.mem k = (s.map val).getD (m k) := by
  obtain ⟨s, h1, h2⟩ := X.view t k
  refine ⟨s, h1, ?_⟩
  rw [← h2]
  have := X.buf t
  rw [hB] at this
  cases hb : M.buf t with
  | nil => simp [Mem.view, hb, newest]
  | cons p q => rw [hb] at this; cases this

theorem Core.buf_nil (X : Core S cls m M D c B seen val) {t : Tid} (h : M.buf t = []) : B t = [] := by
  have := X.buf t
  rw [h] at this
  cases hB : B t with
  | nil => rfl
  | cons p q => rw [hB] at this; cases this

/-- A store reaches memory. -/
theorem Core.drain (X : Core S cls m M D c B seen val) {M' : Mem K V} (h : Drain M M') :
    ∃ c' B', Core S cls m M' D c' B' seen val ∧ ∀ t i, i ∈ B' t → i ∈ B t := by
  obtain ⟨hb⟩ := h
  rename_i u k v b
  have hf := X.buf u
  rw [hb] at hf
  cases hB : B u with
  | nil => rw [hB] at hf; cases hf
  | cons i B' =>
  rw [hB] at hf
  cases hf with
  | cons hp hq =>
  simp only at hp
  have hinc := X.Binc u
  rw [hB, List.pairwise_cons] at hinc
  have hsub : ∀ t j, j ∈ Function.update B u B' t → j ∈ B t := by
    intro t j hj
    by_cases ht : t = u
    · subst ht; simp at hj; rw [hB]; simp [hj]
    · rwa [Function.update_of_ne ht] at hj
  have hw : isWr cls D (u, i) = true := hp.1.wr
  refine ⟨c ++ [(u, i)], Function.update B u B', ⟨?_, ?_, ?_, ?_, ?_, ?_, ?_, ?_, ?_, X.rr, ?_, ?_, X.store, ?_, ?_⟩, hsub⟩
  · intro e he
    rcases List.mem_append.1 he with he | he
    · exact X.cw e he
    · simp at he; rw [he]; exact hw
  · intro n n' t j j' h1 h2 hn
    rcases snoc_get h2 with h2 | ⟨rfl, h3⟩
    · rcases snoc_get h1 with h1 | ⟨rfl, -⟩
      · exact X.cinc n n' t j j' h1 h2 hn
      · have := (List.getElem?_eq_some_iff.1 h2).1; omega
    · cases h3
      rcases snoc_get h1 with h1 | ⟨rfl, -⟩
      · exact X.cB u j i (List.mem_of_getElem? h1) (by rw [hB]; simp)
      · omega
  · intro t j j' h1 h2
    rcases List.mem_append.1 h1 with h1 | h1
    · exact X.cB t j j' h1 (hsub t j' h2)
    · simp at h1
      obtain ⟨rfl, rfl⟩ := h1
      simp at h2
      exact hinc.1 j' h2
  · intro t j hj
    exact X.Bw t j (hsub t j hj)
  · intro t
    by_cases ht : t = u
    · subst ht; simp; exact hinc.2
    · rw [Function.update_of_ne ht]; exact X.Binc t
  · intro t j hj
    rcases X.all t j hj with h | h
    · exact Or.inl (by simp [h])
    · by_cases ht : t = u
      · subst ht
        rw [hB] at h
        rcases List.mem_cons.1 h with rfl | h
        · exact Or.inl (by simp)
        · exact Or.inr (by simpa using h)
      · exact Or.inr (by rwa [Function.update_of_ne ht])
  · intro t
    by_cases ht : t = u
    · subst ht; simp; exact hq
    · simp only [Function.update_of_ne ht]; exact X.buf t
  · intro k'
    by_cases hk : k' = k
    · subst hk
      refine ⟨some (u, i), by simp [hp.2], ?_, fun h => by cases h⟩
      intro w hw'
      cases hw'
      refine ⟨hp.1, c.length, by simp, fun n' w' hn h => ?_⟩
      have := (List.getElem?_eq_some_iff.1 h).1
      simp at this; omega
    · have hno : ¬ IsOn cls D Cls.writes (u, i) k' := by
        rintro ⟨a, h1, -, h2⟩
        obtain ⟨⟨a', h3, -, h4⟩, -⟩ := hp
        rw [h1] at h3; cases h3
        exact hk (h2.symm.trans h4)
      obtain ⟨s, h1, h2, h3⟩ := X.mem k'
      refine ⟨s, by simpa [Function.update_of_ne hk] using h1, ?_, ?_⟩
      · intro w hw'
        obtain ⟨h4, n, h5, h6⟩ := h2 w hw'
        refine ⟨h4, n, get_snoc h5, fun n' w' hn h => ?_⟩
        rcases snoc_get h with h | ⟨-, rfl⟩
        · exact h6 n' w' hn h
        · exact hno
      · intro hn w hw'
        rcases List.mem_append.1 hw' with h | h
        · exact h3 hn w h
        · simp at h; rw [h]; exact hno
  · intro e h1 h2
    have := X.seenLe e h1 h2
    simp; omega
  · intro e e' n h1 h2 h3
    rcases snoc_get h3 with h3 | ⟨rfl, -⟩
    · exact X.rw_ e e' n h1 h2 h3
    · refine X.seenLe e ?_ h2
      obtain ⟨h4, h5, h6⟩ := h1
      rw [h4]; omega
  · intro e e' h1 h2 h3 h4
    obtain ⟨n, h5, h6⟩ := X.wr_ e e' h1 h2 h3 h4
    exact ⟨n, h5, get_snoc h6⟩
  · intro e a h1 h2
    obtain ⟨s, h3, h4⟩ := X.load e a h1 h2
    refine ⟨s, h3.snoc (X.seenLe e (List.getElem?_eq_some_iff.1 h1).1 ?_), h4⟩
    simp [isWr, clsOf, h1, h2, Cls.writes]
  · intro e a h1 h2
    obtain ⟨n, s, h3, h4, h5⟩ := X.rmw e a h1 h2
    exact ⟨n, s, get_snoc h3, h4.snoc (Nat.le_of_lt (List.getElem?_eq_some_iff.1 h3).1), h5⟩

/-- Changes of `seen` or `val` at the new operation do not matter for old ones. -/
theorem map_upd {t : Tid} {n : Nat} {v : V} {s : Option Event} {x : V} (h : ∀ w, s = some w → w ≠ (t, n)) :
    (s.map (Function.update val (t, n) v)).getD x = (s.map val).getD x := by
  cases s with
  | none => rfl
  | some w => simp [Function.update_of_ne (h w rfl)]

theorem Src.ne {c : List Event} {lim : Nat} {e : Event} {k : K} {s : Option Event} {t : Tid}
    (h : Src cls D c lim e k s) : ∀ w, s = some w → w ≠ (t, (D t).length) := by
  rintro w hw rfl
  exact isOn_old (h.1 _ hw).2.1

/-- A load or a fence is done. -/
theorem Core.addRead (X : Core S cls m M D c B seen val) (t : Tid) (a : Act (K × O) R) (hw : (cls a.op.2).writes = false)
    (hB : ∀ i ∈ B t, (∃ v, clsOf cls D (t, i) = some (.store v false)) ∧ cls a.op.2 = .load)
    (hs : cls a.op.2 = .load → S.sem a.op.2 (M.view t a.op.1) (M.view t a.op.1) a.r) :
    Core S cls m M (ext D t a) c B (Function.update seen (t, (D t).length) c.length) val := by
  have hcne : ∀ {w}, w ∈ c → w ≠ (t, (D t).length) := fun h => X.notin' h
  have hBne : ∀ {u j}, j ∈ B u → ((u, j) : Event) ≠ (t, (D t).length) := by
    intro u j hj he
    cases he
    exact Nat.lt_irrefl _ (X.notB hj)
  have hwr : ∀ {e}, isWr cls (ext D t a) e = isWr cls D e := by
    intro e
    by_cases he : e = (t, (D t).length)
    · rw [he, isWr_new, isWr_old, hw]
    · exact isWr_ext he
  have hon : ∀ {w k}, IsOn cls (ext D t a) Cls.writes w k ↔ IsOn cls D Cls.writes w k := by
    intro w k
    by_cases he : w = (t, (D t).length)
    · subst he
      refine ⟨fun h => ?_, fun h => absurd h isOn_old⟩
      have := h.wr
      rw [isWr_new, hw] at this; cases this
    · exact isOn_ext he
  refine ⟨?_, X.cinc, X.cB, ?_, X.Binc, ?_, ?_, ?_, ?_, ?_, ?_, ?_, ?_, ?_, ?_⟩
  · intro e he; rw [hwr]; exact X.cw e he
  · intro u j hj; rw [hwr]; exact X.Bw u j hj
  · intro u i hi; rw [hwr] at hi; exact X.all u i hi
  · intro u
    refine (X.buf u).imp ?_
    rintro i p ⟨h1, h2⟩
    exact ⟨hon.2 h1, h2⟩
  · intro k
    obtain ⟨s, h1, h2, h3⟩ := X.mem k
    refine ⟨s, h1, fun w hw' => ?_, fun hn w hw' h => h3 hn w hw' (hon.1 h)⟩
    obtain ⟨h4, n, h5, h6⟩ := h2 w hw'
    exact ⟨hon.2 h4, n, h5, fun n' w' h7 h8 h9 => h6 n' w' h7 h8 (hon.1 h9)⟩
  · intro e h1 h2
    rw [hwr] at h2
    rcases len_ext h1 with rfl | ⟨he, h1⟩
    · simp
    · rw [Function.update_of_ne he]; exact X.seenLe e h1 h2
  · intro e e' h1 h2 h3
    rw [hwr] at h2 h3
    obtain ⟨he, ⟨he', h4⟩ | ⟨rfl, h4, h5⟩⟩ := po_ext h1
    · rw [Function.update_of_ne he, Function.update_of_ne he']; exact X.rr e e' h4 h2 h3
    · rw [Function.update_of_ne he, Function.update_self]
      exact X.seenLe e (by rw [h4]; exact h5) h2
  · intro e e' n h1 h2 h3
    rw [hwr] at h2
    obtain ⟨he, ⟨-, h4⟩ | ⟨rfl, -⟩⟩ := po_ext h1
    · rw [Function.update_of_ne he]; exact X.rw_ e e' n h4 h2 h3
    · exact absurd (List.mem_of_getElem? h3) X.notin
  · intro e e' h1 h2 h3 h4
    rw [hwr] at h2 h3
    obtain ⟨he, ⟨he', h5⟩ | ⟨rfl, h5, h6⟩⟩ := po_ext h1
    · rw [clsOf_ext he, clsOf_ext he'] at h4
      rw [Function.update_of_ne he']; exact X.wr_ e e' h5 h2 h3 h4
    · rw [Function.update_self]
      obtain ⟨u, i⟩ := e
      simp only at h5; subst h5
      rcases X.all u i h2 with h | h
      · obtain ⟨n, hn⟩ := List.mem_iff_getElem?.1 h
        exact ⟨n, (List.getElem?_eq_some_iff.1 hn).1, hn⟩
      · exfalso
        obtain ⟨h7, h8⟩ := hB i h
        refine h4 ⟨by rw [clsOf_ext he]; exact h7, ?_⟩
        simp [clsOf, look_new, h8]
  · intro e b v w h1 h2
    by_cases he : e = (t, (D t).length)
    · subst he
      simp only [look_new, Option.some.injEq] at h1
      subst h1
      rw [h2] at hw; cases hw
    · rw [look_ext he] at h1; exact X.store e b v w h1 h2
  · intro e b h1 h2
    by_cases he : e = (t, (D t).length)
    · subst he
      simp only [look_new, Option.some.injEq] at h1
      subst h1
      obtain ⟨s, h3, h4⟩ := X.view t a.op.1
      refine ⟨s, ?_, by rw [← h4]; exact hs h2⟩
      rw [Function.update_self]
      exact ⟨fun w hw' => ⟨(h3.1 w hw').1, hon.2 (h3.1 w hw').2.1, fun w' hv ho => (h3.1 w hw').2.2 w' hv (hon.1 ho)⟩,
        fun hn w' hv ho => h3.2 hn w' hv (hon.1 ho)⟩
    · rw [look_ext he] at h1
      obtain ⟨s, h3, h4⟩ := X.load e b h1 h2
      refine ⟨s, ?_, h4⟩
      rw [Function.update_of_ne he]
      exact h3.ext (fun w hw' => X.notin' hw') (List.getElem?_eq_some_iff.1 h1).1
  · intro e b h1 h2
    by_cases he : e = (t, (D t).length)
    · subst he
      simp only [look_new, Option.some.injEq] at h1
      subst h1
      rw [h2] at hw; cases hw
    · rw [look_ext he] at h1
      obtain ⟨n, s, h3, h4, h5⟩ := X.rmw e b h1 h2
      exact ⟨n, s, h3, h4.ext (fun w hw' => X.notin' hw') (List.getElem?_eq_some_iff.1 h1).1, h5⟩

/-- A store goes into the buffer. -/
theorem Core.addStore (X : Core S cls m M D c B seen val) (t : Tid) (a : Act (K × O) R) {v : V} {w0 : Bool}
    (hc : cls a.op.2 = .store v w0) (hs : ∀ x, S.sem a.op.2 x v a.r) :
    Core S cls m (M.push t a.op.1 v) (ext D t a) c (Function.update B t (B t ++ [(D t).length])) seen
      (Function.update val (t, (D t).length) v) := by
  have hw : (cls a.op.2).writes = true := by rw [hc]; rfl
  have hB : ∀ {u j}, j ∈ Function.update B t (B t ++ [(D t).length]) u → j ∈ B u ∨ (u = t ∧ j = (D t).length) := by
    intro u j hj
    by_cases hu : u = t
    · subst hu
      simp at hj
      rcases hj with hj | hj
      · exact Or.inl hj
      · exact Or.inr ⟨rfl, hj⟩
    · rw [Function.update_of_ne hu] at hj; exact Or.inl hj
  have hBne : ∀ {u j}, j ∈ B u → ((u, j) : Event) ≠ (t, (D t).length) := by
    intro u j hj he
    cases he
    exact Nat.lt_irrefl _ (X.notB hj)
  have hcne : ∀ {w}, w ∈ c → w ≠ (t, (D t).length) := fun h => X.notin' h
  refine ⟨?_, X.cinc, ?_, ?_, ?_, ?_, ?_, ?_, ?_, ?_, ?_, ?_, ?_, ?_, ?_⟩
  · intro e he; rw [isWr_ext (hcne he)]; exact X.cw e he
  · intro u i j h1 h2
    rcases hB h2 with h2 | ⟨rfl, rfl⟩
    · exact X.cB u i j h1 h2
    · exact isWr_lt (X.cw _ h1)
  · intro u j hj
    rcases hB hj with hj | ⟨rfl, rfl⟩
    · rw [isWr_ext (hBne hj)]; exact X.Bw u j hj
    · rw [isWr_new]; exact hw
  · intro u
    by_cases hu : u = t
    · subst hu
      simp only [Function.update_self]
      rw [List.pairwise_append]
      refine ⟨X.Binc u, by simp, fun i hi j hj => ?_⟩
      simp at hj; subst hj
      exact X.notB hi
    · rw [Function.update_of_ne hu]; exact X.Binc u
  · intro u i hi
    by_cases he : ((u, i) : Event) = (t, (D t).length)
    · cases he; exact Or.inr (by simp)
    · rw [isWr_ext he] at hi
      rcases X.all u i hi with h | h
      · exact Or.inl h
      · refine Or.inr ?_
        by_cases hu : u = t
        · subst hu; simp [h]
        · rwa [Function.update_of_ne hu]
  · intro u
    have old : List.Forall₂ (fun (i : Nat) (p : K × V) => IsOn cls (Tso.ext D t a) Cls.writes (u, i) p.1 ∧
        Function.update val (t, (D t).length) v (u, i) = p.2) (B u) (M.buf u) := by
      have h0 := X.buf u
      have hm : ∀ i ∈ B u, ((u, i) : Event) ≠ (t, (D t).length) := fun i hi => hBne hi
      generalize B u = b at h0 hm
      generalize M.buf u = q at h0
      induction h0 with
      | nil => exact .nil
      | cons h _ ih =>
        refine .cons ⟨(isOn_ext (hm _ (by simp))).2 h.1, ?_⟩ (ih fun i hi => hm i (by simp [hi]))
        rw [Function.update_of_ne (hm _ (by simp))]; exact h.2
    by_cases hu : u = t
    · subst hu
      simp only [Function.update_self, Mem.push]
      refine List.rel_append old (.cons ⟨⟨a, look_new, hw, rfl⟩, by simp⟩ .nil)
    · simp only [Function.update_of_ne hu, Mem.push]
      exact old
  · intro k
    obtain ⟨s, h1, h2, h3⟩ := X.mem k
    refine ⟨s, ?_, fun w hw' => ?_, fun hn w hw' h => h3 hn w hw' ((isOn_ext (hcne hw')).1 h)⟩
    · rw [map_upd]
      · exact h1
      · intro w hw'
        obtain ⟨-, n, h5, -⟩ := h2 w hw'
        exact hcne (List.mem_of_getElem? h5)
    · obtain ⟨h4, n, h5, h6⟩ := h2 w hw'
      exact ⟨(isOn_ext (hcne (List.mem_of_getElem? h5))).2 h4, n, h5,
        fun n' w' h7 h8 h9 => h6 n' w' h7 h8 ((isOn_ext (hcne (List.mem_of_getElem? h8))).1 h9)⟩
  · intro e h1 h2
    rcases len_ext h1 with rfl | ⟨he, h1⟩
    · rw [isWr_new, hw] at h2; cases h2
    · rw [isWr_ext he] at h2; exact X.seenLe e h1 h2
  · intro e e' h1 h2 h3
    obtain ⟨he, ⟨he', h4⟩ | ⟨rfl, h4, h5⟩⟩ := po_ext h1
    · rw [isWr_ext he] at h2
      rw [isWr_ext he'] at h3
      exact X.rr e e' h4 h2 h3
    · rw [isWr_new, hw] at h3; cases h3
  · intro e e' n h1 h2 h3
    obtain ⟨he, ⟨-, h4⟩ | ⟨rfl, -⟩⟩ := po_ext h1
    · rw [isWr_ext he] at h2; exact X.rw_ e e' n h4 h2 h3
    · exact absurd (List.mem_of_getElem? h3) X.notin
  · intro e e' h1 h2 h3 h4
    obtain ⟨he, ⟨he', h5⟩ | ⟨rfl, h5, h6⟩⟩ := po_ext h1
    · rw [clsOf_ext he, clsOf_ext he'] at h4
      rw [isWr_ext he] at h2
      rw [isWr_ext he'] at h3
      exact X.wr_ e e' h5 h2 h3 h4
    · rw [isWr_new, hw] at h3; cases h3
  · intro e b v' w h1 h2
    by_cases he : e = (t, (D t).length)
    · subst he
      simp only [look_new, Option.some.injEq] at h1
      subst h1
      rw [hc] at h2
      cases h2
      exact ⟨by simp, hs⟩
    · rw [look_ext he] at h1
      rw [Function.update_of_ne he]
      exact X.store e b v' w h1 h2
  · intro e b h1 h2
    by_cases he : e = (t, (D t).length)
    · subst he
      simp only [look_new, Option.some.injEq] at h1
      subst h1
      rw [hc] at h2; cases h2
    · rw [look_ext he] at h1
      obtain ⟨s, h3, h4⟩ := X.load e b h1 h2
      refine ⟨s, h3.ext (fun w hw' => X.notin' hw') (List.getElem?_eq_some_iff.1 h1).1, ?_⟩
      rw [map_upd h3.ne]; exact h4
  · intro e b h1 h2
    by_cases he : e = (t, (D t).length)
    · subst he
      simp only [look_new, Option.some.injEq] at h1
      subst h1
      rw [hc] at h2; cases h2
    · rw [look_ext he] at h1
      obtain ⟨n, s, h3, h4, h5⟩ := X.rmw e b h1 h2
      refine ⟨n, s, h3, h4.ext (fun w hw' => X.notin' hw') (List.getElem?_eq_some_iff.1 h1).1, ?_⟩
      rw [map_upd h4.ne, Function.update_of_ne he]; exact h5

/-- A locked instruction is done. -/
theorem Core.addRmw (X : Core S cls m M D c B seen val) (t : Tid) (a : Act (K × O) R) {x : V}
    (hc : cls a.op.2 = .rmw) (hB : B t = []) (hs : S.sem a.op.2 (M.mem a.op.1) x a.r) :
    Core S cls m (M.write a.op.1 x) (ext D t a) (c ++ [(t, (D t).length)]) B seen
      (Function.update val (t, (D t).length) x) := by
  have hw : (cls a.op.2).writes = true := by rw [hc]; rfl
  have hBne : ∀ {u j}, j ∈ B u → ((u, j) : Event) ≠ (t, (D t).length) := by
    intro u j hj he
    cases he
    exact Nat.lt_irrefl _ (X.notB hj)
  have hcne : ∀ {w}, w ∈ c → w ≠ (t, (D t).length) := fun h => X.notin' h
  refine ⟨?_, ?_, ?_, ?_, X.Binc, ?_, ?_, ?_, ?_, ?_, ?_, ?_, ?_, ?_, ?_⟩
  · intro e he
    rcases List.mem_append.1 he with he | he
    · rw [isWr_ext (hcne he)]; exact X.cw e he
    · simp at he; rw [he, isWr_new]; exact hw
  · intro n n' u i j h1 h2 hn
    rcases snoc_get h2 with h2 | ⟨rfl, h3⟩
    · rcases snoc_get h1 with h1 | ⟨rfl, -⟩
      · exact X.cinc n n' u i j h1 h2 hn
      · have := (List.getElem?_eq_some_iff.1 h2).1; omega
    · cases h3
      rcases snoc_get h1 with h1 | ⟨rfl, -⟩
      · exact isWr_lt (X.cw _ (List.mem_of_getElem? h1))
      · omega
  · intro u i j h1 h2
    rcases List.mem_append.1 h1 with h1 | h1
    · exact X.cB u i j h1 h2
    · simp at h1
      obtain ⟨rfl, -⟩ := h1
      rw [hB] at h2; cases h2
  · intro u j hj
    rw [isWr_ext (hBne hj)]; exact X.Bw u j hj
  · intro u i hi
    by_cases he : ((u, i) : Event) = (t, (D t).length)
    · cases he; exact Or.inl (by simp)
    · rw [isWr_ext he] at hi
      rcases X.all u i hi with h | h
      · exact Or.inl (by simp [h])
      · exact Or.inr h
  · intro u
    have h0 := X.buf u
    have hm : ∀ i ∈ B u, ((u, i) : Event) ≠ (t, (D t).length) := fun i hi => hBne hi
    show List.Forall₂ _ (B u) (M.buf u)
    generalize B u = b at h0 hm
    generalize M.buf u = q at h0
    induction h0 with
    | nil => exact .nil
    | cons h _ ih =>
      refine .cons ⟨(isOn_ext (hm _ (by simp))).2 h.1, ?_⟩ (ih fun i hi => hm i (by simp [hi]))
      rw [Function.update_of_ne (hm _ (by simp))]; exact h.2
  · intro k'
    by_cases hk : k' = a.op.1
    · subst hk
      refine ⟨some (t, (D t).length), by simp [Mem.write], ?_, fun h => by cases h⟩
      intro w hw'
      cases hw'
      refine ⟨⟨a, look_new, hw, rfl⟩, c.length, by simp, fun n' w' hn h => ?_⟩
      have := (List.getElem?_eq_some_iff.1 h).1
      simp at this; omega
    · have hno : ¬ IsOn cls (Tso.ext D t a) Cls.writes (t, (D t).length) k' := by
        rintro ⟨b, h1, -, h2⟩
        simp only [look_new, Option.some.injEq] at h1
        subst h1
        exact hk h2.symm
      obtain ⟨s, h1, h2, h3⟩ := X.mem k'
      refine ⟨s, ?_, ?_, ?_⟩
      · rw [map_upd]
        · simpa [Mem.write, Function.update_of_ne hk] using h1
        · intro w hw'
          obtain ⟨-, n, h5, -⟩ := h2 w hw'
          exact hcne (List.mem_of_getElem? h5)
      · intro w hw'
        obtain ⟨h4, n, h5, h6⟩ := h2 w hw'
        refine ⟨(isOn_ext (hcne (List.mem_of_getElem? h5))).2 h4, n, get_snoc h5, fun n' w' hn h => ?_⟩
        rcases snoc_get h with h | ⟨-, rfl⟩
        · exact fun h9 => h6 n' w' hn h ((isOn_ext (hcne (List.mem_of_getElem? h))).1 h9)
        · exact hno
      · intro hn w hw'
        rcases List.mem_append.1 hw' with h | h
        · exact fun h9 => h3 hn w h ((isOn_ext (hcne h)).1 h9)
        · simp at h; rw [h]; exact hno
  · intro e h1 h2
    rcases len_ext h1 with rfl | ⟨he, h1⟩
    · rw [isWr_new, hw] at h2; cases h2
    · rw [isWr_ext he] at h2
      have := X.seenLe e h1 h2
      simp; omega
  · intro e e' h1 h2 h3
    obtain ⟨he, ⟨he', h4⟩ | ⟨rfl, h4, h5⟩⟩ := po_ext h1
    · rw [isWr_ext he] at h2
      rw [isWr_ext he'] at h3
      exact X.rr e e' h4 h2 h3
    · rw [isWr_new, hw] at h3; cases h3
  · intro e e' n h1 h2 h3
    obtain ⟨he, h4⟩ := po_ext h1
    rw [isWr_ext he] at h2
    rcases snoc_get h3 with h3 | ⟨rfl, -⟩
    · rcases h4 with ⟨-, h4⟩ | ⟨rfl, -⟩
      · exact X.rw_ e e' n h4 h2 h3
      · exact absurd (List.mem_of_getElem? h3) X.notin
    · refine X.seenLe e ?_ h2
      rcases h4 with ⟨-, h4⟩ | ⟨-, h5, h6⟩
      · obtain ⟨h5, h6, h7⟩ := h4
        rw [h5]; omega
      · rw [h5]; exact h6
  · intro e e' h1 h2 h3 h4
    obtain ⟨he, ⟨he', h5⟩ | ⟨rfl, h5, h6⟩⟩ := po_ext h1
    · rw [clsOf_ext he, clsOf_ext he'] at h4
      rw [isWr_ext he] at h2
      rw [isWr_ext he'] at h3
      obtain ⟨n, h6, h7⟩ := X.wr_ e e' h5 h2 h3 h4
      exact ⟨n, h6, get_snoc h7⟩
    · rw [isWr_new, hw] at h3; cases h3
  · intro e b v' w h1 h2
    by_cases he : e = (t, (D t).length)
    · subst he
      simp only [look_new, Option.some.injEq] at h1
      subst h1
      rw [hc] at h2; cases h2
    · rw [look_ext he] at h1
      rw [Function.update_of_ne he]
      exact X.store e b v' w h1 h2
  · intro e b h1 h2
    by_cases he : e = (t, (D t).length)
    · subst he
      simp only [look_new, Option.some.injEq] at h1
      subst h1
      rw [hc] at h2; cases h2
    · rw [look_ext he] at h1
      obtain ⟨s, h3, h4⟩ := X.load e b h1 h2
      refine ⟨s, ((h3.ext (fun w hw' => X.notin' hw') (List.getElem?_eq_some_iff.1 h1).1).snoc
        (X.seenLe e (List.getElem?_eq_some_iff.1 h1).1 ?_)), ?_⟩
      · simp [isWr, clsOf, h1, h2, Cls.writes]
      · rw [map_upd h3.ne]; exact h4
  · intro e b h1 h2
    by_cases he : e = (t, (D t).length)
    · subst he
      simp only [look_new, Option.some.injEq] at h1
      subst h1
      obtain ⟨s, h3, h4⟩ := X.cell t a.op.1 hB
      refine ⟨c.length, s, by simp, ?_, ?_⟩
      · have hne : ∀ w, VisC c c.length (t, (D t).length) w → w ≠ (t, (D t).length) := by
          rintro w (⟨n, -, h5⟩ | ⟨-, h5⟩) rfl
          · exact X.notin (List.mem_of_getElem? h5)
          · exact Nat.lt_irrefl _ h5
        refine Src.snoc (Nat.le_refl _) ⟨fun w hw' => ?_, fun hn w' hv ho => h3.2 hn w' hv ((isOn_ext (hne w' hv)).1 ho)⟩
        obtain ⟨h5, h6, h7⟩ := h3.1 w hw'
        exact ⟨h5, (isOn_ext (hne w h5)).2 h6, fun w' hv ho => h7 w' hv ((isOn_ext (hne w' hv)).1 ho)⟩
      · rw [map_upd h3.ne, Function.update_self, ← h4]; exact hs
    · rw [look_ext he] at h1
      obtain ⟨n, s, h3, h4, h5⟩ := X.rmw e b h1 h2
      refine ⟨n, s, get_snoc h3, (h4.ext (fun w hw' => X.notin' hw') (List.getElem?_eq_some_iff.1 h1).1).snoc
        (Nat.le_of_lt (List.getElem?_eq_some_iff.1 h3).1), ?_⟩
      rw [map_upd h4.ne, Function.update_of_ne he]; exact h5

end steps

/-! ## The memory order at the end of a run -/

/-- The writes still in buffers, one thread after another. -/
def pendings (B : Tid → List Nat) (N : Nat) : List Event := (List.range N).flatMap fun t => (B t).map fun i => (t, i)

theorem mem_pendings {B : Tid → List Nat} {N : Nat} {e : Event} : e ∈ pendings B N ↔ e.1 < N ∧ e.2 ∈ B e.1 := by
  obtain ⟨t, i⟩ := e
  simp only [pendings, List.mem_flatMap, List.mem_range, List.mem_map, Prod.mk.injEq]
  constructor
  · rintro ⟨u, hu, j, hj, rfl, rfl⟩; exact ⟨hu, hj⟩
  · rintro ⟨h1, h2⟩; exact ⟨t, h1, i, h2, rfl, rfl⟩

/-- When the remaining stores have reached memory there is a memory order. -/
theorem Core.order {M : Mem K V} {c : List Event} {B : Tid → List Nat} {seen : Event → Nat} {val : Event → V}
    (X : Core S cls m M D c B seen val) {N : Nat} (hN : ∀ t : Nat, N ≤ t → B t = []) :
    ∃ pos, TsoOrder S cls m D pos seen val := by
  let all := c ++ pendings B N
  have hpw : all.Pairwise fun e e' => e.1 = e'.1 → e.2 < e'.2 := by
    refine List.pairwise_append.2 ⟨?_, ?_, ?_⟩
    · rw [List.pairwise_iff_getElem]
      intro n n' h1 h2 hn he
      refine X.cinc n n' c[n].1 c[n].2 c[n'].2 (List.getElem?_eq_getElem h1) ?_ hn
      rw [he]; exact List.getElem?_eq_getElem h2
    · unfold pendings
      rw [List.pairwise_flatMap]
      constructor
      · intro t _
        rw [List.pairwise_map]
        refine (X.Binc t).imp ?_
        intro a b h _
        exact h
      · refine List.pairwise_lt_range.imp ?_
        intro t u htu x hx y hy he
        simp only [List.mem_map] at hx hy
        obtain ⟨_, -, rfl⟩ := hx
        obtain ⟨_, -, rfl⟩ := hy
        simp only at he
        exact absurd htu (by rw [he]; exact Nat.lt_irrefl _)
    · rintro ⟨t, i⟩ h1 ⟨u, j⟩ h2 he
      simp only at he; subst he
      exact X.cB t i j h1 (mem_pendings.1 h2).2
  have hmem : ∀ {e}, isWr cls D e = true → e ∈ all := by
    rintro ⟨t, i⟩ h
    rcases X.all t i h with h | h
    · exact List.mem_append_left _ h
    · refine List.mem_append_right _ (mem_pendings.2 ⟨?_, h⟩)
      by_contra hn
      rw [hN t (Nat.le_of_not_lt hn)] at h
      cases h
  have hget : ∀ {e}, e ∈ all → all[all.idxOf e]? = some e := fun {e} h => by
    rw [List.getElem?_eq_getElem (List.idxOf_lt_length_iff.2 h), List.getElem_idxOf]
  -- the place determines the event; a thread's writes are in program order
  have hinj : ∀ {e e'}, e ∈ all → all.idxOf e = all.idxOf e' → e' ∈ all → e = e' := by
    intro e e' h h1 h'
    have := hget h
    rw [h1, hget h'] at this
    exact (Option.some.inj this).symm
  have hpo : ∀ {e e'}, isWr cls D e = true → isWr cls D e' = true → e.1 = e'.1 → e.2 < e'.2 → all.idxOf e < all.idxOf e' := by
    intro e e' h h' h1 h2
    rcases Nat.lt_trichotomy (all.idxOf e) (all.idxOf e') with h3 | h3 | h3
    · exact h3
    · rw [hinj (hmem h) h3 (hmem h')] at h2; exact absurd h2 (Nat.lt_irrefl _)
    · rw [List.pairwise_iff_getElem] at hpw
      have := hpw _ _ (List.idxOf_lt_length_iff.2 (hmem h')) (List.idxOf_lt_length_iff.2 (hmem h)) h3
      simp only [List.getElem_idxOf] at this
      exact absurd (this h1.symm) (by omega)
  have hc : ∀ {n : Nat} {w : Event}, c[n]? = some w → all.idxOf w = n := by
    intro n w h
    have hw := hget (hmem (X.cw w (List.mem_of_getElem? h)))
    have hn : all[n]? = some w := by
      rw [List.getElem?_append_left (List.getElem?_eq_some_iff.1 h).1]; exact h
    rw [List.pairwise_iff_getElem] at hpw
    obtain ⟨l1, g1⟩ := List.getElem?_eq_some_iff.1 hw
    obtain ⟨l2, g2⟩ := List.getElem?_eq_some_iff.1 hn
    rcases Nat.lt_trichotomy (all.idxOf w) n with h3 | h3 | h3
    · have := hpw _ _ l1 l2 h3
      rw [g1, g2] at this
      exact absurd (this rfl) (Nat.lt_irrefl _)
    · exact h3
    · have := hpw _ _ l2 l1 h3
      rw [g1, g2] at this
      exact absurd (this rfl) (Nat.lt_irrefl _)
  have hnc : ∀ {w : Event}, w ∉ c → c.length ≤ all.idxOf w := by
    intro w h
    show c.length ≤ (c ++ pendings B N).idxOf w
    rw [List.idxOf_append_of_notMem h]; omega
  have hback : ∀ {w : Event}, isWr cls D w = true → all.idxOf w < c.length → c[all.idxOf w]? = some w := by
    intro w h h1
    have := hget (hmem h)
    rwa [List.getElem?_append_left h1] at this
  have hle : ∀ {w w'}, isWr cls D w = true → isWr cls D w' = true → Le c w' w → all.idxOf w' ≤ all.idxOf w := by
    rintro w w' h h' (h1 | ⟨n', n, h1, h2, h3⟩ | ⟨h1, h2⟩ | ⟨h1, h2⟩)
    · rw [h1]; exact Nat.le_refl _
    · rw [hc h2, hc h3]; omega
    · obtain ⟨n', h3⟩ := List.mem_iff_getElem?.1 h1
      rw [hc h3]
      exact Nat.le_trans (Nat.le_of_lt (List.getElem?_eq_some_iff.1 h3).1) (hnc h2)
    · exact Nat.le_of_lt (hpo h' h h1 h2)
  have hvis : ∀ {e w : Event} {lim : Nat}, lim ≤ c.length → isWr cls D w = true →
      ((all.idxOf w < lim ∨ (w.1 = e.1 ∧ w.2 < e.2)) ↔ VisC c lim e w) := by
    intro e w lim hl hw
    constructor
    · rintro (h | h)
      · exact Or.inl ⟨_, h, hback hw (Nat.lt_of_lt_of_le h hl)⟩
      · exact Or.inr h
    · rintro (⟨n, h1, h2⟩ | h)
      · exact Or.inl (by rw [hc h2]; exact h1)
      · exact Or.inr h
  have hsrc : ∀ {e : Event} {k : K} {lim : Nat} {s : Option Event}, lim ≤ c.length →
      upper (isWr cls D) (fun e => all.idxOf e) seen e = lim → Src cls D c lim e k s →
      (∀ w, s = some w → Vis (isWr cls D) (fun e => all.idxOf e) seen e w ∧ IsOn cls D Cls.writes w k ∧
        ∀ w', Vis (isWr cls D) (fun e => all.idxOf e) seen e w' → IsOn cls D Cls.writes w' k → all.idxOf w' ≤ all.idxOf w) ∧
      (s = none → ∀ w', Vis (isWr cls D) (fun e => all.idxOf e) seen e w' → ¬ IsOn cls D Cls.writes w' k) := by
    intro e k lim s hl hu hs
    unfold Vis
    rw [hu]
    constructor
    · intro w hw
      obtain ⟨h1, h2, h3⟩ := hs.1 w hw
      exact ⟨(hvis hl h2.wr).2 h1, h2, fun w' hv ho => hle h2.wr ho.wr (h3 w' ((hvis hl ho.wr).1 hv) ho)⟩
    · intro hn w' hv ho
      exact hs.2 hn w' ((hvis hl ho.wr).1 hv) ho
  refine ⟨fun e => all.idxOf e, ?_, ?_, X.store, ?_⟩
  · intro e e' h h' he
    exact hinj (hmem h) he (hmem h')
  · intro e e' h hn
    have hlt : e.2 < (D e.1).length := by
      obtain ⟨h1, h2, h3⟩ := h
      rw [h1]; omega
    unfold lower upper
    cases hw : isWr cls D e <;> cases hw' : isWr cls D e' <;> simp only [if_true, Bool.false_eq_true, if_false]
    · exact X.rr e e' h hw hw'
    · by_cases hm : e' ∈ c
      · obtain ⟨n, h3⟩ := List.mem_iff_getElem?.1 hm
        rw [hc h3]
        exact X.rw_ e e' n h hw h3
      · exact Nat.le_trans (X.seenLe e hlt hw) (hnc hm)
    · obtain ⟨n, h1, h2⟩ := X.wr_ e e' h hw hw' hn
      rw [hc h2]; exact h1
    · exact hpo hw hw' h.1 h.2.1
  · intro e a ha hr
    have hlt : e.2 < (D e.1).length := (List.getElem?_eq_some_iff.1 ha).1
    cases hcl : cls a.op.2 with
    | load =>
      have hw : isWr cls D e = false := by simp [isWr, clsOf, ha, hcl, Cls.writes]
      obtain ⟨s, h1, h2⟩ := X.load e a ha hcl
      obtain ⟨h3, h4⟩ := hsrc (X.seenLe e hlt hw) (by simp [upper, hw]) h1
      exact ⟨s, h3, h4, fun _ => h2, fun h => by cases h⟩
    | rmw =>
      have hw : isWr cls D e = true := by simp [isWr, clsOf, ha, hcl, Cls.writes]
      obtain ⟨n, s, h0, h1, h2⟩ := X.rmw e a ha hcl
      obtain ⟨h3, h4⟩ := hsrc (Nat.le_of_lt (List.getElem?_eq_some_iff.1 h0).1) (by simp [upper, hw, hc h0]) h1
      exact ⟨s, h3, h4, fun h => (by cases h), fun _ => h2⟩
    | store v w => rw [hcl] at hr; cases hr
    | fence => rw [hcl] at hr; cases hr

/-! ## Runs -/

/-- The invariant of runs. -/
structure RaInv (S : Spec V O R) (cls : O → Cls V) (m : K → V) (h : List (Object.Ev (K × O) R))
    (s : Lf.State (Mem K V) (K × Loc O R)) (D : Tid → List (Act (K × O) R)) (c : List Event)
    (B : Tid → List Nat) (seen : Event → Nat) (val : Event → V) : Prop where
  core : Core S cls m s.mem D c B seen val
  thread : ∀ t, ThreadAt (s.th t) (D t) (calls t h) (results t h)
  plain : ∀ t i, i ∈ B t → (∃ v, clsOf cls D (t, i) = some (.store v false)) ∨ ∃ k r, s.th t = some (k, .wait r)
  bound : ∃ N : Nat, ∀ t : Nat, N ≤ t → B t = []

theorem RaInv.init (m : K → V) (v0 : Event → V) :
    RaInv S cls m [] { mem := Mem.flat m, th := fun _ => none } (fun _ => []) [] (fun _ => []) (fun _ => 0) v0 where
  core := by
    have nowr : ∀ {e}, isWr (R := R) (K := K) cls (fun _ => []) e ≠ true := by
      intro e h; simp [isWr, clsOf] at h
    have nopo : ∀ {e e'}, ¬ Po (K := K) (O := O) (R := R) (fun _ => []) e e' := by
      rintro e e' ⟨-, -, h⟩; simp at h
    refine ⟨?_, ?_, ?_, ?_, ?_, ?_, ?_, ?_, ?_, ?_, ?_, ?_, ?_, ?_, ?_⟩
    · intro e he; cases he
    · intro n n' t i j h; simp at h
    · intro t i j h; cases h
    · intro t j h; cases h
    · intro t; exact .nil
    · intro t i h; exact absurd h nowr
    · intro t; exact .nil
    · intro k
      exact ⟨none, rfl, (fun w h => by cases h), (fun _ w h => by cases h)⟩
    · intro e h; simp at h
    · intro e e' h; exact absurd h nopo
    · intro e e' n h; exact absurd h nopo
    · intro e e' h; exact absurd h nopo
    · intro e a v w h; simp at h
    · intro e a h; simp at h
    · intro e a h; simp at h
  thread t := ⟨rfl, rfl⟩
  plain t i h := by cases h
  bound := ⟨0, fun _ _ => rfl⟩

/-- Thread `t` finishes its operation `a`. -/
theorem threadAt_ext {h : List (Object.Ev (K × O) R)} {th : Tid → Option (K × Loc O R)} {t : Tid} {k : K} {op : O} {r : R} {l : Loc O R}
    (ht : ∀ u, ThreadAt (th u) (D u) (calls u h) (results u h)) (hth : th t = some (k, .pending op))
    (hl : l = .done r ∨ l = .wait r) (u : Tid) :
    ThreadAt (Function.update th t (some (k, l)) u) (ext D t ⟨t, (k, op), r⟩ u) (calls u h) (results u h) := by
  by_cases hu : u = t
  · subst hu
    have := ht u
    rw [hth] at this
    simp only [ThreadAt] at this
    rcases hl with rfl | rfl <;>
    · simp only [Function.update_self, ext, ThreadAt, List.map_append, List.map_cons, List.map_nil]
      exact ⟨this.1, by rw [this.2]⟩
  · simp only [Function.update_of_ne hu, ext]; exact ht u

theorem run_ra {h : List (Object.Ev (K × O) R)} {s : Lf.State (Mem K V) (K × Loc O R)}
    (hx : Runs (native K S cls) (Mem.flat m) h s) (v0 : Event → V) : ∃ D c B seen val, RaInv S cls m h s D c B seen val := by
  generalize hi : ({ mem := Mem.flat m, th := fun _ => none } : Lf.State (Mem K V) (K × Loc O R)) = i at hx
  unfold Runs at hx
  rw [hi] at hx
  induction hx with
  | refl => subst hi; exact ⟨_, _, _, _, _, RaInv.init m v0⟩
  | @tau h s s' _ st ih =>
    obtain ⟨D, c, B, seen, val, I⟩ := ih
    cases st with
    | act t l l' m' hth hs =>
      obtain ⟨k, l⟩ := l
      obtain ⟨k', l'⟩ := l'
      obtain ⟨hk, hs⟩ := hs
      simp only at hk hs
      subst hk
      have keep : ∀ {l' : Loc O R} {a : Act (K × O) R} {op : O} (B' : Tid → List Nat), s.th t = some (k', .pending op) →
          (∀ u i, i ∈ B' u → i ∈ B u) → ∀ u i, i ∈ B' u →
          (∃ v, clsOf cls (ext D t a) (u, i) = some (.store v false)) ∨
            ∃ k r, Function.update s.th t (some (k', l')) u = some (k, .wait r) := by
        intro l' a op B' hth' hB u i hiu
        have hne : ((u, i) : Event) ≠ (t, (D t).length) := by
          intro he; cases he
          exact Nat.lt_irrefl _ (I.core.notB (hB _ _ hiu))
        rw [clsOf_ext hne]
        rcases I.plain u i (hB u i hiu) with h1 | ⟨k, r, h1⟩
        · exact Or.inl h1
        · by_cases hu : u = t
          · subst hu; rw [hth'] at h1; cases h1
          · exact Or.inr ⟨k, r, by rw [Function.update_of_ne hu]; exact h1⟩
      have pl : ∀ {op : O}, s.th t = some (k', .pending op) → ∀ i ∈ B t, ∃ v, clsOf cls D (t, i) = some (.store v false) := by
        intro op hth' i hiB
        rcases I.plain t i hiB with h1 | ⟨k, r, h1⟩
        · exact h1
        · rw [hth'] at h1; cases h1
      cases hs with
      | drain hd =>
        obtain ⟨c', B', X, hB⟩ := I.core.drain hd
        refine ⟨D, c', B', seen, val, X, ?_, ?_, ?_⟩
        · rw [← hth, Function.update_eq_self]; exact I.thread
        · rw [← hth, Function.update_eq_self]
          exact fun u i hu => I.plain u i (hB u i hu)
        · obtain ⟨N, hN⟩ := I.bound
          refine ⟨N, fun u hu => List.eq_nil_iff_forall_not_mem.2 fun i hiu => ?_⟩
          have := hB u i hiu
          rw [hN u hu] at this; cases this
      | @load op _ r hc hsem =>
        exact ⟨_, c, B, _, val, I.core.addRead t ⟨t, (k', op), r⟩ (by rw [hc]; rfl) (fun i hiB => ⟨pl hth i hiB, hc⟩) (fun _ => hsem),
          threadAt_ext I.thread hth (Or.inl rfl), keep B hth fun _ _ h => h, I.bound⟩
      | @fence op _ r hc hb hsem =>
        exact ⟨_, c, B, _, val, I.core.addRead t ⟨t, (k', op), r⟩ (by rw [hc]; rfl)
          (fun i hiB => by rw [I.core.buf_nil hb] at hiB; cases hiB) (fun h => by rw [hc] at h; cases h),
          threadAt_ext I.thread hth (Or.inl rfl), keep B hth fun _ _ h => h, I.bound⟩
      | @rmw op _ x r hc hb hsem =>
        exact ⟨_, _, B, seen, _, I.core.addRmw t ⟨t, (k', op), r⟩ hc (I.core.buf_nil hb) hsem,
          threadAt_ext I.thread hth (Or.inl rfl), keep B hth fun _ _ h => h, I.bound⟩
      | @store op _ v r hc hsem =>
        refine ⟨_, c, _, seen, _, I.core.addStore t ⟨t, (k', op), r⟩ hc hsem, threadAt_ext I.thread hth (Or.inl rfl), ?_, ?_⟩
        · intro u i hiu
          by_cases he : ((u, i) : Event) = (t, (D t).length)
          · cases he
            exact Or.inl ⟨v, by simp [clsOf, look_new, hc]⟩
          · refine keep (l' := .done r) (fun u => (B u)) hth (fun _ _ h => h) u i ?_
            by_cases hu : u = t
            · subst hu
              simp at hiu
              rcases hiu with hiu | hiu
              · exact hiu
              · exact absurd (by rw [hiu]) he
            · rwa [Function.update_of_ne hu] at hiu
        · obtain ⟨N, hN⟩ := I.bound
          have hN' : N ≤ max N (t + 1) := Nat.le_max_left _ _
          have hN2 : t + 1 ≤ max N (t + 1) := Nat.le_max_right _ _
          refine ⟨max N (t + 1), fun u hu => ?_⟩
          have : u ≠ t := by rintro rfl; exact absurd (Nat.le_trans hN2 hu) (Nat.not_succ_le_self _)
          rw [Function.update_of_ne this]
          exact hN u (Nat.le_trans hN' hu)
      | @storeWait op _ v r hc hsem =>
        refine ⟨_, c, _, seen, _, I.core.addStore t ⟨t, (k', op), r⟩ hc hsem, threadAt_ext I.thread hth (Or.inr rfl), ?_, ?_⟩
        · intro u i hiu
          by_cases hu : u = t
          · subst hu; exact Or.inr ⟨k', r, by simp⟩
          · refine keep (l' := .wait r) (fun u => (B u)) hth (fun _ _ h => h) u i ?_
            rwa [Function.update_of_ne hu] at hiu
        · obtain ⟨N, hN⟩ := I.bound
          have hN' : N ≤ max N (t + 1) := Nat.le_max_left _ _
          have hN2 : t + 1 ≤ max N (t + 1) := Nat.le_max_right _ _
          refine ⟨max N (t + 1), fun u hu => ?_⟩
          have : u ≠ t := by rintro rfl; exact absurd (Nat.le_trans hN2 hu) (Nat.not_succ_le_self _)
          rw [Function.update_of_ne this]
          exact hN u (Nat.le_trans hN' hu)
      | @waited _ r hb =>
        refine ⟨D, c, B, seen, val, I.core, fun u => ?_, fun u i hiu => ?_, I.bound⟩
        · by_cases hu : u = t
          · subst hu
            have := I.thread u
            rw [hth] at this
            simp only [Function.update_self]
            exact this
          · simp only [Function.update_of_ne hu]; exact I.thread u
        · have hut : u ≠ t := by
            rintro rfl
            rw [I.core.buf_nil hb] at hiu; cases hiu
          simp only [Function.update_of_ne hut]
          exact I.plain u i hiu
  | @ev h s e s' _ st ih =>
    obtain ⟨D, c, B, seen, val, I⟩ := ih
    cases st with
    | inv t op hth =>
      refine ⟨D, c, B, seen, val, I.core, fun u => ?_, fun u i hiu => ?_, I.bound⟩
      · rw [calls_append, results_append]
        by_cases hu : u = t
        · subst hu
          have := I.thread u
          rw [hth] at this
          simp only [ThreadAt] at this
          simp only [Function.update_self, calls, results, if_true, List.append_nil]
          exact ⟨by rw [this.1], this.2⟩
        · have : ¬ t = u := fun e => hu e.symm
          simp only [Function.update_of_ne hu, calls, results, if_neg this, List.append_nil]; exact I.thread u
      · rcases I.plain u i hiu with h1 | ⟨k, r, hk⟩
        · exact Or.inl h1
        · by_cases hut : u = t
          · subst hut; rw [hth] at hk; cases hk
          · exact Or.inr ⟨k, r, by simp only [Function.update_of_ne hut]; exact hk⟩
    | ret t l r hth hr =>
      obtain ⟨k, l⟩ := l
      cases l with
      | pending op => cases hr
      | wait r' => cases hr
      | done r' =>
        cases hr
        refine ⟨D, c, B, seen, val, I.core, fun u => ?_, fun u i hiu => ?_, I.bound⟩
        · rw [calls_append, results_append]
          by_cases hu : u = t
          · subst hu
            have := I.thread u
            rw [hth] at this
            simp only [ThreadAt] at this
            simp only [Function.update_self, calls, results, if_true, List.append_nil]
            exact this
          · have : ¬ t = u := fun e => hu e.symm
            simp only [Function.update_of_ne hu, calls, results, if_neg this, List.append_nil]; exact I.thread u
        · rcases I.plain u i hiu with h1 | ⟨k', r'', hk⟩
          · exact Or.inl h1
          · by_cases hut : u = t
            · subst hut; rw [hth] at hk; cases hk
            · exact Or.inr ⟨k', r'', by simp only [Function.update_of_ne hut]; exact hk⟩

/-- Histories on x86's memory are release/acquire consistent. -/
theorem native_ra [Nonempty V] {h : List (Object.Ev (K × O) R)} {s : Lf.State (Mem K V) (K × Loc O R)}
    (hx : Runs (native K S cls) (Mem.flat m) h s) : RaConsistent S cls m h := by
  obtain ⟨D, c, B, seen, val, I⟩ := run_ra hx fun _ => Classical.choice ‹Nonempty V›
  obtain ⟨N, hN⟩ := I.bound
  obtain ⟨pos, T⟩ := I.core.order hN
  obtain ⟨rf, H⟩ := T.ra
  refine ⟨D, rf, pos, val, _, H, fun t => ?_⟩
  have ht := I.thread t
  cases hth : s.th t with
  | none =>
    rw [hth] at ht
    exact ⟨by rw [ht.1]; exact List.prefix_rfl, by rw [ht.2]; exact List.prefix_rfl⟩
  | some p =>
    rw [hth] at ht
    obtain ⟨k, l⟩ := p
    cases l with
    | pending op => exact ⟨by rw [ht.1]; exact List.prefix_append _ _, by rw [ht.2]; exact List.prefix_rfl⟩
    | wait r | done r => exact ⟨by rw [ht.1]; exact List.prefix_rfl, by rw [← ht.2]; exact List.prefix_append _ _⟩

end Verif.Tso
