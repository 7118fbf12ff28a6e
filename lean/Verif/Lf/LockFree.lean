import Verif.Spec.LockFree
import Mathlib.Order.Monotone.Basic
/-!
# A criterion for lock-freedom
-/
set_option autoImplicit false
namespace Verif.Lf
open Verif.Object

variable {M L O R : Type}

theorem no_descent {α : Type} {r : α → α → Prop} {x : α} (h : Acc r x) :
    ∀ f : Nat → α, f 0 = x → (∀ i, r (f (i + 1)) (f i)) → False := by
  induction h with
  | intro x _ ih =>
    intro f h0 hf
    exact ih (f 1) (h0 ▸ hf 0) (fun i => f (i + 1)) rfl fun i => hf (i + 1)

/-- One of the threads `ts` makes a step `r t`. -/
def OneOf (r : L → L → Prop) (ts : List Tid) (a b : Tid → Option L) : Prop :=
  ∃ t ∈ ts, ∃ l l', b t = some l ∧ r l' l ∧ a = Function.update b t (some l')

theorem acc_oneOf {r : L → L → Prop} (ts : List Tid) (hn : ts.Nodup) :
    ∀ b : Tid → Option L, (∀ t ∈ ts, ∀ l, b t = some l → Acc r l) → Acc (OneOf r ts) b := by
  induction ts with
  | nil => intro b _; exact ⟨_, fun a ⟨t, ht, _⟩ => by cases ht⟩
  | cons t ts ih =>
    have hnt : t ∉ ts := (List.nodup_cons.1 hn).1
    have ih := ih (List.nodup_cons.1 hn).2
    -- the tail alone
    have tail : ∀ b : Tid → Option L, b t = none → (∀ u ∈ ts, ∀ l, b u = some l → Acc r l) → Acc (OneOf r (t :: ts)) b := by
      intro b hb hts
      have hb' := ih b hts
      clear hts
      induction hb' with
      | intro b _ ihb =>
        refine ⟨_, fun a ⟨u, hu, l, l', h1, h2, h3⟩ => ?_⟩
        have hut : u ≠ t := fun e => by rw [e, hb] at h1; cases h1
        have hu' : u ∈ ts := (List.mem_cons.1 hu).resolve_left hut
        refine ihb a ⟨u, hu', l, l', h1, h2, h3⟩ ?_
        rw [h3, Function.update_of_ne (Ne.symm hut)]; exact hb
    intro b hall
    cases hb : b t with
    | none => exact tail b hb fun u hu => hall u (List.mem_cons_of_mem _ hu)
    | some l0 =>
      have ha := hall t List.mem_cons_self l0 hb
      have hts : ∀ u ∈ ts, ∀ l, b u = some l → Acc r l := fun u hu => hall u (List.mem_cons_of_mem _ hu)
      clear hall
      induction ha generalizing b with
      | intro l0 _ iht =>
        have hb' := ih b hts
        induction hb' with
        | intro b _ ihb =>
          refine ⟨_, fun a ⟨u, hu, l, l', h1, h2, h3⟩ => ?_⟩
          by_cases hut : u = t
          · subst hut
            rw [hb] at h1; cases h1
            refine iht l' h2 a (by rw [h3, Function.update_self]) fun v hv k hk => ?_
            have hvu : v ≠ u := fun e => hnt (e ▸ hv)
            rw [h3, Function.update_of_ne hvu] at hk
            exact hts v hv k hk
          · have hu' : u ∈ ts := (List.mem_cons.1 hu).resolve_left hut
            refine ihb a ⟨u, hu', l, l', h1, h2, h3⟩ ?_ fun v hv k hk => ?_
            · rw [h3, Function.update_of_ne (Ne.symm hut)]; exact hb
            · by_cases hvu : v = u
              · subst hvu
                rw [h3, Function.update_self] at hk; cases hk
                exact (hts v hv l h1).inv h2
              · rw [h3, Function.update_of_ne hvu] at hk
                exact hts v hv k hk

/-- A sequence of naturals that never increases is eventually constant. -/
theorem eventually_const (f : Nat → Nat) (n : Nat) (h : ∀ i, n ≤ i → f (i + 1) ≤ f i) :
    ∃ n', n ≤ n' ∧ ∀ i, n' ≤ i → f (i + 1) = f i := by
  generalize hk : f n = k
  induction k using Nat.strongRecOn generalizing n with
  | ind k ih =>
    by_cases hc : ∃ i, n ≤ i ∧ f (i + 1) < f i
    · obtain ⟨i, hi, hlt⟩ := hc
      have hle : f i ≤ f n := by
        obtain ⟨d, rfl⟩ := Nat.exists_eq_add_of_le hi
        clear hi hlt
        induction d with
        | zero => exact Nat.le_refl _
        | succ d ihd => exact Nat.le_trans (h (n + d) (Nat.le_add_right ..)) ihd
      obtain ⟨n', h1, h2⟩ := ih (f (i + 1)) (by omega) (i + 1) (fun j hj => h j (by omega)) rfl
      exact ⟨n', by omega, h2⟩
    · refine ⟨n, Nat.le_refl _, fun i hi => ?_⟩
      have := h i hi
      exact Nat.le_antisymm this (Nat.not_lt.1 fun hlt => hc ⟨i, hi, hlt⟩)

theorem countP_mono {α : Type} (p q : α → Bool) (l : List α) (h : ∀ a ∈ l, p a = true → q a = true) :
    l.countP p ≤ l.countP q := List.countP_mono_left h

theorem countP_lt {α : Type} (p q : α → Bool) (l : List α) (h : ∀ a ∈ l, p a = true → q a = true) {a : α}
    (ha : a ∈ l) (hp : p a = false) (hq : q a = true) : l.countP p < l.countP q := by
  induction l with
  | nil => cases ha
  | cons b l ih =>
    rcases List.mem_cons.1 ha with rfl | ha'
    · have := List.countP_mono_left (p := p) (q := q) (l := l) fun x hx => h x (List.mem_cons_of_mem _ hx)
      rw [List.countP_cons_of_neg (by simp [hp]), List.countP_cons_of_pos hq]
      omega
    · have := ih (fun x hx => h x (List.mem_cons_of_mem _ hx)) ha'
      have hb := h b List.mem_cons_self
      cases hpb : p b
      · rw [List.countP_cons_of_neg (by simp [hpb])]
        cases hqb : q b
        · rw [List.countP_cons_of_neg (by simp [hqb])]; exact this
        · rw [List.countP_cons_of_pos hqb]; omega
      · rw [List.countP_cons_of_pos hpb, List.countP_cons_of_pos (hb hpb)]; omega

/-- What suffices for lock-freedom. -/
structure LfCert (I : Sys M L O R) (spur : L → M → L → M → Prop) (P : M → Prop) where
  /-- holds of every call in progress -/
  inv : L → Prop
  /-- the call has written, and only has to return -/
  done : L → Prop
  start : ∀ t op, inv (I.start t op)
  step : ∀ t l m l' m', P m → inv l → I.step t l m l' m' → P m' ∧ inv l'
  done_step : ∀ t l m l' m', P m → inv l → done l → I.step t l m l' m' → done l' ∧ m' = m
  /-- a step that is not spurious and that writes makes the call `done` -/
  write : ∀ t l m l' m', P m → inv l → I.step t l m l' m' → ¬ spur l m l' m' → m' = m ∨ done l'
  /-- a call in progress can return or go on -/
  live : ∀ t l m, P m → inv l → (∃ r, I.ret l = some r) ∨ ∃ l' m', I.step t l m l' m' ∧ ¬ spur l m l' m'
  /-- as long as nobody writes, a call takes finitely many steps -/
  acc : ∀ m l, P m → inv l → Acc (fun l' l => ∃ t, I.step t l m l' m ∧ ¬ spur l m l' m) l

theorem LfCert.inv_all {I : Sys M L O R} {spur : L → M → L → M → Prop} {P : M → Prop} (X : LfCert I spur P) {s s' : State M L}
    {ev : Option (Object.Ev O R)} (st : Step I s ev s') (hP : P s.mem)
    (ih : ∀ t l, s.th t = some l → X.inv l) : P s'.mem ∧ ∀ t l, s'.th t = some l → X.inv l := by
  refine ⟨?_, fun t l h => ?_⟩
  · cases st with
    | inv u op hu => exact hP
    | act u k k' m' hu hk => exact (X.step _ _ _ _ _ hP (ih u k hu) hk).1
    | ret u k r hu hr => exact hP
  cases st with
  | inv u op hu =>
    by_cases hut : t = u
    · subst hut; simp only [Function.update_self] at h; cases h; exact X.start _ _
    · simp only [Function.update_of_ne hut] at h; exact ih t l h
  | act u k k' m' hu hk =>
    by_cases hut : t = u
    · subst hut; simp only [Function.update_self] at h; cases h; exact (X.step _ _ _ _ _ hP (ih t k hu) hk).2
    · simp only [Function.update_of_ne hut] at h; exact ih t l h
  | ret u k r hu hr =>
    by_cases hut : t = u
    · subst hut; simp only [Function.update_self] at h; cases h
    · simp only [Function.update_of_ne hut] at h; exact ih t l h

theorem LfCert.neverStuck {I : Sys M L O R} {spur : L → M → L → M → Prop} {P : M → Prop} (X : LfCert I spur P) : NeverStuck I spur P := by
  intro m h s hm hx t l hl
  suffices key : P s.mem ∧ ∀ t l, s.th t = some l → X.inv l from X.live t l s.mem key.1 (key.2 t l hl)
  clear hl
  generalize hi : ({ mem := m, th := fun _ => none } : State M L) = i at hx
  unfold Runs at hx
  rw [hi] at hx
  induction hx with
  | refl => subst hi; exact ⟨hm, fun t l h => by cases h⟩
  | tau _ st ih => exact X.inv_all st ih.1 ih.2
  | ev _ st ih => exact X.inv_all st ih.1 ih.2

open Classical in
theorem LfCert.progress {I : Sys M L O R} {spur : L → M → L → M → Prop} {P : M → Prop} (X : LfCert I spur P) : Progress I spur P := by
  intro m N σ e hm h0 hs hN ⟨n0, hsp⟩ n
  by_contra hno
  have hno : ∀ i, n ≤ i → ∀ t r, e i ≠ some (.ret t r) := fun i hi t r he => hno ⟨i, hi, t, r, he⟩
  -- every call in progress is as it should be
  have hall : ∀ i, P (σ i).mem ∧ ∀ t l, (σ i).th t = some l → X.inv l := by
    intro i
    induction i with
    | zero => rw [h0]; exact ⟨hm, fun t l h => by cases h⟩
    | succ i ih => exact X.inv_all (hs i) ih.1 ih.2
  have hP := fun i => (hall i).1
  have hinv := fun i => (hall i).2
  have hlt : ∀ i t l, (σ i).th t = some l → t < N := by
    intro i t l h
    by_contra hge
    rw [hN i t (Nat.not_lt.1 hge)] at h; cases h
  -- after `n` steps are calls or accesses
  have step' : ∀ i, n ≤ i → (∃ t op, (σ i).th t = none ∧ (σ (i+1)).mem = (σ i).mem ∧
        (σ (i + 1)).th = Function.update (σ i).th t (some (I.start t op))) ∨
      ∃ t l l', (σ i).th t = some l ∧ I.step t l (σ i).mem l' (σ (i + 1)).mem ∧
        (σ (i + 1)).th = Function.update (σ i).th t (some l') := by
    intro i hi
    have st := hs i
    have hr := hno i hi
    generalize σ (i + 1) = s' at st
    generalize e i = ev at st hr
    generalize σ i = s at st
    cases st with
    | inv u op hu => exact .inl ⟨u, op, hu, rfl, rfl⟩
    | act u k k' m' hu hk => exact .inr ⟨u, k, k', hu, hk, rfl⟩
    | ret u k r hu _ => exact absurd rfl (hr u r)
  let idle : Nat → Tid → Bool := fun i t => ((σ i).th t).isNone
  have idle_mono : ∀ i, n ≤ i → ∀ t, idle (i + 1) t = true → idle i t = true := by
    intro i hi t ht
    simp only [idle, Option.isNone_iff_eq_none] at ht ⊢
    rcases step' i hi with ⟨u, op, h1, _, h2⟩ | ⟨u, l, l', h1, _, h2⟩ <;>
    · rw [h2] at ht
      by_cases hut : t = u
      · subst hut; simp at ht
      · simpa [Function.update_of_ne hut] using ht
  obtain ⟨n1, hn1, hc1⟩ := eventually_const (fun i => (List.range N).countP (idle i)) n
    fun i hi => countP_mono _ _ _ fun t _ => idle_mono i hi t
  have step1 : ∀ i, n1 ≤ i → ∃ t l l', (σ i).th t = some l ∧ I.step t l (σ i).mem l' (σ (i + 1)).mem ∧
        (σ (i + 1)).th = Function.update (σ i).th t (some l') := by
    intro i hi
    rcases step' i (Nat.le_trans hn1 hi) with ⟨u, op, h1, _, h2⟩ | h
    · exfalso
      have hu : u < N := hlt (i + 1) u (I.start u op) (by rw [h2, Function.update_self])
      have := countP_lt (idle (i + 1)) (idle i) (List.range N) (fun t _ => idle_mono i (Nat.le_trans hn1 hi) t)
        (List.mem_range.2 hu) (by simp [idle, h2]) (by simp [idle, h1])
      exact absurd (hc1 i hi) (Nat.ne_of_lt this)
    · exact h
  let busy : Nat → Tid → Bool := fun i t => decide (∃ l, (σ i).th t = some l ∧ ¬ X.done l)
  have busy_mono : ∀ i, n1 ≤ i → ∀ t, busy (i + 1) t = true → busy i t = true := by
    intro i hi t ht
    simp only [busy, decide_eq_true_eq] at ht ⊢
    obtain ⟨l, hl, hd⟩ := ht
    obtain ⟨u, k, k', h1, h2, h3⟩ := step1 i hi
    rw [h3] at hl
    by_cases hut : t = u
    · subst hut
      rw [Function.update_self] at hl; cases hl
      exact ⟨k, h1, fun hk => hd (X.done_step _ _ _ _ _ (hP i) (hinv i t k h1) hk h2).1⟩
    · rw [Function.update_of_ne hut] at hl
      exact ⟨l, hl, hd⟩
  obtain ⟨n2, hn2, hc2⟩ := eventually_const (fun i => (List.range N).countP (busy i)) (max n1 n0)
    fun i hi => countP_mono _ _ _ fun t _ => busy_mono i (by omega) t
  have mem1 : ∀ i, n2 ≤ i → (σ (i + 1)).mem = (σ i).mem := by
    intro i hi
    obtain ⟨t, l, l', h1, h2, h3⟩ := step1 i (by omega)
    have hns := hsp i (by omega)
    rcases X.write _ _ _ _ _ (hP i) (hinv i t l h1) h2 (fun hs => hns ⟨t, l, l', h1, h2, h3, hs⟩) with h | h
    · exact h
    · by_cases hd : X.done l
      · exact (X.done_step _ _ _ _ _ (hP i) (hinv i t l h1) hd h2).2
      · exfalso
        have := countP_lt (busy (i + 1)) (busy i) (List.range N) (fun t _ => busy_mono i (by omega) t)
          (List.mem_range.2 (hlt i t l h1))
          (by simp only [busy, decide_eq_false_iff_not, h3, Function.update_self]
              rintro ⟨k, hk, hk'⟩; cases hk; exact hk' h)
          (by simp only [busy, decide_eq_true_eq]; exact ⟨l, h1, hd⟩)
        exact absurd (hc2 i hi) (Nat.ne_of_lt this)
  have mem2 : ∀ d, (σ (n2 + d)).mem = (σ n2).mem := by
    intro d
    induction d with
    | zero => rfl
    | succ d ih => rw [← ih]; exact mem1 (n2 + d) (by omega)
  refine no_descent (acc_oneOf (r := fun l' l => ∃ t, I.step t l (σ n2).mem l' (σ n2).mem ∧
      ¬ spur l (σ n2).mem l' (σ n2).mem) (List.range N) List.nodup_range (σ n2).th
    fun t _ l hl => X.acc _ l (hP n2) (hinv n2 t l hl)) (fun d => (σ (n2 + d)).th) rfl fun d => ?_
  obtain ⟨t, l, l', h1, h2, h3⟩ := step1 (n2 + d) (by omega)
  have hm := mem2 d
  have hm' := mem2 (d + 1)
  have hns := hsp (n2 + d) (by omega)
  refine ⟨t, List.mem_range.2 (hlt _ t l h1), l, l', h1, ⟨t, ?_, fun hs => hns ⟨t, l, l', h1, h2, h3, ?_⟩⟩, h3⟩
  · rw [hm] at h2; rw [← Nat.add_assoc] at hm'; rwa [hm'] at h2
  · rw [hm]; rw [← Nat.add_assoc] at hm'; rwa [hm']

theorem LfCert.lockFree {I : Sys M L O R} {spur : L → M → L → M → Prop} {P : M → Prop} (X : LfCert I spur P) : LockFreeFrom I spur P :=
  ⟨X.neverStuck, X.progress⟩

end Verif.Lf
