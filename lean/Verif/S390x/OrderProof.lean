import Verif.S390x.Order
import Verif.S390x.Proof
/-!
# Orderings of the s390x back end (C42): proof
-/
set_option autoImplicit false
namespace Verif.S390x
open Verif.Lf Verif.Asm Verif.Wide
open Verif.Arm (Acquiring Releasing AsksRelease AsksSeqCst)
open Verif.Ppc (AsksAcquire)

/-! ## Shapes -/

theorem lastRead_exists (t : List Ev) (h : Ev.rd ∈ t) : ∃ i, LastRead t i := by
  induction t with
  | nil => simp at h
  | cons e t ih =>
    by_cases ht : Ev.rd ∈ t
    · obtain ⟨i, h1, h2⟩ := ih ht
      refine ⟨i + 1, h1, fun j hj => ?_⟩
      cases j with
      | zero => omega
      | succ j => exact Nat.succ_le_succ (h2 j hj)
    · have he : e = .rd := by
        rcases List.mem_cons.1 h with h | h
        · exact h.symm
        · exact absurd h ht
      subst he
      refine ⟨0, rfl, fun j hj => ?_⟩
      cases j with
      | zero => omega
      | succ j =>
        have hj' : t[j]? = some .rd := hj
        exact absurd (List.mem_of_getElem? hj') ht

theorem isAcquire_of_read {t : List Ev} (h : Ev.rd ∈ t) : IsAcquire t := by
  refine ⟨lastRead_exists t h, fun pre post i j hi hj hm => ?_⟩
  have hlt : i < t.length := (List.getElem?_eq_some_iff.1 hi.1).1
  have e : (pre ++ t ++ post)[pre.length + i]? = some .rd := by
    rw [List.append_assoc, idx, List.getElem?_append_left hlt]; exact hi.1
  refine .one (.order (Or.inl e) hm ?_ (by omega))
  rintro ⟨h, -⟩
  rw [e] at h; cases h

theorem isRelease_any (t : List Ev) : IsRelease t := by
  intro pre post i j hj hi hm
  have hlt : j < t.length := (List.getElem?_eq_some_iff.1 hj).1
  have e : (pre ++ t ++ post)[pre.length + j]? = some .wr := by
    rw [List.append_assoc, idx, List.getElem?_append_left hlt]; exact hj
  refine .one (.order hm (Or.inr e) ?_ (by omega))
  rintro ⟨-, h⟩
  rw [e] at h; cases h

/-- Every write is followed by a serialization. -/
def Covered (t : List Ev) : Prop := ∀ i, Write t i → ∃ k, i < k ∧ t[k]? = some Ev.ser

theorem Covered.append {t u : List Ev} (ht : Covered t) (hu : Covered u) : Covered (t ++ u) := by
  intro i hi
  rcases Nat.lt_or_ge i t.length with h | h
  · have hi' : Write t i := by
      unfold Write at hi ⊢
      rwa [List.getElem?_append_left h] at hi
    obtain ⟨k, h1, h2⟩ := ht i hi'
    have hk : k < t.length := (List.getElem?_eq_some_iff.1 h2).1
    exact ⟨k, h1, by rw [List.getElem?_append_left hk]; exact h2⟩
  · obtain ⟨n, rfl⟩ : ∃ n, i = t.length + n := ⟨i - t.length, by omega⟩
    have hi' : Write u n := by
      unfold Write at hi ⊢
      rwa [idx] at hi
    obtain ⟨k, h1, h2⟩ := hu n hi'
    exact ⟨t.length + k, by omega, by rw [idx]; exact h2⟩

theorem Covered.nil : Covered [] := fun i hi => by cases hi

theorem covered_of_noWr {t : List Ev} (h : Ev.wr ∉ t) : Covered t :=
  fun _ hi => absurd (List.mem_of_getElem? hi) h

theorem Covered.kept {t : List Ev} (h : Covered t) (u : List Ev) : KeptInOrder t u := by
  intro pre mid post i j hi hj
  have hlt : i < t.length := by
    rcases hi with h | h <;> exact (List.getElem?_eq_some_iff.1 h).1
  have hlt' : j < u.length := by
    rcases hj with h | h <;> exact (List.getElem?_eq_some_iff.1 h).1
  have e1 : ∀ i, i < t.length → (pre ++ t ++ mid ++ u ++ post)[pre.length + i]? = t[i]? := by
    intro i hlt
    simp only [List.append_assoc]
    rw [idx, List.getElem?_append_left hlt]
  have e2 : (pre ++ t ++ mid ++ u ++ post)[pre.length + t.length + mid.length + j]? = u[j]? := by
    have := idx (pre ++ t ++ mid) (u ++ post) j
    simp only [List.length_append] at this
    rw [List.append_assoc _ _ post, this, List.getElem?_append_left hlt']
  have m1 : Mem (pre ++ t ++ mid ++ u ++ post) (pre.length + i) := by unfold Mem; rw [e1 i hlt]; exact hi
  have m2 : Mem (pre ++ t ++ mid ++ u ++ post) (pre.length + t.length + mid.length + j) := by
    unfold Mem; rw [e2]; exact hj
  rcases hi with h1 | h1
  · refine .one (.order m1 m2 ?_ (by omega))
    rintro ⟨h, -⟩
    rw [e1 i hlt, h1] at h; cases h
  · obtain ⟨k, h2, h3⟩ := h i h1
    have hk : k < t.length := (List.getElem?_eq_some_iff.1 h3).1
    exact .one (.ser m1 m2 (k := pre.length + k) (by omega) (by omega) (by rw [e1 k hk]; exact h3))

/-! ## The blocks -/

/-- Does not store without serializing. -/
def Ins.safe : Ins → Bool
  | .stpq _ _ => false
  | _ => true

theorem events_covered {f : Feat} {v : Res (BitVec 128)} {i : Ins} (h : i.safe = true) : Covered (i.events f v) := by
  cases i with
  | stpq => simp [Ins.safe] at h
  | cdsg =>
    cases v with
    | ok x =>
      intro i hi
      match i, hi with
      | 2, _ => exact ⟨3, by omega, rfl⟩
      | 0, h | 1, h | 3, h => cases h
      | k + 4, h => simp [Write, Ins.events] at h
    | _ => exact covered_of_noWr (by simp [Ins.events])
  | bcr m =>
    refine covered_of_noWr ?_
    simp only [Ins.events]
    split <;> simp
  | _ => exact covered_of_noWr (by simp [Ins.events])

variable {E : Env} {c : Call}

theorem Trace.covered {pc : Nat} {s s' : St} {t : List Ev} (h : Trace E c pc s t s')
    (hs : ∀ i ∈ (c.block E).code E.cfg c.r, i.safe = true) : Covered t := by
  induction h with
  | done _ => exact .nil
  | go hp _ _ ih | br hp _ _ ih | acc hp _ _ _ ih =>
    exact (events_covered (hs _ (List.mem_of_getElem? hp))).append ih

theorem Trace.head {pc : Nat} {s s' : St} {t : List Ev} (h : Trace E c pc s t s') {i : Ins}
    (hp : ((c.block E).code E.cfg c.r)[pc]? = some i) : ∃ v t', t = i.events E.cpu v ++ t' := by
  cases h with
  | done h => simp [hp] at h
  | go hp' | br hp' | acc hp' => rw [hp] at hp'; cases hp'; exact ⟨_, _, rfl⟩

/-- Everything but stores begins with a read (and for `cdsg` a serialization). -/
theorem first_reads (ho : ∀ v, c.op ≠ .store v) :
    ∃ i, ((c.block E).code E.cfg c.r)[0]? = some i ∧ ∀ f v, Ev.rd ∈ i.events f v := by
  have hc : ∀ a b d f v, Ev.rd ∈ (Ins.cdsg a b d).events f v := by
    intro a b d f v; cases v <;> simp [Ins.events]
  have hl : ∀ a b d f v, Ev.rd ∈ (Ins.lg a b d).events f v := by
    intro a b d f v; simp [Ins.events]
  unfold Call.block
  cases hop : c.op with
  | load => exact ⟨_, rfl, by simp [Ins.events]⟩
  | store v => exact absurd hop (ho v)
  | swap v => exact ⟨_, rfl, hl _ _ _⟩
  | cas | casWeak => exact ⟨_, rfl, hc _ _ _⟩
  | rmw2 p => exact ⟨_, rfl, hl _ _ _⟩
  | rmw3 p v =>
    simp only [select]
    split
    · rename_i h
      have h1 := (Bool.and_eq_true_iff.1 h).1
      cases p <;> first | (simp [isCmp] at h1; done) | exact ⟨_, rfl, hl _ _ _⟩
    · exact ⟨_, rfl, hl _ _ _⟩

theorem body3_safe (g : Cfg) (o : Op3) : ∀ i ∈ body3 g o, i.safe = true := by
  have hd : ∀ o a b d, ∀ i ∈ distinct g o a b d, i.safe = true := by
    intro o a b d i hi
    unfold distinct at hi
    split at hi <;> simp at hi
    · subst hi; rfl
    · rcases hi with rfl | rfl <;> rfl
  have hs : ∀ o a b d, ∀ i ∈ selectOp g o a b d, i.safe = true := by
    intro o a b d i hi
    unfold selectOp at hi
    split at hi <;> simp at hi
    · subst hi; rfl
    · rcases hi with rfl | rfl <;> rfl
  intro i hi
  cases o with
  | nand =>
    simp only [body3] at hi
    split at hi
    · simp at hi; rcases hi with rfl | rfl <;> rfl
    · simp only [List.mem_append, List.mem_cons, List.not_mem_nil, or_false] at hi
      rcases hi with (h | h) | rfl | rfl | rfl | rfl
      · exact hd _ _ _ _ _ h
      · exact hd _ _ _ _ _ h
      all_goals rfl
  | add | sub =>
    simp only [body3, List.mem_append, List.mem_cons, List.not_mem_nil, or_false] at hi
    rcases hi with h | rfl | rfl
    · exact hd _ _ _ _ _ h
    all_goals rfl
  | and | or | xor =>
    simp only [body3, List.mem_append] at hi
    rcases hi with h | h <;> exact hd _ _ _ _ _ h
  | max | min =>
    simp only [body3, List.mem_append, List.mem_cons, List.not_mem_nil, or_false] at hi
    rcases hi with ((((rfl | h) | rfl) | h) | rfl) | h
    all_goals first | rfl | exact hs _ _ _ _ _ h
  | umax | umin =>
    simp only [body3, List.mem_append, List.mem_cons, List.not_mem_nil, or_false] at hi
    rcases hi with ((((rfl | h) | rfl) | h) | h) | rfl | rfl
    all_goals first | rfl | exact hs _ _ _ _ _ h

theorem body2_safe (g : Cfg) (o : Op2) : ∀ i ∈ body2 g o, i.safe = true := by
  intro i hi
  cases o with
  | not => simp [body2] at hi; rcases hi with rfl | rfl | rfl | rfl <;> rfl
  | neg =>
    simp only [body2] at hi
    split at hi <;> simp at hi
    · rcases hi with rfl | rfl | rfl <;> rfl
    · rcases hi with rfl | rfl | rfl | rfl <;> rfl

theorem loop_safe {n : Reg} {body : List Ins} (h : ∀ i ∈ body, i.safe = true) :
    ∀ i ∈ loop n body, i.safe = true := by
  intro i hi
  simp only [loop, List.mem_append, List.mem_cons, List.not_mem_nil, or_false] at hi
  rcases hi with ((rfl | rfl) | hi) | rfl | rfl
  all_goals first | rfl | exact h i hi

theorem cmpLoop_safe (g : Cfg) (p : Bool × Cond × Cond × Cond) : ∀ i ∈ cmpLoop g p, i.safe = true := by
  have hb : ∀ sg k a b t, (cmpBr sg k a b t).safe = true := by
    intro sg k a b t; cases sg <;> rfl
  intro i hi
  simp only [cmpLoop, List.mem_cons, List.not_mem_nil, or_false] at hi
  rcases hi with rfl | rfl | rfl | rfl | rfl | rfl | rfl | rfl | rfl | rfl
  all_goals first | rfl | exact hb _ _ _ _ _

theorem code_safe (ho : ∀ v, c.op ≠ .store v) : ∀ i ∈ (c.block E).code E.cfg c.r, i.safe = true := by
  unfold Call.block
  cases hop : c.op with
  | load => intro i hi; simp [select, Block.code] at hi; subst hi; rfl
  | store v => exact absurd hop (ho v)
  | swap v => exact loop_safe (by simp)
  | cas | casWeak => intro i hi; simp [select, Block.code] at hi; rcases hi with rfl | rfl <;> rfl
  | rmw2 p => exact loop_safe (body2_safe _ p)
  | rmw3 p v =>
    simp only [select]
    split
    · simp only [Block.code]
      split
      · exact cmpLoop_safe _ _
      · intro i hi; simp at hi; subst hi; rfl
    · exact loop_safe (body3_safe _ p)

theorem store_covered {v : BitVec 128} (hE : E.Ok) (hop : c.op = .store v) (ho : c.ord = .seqCst) {t : List Ev}
    {s s' : St} (h : Trace E c 0 s t s') : Covered t := by
  have hcode : (c.block E).code E.cfg c.r = [.stpq .r0 .dst, serialization E.cfg] := by
    unfold Call.block; rw [hop, ho]; rfl
  have h1 : ∀ v, (serialization E.cfg).events E.cpu v = [.ser] := by
    intro v
    unfold serialization
    cases hf : E.cfg.feat.fast
    · rfl
    · simp [Ins.events, hE.fast hf]
  have key : ∀ {s s' t}, Trace E c 1 s t s' → ∃ t', t = .ser :: t' := by
    intro s s' t h
    obtain ⟨v, t', rfl⟩ := h.head (i := serialization E.cfg) (by rw [hcode]; rfl)
    exact ⟨t', by rw [h1]; rfl⟩
  have k2 : ∀ {s s' t}, Trace E c 2 s t s' → t = [] := by
    intro s s' t h
    cases h with
    | done => rfl
    | go hp | br hp | acc hp => rw [hcode] at hp; cases hp
  have fin : ∀ {s s' t}, Trace E c 1 s t s' → Covered (.wr :: t) := by
    intro s s' t h
    obtain ⟨t', rfl⟩ := key h
    have e : t' = [] := by
      have hi : ∀ s, ∃ s1, (serialization E.cfg).sem E.cpu c.addr s = .go s1 := by
        intro s; unfold serialization; split <;> exact ⟨_, rfl⟩
      generalize hu : Ev.ser :: t' = u at h
      cases h with
      | done hp => rw [hcode] at hp; cases hp
      | go hp hs r =>
        rw [hcode] at hp; cases hp
        rw [h1] at hu
        have := k2 r
        subst this
        simpa using hu
      | br hp hs | acc hp hs =>
        rw [hcode] at hp; cases hp
        obtain ⟨s1, e⟩ := hi _
        rw [e] at hs; cases hs
    subst e
    intro i hi
    match i, hi with
    | 0, _ => exact ⟨1, by omega, rfl⟩
    | 1, h => cases h
    | k + 2, h => simp [Write] at h
  cases h with
  | done hp => rw [hcode] at hp; cases hp
  | go hp hs r | acc hp hs _ r => rw [hcode] at hp; cases hp; exact fin r
  | br hp hs r =>
    rw [hcode] at hp; cases hp
    exfalso
    simp only [Ins.sem] at hs
    split at hs
    · split at hs <;> cases hs
    · cases hs

end Verif.S390x
