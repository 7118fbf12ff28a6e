import Verif.Ppc.Order
import Verif.Ppc.Proof
/-!
# Orderings of the PowerPC64 back end (C40): proof
-/
set_option autoImplicit false
namespace Verif.Ppc
open Verif.Lf Verif.Asm Verif.Wide
open Verif.Arm (Acquiring Releasing AsksRelease AsksSeqCst)

/-! ## Paths through the code -/

/-- What is remembered of the state: the EQ bit of CR0, and that of a copy in `tmp_lo`. -/
structure Abs where
  z : Bool
  m : Bool

def St.abs (s : St) : Abs := ⟨s.cr0.eq, testCr0Eq (s.reg .tmpLo)⟩

/-- What an instruction may do to it. -/
def Ins.abs (w : Bool) (a b : Abs) : Ins → Prop
  | .fence _ => b = a
  | .stqcx _ _ => b.z = w
  | .mfcr .tmpLo => b.m = a.z
  | .bne _ => False
  | _ => True

/-- A path of `n` instructions to the end of the code. -/
inductive Path (p : List Ins) : Nat → Nat → Taint → Abs → List Ev → Abs → Prop where
  | done {pc τ a} (h : p[pc]? = none) : Path p 0 pc τ a [] a
  | step {n pc τ a i w b t a'} (hp : p[pc]? = some i) (h : i.abs w a b)
      (r : Path p n (pc + 1) (i.taint τ) b t a') : Path p (n + 1) pc τ a (i.events τ w ++ t) a'
  | br {n pc τ a k t a'} (hp : p[pc]? = some (.bne k))
      (r : Path p n (if a.z then pc + 1 else k) τ a t a') : Path p (n + 1) pc τ a (.br τ.cr0 :: t) a'

theorem abs_go {f : Bool} {r0 : Option Reg} {a : BitVec 64} {i : Ins} {s s' : St}
    (h : i.sem f r0 a s = .go s') : i.abs false s.abs s'.abs := by
  cases i with
  | fence k => cases h; rfl
  | mfcr d =>
    cases h
    cases d <;> try trivial
    show testCr0Eq (s.cr.setWidth 64) = _
    rw [testCr0Eq_cr]; rfl
  | stqcx d b =>
    exfalso
    simp only [Ins.sem] at h
    split at h
    · split at h <;> cases h
    · cases h
  | bne t => cases h
  | _ => trivial

theorem br_bne {f : Bool} {r0 : Option Reg} {a : BitVec 64} {i : Ins} {s : St} {b : Bool} {n : Nat}
    (h : i.sem f r0 a s = .br b n) : i = .bne n ∧ b = !s.cr0.eq := by
  cases i with
  | bne t => cases h; exact ⟨rfl, rfl⟩
  | lq | stq | lqarx | stqcx =>
    exfalso
    simp only [Ins.sem] at h
    split at h
    · split at h <;> cases h
    · cases h
  | _ => cases h

theorem acc_shape {f : Bool} {r0 : Option Reg} {a : BitVec 64} {i : Ins} {s : St} {x : Acc (BitVec 128)} {k}
    (h : i.sem f r0 a s = .acc x k) : (∃ d b, i = .lq d b) ∨ ∃ d b, i = .stq d b := by
  cases i with
  | lq | stq => simp
  | lqarx | stqcx =>
    exfalso
    simp only [Ins.sem] at h
    split at h
    · split at h <;> cases h
    · cases h
  | _ => cases h

theorem ll_shape {f : Bool} {r0 : Option Reg} {a : BitVec 64} {i : Ins} {s : St} {k}
    (h : i.sem f r0 a s = .ll k) : ∃ d b, i = .lqarx d b := by
  cases i with
  | lqarx => simp
  | lq | stq | stqcx =>
    exfalso
    simp only [Ins.sem] at h
    split at h
    · split at h <;> cases h
    · cases h
  | _ => cases h

theorem sc_shape {f : Bool} {r0 : Option Reg} {a : BitVec 64} {i : Ins} {s : St} {v k}
    (h : i.sem f r0 a s = .sc v k) : (∃ d b, i = .stqcx d b) ∧ ∀ ok, (k ok).cr0.eq = ok := by
  cases i with
  | stqcx d b =>
    refine ⟨⟨_, _, rfl⟩, ?_⟩
    simp only [Ins.sem] at h
    split at h
    · split at h <;> cases h
      intro ok; rfl
    · cases h
  | lq | stq | lqarx =>
    exfalso
    simp only [Ins.sem] at h
    split at h
    · split at h <;> cases h
    · cases h
  | _ => cases h

theorem Trace.path {E : Env} {c : Call} {pc : Nat} {s s' : St} {τ : Taint} {t : List Ev}
    (h : Trace E c pc s τ t s') : ∃ n, Path (c.block E).code n pc τ s.abs t s'.abs := by
  induction h with
  | done h => exact ⟨0, .done h⟩
  | go hp h r ih => obtain ⟨n, ih⟩ := ih; exact ⟨n + 1, .step hp (abs_go h) ih⟩
  | @acc pc s τ i a k x x' v t s' hp h hs r ih =>
    obtain ⟨n, ih⟩ := ih
    refine ⟨n + 1, .step (w := true) hp ?_ ih⟩
    rcases acc_shape h with ⟨_, _, rfl⟩ | ⟨_, _, rfl⟩ <;> trivial
  | ll hp h r ih =>
    obtain ⟨n, ih⟩ := ih
    refine ⟨n + 1, .step (w := false) hp ?_ ih⟩
    obtain ⟨_, _, rfl⟩ := ll_shape h; trivial
  | @sc pc s τ i v k ok t s' hp h r ih =>
    obtain ⟨n, ih⟩ := ih
    refine ⟨n + 1, .step (w := ok) hp ?_ ih⟩
    obtain ⟨⟨_, _, rfl⟩, hk⟩ := sc_shape h
    exact hk ok
  | @br pc s τ i b k t s' hp h r ih =>
    obtain ⟨n, ih⟩ := ih
    obtain ⟨rfl, rfl⟩ := br_bne h
    refine ⟨n + 1, .br hp ?_⟩
    have e : s.abs.z = s.cr0.eq := rfl
    rw [e]
    cases hz : s.cr0.eq <;> rw [hz] at ih <;> exact ih

/-- Not a branch. -/
def Ins.straight : Ins → Bool
  | .bne _ => false
  | _ => true

variable {p : List Ins} {n pc : Nat} {τ : Taint} {a a' : Abs} {t : List Ev}

theorem Path.next {i : Ins} (h : Path p n pc τ a t a') (hp : p[pc]? = some i) (hs : i.straight = true) :
    ∃ m w b t', n = m + 1 ∧ t = i.events τ w ++ t' ∧ i.abs w a b ∧ Path p m (pc + 1) (i.taint τ) b t' a' := by
  cases h with
  | done h => simp [hp] at h
  | step hp' h r => rw [hp] at hp'; cases hp'; exact ⟨_, _, _, _, rfl, rfl, h, r⟩
  | br hp' r => rw [hp] at hp'; cases hp'; simp [Ins.straight] at hs

theorem Path.branch {k : Nat} (h : Path p n pc τ a t a') (hp : p[pc]? = some (.bne k)) :
    ∃ m t', n = m + 1 ∧ t = .br τ.cr0 :: t' ∧ Path p m (if a.z then pc + 1 else k) τ a t' a' := by
  cases h with
  | done h => simp [hp] at h
  | step hp' h r => rw [hp] at hp'; cases hp'; exact h.elim
  | br hp' r => rw [hp] at hp'; cases hp'; exact ⟨_, _, rfl, rfl, r⟩

theorem Path.end_ (h : Path p n pc τ a t a') (hp : p[pc]? = none) : t = [] ∧ a' = a := by
  cases h with
  | done h => exact ⟨rfl, rfl⟩
  | step hp' => simp [hp] at hp'
  | br hp' => simp [hp] at hp'

/-- Events of an optional barrier. -/
def fenceEv : Option Fence → List Ev
  | some .sync => [.sync]
  | some .lwsync => [.lwsync]
  | some .isync => [.isync]
  | none => []

theorem Path.fence {k : Option Fence} {x y : List Ins} (h : Path p n pc τ a t a') (hp : p = x ++ fenceIf k ++ y)
    (hx : pc = x.length) :
    ∃ m t', m ≤ n ∧ t = fenceEv k ++ t' ∧ Path p m (x ++ fenceIf k).length τ a t' a' := by
  subst hx
  cases k with
  | none => exact ⟨n, t, Nat.le_refl _, rfl, by simpa [fenceIf] using h⟩
  | some k =>
    obtain ⟨m, w, b, t', rfl, rfl, hb, h'⟩ := h.next (i := .fence k) (by simp [hp, fenceIf]) rfl
    obtain rfl : b = a := hb
    refine ⟨m, t', by omega, by cases k <;> rfl, ?_⟩
    have h'' : Path p m (x.length + 1) τ b t' a' := h'
    simpa [fenceIf] using h''

/-- Silent instructions: no events, no branch. -/
def Silent (is : List Ins) : Prop := ∀ i ∈ is, i.straight = true ∧ ∀ τ w, i.events τ w = []

theorem Path.silent {b x y : List Ins} (h : Path p n pc τ a t a') (hs : Silent b) (hp : p = x ++ b ++ y)
    (hx : pc = x.length) : ∃ m τ' a1, m ≤ n ∧ Path p m (x ++ b).length τ' a1 t a' := by
  subst hx
  induction b generalizing n x τ a with
  | nil => exact ⟨n, _, _, Nat.le_refl _, by simpa using h⟩
  | cons i is ih =>
    obtain ⟨m, w, b, t', rfl, ht, -, h'⟩ := h.next (i := i) (by simp [hp]) (hs i (by simp)).1
    rw [(hs i (by simp)).2, List.nil_append] at ht
    subst ht
    obtain ⟨k, τ', a1, hk, h''⟩ := ih (x := x ++ [i]) (fun j hj => hs j (by simp [hj])) (by simpa using hp)
      (by simpa using h')
    exact ⟨k, τ', a1, by omega, by simpa using h''⟩

/-! ## Shapes of event lists -/

/-- A read, a branch depending on it, an `isync`, and no other read after it. -/
def AcqShape (t : List Ev) : Prop :=
  ∃ A B B' D, t = A ++ .rd :: (B ++ .br true :: (B' ++ .isync :: D)) ∧
    .rd ∉ B ∧ .rd ∉ B' ∧ .rd ∉ D

theorem AcqShape.pre {t : List Ev} (h : AcqShape t) (A : List Ev) : AcqShape (A ++ t) := by
  obtain ⟨A', B, B', D, rfl, h⟩ := h
  exact ⟨A ++ A', B, B', D, by simp, h⟩

theorem AcqShape.isAcquire {t : List Ev} (h : AcqShape t) : IsAcquire t := by
  obtain ⟨A, B, B', D, rfl, hB, hB', hD⟩ := h
  have hn : ∀ (j : Nat), A.length < j →
      (A ++ Ev.rd :: (B ++ .br true :: (B' ++ .isync :: D)))[j]? ≠ some Ev.rd := by
    intro j hj e
    obtain ⟨k, rfl⟩ : ∃ k, j = A.length + 1 + k := ⟨j - (A.length + 1), by omega⟩
    have := idx (A ++ [Ev.rd]) (B ++ .br true :: (B' ++ .isync :: D)) k
    simp only [List.append_assoc, List.singleton_append, List.length_append, List.length_singleton] at this
    rw [this] at e
    have hm := List.mem_of_getElem? e
    simp [hB, hB', hD] at hm
  have h0 : (A ++ Ev.rd :: (B ++ .br true :: (B' ++ .isync :: D)))[A.length]? = some .rd := by simp
  refine ⟨⟨A.length, h0, fun j hj => ?_⟩, ?_⟩
  · rcases Nat.lt_or_ge A.length j with h | h
    · exact absurd hj (hn j h)
    · exact h
  · intro pre post i j ⟨hi, hl⟩ hj hm
    have hi' : i = A.length := by
      have h1 := hl _ h0
      rcases Nat.lt_or_ge A.length i with h | h
      · exact absurd hi (hn i h)
      · omega
    subst hi'
    simp only [List.length_append, List.length_cons] at hj
    have e : pre ++ (A ++ Ev.rd :: (B ++ .br true :: (B' ++ .isync :: D))) ++ post =
        (pre ++ A) ++ ([.rd] ++ B ++ [.br true] ++ B' ++ [.isync] ++ (D ++ post)) := by simp
    have hb : (pre ++ (A ++ Ev.rd :: (B ++ .br true :: (B' ++ .isync :: D))) ++ post)[pre.length + A.length +
        (1 + B.length)]? = some (.br true) := by
      have h1 := idx ((pre ++ A) ++ [.rd] ++ B) ([.br true] ++ B' ++ [.isync] ++ (D ++ post)) 0
      rw [e]
      simp only [List.length_append, List.length_singleton] at h1
      have e2 : pre.length + A.length + (1 + B.length) = pre.length + A.length + 1 + B.length + 0 := by omega
      rw [e2]
      simp only [List.append_assoc] at h1 ⊢
      rw [h1]; rfl
    have hs : (pre ++ (A ++ Ev.rd :: (B ++ .br true :: (B' ++ .isync :: D))) ++ post)[pre.length + A.length +
        (1 + B.length) + 1 + B'.length]? = some .isync := by
      have h1 := idx ((pre ++ A) ++ [.rd] ++ B ++ [.br true] ++ B') ([.isync] ++ (D ++ post)) 0
      rw [e]
      simp only [List.length_append, List.length_singleton] at h1
      have e2 : pre.length + A.length + (1 + B.length) + 1 + B'.length =
        pre.length + A.length + 1 + B.length + 1 + B'.length + 0 := by omega
      rw [e2]
      simp only [List.append_assoc] at h1 ⊢
      rw [h1]; rfl
    refine .one (.ctrl (k := pre.length + A.length + (1 + B.length))
      (l := pre.length + A.length + (1 + B.length) + 1 + B'.length) ?_ hm (by omega) (by omega) (by omega) hb ?_ hs)
    · rw [List.append_assoc]
      have := idx pre (A ++ Ev.rd :: (B ++ .br true :: (B' ++ .isync :: D)) ++ post) A.length
      rw [this]
      simp
    · intro n h1 h2 en
      obtain ⟨k, rfl⟩ : ∃ k, n = pre.length + A.length + 1 + k := ⟨n - (pre.length + A.length + 1), by omega⟩
      have h3 := idx ((pre ++ A) ++ [.rd]) (B ++ [.br true] ++ B' ++ [.isync] ++ (D ++ post)) k
      rw [e] at en
      have e3 : pre.length + A.length + 1 + k = (pre ++ A ++ [Ev.rd]).length + k := by
        simp only [List.length_append, List.length_singleton]
      rw [e3] at en
      simp only [List.append_assoc] at h3 en
      rw [h3, List.getElem?_append_left (by omega)] at en
      exact hB (List.mem_of_getElem? en)

/-- Begins with `sync` or `lwsync`. -/
def RelShape (t : List Ev) : Prop := ∃ k D, t = k :: D ∧ (k = .sync ∨ k = .lwsync)

theorem RelShape.isRelease {t : List Ev} (h : RelShape t) : IsRelease t := by
  obtain ⟨k, D, rfl, hk⟩ := h
  intro pre post i j hj hi hm
  have h0 : (pre ++ k :: D ++ post)[pre.length]? = some k := by simp
  have hj0 : 0 < j := by
    rcases Nat.eq_zero_or_pos j with rfl | h
    · rcases hk with rfl | rfl <;> cases hj
    · exact h
  have hjm : (pre ++ k :: D ++ post)[pre.length + j]? = some .wr := by
    have hj' : (k :: D)[j]? = some .wr := hj
    have hlt : j < (k :: D).length := (List.getElem?_eq_some_iff.1 hj').1
    rw [List.append_assoc, idx, List.getElem?_append_left hlt]; exact hj'
  rcases hk with rfl | rfl
  · exact .one (.sync hm (Or.inr hjm) hi (by omega) h0)
  · refine .one (.lwsync hm (Or.inr hjm) ?_ hi (by omega) h0)
    rintro ⟨-, h⟩; rw [hjm] at h; cases h

/-- Begins with `sync`. -/
def ScShape (t : List Ev) : Prop := ∃ D, t = .sync :: D

theorem ScShape.kept {u : List Ev} (h : ScShape u) (t : List Ev) : KeptInOrder t u := by
  obtain ⟨D, rfl⟩ := h
  intro pre mid post i j hi hj
  have hlt : i < t.length := by
    rcases hi with h | h <;> exact (List.getElem?_eq_some_iff.1 h).1
  have hlt' : j < (Ev.sync :: D).length := by
    rcases hj with h | h <;> exact (List.getElem?_eq_some_iff.1 h).1
  have hj0 : 0 < j := by
    rcases Nat.eq_zero_or_pos j with rfl | h
    · rcases hj with h | h <;> cases h
    · exact h
  have e1 : (pre ++ t ++ mid ++ Ev.sync :: D ++ post)[pre.length + i]? = t[i]? := by
    simp only [List.append_assoc]
    rw [idx, List.getElem?_append_left hlt]
  have e2 : ∀ j, j < (Ev.sync :: D).length → (pre ++ t ++ mid ++ Ev.sync :: D ++ post)[pre.length + t.length +
      mid.length + j]? = (Ev.sync :: D)[j]? := by
    intro j hj
    have := idx (pre ++ t ++ mid) (Ev.sync :: D ++ post) j
    simp only [List.length_append] at this
    rw [List.append_assoc _ _ post, this, List.getElem?_append_left hj]
  refine .one (.sync (k := pre.length + t.length + mid.length) ?_ ?_ (by omega) (by omega) (e2 0 (by simp)))
  · unfold Mem; rw [e1]; exact hi
  · unfold Mem; rw [e2 j hlt']; exact hj

/-! ## The blocks -/

theorem silent_body3 (o : Op3) : Silent (body3 o) := by
  intro i hi
  cases o <;> simp only [body3, List.mem_cons, List.not_mem_nil, or_false] at hi <;>
    rcases hi with rfl | hi <;> first | exact ⟨rfl, fun _ _ => rfl⟩ | skip
  all_goals
    first
    | (subst hi; exact ⟨rfl, fun _ _ => rfl⟩)
    | (rcases hi with rfl | rfl | rfl | rfl | rfl | rfl <;> exact ⟨rfl, fun _ _ => rfl⟩)
    | (rcases hi with rfl | rfl | rfl | rfl | rfl <;> exact ⟨rfl, fun _ _ => rfl⟩)

theorem silent_neg (old : Bool) : Silent (bodyNeg old) := by
  intro i hi
  cases old <;> simp only [bodyNeg, List.mem_cons, List.not_mem_nil, or_false, if_true, if_false,
    Bool.false_eq_true] at hi <;> rcases hi with rfl | rfl <;> exact ⟨rfl, fun _ _ => rfl⟩

theorem silent_nil : Silent [] := fun _ h => by simp at h

/-- Starts with its release barrier. -/
theorem starts {k : Option Fence} {y : List Ins} (hp : p = fenceIf k ++ y) (h : Path p n 0 τ a t a') :
    ∃ t', t = fenceEv k ++ t' := by
  obtain ⟨_, t', -, rfl, -⟩ := h.fence (x := []) (k := k) (y := y) (by simpa using hp) rfl
  exact ⟨t', rfl⟩

theorem fenceEv_noRd (k : Option Fence) : Ev.rd ∉ fenceEv k := by
  cases k with
  | none => simp [fenceEv]
  | some k => cases k <;> simp [fenceEv]

theorem loop_acq {m : Mode} {body : List Ins} (hb : Silent body) (hm : m.acq = some .isync)
    (h : Path (loop m body) n (fenceIf m.rel).length τ a t a') : AcqShape t := by
  induction n using Nat.strongRecOn generalizing t τ a with
  | ind n ih =>
    obtain ⟨m1, w1, b1, t1, rfl, rfl, -, h1⟩ := h.next (i := .lqarx .r6 .dst) (by simp [loop]) rfl
    obtain ⟨m2, τ2, a2, hm2, h2⟩ := h1.silent (x := fenceIf m.rel ++ [.lqarx .r6 .dst]) (b := body)
      (y := [.stqcx .r8 .dst, .bne (fenceIf m.rel).length] ++ fenceIf m.acq) hb (by simp [loop]) (by simp)
    obtain ⟨m3, w3, b3, t3, rfl, rfl, h3z, h3⟩ := h2.next (i := .stqcx .r8 .dst) (by simp [loop]) rfl
    obtain ⟨m4, t4, rfl, rfl, h4⟩ := h3.branch (k := (fenceIf m.rel).length) (by
      have := idx (fenceIf m.rel ++ [.lqarx .r6 .dst] ++ body ++ [.stqcx .r8 .dst])
        ([.bne (fenceIf m.rel).length] ++ fenceIf m.acq) 0
      simp only [loop, List.append_assoc] at this ⊢
      simpa [Nat.add_assoc] using this)
    have hw : Ev.rd ∉ (Ins.stqcx .r8 .dst).events τ2 w3 := by cases w3 <;> simp [Ins.events]
    cases hz : b3.z with
    | false =>
      rw [hz] at h4
      have := ih m4 (by omega) h4
      have e := this.pre (((Ins.lqarx .r6 .dst).events τ w1) ++ ((Ins.stqcx .r8 .dst).events τ2 w3) ++
        [.br ((Ins.stqcx .r8 .dst).taint τ2).cr0])
      simpa [List.append_assoc] using e
    | true =>
      rw [hz] at h4
      obtain ⟨m5, t5, -, rfl, h5⟩ := h4.fence (k := m.acq) (y := [])
        (x := fenceIf m.rel ++ ([.lqarx .r6 .dst] ++ body ++ [.stqcx .r8 .dst, .bne (fenceIf m.rel).length]))
        (by simp [loop]) (by simp; omega)
      obtain ⟨rfl, -⟩ := h5.end_ (by rw [List.getElem?_eq_none]; simp [loop])
      rw [hm]
      exact ⟨[], (Ins.stqcx .r8 .dst).events τ2 w3, [], [], rfl, hw, by simp, by simp⟩

/-- The common part of both compare-exchange blocks. -/
theorem cas_acq {m : CasMode} {retry : List Ins}
    (hr : retry = [] ∨ retry = [.bne (fenceIf m.rel).length])
    (hp : p = fenceIf m.rel ++ ([.lqarx .r8 .dst] ++ cmpOld ++
      [.bne ((fenceIf m.rel).length + (6 + retry.length) + (fenceIf m.success).length), .stqcx .r6 .dst] ++ retry) ++
      fenceIf m.success ++ fenceIf m.always ++ [.mfcr .tmpLo])
    (hm : m.always = some .isync ∨ (m.success = some .isync ∧ a'.m = true))
    (h : Path p n (fenceIf m.rel).length τ a t a') : AcqShape t := by
  induction n using Nat.strongRecOn generalizing t τ a with
  | ind n ih =>
    let L3 := (fenceIf m.rel).length + (6 + retry.length) + (fenceIf m.success).length
    have hat : ∀ k, p[(fenceIf m.rel).length + k]? = (([.lqarx .r8 .dst] ++ cmpOld ++
      [.bne L3, .stqcx .r6 .dst] ++ retry) ++
      fenceIf m.success ++ fenceIf m.always ++ [.mfcr .tmpLo] : List Ins)[k]? := by
      intro k
      rw [hp]
      simp only [List.append_assoc]
      exact idx _ _ _
    -- from label 3
    have tail : ∀ {n τ a t}, Path p n L3 τ a t a' → t = fenceEv m.always ∧ a'.m = a.z := by
      intro n τ a t h
      obtain ⟨m5, t5, -, rfl, h5⟩ := h.fence (k := m.always) (y := [.mfcr .tmpLo])
        (x := fenceIf m.rel ++ ([.lqarx .r8 .dst] ++ cmpOld ++
        [.bne L3, .stqcx .r6 .dst] ++ retry) ++
        fenceIf m.success) (by rw [hp]) (by simp [cmpOld, L3]; omega)
      obtain ⟨m6, w6, b6, t6, rfl, rfl, h6m, h6⟩ := h5.next (i := .mfcr .tmpLo) (by
        have := idx (fenceIf m.rel ++ ([.lqarx .r8 .dst] ++ cmpOld ++
          [.bne L3, .stqcx .r6 .dst] ++ retry) ++ fenceIf m.success ++ fenceIf m.always) [.mfcr .tmpLo] 0
        rw [hp]; exact this) rfl
      obtain ⟨rfl, rfl⟩ := h6.end_ (by rw [List.getElem?_eq_none]; simp [hp]; omega)
      exact ⟨by simp, h6m⟩
    obtain ⟨m1, w1, b1, t1, rfl, rfl, -, h1⟩ := h.next (i := .lqarx .r8 .dst) (by
      have := hat 0; simpa using this) rfl
    obtain ⟨m2, w2, b2, t2, rfl, rfl, -, h2⟩ := h1.next (i := .xor .tmpLo .r9 .oldLo) (by
      have := hat 1; simpa [cmpOld] using this) rfl
    obtain ⟨m3, w3, b3, t3, rfl, rfl, -, h3⟩ := h2.next (i := .xor .tmpHi .r8 .oldHi) (by
      exact hat 2) rfl
    obtain ⟨m4, w4, b4, t4, rfl, rfl, -, h4⟩ := h3.next (i := .orDot .tmpLo .tmpLo .tmpHi) (by
      exact hat 3) rfl
    obtain ⟨m5, t5, rfl, rfl, h5⟩ := h4.branch (k := L3) (by
      exact hat 4)
    have hc : ((Ins.orDot .tmpLo .tmpLo .tmpHi).taint ((Ins.xor .tmpHi .r8 .oldHi).taint
      ((Ins.xor .tmpLo .r9 .oldLo).taint ((Ins.lqarx .r8 .dst).taint τ)))).cr0 = true := rfl
    rw [hc]
    simp only [Ins.events, List.nil_append, List.cons_append]
    cases hz : b4.z with
    | false =>
      rw [hz] at h5
      obtain ⟨rfl, hz'⟩ := tail h5
      rw [hz] at hz'
      rcases hm with hm | ⟨-, hm⟩
      · rw [hm]
        exact ⟨[], [], [], [], rfl, by simp, by simp, by simp⟩
      · rw [hz'] at hm; cases hm
    | true =>
      rw [hz] at h5
      obtain ⟨m6, w6, b6, t6, rfl, rfl, h6z, h6⟩ := h5.next (i := .stqcx .r6 .dst) (by
        exact hat 5) rfl
      have hw : Ev.rd ∉ (Ins.stqcx .r6 .dst).events ((Ins.orDot .tmpLo .tmpLo .tmpHi).taint
          ((Ins.xor .tmpHi .r8 .oldHi).taint
          ((Ins.xor .tmpLo .r9 .oldLo).taint ((Ins.lqarx .r8 .dst).taint τ)))) w6 := by
        cases w6 <;> simp [Ins.events]
      -- after `retry`
      have fin : ∀ {n τ a t}, Path p n ((fenceIf m.rel).length + (6 + retry.length)) τ a t a' →
          ∃ B D, t = B ++ .isync :: D ∧ Ev.rd ∉ B ∧ Ev.rd ∉ D := by
        intro n τ a t h
        obtain ⟨m8, t8, -, rfl, h8⟩ := h.fence (k := m.success) (y := fenceIf m.always ++ [.mfcr .tmpLo])
          (x := fenceIf m.rel ++ ([.lqarx .r8 .dst] ++ cmpOld ++
          [.bne L3, .stqcx .r6 .dst] ++ retry)) (by rw [hp]; simp [L3]) (by simp [cmpOld]; omega)
        obtain ⟨rfl, -⟩ := tail (n := m8) (by
          have e : (fenceIf m.rel ++ ([.lqarx .r8 .dst] ++ cmpOld ++
            [.bne L3, .stqcx .r6 .dst] ++ retry) ++ fenceIf m.success : List Ins).length = L3 := by
            simp [cmpOld, L3]; omega
          rw [e] at h8; exact h8)
        rcases hm with hm | ⟨hm, -⟩
        · rw [hm]; exact ⟨fenceEv m.success, [], rfl, fenceEv_noRd _, by simp⟩
        · rw [hm]; exact ⟨[], fenceEv m.always, rfl, by simp, fenceEv_noRd _⟩
      rcases hr with hr | hr
      · obtain ⟨B, D, rfl, hB, hD⟩ := fin (n := m6) (by
          have e : (fenceIf m.rel).length + (6 + retry.length) = (fenceIf m.rel).length + 1 + 1 + 1 + 1 + 1 + 1 := by
            simp [hr]
          rw [e]; exact h6)
        refine ⟨[], [], _ ++ B, D, by rw [List.append_assoc]; rfl, by simp, ?_, hD⟩
        simp only [List.mem_append, not_or]
        exact ⟨hw, hB⟩
      · obtain ⟨m7, t7, rfl, rfl, h7⟩ := h6.branch (k := (fenceIf m.rel).length) (by
          have := hat 6; rw [hr] at this; exact this)
        cases hz7 : b6.z with
        | false =>
          rw [hz7] at h7
          have := ih m7 (by omega) h7
          have e := this.pre ([.rd, .br true] ++ (Ins.stqcx .r6 .dst).events ((Ins.orDot .tmpLo .tmpLo .tmpHi).taint
            ((Ins.xor .tmpHi .r8 .oldHi).taint
            ((Ins.xor .tmpLo .r9 .oldLo).taint ((Ins.lqarx .r8 .dst).taint τ)))) w6 ++ [.br true])
          simp only [List.append_assoc, List.cons_append, List.nil_append] at e
          exact e
        | true =>
          rw [hz7] at h7
          obtain ⟨B, D, rfl, hB, hD⟩ := fin (n := m7) (by
            have e : (fenceIf m.rel).length + (6 + retry.length) =
                (fenceIf m.rel).length + 1 + 1 + 1 + 1 + 1 + 1 + 1 := by simp [hr]
            rw [e]; exact h7)
          refine ⟨[], [], _ ++ .br _ :: B, D, by rw [List.append_assoc]; rfl, by simp, ?_, hD⟩
          simp only [List.mem_append, List.mem_cons, not_or]
          exact ⟨hw, by simp, hB⟩

theorem load_acq {k : Option Fence}
    (h : Path (Block.loadAcq k).code n (fenceIf k).length τ a t a') : AcqShape t := by
  obtain ⟨m1, w1, b1, t1, rfl, rfl, -, h1⟩ := h.next (i := .lq .r4 .dst) (by simp [Block.code]) rfl
  have hat : ∀ j, (Block.loadAcq k).code[(fenceIf k).length + j]? =
      ([.lq .r4 .dst, .cmpw .r4 .r4, .bne ((fenceIf k).length + 3), .fence .isync] : List Ins)[j]? :=
    fun j => idx _ _ _
  obtain ⟨m2, w2, b2, t2, rfl, rfl, -, h2⟩ := h1.next (i := .cmpw .r4 .r4) (by have := hat 1; simpa using this) rfl
  obtain ⟨m3, t3, rfl, rfl, h3⟩ := h2.branch (k := (fenceIf k).length + 3) (by
    have := hat 2; simpa [Nat.add_assoc] using this)
  have e : (if b2.z = true then (fenceIf k).length + 1 + 1 + 1 else (fenceIf k).length + 3) =
    (fenceIf k).length + 3 := by split <;> omega
  rw [e] at h3
  obtain ⟨m4, w4, b4, t4, rfl, rfl, -, h4⟩ := h3.next (i := .fence .isync) (by
    have := hat 3; simpa using this) rfl
  obtain ⟨rfl, -⟩ := h4.end_ (by have := hat 4; simpa [Nat.add_assoc] using this)
  exact ⟨[], [], [], [], rfl, by simp, by simp, by simp⟩

/-! ## Which barriers a block has -/

/-- The barrier a block starts with. -/
def Block.rel : Block → Option Fence
  | .loadAcq k | .store k => k
  | .cas m | .casWeak m => m.rel
  | .swap m | .rmw3 _ m | .neg _ m => m.rel
  | .load | .fallback _ _ | .unreachable => none

/-- It acquires when the result is `r`. -/
def Block.acq (r : Res (BitVec 128)) : Block → Prop
  | .loadAcq _ => True
  | .cas m | .casWeak m => m.always = some .isync ∨ (m.success = some .isync ∧ ∃ x, r = .ok x)
  | .swap m | .rmw3 _ m | .neg _ m => m.acq = some .isync
  | .load | .store _ | .fallback _ _ | .unreachable => False

variable {E : Env} {c : Call}

theorem events_rel {t : List Ev} {r : Res (BitVec 128)} (h : c.Events E t r) :
    ∃ t', t = fenceEv (c.block E).rel ++ t' := by
  obtain ⟨s, h, -⟩ := h
  obtain ⟨n, h⟩ := h.path
  generalize c.block E = b at h
  cases b with
  | load | fallback | unreachable => exact ⟨t, rfl⟩
  | loadAcq k => exact starts (y := _) rfl h
  | store k => exact starts (y := _) rfl h
  | cas m => exact starts (k := m.rel) (by simp only [Block.code, List.append_assoc]; rfl) h
  | casWeak m => exact starts (k := m.rel) (by simp only [Block.code, List.append_assoc]; rfl) h
  | swap m => exact starts (k := m.rel) (by simp only [Block.code, loop, List.append_assoc]; rfl) h
  | rmw3 o m => exact starts (k := m.rel) (by simp only [Block.code, loop, List.append_assoc]; rfl) h
  | neg o m => exact starts (k := m.rel) (by simp only [Block.code, loop, List.append_assoc]; rfl) h

/-- Past the release barrier. -/
theorem path_body {k : Option Fence} {y : List Ins} (hp : p = fenceIf k ++ y) (h : Path p n 0 τ a t a') :
    ∃ m t', t = fenceEv k ++ t' ∧ Path p m (fenceIf k).length τ a t' a' := by
  obtain ⟨m, t', -, rfl, h'⟩ := h.fence (x := []) (k := k) (y := y) (by simpa using hp) rfl
  exact ⟨m, t', rfl, by simpa using h'⟩

theorem ok_bit {op : WOp} {x : BitVec 128} {b : Bool} {y : BitVec 128} (h : resOf op x b = .ok y) : b = true := by
  cases op <;> simp only [resOf] at h <;> first | cases h | (split at h <;> first | assumption | cases h)

theorem events_acq {t : List Ev} {r : Res (BitVec 128)} (h : c.Events E t r) (ha : (c.block E).acq r) :
    AcqShape t := by
  obtain ⟨s, h, hr⟩ := h
  have hbit : ∀ x, r = .ok x → s.abs.m = true := by
    rintro x rfl
    rw [result_of rfl rfl] at hr
    exact ok_bit hr.symm
  obtain ⟨n, h⟩ := h.path
  have hcas : ∀ m : CasMode, (m.always = some .isync ∨ (m.success = some .isync ∧ ∃ x, r = .ok x)) →
      m.always = some .isync ∨ (m.success = some .isync ∧ s.abs.m = true) := by
    rintro m (h | ⟨h, x, hx⟩)
    · exact Or.inl h
    · exact Or.inr ⟨h, hbit x hx⟩
  generalize c.block E = b at h ha
  cases b with
  | load | store | fallback | unreachable => exact ha.elim
  | loadAcq k =>
    obtain ⟨m, t', rfl, h'⟩ := path_body (y := _) rfl h
    exact (load_acq h').pre _
  | cas m =>
    obtain ⟨m', t', rfl, h'⟩ := path_body (k := m.rel) (by simp only [Block.code, List.append_assoc]; rfl) h
    exact (cas_acq (Or.inr rfl) (by simp [Block.code]) (hcas m ha) h').pre _
  | casWeak m =>
    obtain ⟨m', t', rfl, h'⟩ := path_body (k := m.rel) (by simp only [Block.code, List.append_assoc]; rfl) h
    exact (cas_acq (Or.inl rfl) (by simp [Block.code]) (hcas m ha) h').pre _
  | swap m =>
    obtain ⟨m', t', rfl, h'⟩ := path_body (k := m.rel) (by simp only [Block.code, loop, List.append_assoc]; rfl) h
    exact (loop_acq silent_nil ha h').pre _
  | rmw3 o m =>
    obtain ⟨m', t', rfl, h'⟩ := path_body (k := m.rel) (by simp only [Block.code, loop, List.append_assoc]; rfl) h
    exact (loop_acq (silent_body3 o) ha h').pre _
  | neg o m =>
    obtain ⟨m', t', rfl, h'⟩ := path_body (k := m.rel) (by simp only [Block.code, loop, List.append_assoc]; rfl) h
    exact (loop_acq (silent_neg o) ha h').pre _

/-! ## The blocks chosen -/

theorem casPwr8_acq {s f : MemOrd} (hf : f ≠ .release ∧ f ≠ .acqRel) {r : Res (BitVec 128)}
    (ha : Acquiring f ∨ (Acquiring s ∧ ∃ x, r = .ok x)) :
    (casPwr8 s f).acq r ∧ (casWeakPwr8 s f).acq r := by
  cases s <;> cases f <;> simp_all [Acquiring, casPwr8, casWeakPwr8, casMode, Block.acq, MemOrd.upgradeSuccess]

theorem select_acq {g : Cfg} {d : Bool} (h : g.quad = true ∨ d = true) {op : WOp} {o f : MemOrd}
    {r : Res (BitVec 128)} (hv : op.OrdOk o f) (ha : AsksAcquire op o f r) : (select g d op o f).acq r := by
  have hrmw : ∀ b : Mode → Block, (∀ m, (b m).acq r = (m.acq = some .isync)) → Acquiring o →
      (rmwBlock g d b o).acq r := by
    intro b hb ho
    rw [rmwBlock_quad h, hb]
    rcases ho with rfl | rfl | rfl <;> rfl
  have hcas : ∀ x y, op = .cas x y ∨ op = .casWeak x y → (casBlock g d o f).acq r := by
    intro x y hop
    have hf : f ≠ .release ∧ f ≠ .acqRel := by rcases hop with rfl | rfl <;> exact hv
    have ha' : Acquiring f ∨ (Acquiring o ∧ ∃ x, r = .ok x) := by rcases hop with rfl | rfl <;> exact ha
    unfold casBlock
    split
    · exact (casPwr8_acq hf ha').1
    · rcases h with h | rfl
      · contradiction
      · cases o <;> cases f <;> simp_all [Acquiring, casPwr8, casMode, Block.acq, MemOrd.upgradeSuccess]
  cases op with
  | load =>
    simp only [select, loadBlock]
    have ha' : Acquiring o := ha
    split
    · cases o <;> simp_all [loadPwr8, Acquiring, Block.acq, WOp.OrdOk]
    · rcases h with h | rfl
      · contradiction
      · cases o <;> simp_all [loadPwr8, Acquiring, Block.acq, WOp.OrdOk]
  | store v => exact ha.elim
  | swap v => exact hrmw _ (fun m => rfl) ha
  | cas x y => exact hcas x y (Or.inl rfl)
  | casWeak x y =>
    simp only [select, casWeakBlock]
    split
    · exact (casPwr8_acq hv ha).2
    · exact hcas x y (Or.inr rfl)
  | rmw3 p v => exact hrmw _ (fun m => rfl) ha
  | rmw2 p => cases p <;> exact hrmw _ (fun m => rfl) ha

theorem select_rel {g : Cfg} {d : Bool} (h : g.quad = true ∨ d = true) {op : WOp} {o f : MemOrd}
    (hv : op.OrdOk o f) (ha : AsksRelease op o) :
    (select g d op o f).rel = some .lwsync ∨ (select g d op o f).rel = some .sync := by
  have hrmw : ∀ b : Mode → Block, (∀ m, (b m).rel = m.rel) → Releasing o →
      (rmwBlock g d b o).rel = some .lwsync ∨ (rmwBlock g d b o).rel = some .sync := by
    intro b hb ho
    rw [rmwBlock_quad h, hb]
    rcases ho with rfl | rfl | rfl <;> simp [rmwMode]
  have hcas : f ≠ .release ∧ f ≠ .acqRel → Releasing o →
      (casBlock g d o f).rel = some .lwsync ∨ (casBlock g d o f).rel = some .sync := by
    intro hf ho
    unfold casBlock
    split
    · cases o <;> cases f <;> simp_all [Releasing, casPwr8, casMode, Block.rel, MemOrd.upgradeSuccess]
    · rcases h with h | rfl
      · contradiction
      · cases o <;> cases f <;> simp_all [Releasing, casPwr8, casMode, Block.rel, MemOrd.upgradeSuccess]
  cases op with
  | load => exact ha.elim
  | store v =>
    simp only [select, storeBlock]
    have ha' : Releasing o := ha
    split
    · cases o <;> simp_all [storePwr8, Releasing, Block.rel, WOp.OrdOk]
    · rcases h with h | rfl
      · contradiction
      · cases o <;> simp_all [storePwr8, Releasing, Block.rel, WOp.OrdOk]
  | swap v => exact hrmw _ (fun m => rfl) ha
  | cas x y => exact hcas hv ha
  | casWeak x y =>
    simp only [select, casWeakBlock]
    have ha' : Releasing o := ha
    have hv' : f ≠ .release ∧ f ≠ .acqRel := hv
    split
    · cases o <;> cases f <;> simp_all [Releasing, casWeakPwr8, casMode, Block.rel, MemOrd.upgradeSuccess]
    · exact hcas hv ha
  | rmw3 p v => exact hrmw _ (fun m => rfl) ha
  | rmw2 p => cases p <;> exact hrmw _ (fun m => rfl) ha

theorem select_sc {g : Cfg} {d : Bool} (h : g.quad = true ∨ d = true) {op : WOp} {o f : MemOrd}
    (hv : op.OrdOk o f) (ha : AsksSeqCst op o f) : (select g d op o f).rel = some .sync := by
  have hrmw : ∀ b : Mode → Block, (∀ m, (b m).rel = m.rel) → o = .seqCst → (rmwBlock g d b o).rel = some .sync := by
    intro b hb ho
    rw [rmwBlock_quad h, hb]
    subst ho; rfl
  have hcas : f ≠ .release ∧ f ≠ .acqRel → (o = .seqCst ∨ f = .seqCst) →
      (casBlock g d o f).rel = some .sync := by
    intro hf ho
    unfold casBlock
    split
    · cases o <;> cases f <;> simp_all [casPwr8, casMode, Block.rel, MemOrd.upgradeSuccess]
    · rcases h with h | rfl
      · contradiction
      · cases o <;> cases f <;> simp_all [casPwr8, casMode, Block.rel, MemOrd.upgradeSuccess]
  cases op with
  | load =>
    obtain rfl : o = .seqCst := ha
    simp only [select, loadBlock]
    split
    · rfl
    · rcases h with h | rfl
      · contradiction
      · rfl
  | store v =>
    obtain rfl : o = .seqCst := ha
    simp only [select, storeBlock]
    split
    · rfl
    · rcases h with h | rfl
      · contradiction
      · rfl
  | swap v => exact hrmw _ (fun m => rfl) ha
  | cas x y => exact hcas hv ha
  | casWeak x y =>
    simp only [select, casWeakBlock]
    have ha' : o = .seqCst ∨ f = .seqCst := ha
    have hv' : f ≠ .release ∧ f ≠ .acqRel := hv
    split
    · cases o <;> cases f <;> simp_all [casWeakPwr8, casMode, Block.rel, MemOrd.upgradeSuccess]
    · exact hcas hv ha
  | rmw3 p v => exact hrmw _ (fun m => rfl) ha
  | rmw2 p => cases p <;> exact hrmw _ (fun m => rfl) ha

end Verif.Ppc
