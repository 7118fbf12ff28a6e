import Verif.Arm.Order
import Verif.Arm.Proof
/-!
# Orderings of the AArch64 back end (C38): proof
-/
set_option autoImplicit false
namespace Verif.Arm
open Verif.Lf Verif.Asm Verif.Wide

/-! ## Paths through the code -/

/-- Branch target. -/
def Ins.target0 : Ins → Option Nat
  | .cbnz _ t | .bne t => some t
  | _ => none

def Ins.target : Ins → Option Nat
  | .inst w => (decode w).bind Ins.target0
  | i => i.target0

/-- A path of `n` instructions to the end of the code. -/
inductive Path (p : List Ins) : Nat → Nat → List Ev → Prop where
  | done {pc} (h : p[pc]? = none) : Path p 0 pc []
  | step {n pc i w pc' t} (hp : p[pc]? = some i) (hn : pc' = pc + 1 ∨ i.target = some pc')
      (r : Path p n pc' t) : Path p (n + 1) pc (i.events w ++ t)

theorem eff_br {f : Feat} {e : Endian} {a : BitVec 64} {i : Ins} {s : St} {b : Bool} {n : Nat}
    (h : i.eff f e a s = .br b n) : i.target0 = some n := by
  cases i <;> first
    | (cases h; rfl)
    | (cases h; done)
    | (change (ite _ _ _) = _ at h; split at h <;> cases h)

theorem sem_br {f : Feat} {e : Endian} {a : BitVec 64} {i : Ins} {s : St} {b : Bool} {n : Nat}
    (h : i.sem f e a s = .br b n) : i.target = some n := by
  unfold Ins.sem at h
  split at h
  · rename_i w
    split at h
    · rename_i j hj
      simp [Ins.target, hj, eff_br h]
    · simp at h
  · rename_i hw
    have := eff_br h
    cases i <;> first | exact this | exact absurd rfl (hw _)

theorem Trace.path {E : Env} {c : Call} {pc : Nat} {s : St} {t : List Ev} (h : Trace E c pc s t) :
    ∃ n, Path ((c.block E).code E.endian c.al) n pc t := by
  induction h with
  | done h => exact ⟨0, .done h⟩
  | go hp h r ih => obtain ⟨n, ih⟩ := ih; exact ⟨n + 1, .step hp (Or.inl rfl) ih⟩
  | acc hp h hs r ih => obtain ⟨n, ih⟩ := ih; exact ⟨n + 1, .step hp (Or.inl rfl) ih⟩
  | ll hp h r ih => obtain ⟨n, ih⟩ := ih; exact ⟨n + 1, .step hp (Or.inl rfl) ih⟩
  | ll2 hp h r ih => obtain ⟨n, ih⟩ := ih; exact ⟨n + 1, .step hp (Or.inl rfl) ih⟩
  | sc hp h r ih => obtain ⟨n, ih⟩ := ih; exact ⟨n + 1, .step hp (Or.inl rfl) ih⟩
  | br hp h r ih =>
    obtain ⟨n, ih⟩ := ih
    refine ⟨n + 1, .step hp ?_ ih⟩
    have := sem_br h
    split
    · exact Or.inr this
    · exact Or.inl rfl

/-- A straight instruction. -/
theorem Path.straight {p : List Ins} {n pc : Nat} {i : Ins} {t : List Ev} (h : Path p n pc t)
    (hp : p[pc]? = some i) (ht : i.target = none) :
    ∃ m w t', n = m + 1 ∧ t = i.events w ++ t' ∧ Path p m (pc + 1) t' := by
  cases h with
  | done h => simp [hp] at h
  | step hp' hn r =>
    rw [hp] at hp'; cases hp'
    rcases hn with rfl | hn
    · exact ⟨_, _, _, rfl, rfl, r⟩
    · simp [ht] at hn

/-- The end. -/
theorem Path.end_ {p : List Ins} {n pc : Nat} {t : List Ev} (h : Path p n pc t)
    (hp : p[pc]? = none) : t = [] := by
  cases h with
  | done h => rfl
  | step hp' hn r => simp [hp] at hp'

/-- Silent instructions: no events, no branch. -/
def Silent (is : List Ins) : Prop := ∀ i ∈ is, i.target = none ∧ ∀ w, i.events w = []

theorem Path.silent {p : List Ins} {b : List Ins} {n pc : Nat} {t : List Ev} (h : Path p n pc t)
    (hs : Silent b) (hp : ∀ k, k < b.length → p[pc + k]? = b[k]?) :
    ∃ m, m ≤ n ∧ Path p m (pc + b.length) t := by
  induction b generalizing n pc with
  | nil => exact ⟨n, Nat.le_refl _, h⟩
  | cons i is ih =>
    have h0 := hp 0 (by simp)
    simp only [Nat.add_zero, List.getElem?_cons_zero] at h0
    obtain ⟨m, w, t', rfl, ht, h'⟩ := h.straight h0 (hs i (by simp)).1
    rw [(hs i (by simp)).2 w, List.nil_append] at ht
    subst ht
    obtain ⟨k, hk, h''⟩ := ih (pc := pc + 1) h' (fun j hj => hs j (by simp [hj])) (fun k hk => by
      have := hp (k + 1) (by simpa using hk)
      simp only [List.getElem?_cons_succ] at this
      rw [← this]; congr 1; omega)
    refine ⟨k, by omega, ?_⟩
    have e : pc + (i :: is).length = pc + 1 + is.length := by simp; omega
    rw [e]; exact h''

/-! ## Shapes of event lists -/

/-- One attempt: a read, and a write if it stored. -/
def attempt (a : Acq) (l m w : Bool) : List Ev := .rd a m :: if w then [.wr l m] else []

/-- One or more attempts, then `F`. -/
inductive Tries (a : Acq) (l m : Bool) (F : List Ev) : List Ev → Prop where
  | last (w) : Tries a l m F (attempt a l m w ++ F)
  | more (w) {t} (h : Tries a l m F t) : Tries a l m F (attempt a l m w ++ t)

/-- Events of an optional barrier. -/
def fenceEv (f : Bool) : List Ev := if f then [.full] else []

theorem path_fence {p a : List Ins} {f : Bool} {n : Nat} {t : List Ev} (hp : p = a ++ fenceIf f)
    (h : Path p n a.length t) : t = fenceEv f := by
  cases f
  · exact h.end_ (by simp [hp, fenceIf])
  · obtain ⟨m, w, t', rfl, rfl, h'⟩ := h.straight (i := .dmb .ish) (by simp [hp, fenceIf]) rfl
    rw [h'.end_ (by simp [hp, fenceIf])]
    rfl

theorem path_llsc {a l f : Bool} {p1 p2 n1 n2 w base : Reg} {body : List Ins} {p : List Ins}
    (hb : Silent body)
    (hp : p = [.ldxp a p1 p2 base] ++ body ++ [.stxp l w n1 n2 base, .cbnz w 0] ++ fenceIf f)
    {n : Nat} {t : List Ev} (h : Path p n 0 t) : Tries (acqOf a) l false (fenceEv f) t := by
  induction n using Nat.strongRecOn generalizing t with
  | ind n ih =>
    obtain ⟨m, w1, t1, rfl, e1, h1⟩ := h.straight (i := .ldxp a p1 p2 base) (by simp [hp]) rfl
    have hat : ∀ k, k < body.length → p[0 + 1 + k]? = body[k]? := by
      intro k hk
      have := idx [Ins.ldxp a p1 p2 base] (body ++ [.stxp l w n1 n2 base, .cbnz w 0] ++ fenceIf f) k
      simp only [List.length_singleton] at this
      rw [hp, Nat.zero_add, List.append_assoc, List.append_assoc, ← List.append_assoc body, this,
        List.append_assoc, List.getElem?_append_left hk]
    obtain ⟨m1, hm1, h2⟩ := h1.silent hb hat
    have hl : ∀ k, p[0 + 1 + body.length + k]? =
        ([.stxp l w n1 n2 base, .cbnz w 0] ++ fenceIf f : List Ins)[k]? := by
      intro k
      have := idx ([Ins.ldxp a p1 p2 base] ++ body) ([.stxp l w n1 n2 base, .cbnz w 0] ++ fenceIf f) k
      rw [hp, List.append_assoc, ← this]
      congr 1; simp; omega
    obtain ⟨m2, w2, t2, rfl, e2, h3⟩ := h2.straight (i := .stxp l w n1 n2 base)
      (by have := hl 0; simpa using this) rfl
    rw [e1, e2]
    cases h3 with
    | done hd => have := hl 1; rw [hd] at this; simp at this
    | @step n' _ i w3 pc' t' hp' hn r =>
      have e : p[0 + 1 + body.length + 1]? = some (.cbnz w 0) := by have := hl 1; simpa using this
      rw [e] at hp'; cases hp'
      have he : (Ins.ldxp a p1 p2 base).events w1 ++ ((Ins.stxp l w n1 n2 base).events w2 ++
          ((Ins.cbnz w 0).events w3 ++ t')) = attempt (acqOf a) l false w2 ++ t' := by
        cases w2 <;> rfl
      rw [he]
      rcases hn with rfl | hn
      · have : t' = fenceEv f := by
          refine path_fence (a := [.ldxp a p1 p2 base] ++ body ++ [.stxp l w n1 n2 base, .cbnz w 0]) hp
            (n := n') ?_
          have e2 : ([.ldxp a p1 p2 base] ++ body ++ [.stxp l w n1 n2 base, .cbnz w 0] : List Ins).length =
            0 + 1 + body.length + 1 + 1 := by simp; omega
          rw [e2]; exact r
        rw [this]; exact .last _
      · simp [Ins.target, Ins.target0] at hn
        subst hn
        exact .more _ (ih n' (by omega) r)

theorem path_casp {q q' : Bool} {s1 s2 n1 n2 base : Reg} {body : List Ins} {p : List Ins}
    (hb : Silent body)
    (hp : p = [.ldp s1 s2 base] ++ ([.mov .tmpLo s1, .mov .tmpHi s2] ++ body) ++
        [.casp q q' s1 s2 n1 n2 base, .cmp .tmpHi s2, .ccmp .tmpLo s1 .eq, .bne 1])
    {n : Nat} {t : List Ev} (h : Path p n 1 t) : Tries (acqOf q) q' true [] t := by
  have hb' : Silent ([.mov .tmpLo s1, .mov .tmpHi s2] ++ body) := by
    intro i hi
    simp only [List.cons_append, List.nil_append, List.mem_cons] at hi
    rcases hi with rfl | rfl | hi
    · exact ⟨rfl, fun _ => rfl⟩
    · exact ⟨rfl, fun _ => rfl⟩
    · exact hb i hi
  have hlen : ([.mov .tmpLo s1, .mov .tmpHi s2] ++ body : List Ins).length = 2 + body.length := by
    simp; omega
  have hat : ∀ k, k < ([.mov .tmpLo s1, .mov .tmpHi s2] ++ body : List Ins).length →
      p[1 + k]? = ([.mov .tmpLo s1, .mov .tmpHi s2] ++ body : List Ins)[k]? := by
    intro k hk
    have := idx [Ins.ldp s1 s2 base] (([.mov .tmpLo s1, .mov .tmpHi s2] ++ body) ++
        [.casp q q' s1 s2 n1 n2 base, .cmp .tmpHi s2, .ccmp .tmpLo s1 .eq, .bne 1]) k
    simp only [List.length_singleton] at this
    rw [hp, List.append_assoc, this, List.getElem?_append_left hk]
  have hl : ∀ k, p[1 + (2 + body.length) + k]? =
      ([.casp q q' s1 s2 n1 n2 base, .cmp .tmpHi s2, .ccmp .tmpLo s1 .eq, .bne 1] : List Ins)[k]? := by
    intro k
    have := idx ([Ins.ldp s1 s2 base] ++ ([.mov .tmpLo s1, .mov .tmpHi s2] ++ body))
      [.casp q q' s1 s2 n1 n2 base, .cmp .tmpHi s2, .ccmp .tmpLo s1 .eq, .bne 1] k
    rw [hp, ← this]
    congr 1; simp; omega
  induction n using Nat.strongRecOn generalizing t with
  | ind n ih =>
    obtain ⟨m, hm, h1⟩ := h.silent hb' hat
    rw [hlen] at h1
    obtain ⟨m1, w, t1, rfl, e1, h2⟩ := h1.straight (i := .casp q q' s1 s2 n1 n2 base)
      (by have := hl 0; simpa using this) rfl
    obtain ⟨m2, w2, t2, rfl, e2, h3⟩ := h2.straight (i := .cmp .tmpHi s2)
      (by have := hl 1; simpa using this) rfl
    obtain ⟨m3, w3, t3, rfl, e3, h4⟩ := h3.straight (i := .ccmp .tmpLo s1 .eq)
      (by have := hl 2; simpa [Nat.add_assoc] using this) rfl
    rw [e1, e2, e3]
    cases h4 with
    | done hd => have := hl 3; simp only [Nat.add_assoc] at this hd; rw [hd] at this; simp at this
    | @step n' _ i w4 pc' t' hp' hn r =>
      have e : p[1 + (2 + body.length) + 1 + 1 + 1]? = some (.bne 1) := by
        have := hl 3; simpa [Nat.add_assoc] using this
      rw [e] at hp'; cases hp'
      have he : (Ins.casp q q' s1 s2 n1 n2 base).events w ++ ((Ins.cmp .tmpHi s2).events w2 ++
          ((Ins.ccmp .tmpLo s1 .eq).events w3 ++ ((Ins.bne 1).events w4 ++ t'))) =
          attempt (acqOf q) q' true w ++ t' := by
        cases w <;> rfl
      rw [he]
      rcases hn with rfl | hn
      · have : t' = [] := r.end_ (by have := hl 4; simpa [Nat.add_assoc] using this)
        rw [this]; exact .last _
      · simp [Ins.target, Ins.target0] at hn
        subst hn
        exact .more _ (ih n' (by omega) r)

theorem silent3 (e : Endian) (o : Op3) : Silent (bodyLx3 e o) ∧ Silent (bodyCas3 e o) := by
  constructor <;> intro i hi <;> cases e <;> cases o <;>
    simp only [bodyLx3, bodyCas3, sel, List.mem_cons, List.not_mem_nil, or_false] at hi <;>
    (repeat' (first | (rcases hi with rfl | hi) | subst hi)) <;> exact ⟨rfl, fun _ => rfl⟩

theorem silent2 (e : Endian) (o : Op2) : Silent (bodyLx2 e o) ∧ Silent (bodyCas2 e o) := by
  constructor <;> intro i hi <;> cases e <;> cases o <;>
    simp only [bodyLx2, bodyCas2, sel, List.mem_cons, List.not_mem_nil, or_false] at hi <;>
    (repeat' (first | (rcases hi with rfl | hi) | subst hi)) <;> exact ⟨rfl, fun _ => rfl⟩

/-! ## Events of each block -/

/-- Acquire and release of an order. -/
def MemOrd.acqB : MemOrd → Bool
  | .acquire | .acqRel | .seqCst => true
  | _ => false

def MemOrd.relB : MemOrd → Bool
  | .release | .acqRel | .seqCst => true
  | _ => false

/-- The events a block may produce. -/
def Shape : Block → List Ev → Prop
  | .ldp .relaxed, t => t = [.rd .plain false]
  | .ldp .acquire, t => t = [.rd .plain false, .ld]
  | .ldp .seqCst, t => t = [.rd .full false, .rd .plain false, .ld]
  | .ldp _, _ => False
  | .ldiapp _ .acquire, t => t = [.rd .pc false]
  | .ldiapp _ .seqCst, t => t = [.rd .full false, .rd .pc false]
  | .ldiapp _ _, _ => False
  | .loadCasp a l, t => Tries (acqOf a) l true [] t
  | .loadLx a l, t => Tries (acqOf a) l false [] t
  | .stp b a, t => t = fenceEv b ++ [.wr false false] ++ fenceEv a
  | .stilp _ a, t => t = [.wr true false] ++ fenceEv a
  | .storeLx m, t | .casLx m, t | .swapLx m, t | .rmw3Lx _ m, t | .rmw2Lx _ m, t =>
    Tries (acqOf m.acq) m.rel false (fenceEv m.fence) t
  | .casCasp m, t => Tries (acqOf m.acq) m.rel true [] t
  | .pair _ m, t => t = [.rd (acqOf m.acq) true, .wr m.rel true]
  | .pairInst _ d, t => ∀ o, d = instDigit o → t = [.rd (acqOf (MemOrd.acqB o)) true, .wr (MemOrd.relB o) true]
  | .swapCasp m, t | .rmw3Cas _ m, t | .rmw2Cas _ m, t =>
    ∃ t', t = .rd .plain false :: t' ∧ Tries (acqOf m.acq) m.rel true [] t'
  | .unreachable, _ => False

/-- A one-instruction prefix. -/
theorem Path.cons {i : Ins} {is : List Ins} {n pc : Nat} {p : List Ins} {t : List Ev} (hp : p.drop pc = i :: is)
    (ht : i.target = none) (h : Path p n pc t) :
    ∃ m w t', t = i.events w ++ t' ∧ Path p m (pc + 1) t' ∧ p.drop (pc + 1) = is := by
  have h0 : p[pc]? = some i := by
    have := List.getElem?_drop (xs := p) (i := pc) (j := 0)
    rw [hp] at this; simpa using this.symm
  obtain ⟨m, w, t', -, h1, h2⟩ := h.straight h0 ht
  refine ⟨m, w, t', h1, h2, ?_⟩
  rw [← List.tail_drop, hp]; rfl

theorem Path.nil {n pc : Nat} {p : List Ins} {t : List Ev} (hp : p.drop pc = []) (h : Path p n pc t) :
    t = [] := by
  refine h.end_ ?_
  have := List.getElem?_drop (xs := p) (i := pc) (j := 0)
  rw [hp] at this; simpa using this.symm

theorem path_one {i : Ins} {n : Nat} {t : List Ev} (ht : i.target = none) (h : Path [i] n 0 t) :
    ∃ w, t = i.events w := by
  obtain ⟨m, w, t', rfl, h, hp⟩ := h.cons rfl ht
  exact ⟨w, by rw [h.nil hp, List.append_nil]⟩

theorem path_two {i j : Ins} {n : Nat} {t : List Ev} (ht : i.target = none) (ht' : j.target = none)
    (h : Path [i, j] n 0 t) : ∃ w w', t = i.events w ++ j.events w' := by
  obtain ⟨m, w, t', rfl, h, hp⟩ := h.cons rfl ht
  obtain ⟨m, w', t', rfl, h, hp⟩ := h.cons hp ht'
  exact ⟨w, w', by rw [h.nil hp, List.append_nil]⟩

theorem path_three {i j k : Ins} {n : Nat} {t : List Ev} (ht : i.target = none) (ht' : j.target = none)
    (ht'' : k.target = none) (h : Path [i, j, k] n 0 t) :
    ∃ w w' w'', t = i.events w ++ (j.events w' ++ k.events w'') := by
  obtain ⟨m, w, t', rfl, h, hp⟩ := h.cons rfl ht
  obtain ⟨m, w', t', rfl, h, hp⟩ := h.cons hp ht'
  obtain ⟨m, w'', t', rfl, h, hp⟩ := h.cons hp ht''
  exact ⟨w, w', w'', by rw [h.nil hp, List.append_nil]⟩

theorem Tries.of_casp {q q' w : Bool} {a b c d e : Reg} :
    Tries (acqOf q) q' true [] ((Ins.casp q q' a b c d e).events w) := by
  have : (Ins.casp q q' a b c d e).events w = attempt (acqOf q) q' true w ++ [] := by cases w <;> rfl
  rw [this]; exact .last _

/-- A `casp` loop from its start. -/
theorem path_caspLoop {q q' : Bool} {s1 s2 n1 n2 base : Reg} {body : List Ins} {p : List Ins}
    (hb : Silent body)
    (hp : p = [.ldp s1 s2 base] ++ ([.mov .tmpLo s1, .mov .tmpHi s2] ++ body) ++
        [.casp q q' s1 s2 n1 n2 base, .cmp .tmpHi s2, .ccmp .tmpLo s1 .eq, .bne 1])
    {n : Nat} {t : List Ev} (h : Path p n 0 t) :
    ∃ t', t = .rd .plain false :: t' ∧ Tries (acqOf q) q' true [] t' := by
  obtain ⟨m, w, t', -, rfl, h'⟩ := h.straight (i := .ldp s1 s2 base) (by simp [hp]) rfl
  exact ⟨t', rfl, path_casp hb hp h'⟩

theorem digit_inj {o o' : MemOrd} (h : instDigit o = instDigit o') :
    MemOrd.acqB o = MemOrd.acqB o' ∧ MemOrd.relB o = MemOrd.relB o' := by
  cases o <;> cases o' <;> first | exact ⟨rfl, rfl⟩ | (simp [instDigit] at h)

theorem shape_pairInst {k : Pair128} {o : MemOrd} {n : Nat} {t : List Ev}
    (h : Path [.inst (pairWord k (instDigit o))] n 0 t) : Shape (.pairInst k (instDigit o)) t := by
  intro o' ho
  obtain ⟨e1, e2⟩ := digit_inj ho
  rw [← e1, ← e2]
  have ht : (Ins.inst (pairWord k (instDigit o))).target = none := by
    cases k <;> cases o <;> decide
  obtain ⟨w, rfl⟩ := path_one ht h
  cases k <;> cases o <;> cases w <;> decide

/-- **The events of a block.** -/
theorem shape_of {f : Feat} {op : WOp} {b : Block} (hg : Good f op b) {e : Endian} {al : Alias}
    {n : Nat} {t : List Ev} (h : Path (b.code e al) n 0 t) : Shape b t := by
  have nosil : Silent [] := fun i hi => by simp at hi
  cases hg with
  | ldp o _ ho =>
    rcases ho with rfl | rfl | rfl
    · obtain ⟨w, rfl⟩ := path_one rfl h; rfl
    · obtain ⟨w, w', rfl⟩ := path_two rfl rfl h; rfl
    · obtain ⟨w, w', w'', rfl⟩ := path_three rfl rfl rfl h; rfl
  | ldiapp i o _ _ ho =>
    rcases ho with rfl | rfl <;> cases i
    · obtain ⟨w, rfl⟩ := path_one rfl h; rfl
    · obtain ⟨w, rfl⟩ := path_one (by decide) h; simp only [Shape]; cases w <;> decide
    · obtain ⟨w, w', rfl⟩ := path_two rfl rfl h; rfl
    · obtain ⟨w, w', rfl⟩ := path_two rfl (by decide) h; simp only [Shape]; cases w <;> cases w' <;> decide
  | loadCasp a l => obtain ⟨w, rfl⟩ := path_one rfl h; exact .of_casp
  | loadLx a l => exact path_llsc (f := false) nosil rfl h
  | stp v b a =>
    cases b <;> cases a
    · obtain ⟨w, rfl⟩ := path_one rfl h; rfl
    · obtain ⟨w, w', rfl⟩ := path_two rfl rfl h; rfl
    · obtain ⟨w, w', rfl⟩ := path_two rfl rfl h; rfl
    · obtain ⟨w, w', w'', rfl⟩ := path_three rfl rfl rfl h; rfl
  | stilp v i a =>
    cases i <;> cases a
    · obtain ⟨w, rfl⟩ := path_one rfl h; rfl
    · obtain ⟨w, w', rfl⟩ := path_two rfl rfl h; rfl
    · obtain ⟨w, rfl⟩ := path_one (by decide) h; simp only [Shape]; cases w <;> decide
    · obtain ⟨w, w', rfl⟩ := path_two (by decide) rfl h; simp only [Shape]; cases w <;> cases w' <;> decide
  | storePair v m => obtain ⟨w, rfl⟩ := path_one rfl h; rfl
  | storeInst v o => exact shape_pairInst h
  | storeCasp v m => exact path_caspLoop nosil rfl h
  | storeLx v m => exact path_llsc nosil rfl h
  | casCasp x y m => obtain ⟨w, rfl⟩ := path_one rfl h; exact .of_casp
  | casLx x y m =>
    refine path_llsc (body := [.cmp .prevLo .oldLo, .ccmp .prevHi .oldHi .eq,
      .csel .tmpLo .newLo .prevLo .eq, .csel .tmpHi .newHi .prevHi .eq]) ?_ rfl h
    intro i hi
    simp only [List.mem_cons, List.not_mem_nil, or_false] at hi
    rcases hi with rfl | rfl | rfl | rfl <;> exact ⟨rfl, fun _ => rfl⟩
  | weakCasp x y m => obtain ⟨w, rfl⟩ := path_one rfl h; exact .of_casp
  | weakLx x y m =>
    refine path_llsc (body := [.cmp .prevLo .oldLo, .ccmp .prevHi .oldHi .eq,
      .csel .tmpLo .newLo .prevLo .eq, .csel .tmpHi .newHi .prevHi .eq]) ?_ rfl h
    intro i hi
    simp only [List.mem_cons, List.not_mem_nil, or_false] at hi
    rcases hi with rfl | rfl | rfl | rfl <;> exact ⟨rfl, fun _ => rfl⟩
  | swapPair v m => obtain ⟨w, rfl⟩ := path_one rfl h; rfl
  | swapInst v o => exact shape_pairInst h
  | swapCasp v m => exact path_caspLoop nosil rfl h
  | swapLx v m => exact path_llsc nosil rfl h
  | rmw3Lx p v m => exact path_llsc (silent3 e p).1 rfl h
  | rmw3Cas p v m => exact path_caspLoop (silent3 e p).2 rfl h
  | rmw2Lx p m => exact path_llsc (silent2 e p).1 rfl h
  | rmw2Cas p m => exact path_caspLoop (silent2 e p).2 rfl h
  | andPair v m => obtain ⟨w, rfl⟩ := path_one rfl h; rfl
  | andInst v o => exact shape_pairInst h
  | orPair v m => obtain ⟨w, rfl⟩ := path_one rfl h; rfl
  | orInst v o => exact shape_pairInst h

/-! ## Local conditions on event lists -/

/-- The `i`-th event is ordered before whatever comes after the list. -/
def Out (t : List Ev) (i : Nat) : Prop :=
  (∃ a m, t[i]? = some (.rd a m) ∧ a ≠ .plain) ∨ (∃ a m k, t[i]? = some (.rd a m) ∧ i < k ∧ t[k]? = some .ld) ∨
    (Mem t i ∧ ∃ k, i < k ∧ t[k]? = some .full)

/-- Whatever comes before the list is ordered before the `j`-th event. -/
def In (t : List Ev) (j : Nat) : Prop :=
  (∃ m, t[j]? = some (.wr true m)) ∨ (Mem t j ∧ ∃ k, k < j ∧ t[k]? = some .full)

/-- Out, or a store-release. -/
def OutSc (t : List Ev) (i : Nat) : Prop := Out t i ∨ ∃ m, t[i]? = some (.wr true m)

/-- In, or a load-acquire there or before. -/
def InSc (t : List Ev) (j : Nat) : Prop :=
  In t j ∨ (Mem t j ∧ ∃ k m, k ≤ j ∧ t[k]? = some (.rd .full m))

theorem at_mid {pre t post : List Ev} {i : Nat} {e : Ev} (h : t[i]? = some e) :
    (pre ++ t ++ post)[pre.length + i]? = some e := by
  have hi : i < t.length := by
    by_contra hh
    rw [List.getElem?_eq_none (by omega)] at h; simp at h
  rw [List.append_assoc, List.getElem?_append_right (by omega), Nat.add_sub_cancel_left,
    List.getElem?_append_left hi, h]

theorem lt_of {t : List Ev} {i : Nat} {e : Ev} (h : t[i]? = some e) : i < t.length := by
  by_contra hh
  rw [List.getElem?_eq_none (by omega)] at h; simp at h

theorem Mem.mid {pre t post : List Ev} {i : Nat} (h : Mem t i) : Mem (pre ++ t ++ post) (pre.length + i) := by
  obtain ⟨e, h, h'⟩ := h
  exact ⟨e, at_mid h, h'⟩

theorem mem_rd {t : List Ev} {i : Nat} {a : Acq} {m : Bool} (h : t[i]? = some (.rd a m)) : Mem t i :=
  ⟨_, h, Or.inl rfl⟩
theorem mem_wr {t : List Ev} {i : Nat} {a : Bool} {m : Bool} (h : t[i]? = some (.wr a m)) : Mem t i :=
  ⟨_, h, Or.inr rfl⟩

theorem Out.bob {pre t post : List Ev} {i j : Nat} (h : Out t i) (hj : pre.length + t.length ≤ j)
    (hm : Mem (pre ++ t ++ post) j) : Bob (pre ++ t ++ post) (pre.length + i) j := by
  rcases h with ⟨a, m, h, ha⟩ | ⟨a, m, k, h, hk, hk'⟩ | ⟨h, k, hk, hk'⟩
  · exact .acq (at_mid h) ha hm (by have := lt_of h; omega)
  · exact .ld (at_mid h) hm (k := pre.length + k) (by omega) (by have := lt_of hk'; omega) (at_mid hk')
  · exact .full h.mid hm (k := pre.length + k) (by omega) (by have := lt_of hk'; omega) (at_mid hk')

theorem In.bob {pre t post : List Ev} {i j : Nat} (h : In t j) (hi : i < pre.length)
    (hm : Mem (pre ++ t ++ post) i) : Bob (pre ++ t ++ post) i (pre.length + j) := by
  rcases h with ⟨m, h⟩ | ⟨h, k, hk, hk'⟩
  · exact .rel hm (at_mid h) (by omega)
  · exact .full hm h.mid (k := pre.length + k) (by omega) (by omega) (at_mid hk')

theorem isAcquire {t : List Ev} (h1 : ∃ i, LastRead t i) (h : ∀ i, LastRead t i → Out t i) : IsAcquire t :=
  ⟨h1, fun _ _ _ _ hi hj hm => .one ((h _ hi).bob hj hm)⟩

theorem isRelease {t : List Ev} (h : ∀ i, Write t i → In t i) : IsRelease t :=
  fun _ _ _ _ hj hi hm => .one ((h _ hj).bob hi hm)

theorem keptInOrder {t u : List Ev} (ht : ∀ i, LastRead t i ∨ Write t i → OutSc t i)
    (hu : ∀ i, LastRead u i ∨ Write u i → InSc u i) : KeptInOrder t u := by
  intro pre mid post i j hi hj
  have hti := ht i hi
  have huj := hu j hj
  -- the two ways to split the list
  have e1 : pre ++ t ++ mid ++ u ++ post = pre ++ t ++ (mid ++ u ++ post) := by simp
  have e2 : pre ++ t ++ mid ++ u ++ post = (pre ++ t ++ mid) ++ u ++ post := rfl
  have el : pre.length + t.length + mid.length + j = (pre ++ t ++ mid).length + j := by simp; omega
  have hmj : Mem u j := by
    rcases huj with (⟨m, h⟩ | ⟨h, -⟩) | ⟨h, -⟩
    · exact mem_wr h
    · exact h
    · exact h
  have hMj : Mem ((pre ++ t ++ mid) ++ u ++ post) ((pre ++ t ++ mid).length + j) := hmj.mid
  rcases hti with hti | ⟨m, hti⟩
  · refine .one ?_
    rw [e1, el]
    refine hti.bob (by simp; omega) ?_
    rw [← e1]; exact hMj
  · have hil := lt_of hti
    have hW : (pre ++ t ++ mid ++ u ++ post)[pre.length + i]? = some (.wr true m) := by
      rw [e1]; exact at_mid hti
    rcases huj with huj | ⟨-, k, m', hk, hk'⟩
    · refine .one ?_
      rw [el]
      exact huj.bob (by simp; omega) (mem_wr hW)
    · have hA : (pre ++ t ++ mid ++ u ++ post)[(pre ++ t ++ mid).length + k]? = some (.rd .full m') := at_mid hk'
      have b1 : Bob (pre ++ t ++ mid ++ u ++ post) (pre.length + i) ((pre ++ t ++ mid).length + k) :=
        .relAcq hW hA (by simp; omega)
      rw [el]
      rcases Nat.eq_or_lt_of_le hk with rfl | hk
      · exact .one b1
      · exact .trans (.one b1) (.one (.acq hA (by simp) hMj (by omega)))

/-! ## Conditions of the shapes -/

theorem Tries.has_rd {a : Acq} {l m : Bool} {F t : List Ev} (h : Tries a l m F t) : ∃ t', t = .rd a m :: t' := by
  cases h with
  | last w => exact ⟨_, rfl⟩
  | more w h => exact ⟨_, rfl⟩

theorem Tries.mem {a : Acq} {l m : Bool} {F t : List Ev} (h : Tries a l m F t) {e : Ev} (he : e ∈ t) :
    e = .rd a m ∨ e = .wr l m ∨ e ∈ F := by
  have ha : ∀ w, e ∈ attempt a l m w → e = .rd a m ∨ e = .wr l m := by
    intro w he
    cases w <;> simp only [attempt, List.mem_cons, List.not_mem_nil, or_false, if_true] at he
    · rcases he with h | h
      · exact Or.inl h
      · simp at h
    · exact he
  induction h with
  | last w =>
    rcases List.mem_append.1 he with he | he
    · rcases ha w he with h | h <;> simp [h]
    · simp [he]
  | more w h ih =>
    rcases List.mem_append.1 he with he | he
    · rcases ha w he with h | h <;> simp [h]
    · exact ih he

theorem Tries.rd {a : Acq} {l m : Bool} {F t : List Ev} (h : Tries a l m F t) (hF : F = [] ∨ F = [.full]) {i : Nat}
    {a' : Acq} {m' : Bool} (he : t[i]? = some (.rd a' m')) : a' = a ∧ m' = m := by
  rcases h.mem (List.mem_of_getElem? he) with h | h | h
  · simpa using h
  · simp at h
  · rcases hF with rfl | rfl <;> simp at h

theorem Tries.wr {a : Acq} {l m : Bool} {F t : List Ev} (h : Tries a l m F t) (hF : F = [] ∨ F = [.full]) {i : Nat}
    {l' : Bool} {m' : Bool} (he : t[i]? = some (.wr l' m')) : l' = l ∧ m' = m := by
  rcases h.mem (List.mem_of_getElem? he) with h | h | h
  · simp at h
  · simpa using h
  · rcases hF with rfl | rfl <;> simp at h

theorem fenceEv_or (f : Bool) : fenceEv f = [] ∨ fenceEv f = [.full] := by cases f <;> simp [fenceEv]

/-- A list with a read has a last one. -/
theorem exists_lastRead {t : List Ev} (h : ∃ (i : Nat) (a : Acq) (m : Bool), t[i]? = some (Ev.rd a m)) : ∃ i, LastRead t i := by
  classical
  obtain ⟨i, a, m, h⟩ := h
  let P := fun (i : Nat) => ∃ a m, t[i]? = some (Ev.rd a m)
  have key : ∀ n, ∀ i, t.length - i ≤ n → P i → ∃ i, LastRead t i := by
    intro n
    induction n with
    | zero => intro i hi ⟨a, m, h⟩; have := lt_of h; omega
    | succ n ih =>
      intro i hi hp
      by_cases hl : ∀ j a m, t[j]? = some (Ev.rd a m) → j ≤ i
      · exact ⟨i, hp, hl⟩
      · simp only [not_forall, Nat.not_le] at hl
        obtain ⟨j, a, m, hj, hij⟩ := hl
        exact ih j (by omega) ⟨a, m, hj⟩
  exact key _ i (Nat.le_refl _) ⟨a, m, h⟩

/-- Local conditions. -/
def AcqL (t : List Ev) : Prop := (∃ i, LastRead t i) ∧ ∀ i, LastRead t i → Out t i
def RelL (t : List Ev) : Prop := ∀ i, Write t i → In t i
def ScL (t : List Ev) : Prop :=
  (∀ i, LastRead t i ∨ Write t i → OutSc t i) ∧ ∀ i, LastRead t i ∨ Write t i → InSc t i

theorem acqOf_true (b : Bool) (h : b = true) : acqOf b = .full := by subst h; rfl

theorem Tries.acqL {l m : Bool} {F t : List Ev} (h : Tries .full l m F t) (hF : F = [] ∨ F = [.full]) : AcqL t := by
  constructor
  · obtain ⟨t', rfl⟩ := h.has_rd
    exact exists_lastRead ⟨0, _, _, rfl⟩
  · rintro i ⟨⟨a, m', hr⟩, -⟩
    obtain ⟨rfl, -⟩ := h.rd hF hr
    exact Or.inl ⟨_, _, hr, by simp⟩

theorem Tries.relL {a : Acq} {m : Bool} {F t : List Ev} (h : Tries a true m F t) (hF : F = [] ∨ F = [.full]) :
    RelL t := by
  rintro i ⟨l, m', hr⟩
  obtain ⟨rfl, -⟩ := h.wr hF hr
  exact Or.inl ⟨_, hr⟩

theorem Tries.scL {m : Bool} {F t : List Ev} (h : Tries .full true m F t) (hF : F = [] ∨ F = [.full]) : ScL t := by
  constructor
  · rintro i (hi | hi)
    · exact Or.inl ((h.acqL hF).2 i hi)
    · obtain ⟨l, m', hr⟩ := hi
      obtain ⟨rfl, -⟩ := h.wr hF hr
      exact Or.inr ⟨_, hr⟩
  · rintro i (hi | hi)
    · obtain ⟨⟨a, m', hr⟩, -⟩ := hi
      obtain ⟨rfl, -⟩ := h.rd hF hr
      exact Or.inr ⟨mem_rd hr, i, _, Nat.le_refl _, hr⟩
    · exact Or.inl (h.relL hF i hi)

/-- A plain read in front changes nothing. -/
theorem lastRead_cons {t : List Ev} {e : Ev} {i : Nat} (hr : ∃ (i : Nat) (a : Acq) (m : Bool), t[i]? = some (Ev.rd a m))
    (h : LastRead (e :: t) i) : ∃ k, i = k + 1 ∧ LastRead t k := by
  obtain ⟨⟨a, m, h⟩, h'⟩ := h
  obtain ⟨k, a', m', hk⟩ := hr
  have := h' (k + 1) a' m' (by simpa using hk)
  obtain ⟨n, rfl⟩ : ∃ n, i = n + 1 := ⟨i - 1, by omega⟩
  refine ⟨n, rfl, ⟨a, m, by simpa using h⟩, fun j a m hj => ?_⟩
  have := h' (j + 1) a m (by simpa using hj)
  omega

theorem write_cons {t : List Ev} {a : Acq} {m : Bool} {i : Nat} (h : Write (.rd a m :: t) i) :
    ∃ k, i = k + 1 ∧ Write t k := by
  obtain ⟨r, m', h⟩ := h
  cases i with
  | zero => simp at h
  | succ k => exact ⟨k, rfl, r, m', by simpa using h⟩

theorem Mem.cons {t : List Ev} {e : Ev} {i : Nat} (h : Mem t i) : Mem (e :: t) (i + 1) := by
  obtain ⟨e', h, h'⟩ := h
  exact ⟨e', by simpa using h, h'⟩

theorem Out.cons {t : List Ev} {e : Ev} {i : Nat} (h : Out t i) : Out (e :: t) (i + 1) := by
  rcases h with ⟨a, m, h, ha⟩ | ⟨a, m, k, h, hk, hk'⟩ | ⟨h, k, hk, hk'⟩
  · exact Or.inl ⟨a, m, by simpa using h, ha⟩
  · exact Or.inr (Or.inl ⟨a, m, k + 1, by simpa using h, by omega, by simpa using hk'⟩)
  · exact Or.inr (Or.inr ⟨h.cons, k + 1, by omega, by simpa using hk'⟩)

theorem In.cons {t : List Ev} {e : Ev} {i : Nat} (h : In t i) : In (e :: t) (i + 1) := by
  rcases h with ⟨m, h⟩ | ⟨h, k, hk, hk'⟩
  · exact Or.inl ⟨m, by simpa using h⟩
  · exact Or.inr ⟨h.cons, k + 1, by omega, by simpa using hk'⟩

theorem AcqL.cons {t : List Ev} {e : Ev} (h : AcqL t) : AcqL (e :: t) := by
  obtain ⟨⟨i, hi⟩, h2⟩ := h
  have hr : ∃ (i : Nat) (a : Acq) (m : Bool), t[i]? = some (Ev.rd a m) := by
    obtain ⟨⟨a, m, hi⟩, -⟩ := hi; exact ⟨i, a, m, hi⟩
  constructor
  · obtain ⟨k, a, m, hk⟩ := hr
    exact exists_lastRead ⟨k + 1, a, m, by simpa using hk⟩
  · intro j hj
    obtain ⟨k, rfl, hk⟩ := lastRead_cons hr hj
    exact (h2 k hk).cons

theorem RelL.cons {t : List Ev} {a : Acq} {m : Bool} (h : RelL t) : RelL (.rd a m :: t) := by
  intro j hj
  obtain ⟨k, rfl, hk⟩ := write_cons hj
  exact (h k hk).cons

theorem ScL.cons {t : List Ev} {a : Acq} {m : Bool} (hr : ∃ (i : Nat) (a : Acq) (m : Bool), t[i]? = some (Ev.rd a m)) (h : ScL t) :
    ScL (.rd a m :: t) := by
  have key : ∀ i, LastRead (.rd a m :: t) i ∨ Write (.rd a m :: t) i →
      ∃ k, i = k + 1 ∧ (LastRead t k ∨ Write t k) := by
    rintro i (hi | hi)
    · obtain ⟨k, rfl, hk⟩ := lastRead_cons hr hi; exact ⟨k, rfl, Or.inl hk⟩
    · obtain ⟨k, rfl, hk⟩ := write_cons hi; exact ⟨k, rfl, Or.inr hk⟩
  constructor
  · intro i hi
    obtain ⟨k, rfl, hk⟩ := key i hi
    rcases h.1 k hk with h | ⟨m, h⟩
    · exact Or.inl h.cons
    · exact Or.inr ⟨m, by simpa using h⟩
  · intro i hi
    obtain ⟨k, rfl, hk⟩ := key i hi
    rcases h.2 k hk with h | ⟨h, j, m, hj, hj'⟩
    · exact Or.inl h.cons
    · exact Or.inr ⟨h.cons, j + 1, m, by omega, by simpa using hj'⟩

/-! ## Which blocks acquire, release, are sequentially consistent -/

def Block.acqOk : Block → Prop
  | .ldp o => o ≠ .relaxed
  | .ldiapp _ _ => True
  | .loadCasp a _ | .loadLx a _ => a = true
  | .storeLx m | .casLx m | .swapLx m | .rmw3Lx _ m | .rmw2Lx _ m | .casCasp m | .pair _ m
  | .swapCasp m | .rmw3Cas _ m | .rmw2Cas _ m => m.acq = true
  | .pairInst _ d => ∃ o, d = instDigit o ∧ MemOrd.acqB o = true
  | _ => False

def Block.relOk : Block → Prop
  | .stp b _ => b = true
  | .stilp _ _ => True
  | .storeLx m | .casLx m | .swapLx m | .rmw3Lx _ m | .rmw2Lx _ m | .casCasp m | .pair _ m
  | .swapCasp m | .rmw3Cas _ m | .rmw2Cas _ m => m.rel = true
  | .pairInst _ d => ∃ o, d = instDigit o ∧ MemOrd.relB o = true
  | _ => False

def Block.scOk : Block → Prop
  | .ldp o | .ldiapp _ o => o = .seqCst
  | .loadCasp a l | .loadLx a l => a = true ∧ l = true
  | .stp b a => b = true ∧ a = true
  | .stilp _ a => a = true
  | .storeLx m | .casLx m | .swapLx m | .rmw3Lx _ m | .rmw2Lx _ m | .casCasp m | .pair _ m
  | .swapCasp m | .rmw3Cas _ m | .rmw2Cas _ m => m.acq = true ∧ m.rel = true
  | .pairInst _ d => ∃ o, d = instDigit o ∧ MemOrd.acqB o = true ∧ MemOrd.relB o = true
  | .unreachable => False

theorem pair_tries {a : Acq} {l : Bool} : Tries a l true [] [.rd a true, .wr l true] :=
  .last (a := a) (l := l) (m := true) (F := []) true

theorem shape_acq {b : Block} {t : List Ev} (hs : Shape b t) (h : b.acqOk) : AcqL t := by
  unfold Shape at hs
  split at hs <;> simp only [Block.acqOk] at h
  all_goals first
    | exact absurd rfl h
    | exact hs.elim
    | exact h.elim
    | (rw [acqOf_true _ h] at hs; exact hs.acqL (by simp))
    | (rw [acqOf_true _ h] at hs; exact hs.acqL (fenceEv_or _))
    | (rw [acqOf_true _ h] at hs; subst hs; exact pair_tries.acqL (by simp))
    | (obtain ⟨t', rfl, hs⟩ := hs; rw [acqOf_true _ h] at hs; exact (hs.acqL (by simp)).cons)
    | (obtain ⟨o, ho, hb⟩ := h; have hs := hs o ho; rw [acqOf_true _ hb] at hs; subst hs
       exact pair_tries.acqL (by simp))
    | skip
  all_goals subst hs
  · refine ⟨exists_lastRead ⟨0, _, _, rfl⟩, fun i hi => ?_⟩
    obtain ⟨⟨a, m, hi⟩, -⟩ := hi
    obtain rfl : i = 0 := by
      match i, hi with
      | 0, _ => rfl
      | 1, hi => simp at hi
    exact Or.inr (Or.inl ⟨_, _, 1, rfl, by omega, rfl⟩)
  · refine AcqL.cons ⟨exists_lastRead ⟨0, _, _, rfl⟩, fun i hi => ?_⟩
    obtain ⟨⟨a, m, hi⟩, -⟩ := hi
    obtain rfl : i = 0 := by
      match i, hi with
      | 0, _ => rfl
      | 1, hi => simp at hi
    exact Or.inr (Or.inl ⟨_, _, 1, rfl, by omega, rfl⟩)
  · refine ⟨exists_lastRead ⟨0, _, _, rfl⟩, fun i hi => ?_⟩
    obtain ⟨⟨a, m, hi⟩, -⟩ := hi
    obtain rfl : i = 0 := by
      match i, hi with
      | 0, _ => rfl
    exact Or.inl ⟨_, _, rfl, by simp⟩
  · refine AcqL.cons ⟨exists_lastRead ⟨0, _, _, rfl⟩, fun i hi => ?_⟩
    obtain ⟨⟨a, m, hi⟩, -⟩ := hi
    obtain rfl : i = 0 := by
      match i, hi with
      | 0, _ => rfl
    exact Or.inl ⟨_, _, rfl, by simp⟩

theorem shape_rel {b : Block} {t : List Ev} (hs : Shape b t) (h : b.relOk) : RelL t := by
  unfold Shape at hs
  split at hs <;> simp only [Block.relOk] at h
  all_goals first
    | exact hs.elim
    | exact h.elim
    | (rw [h] at hs; exact hs.relL (by simp))
    | (rw [h] at hs; exact hs.relL (fenceEv_or _))
    | (rw [h] at hs; subst hs; exact pair_tries.relL (by simp))
    | (obtain ⟨t', rfl, hs⟩ := hs; rw [h] at hs; exact (hs.relL (by simp)).cons)
    | (obtain ⟨o, ho, hb⟩ := h; have hs := hs o ho; rw [hb] at hs; subst hs
       exact pair_tries.relL (by simp))
    | skip
  · subst h
    rename_i a
    intro i ⟨r, m, hi⟩
    obtain rfl : i = 1 := by
      subst hs
      cases a <;> simp only [fenceEv, if_true, Bool.false_eq_true, if_false] at hi <;>
        (match i, hi with
         | 0, hi => simp at hi
         | 1, _ => rfl
         | 2, hi => simp at hi
         | (n + 3), hi => simp at hi)
    refine Or.inr ⟨mem_wr hi, 0, by omega, ?_⟩
    subst hs; rfl
  · rename_i a
    subst hs
    intro i ⟨r, m, hi⟩
    obtain rfl : i = 0 := by
      cases a <;> simp only [fenceEv, if_true, Bool.false_eq_true, if_false] at hi <;>
        (match i, hi with
         | 0, _ => rfl
         | 1, hi => simp at hi
         | (n + 2), hi => simp at hi)
    exact Or.inl ⟨_, rfl⟩

theorem shape_sc {b : Block} {t : List Ev} (hs : Shape b t) (h : b.scOk) : ScL t := by
  have fin : ∀ t : List Ev, (∀ i < t.length, LastRead t i ∨ Write t i → OutSc t i ∧ InSc t i) → ScL t := by
    intro t h
    have hl : ∀ i, LastRead t i ∨ Write t i → i < t.length := by
      rintro i (⟨⟨_, _, h⟩, -⟩ | ⟨_, _, h⟩) <;> exact lt_of h
    exact ⟨fun i hi => (h i (hl i hi) hi).1, fun i hi => (h i (hl i hi) hi).2⟩
  unfold Shape at hs
  split at hs <;> simp only [Block.scOk] at h
  all_goals first
    | exact hs.elim
    | exact h.elim
    | (cases h; done)
    | (rw [acqOf_true _ h.1, h.2] at hs; exact hs.scL (by simp))
    | (rw [acqOf_true _ h.1, h.2] at hs; exact hs.scL (fenceEv_or _))
    | (rw [acqOf_true _ h.1, h.2] at hs; subst hs; exact pair_tries.scL (by simp))
    | (obtain ⟨t', rfl, hs⟩ := hs; rw [acqOf_true _ h.1, h.2] at hs
       obtain ⟨t'', rfl⟩ := hs.has_rd
       exact (hs.scL (by simp)).cons ⟨0, _, _, rfl⟩)
    | (obtain ⟨o, ho, hb, hb'⟩ := h; have hs := hs o ho; rw [acqOf_true _ hb, hb'] at hs; subst hs
       exact pair_tries.scL (by simp))
    | skip
  · subst hs
    refine fin _ fun i hl hi => ?_
    obtain rfl : i = 1 := by
      rcases hi with ⟨⟨a, m, h⟩, hi⟩ | ⟨_, _, hi⟩
      · have := hi 1 .plain false rfl
        match i, h with
        | 1, _ => rfl
        | 2, h => simp at h
        | (n + 3), h => simp at h
      · match i, hi with
        | 0, h => simp at h
        | 1, h => simp at h
        | 2, h => simp at h
        | (n + 3), h => simp at h
    exact ⟨Or.inl (Or.inr (Or.inl ⟨_, _, 2, rfl, by omega, rfl⟩)),
      Or.inr ⟨⟨_, rfl, Or.inl rfl⟩, 0, _, by omega, rfl⟩⟩
  · subst hs
    refine fin _ fun i hl hi => ?_
    obtain rfl : i = 1 := by
      rcases hi with ⟨⟨a, m, h⟩, hi⟩ | ⟨_, _, hi⟩
      · have := hi 1 .pc false rfl
        match i, h with
        | 1, _ => rfl
        | (n + 2), h => simp at h
      · match i, hi with
        | 0, h => simp at h
        | 1, h => simp at h
        | (n + 2), h => simp at h
    exact ⟨Or.inl (Or.inl ⟨_, _, rfl, by simp⟩), Or.inr ⟨⟨_, rfl, Or.inl rfl⟩, 0, _, by omega, rfl⟩⟩
  · obtain ⟨rfl, rfl⟩ := h
    subst hs
    refine fin _ fun i hl hi => ?_
    obtain rfl : i = 1 := by
      have hi : (∃ a m, [Ev.full, .wr false false, .full][i]? = some (Ev.rd a m)) ∨
          ∃ a m, [Ev.full, .wr false false, .full][i]? = some (Ev.wr a m) := by
        rcases hi with ⟨h, -⟩ | h
        · exact Or.inl h
        · exact Or.inr h
      match i, hi with
      | 0, h => simp at h
      | 1, h => rfl
      | 2, h => simp at h
      | (n + 3), h => simp at h
    exact ⟨Or.inl (Or.inr (Or.inr ⟨⟨_, rfl, Or.inr rfl⟩, 2, by omega, rfl⟩)),
      Or.inl (Or.inr ⟨⟨_, rfl, Or.inr rfl⟩, 0, by omega, rfl⟩)⟩
  · subst h
    subst hs
    refine fin _ fun i hl hi => ?_
    obtain rfl : i = 0 := by
      have hi : (∃ a m, [Ev.wr true false, .full][i]? = some (Ev.rd a m)) ∨
          ∃ a m, [Ev.wr true false, .full][i]? = some (Ev.wr a m) := by
        rcases hi with ⟨h, -⟩ | h
        · exact Or.inl h
        · exact Or.inr h
      match i, hi with
      | 0, h => rfl
      | 1, h => simp at h
      | (n + 2), h => simp at h
    exact ⟨Or.inl (Or.inr (Or.inr ⟨⟨_, rfl, Or.inr rfl⟩, 1, by omega, rfl⟩)), Or.inl (Or.inl ⟨_, rfl⟩)⟩

end Verif.Arm
