import Verif.Arm.Arith
/-!
# The AArch64 blocks implement the 128-bit operations (C37): proof
-/
set_option autoImplicit false
namespace Verif.Arm
open Verif.Object Verif.Lf Verif.Asm Verif.Wide
open Verif.X86 (fn3 fn2)

variable {E : Env} {order : Call → Nat → Bool} {c : Call}

theorem exec_sem {i : Ins} {f : Feat} {e : Endian} {a : BitVec 64} {s s' : St}
    (h : i.exec s = some s') : i.sem f e a s = .go s' := by
  cases i <;> first | (cases h; rfl) | (exfalso; revert h; exact nofun)

section
variable (f : Feat) (e : Endian) (addr : BitVec 64) (s : St)

theorem sem_ldxp {q : Bool} {a b base : Reg} (h : s.get base = addr) (hab : a ≠ b) :
    Ins.sem f e addr (.ldxp q a b base) s = .ll2 (word e) fun w0 w1 => (s.set a w0).set b w1 :=
  if_pos (c := s.get base = addr ∧ a ≠ b) ⟨h, hab⟩

theorem sem_stxp {q : Bool} {w a b base : Reg} (h : s.get base = addr) (h1 : w ≠ a) (h2 : w ≠ b)
    (h3 : w ≠ base) : Ins.sem f e addr (.stxp q w a b base) s =
      .sc (join e (s.get a) (s.get b)) fun ok => s.set w (if ok then 0 else 1) :=
  if_pos (c := s.get base = addr ∧ w ≠ a ∧ w ≠ b ∧ w ≠ base) ⟨h, h1, h2, h3⟩

theorem sem_cbnz {w : Reg} {t : Nat} : Ins.sem f e addr (.cbnz w t) s =
    .br (decide ((s.get w).extractLsb' 0 32 ≠ 0)) t := rfl

theorem sem_bne {t : Nat} : Ins.sem f e addr (.bne t) s = .br (!s.z) t := rfl

theorem sem_casp {q q' : Bool} {s1 s2 t1 t2 base : Reg} (h : s.get base = addr) (hf : f.lse = true)
    (h1 : evenOdd s1 s2 = true) (h2 : evenOdd t1 t2 = true) :
    Ins.sem f e addr (.casp q q' s1 s2 t1 t2 base) s =
      .acc (.op (.cas (join e (s.get s1) (s.get s2)) (join e (s.get t1) (s.get t2)) .relaxed .relaxed))
        (s.got e s1 s2) :=
  if_pos (c := s.get base = addr ∧ f.lse ∧ evenOdd s1 s2 ∧ evenOdd t1 t2) ⟨h, hf, h1, h2⟩

theorem sem_ldp {a b base : Reg} (h : s.get base = addr) (hab : a ≠ b) :
    Ins.sem f e addr (.ldp a b base) s =
      .acc (if f.lse2 then .op (.load .relaxed) else .peek) (s.got e a b) :=
  if_pos (c := s.get base = addr ∧ a ≠ b) ⟨h, hab⟩

end

theorem execs_run {is : List Ins} {s s' : St} (h : execs is s = some s') :
    (blocks E order).run c is s = some s' := by
  induction is generalizing s with
  | nil => exact h
  | cons i is ih =>
    simp only [execs, Option.bind_eq_some_iff] at h
    obtain ⟨s1, h1, h2⟩ := h
    have : (blocks E order).sem c i s = .go s1 := exec_sem h1
    simp [Blocks.run, this, ih h2]

theorem execs_append {a b : List Ins} {s s1 s2 : St} (h : execs a s = some s1)
    (h' : execs b s1 = some s2) : execs (a ++ b) s = some s2 := by
  induction a generalizing s with
  | nil => cases h; exact h'
  | cons i is ih =>
    simp only [execs, Option.bind_eq_some_iff, List.cons_append] at h ⊢
    obtain ⟨s3, h1, h2⟩ := h
    exact ⟨s3, h1, ih h2⟩

theorem idx {α : Type} (a b : List α) (k : Nat) : (a ++ b)[a.length + k]? = b[k]? := by
  rw [List.getElem?_append_right (by omega)]
  congr 1
  omega

/-- Runs through a stretch of register-only instructions. -/
theorem go_execs {a b d : List Ins} {s s' : St}
    (hp : (blocks E order).prog c = a ++ b ++ d) (h : execs b s = some s') :
    Go (blocks E order) c a.length s (a.length + b.length) s' := by
  refine Go.run b (fun i hi => ?_) (execs_run h)
  rw [hp, List.append_assoc, idx, List.getElem?_append_left hi]

/-- A block ends after its optional barrier. -/
theorem go_fence {a : List Ins} {f : Bool} (s : St)
    (hp : (blocks E order).prog c = a ++ fenceIf f) :
    ∃ pc', Go (blocks E order) c a.length s pc' s ∧ ((blocks E order).prog c)[pc']? = none := by
  cases f
  · refine ⟨a.length, .refl _ _, ?_⟩
    rw [hp]; simp [fenceIf]
  · refine ⟨a.length + 1, .go (i := .dmb .ish) (s' := s) ?_ rfl (.refl _ _), ?_⟩
    · rw [hp]; simp [fenceIf]
    · rw [hp]; simp [fenceIf]

theorem Preserved.frame {s s' : St} (h : Preserved E c s)
    (hf : ∀ q, q ∉ (c.block E).outs c.al → s'.get q = s.get q)
    (hfl : (c.block E).preservesFlags = true → SameFlags s s') : Preserved E c s' := by
  refine ⟨fun q hq => (hf q hq).trans (h.1 q hq), fun hp => ?_⟩
  obtain ⟨h1, h2, h3, h4⟩ := h.2 hp
  obtain ⟨g1, g2, g3, g4⟩ := hfl hp
  exact ⟨g1.trans h1, g2.trans h2, g3.trans h3, g4.trans h4⟩

theorem get_set_ne (s : St) {p q : Reg} (x : BitVec 64) (h : p ≠ q) : (s.set q x).get p = s.get p := by
  simp [get_set, h]; intro h; simp [h, St.get]

theorem get_set_self (s : St) {q : Reg} (x : BitVec 64) (h : q ≠ .xzr) : (s.set q x).get q = x := by
  simp [get_set, h]

theorem Preserved.set {s : St} (h : Preserved E c s) {q : Reg} {x : BitVec 64}
    (hq : q ∈ (c.block E).outs c.al) : Preserved E c (s.set q x) :=
  h.frame (fun p hp => get_set_ne s x (fun e => hp (e ▸ hq))) (fun _ => ⟨rfl, rfl, rfl, rfl⟩)

theorem Preserved.got {s : St} (h : Preserved E c s) {a b : Reg} {r : Res (BitVec 128)}
    (ha : a ∈ (c.block E).outs c.al) (hb : b ∈ (c.block E).outs c.al) :
    Preserved E c (s.got E.endian a b r) := by
  cases r <;> simp only [St.got] <;> first | exact h | exact (h.set ha).set hb

theorem Preserved.base {s : St} (h : Preserved E c s) {q : Reg}
    (hq : q ∉ (c.block E).outs c.al) (he : (c.entry E).get q = c.addr) : s.get q = c.addr :=
  (h.1 q hq).trans he

theorem preserved_entry_flags : SameFlags c.st (c.entry E) := by
  unfold Call.entry
  induction (c.block E).ins E.endian c.op with
  | nil => exact ⟨rfl, rfl, rfl, rfl⟩
  | cons p ps ih => exact ih

theorem preserved_entry : Preserved E c (c.entry E) :=
  ⟨fun _ _ => rfl, fun _ => preserved_entry_flags⟩

theorem entry_flags : SameFlags c.st (c.entry E) := preserved_entry_flags

/-! ## Load-exclusive / store-exclusive loops -/

/-- A loop `2: ldxp p1, p2; body; stxp w, n1, n2; cbnz w, 2b`. -/
def llscPoints (acq rel fence : Bool) (p1 p2 n1 n2 w base : Reg) (body : List Ins)
    (M : BitVec 64 → BitVec 64 → St → Prop)
    (hprog : (blocks E order).prog c =
      [.ldxp acq p1 p2 base] ++ body ++ [.stxp rel w n1 n2 base, .cbnz w 0] ++ fenceIf fence)
    (hbase : base ∉ (c.block E).outs c.al) (hentry : (c.entry E).get base = c.addr)
    (hw : w ∈ (c.block E).outs c.al) (hwz : w ≠ .xzr) (hw1 : w ≠ n1) (hw2 : w ≠ n2) (hp : p1 ≠ p2)
    (hll : ∀ s w0 w1, Preserved E c s → ∃ s', execs body ((s.set p1 w0).set p2 w1) = some s' ∧
      Preserved E c s' ∧ M w0 w1 s')
    (hsc : ∀ s x, Preserved E c s → M (word E.endian x false) (word E.endian x true) s →
      c.op.Sem x (join E.endian (s.get n1) (s.get n2)) (c.result E (s.set w 0))) :
    Correct (blocks E order) (spec E) c where
  P pc s e := e = none ∧ ((pc = 0 ∧ Preserved E c s) ∨
    (pc = 1 + body.length ∧ Preserved E c s ∧ ∃ w0 w1, M w0 w1 s))
  G pc s x := pc = 1 + body.length → M (word E.endian x false) (word E.endian x true) s
  start := ⟨0, c.entry E, .refl _ _, rfl, Or.inl ⟨rfl, preserved_entry⟩⟩
  ok := by
    have hlen : ([.ldxp acq p1 p2 base] ++ body : List Ins).length = 1 + body.length := by
      simp [Nat.add_comm]
    have hwb : w ≠ base := fun e => hbase (e ▸ hw)
    rintro pc s e ⟨rfl, ⟨rfl, hs⟩ | ⟨rfl, hs, w0, w1, hm⟩⟩
    · refine ⟨.ldxp acq p1 p2 base, by rw [hprog]; rfl, ?_⟩
      have hb := hs.base hbase hentry
      have hsem : (blocks E order).sem c (.ldxp acq p1 p2 base) s =
          .ll2 (word E.endian) fun w0 w1 => (s.set p1 w0).set p2 w1 := by
        exact sem_ldxp E.cpu _ _ _ (q := acq) hb hp
      rw [hsem]
      have hgo : ∀ w0 w1, ∃ s', Go (blocks E order) c 1 ((s.set p1 w0).set p2 w1) (1 + body.length) s' ∧
          Preserved E c s' ∧ M w0 w1 s' := by
        intro w0 w1
        obtain ⟨s', h1, h2, h3⟩ := hll s w0 w1 hs
        exact ⟨s', go_execs (a := [.ldxp acq p1 p2 base])
          (d := [.stxp rel w n1 n2 base, .cbnz w 0] ++ fenceIf fence) (by rw [hprog]; simp) h1, h2, h3⟩
      refine ⟨fun x => ?_, fun w0 w1 x => ?_⟩
      · obtain ⟨s', h1, h2, h3⟩ := hgo (word E.endian x false) (word E.endian x true)
        exact Or.inl ⟨_, s', none, h1, ⟨rfl, Or.inr ⟨rfl, h2, _, _, h3⟩⟩, rfl, fun _ _ => h3, by simp⟩
      · obtain ⟨s', h1, h2, h3⟩ := hgo w0 w1
        exact Or.inl ⟨_, s', none, h1, ⟨rfl, Or.inr ⟨rfl, h2, _, _, h3⟩⟩, rfl, fun h => h.elim, by simp⟩
    · have hi : ∀ k, ((blocks E order).prog c)[1 + body.length + k]? =
          ([.stxp rel w n1 n2 base, .cbnz w 0] ++ fenceIf fence : List Ins)[k]? := fun k => by
        rw [hprog, List.append_assoc, ← hlen, idx]
      refine ⟨.stxp rel w n1 n2 base, by have := hi 0; simpa using this, ?_⟩
      have hb := hs.base hbase hentry
      have hsem : (blocks E order).sem c (.stxp rel w n1 n2 base) s =
          .sc (join E.endian (s.get n1) (s.get n2)) fun ok => s.set w (if ok then 0 else 1) := by
        exact sem_stxp E.cpu _ _ _ (q := rel) hb hw1 hw2 hwb
      rw [hsem]
      have hcb : ∀ b : Bool, (blocks E order).sem c (.cbnz w 0) (s.set w (if b then 0 else 1)) =
          .br (!b) 0 := by
        intro b
        refine (sem_cbnz E.cpu E.endian c.addr _).trans ?_
        rw [get_set_self _ _ hwz]
        cases b <;> rfl
      have hgo : ∀ b : Bool, Go (blocks E order) c (1 + body.length + 1) (s.set w (if b then 0 else 1))
          (if !b then 0 else 1 + body.length + 1 + 1) (s.set w (if b then 0 else 1)) := fun b =>
        .br (i := .cbnz w 0) (by have := hi 1; simpa using this) (hcb b) (.refl _ _)
      refine ⟨fun x hg => ?_, fun x => ?_⟩
      · obtain ⟨pc', h1, h2⟩ := go_fence (order := order) (c := c) (E := E)
          (a := [.ldxp acq p1 p2 base] ++ body ++ [.stxp rel w n1 n2 base, .cbnz w 0]) (f := fence)
          (s.set w 0) hprog
        refine Or.inr ⟨pc', s.set w 0, (hgo true).trans ?_, h2, Or.inl ⟨_, _, rfl, hsc s x hs (hg rfl), hs.set hw⟩⟩
        have hl : ([.ldxp acq p1 p2 base] ++ body ++ [.stxp rel w n1 n2 base, .cbnz w 0] : List Ins).length =
            1 + body.length + 1 + 1 := by simp; omega
        rw [hl] at h1
        exact h1
      · exact Or.inl ⟨0, _, none, hgo false, ⟨rfl, Or.inl ⟨rfl, hs.set hw⟩⟩, rfl, fun h => h.elim, by simp⟩
  ends := by
    intro x
    have hlen : ([.ldxp acq p1 p2 base] ++ body : List Ins).length = 1 + body.length := by
      simp [Nat.add_comm]
    have hwb : w ≠ base := fun e => hbase (e ▸ hw)
    have hi : ∀ k, ((blocks E order).prog c)[1 + body.length + k]? =
        ([.stxp rel w n1 n2 base, .cbnz w 0] ++ fenceIf fence : List Ins)[k]? := fun k => by
      rw [hprog, List.append_assoc, ← hlen, idx]
    refine Ends.ll2 (i := .ldxp acq p1 p2 base) (by rw [hprog]; rfl)
      (sem_ldxp E.cpu E.endian c.addr _ (q := acq) hentry hp) ?_
    obtain ⟨s', h1, h2, h3⟩ := hll _ (word E.endian x false) (word E.endian x true) preserved_entry
    refine Ends.go (go_execs (a := [.ldxp acq p1 p2 base])
          (d := [.stxp rel w n1 n2 base, .cbnz w 0] ++ fenceIf fence) (by rw [hprog]; simp) h1) ?_
    refine Ends.sc (i := .stxp rel w n1 n2 base) (by have := hi 0; simpa using this)
      (sem_stxp E.cpu E.endian c.addr _ (q := rel) (h2.base hbase hentry) hw1 hw2 hwb) ?_
    have hcb : (blocks E order).sem c (.cbnz w 0) (s'.set w 0) = .br false 0 := by
      refine (sem_cbnz E.cpu E.endian c.addr _).trans ?_
      rw [get_set_self _ _ hwz]
      rfl
    obtain ⟨pc', g1, g2⟩ := go_fence (order := order) (c := c) (E := E)
      (a := [.ldxp acq p1 p2 base] ++ body ++ [.stxp rel w n1 n2 base, .cbnz w 0]) (f := fence)
      (s'.set w 0) hprog
    have hl : ([.ldxp acq p1 p2 base] ++ body ++ [.stxp rel w n1 n2 base, .cbnz w 0] : List Ins).length =
        1 + body.length + 1 + 1 := by simp; omega
    rw [hl] at g1
    have hgo : Go (blocks E order) c (1 + body.length + 1) (s'.set w 0) pc' (s'.set w 0) :=
      .br (i := .cbnz w 0) (b := false) (n := 0) (by have := hi 1; simpa using this) hcb g1
    refine Ends.go hgo ?_
    exact Ends.done g2 ⟨_, _, rfl, hsc _ _ h2 h3, h2.set hw⟩
  once := by
    have hlen : ([.ldxp acq p1 p2 base] ++ body : List Ins).length = 1 + body.length := by
      simp [Nat.add_comm]
    have hwb : w ≠ base := fun e => hbase (e ▸ hw)
    have hi : ∀ k, ((blocks E order).prog c)[1 + body.length + k]? =
        ([.stxp rel w n1 n2 base, .cbnz w 0] ++ fenceIf fence : List Ins)[k]? := fun k => by
      rw [hprog, List.append_assoc, ← hlen, idx]
    rintro pc s e ⟨rfl, ⟨rfl, hs⟩ | ⟨rfl, hs, -⟩⟩
    · refine ⟨.ldxp acq p1 p2 base, by rw [hprog]; rfl, ?_⟩
      rw [show (blocks E order).sem c (.ldxp acq p1 p2 base) s =
          .ll2 (word E.endian) fun w0 w1 => (s.set p1 w0).set p2 w1 from
        sem_ldxp E.cpu _ _ _ (q := acq) (hs.base hbase hentry) hp]
      exact trivial
    · refine ⟨.stxp rel w n1 n2 base, by have := hi 0; simpa using this, ?_⟩
      rw [show (blocks E order).sem c (.stxp rel w n1 n2 base) s =
          .sc (join E.endian (s.get n1) (s.get n2)) fun ok => s.set w (if ok then 0 else 1) from
        sem_stxp E.cpu _ _ _ (q := rel) (hs.base hbase hentry) hw1 hw2 hwb]
      have hcb : (blocks E order).sem c (.cbnz w 0) (s.set w 0) = .br false 0 := by
        refine (sem_cbnz E.cpu E.endian c.addr _).trans ?_
        rw [get_set_self _ _ hwz]
        rfl
      obtain ⟨pc', g1, g2⟩ := go_fence (order := order) (c := c) (E := E)
        (a := [.ldxp acq p1 p2 base] ++ body ++ [.stxp rel w n1 n2 base, .cbnz w 0]) (f := fence)
        (s.set w 0) hprog
      have hl : ([.ldxp acq p1 p2 base] ++ body ++ [.stxp rel w n1 n2 base, .cbnz w 0] : List Ins).length =
          1 + body.length + 1 + 1 := by simp; omega
      rw [hl] at g1
      exact ⟨pc', s.set w 0, .br (i := .cbnz w 0) (b := false) (n := 0) (by have := hi 1; simpa using this) hcb g1, g2⟩
  stops := by
    have hlen : ([.ldxp acq p1 p2 base] ++ body : List Ins).length = 1 + body.length := by
      simp [Nat.add_comm]
    have hwb : w ≠ base := fun e => hbase (e ▸ hw)
    have hi : ∀ k, ((blocks E order).prog c)[1 + body.length + k]? =
        ([.stxp rel w n1 n2 base, .cbnz w 0] ++ fenceIf fence : List Ins)[k]? := fun k => by
      rw [hprog, List.append_assoc, ← hlen, idx]
    have hsem : ∀ s, Preserved E c s → (blocks E order).sem c (.stxp rel w n1 n2 base) s =
        .sc (join E.endian (s.get n1) (s.get n2)) fun ok => s.set w (if ok then 0 else 1) := fun s hs =>
      sem_stxp E.cpu _ _ _ (q := rel) (hs.base hbase hentry) hw1 hw2 hwb
    have head : ∀ s ρ x, Preserved E c s → Stops (blocks E order) c 0 s ρ x := by
      intro s ρ x hs
      refine Stops.ll2 (i := .ldxp acq p1 p2 base) (by rw [hprog]; rfl)
        (sem_ldxp E.cpu E.endian c.addr _ (q := acq) (hs.base hbase hentry) hp) ?_
      obtain ⟨s', h1, h2, h3⟩ := hll _ (word E.endian x false) (word E.endian x true) hs
      refine Stops.go (go_execs (a := [.ldxp acq p1 p2 base])
          (d := [.stxp rel w n1 n2 base, .cbnz w 0] ++ fenceIf fence) (by rw [hprog]; simp) h1) ?_
      exact Stops.sc (i := .stxp rel w n1 n2 base) (by have := hi 0; simpa using this) (hsem _ h2) nofun
    rintro pc s e ⟨rfl, ⟨rfl, hs⟩ | ⟨rfl, hs, -⟩⟩ ρ x
    · exact head s ρ x hs
    · refine Stops.sc (i := .stxp rel w n1 n2 base) (by have := hi 0; simpa using this) (hsem _ hs) fun _ => ?_
      have hcb : (blocks E order).sem c (.cbnz w 0) (s.set w 1) = .br true 0 := by
        refine (sem_cbnz E.cpu E.endian c.addr _).trans ?_
        rw [get_set_self _ _ hwz]
        rfl
      exact Stops.go (.br (i := .cbnz w 0) (b := true) (n := 0) (by have := hi 1; simpa using this) hcb (.refl _ _))
        (head _ _ _ (hs.set hw))

/-! ## `casp` loops -/

theorem sub_zero_iff (a b : BitVec 64) : addc a (~~~b) true = 0 ↔ a = b := by
  have h0 : (0 : BitVec 64).toNat = 0 := rfl
  have ha := a.isLt; have hb := b.isLt
  constructor
  · intro h
    apply BitVec.eq_of_toNat_eq
    have := congrArg BitVec.toNat h
    simp only [addc, BitVec.toNat_add, BitVec.toNat_not, bit_toNat, Bool.toNat_true, h0] at this
    omega
  · rintro rfl
    apply BitVec.eq_of_toNat_eq
    simp only [addc, BitVec.toNat_add, BitVec.toNat_not, bit_toNat, Bool.toNat_true, h0]
    omega

/-- `cmp a, b; ccmp d, e, #0, eq`: `Z` says that both pairs are equal. -/
theorem cmp_ccmp (a b d e : Reg) (s : St) :
    ∃ s', execs [.cmp a b, .ccmp d e .eq] s = some s' ∧ (∀ q, s'.get q = s.get q) ∧
      s'.z = decide (s.get a = s.get b ∧ s.get d = s.get e) := by
  have hx : ∀ (t : St) v q, (t.set .xzr v).get q = t.get q := fun t v q => by
    by_cases h : q = .xzr
    · simp [h, St.get]
    · exact get_set_ne t v h
  refine ⟨_, rfl, fun q => ?_, ?_⟩
  · split <;> exact hx _ _ q
  · have hz : ((s.addFlags (s.get a) (~~~s.get b) true).set .xzr (addc (s.get a) (~~~s.get b) true)).z =
        decide (s.get a = s.get b) := by
      show decide (_ = _) = _
      simp only [sub_zero_iff]
    have hg : ∀ q, ((s.addFlags (s.get a) (~~~s.get b) true).set .xzr
        (addc (s.get a) (~~~s.get b) true)).get q = s.get q := fun q => hx _ _ q
    by_cases h : s.get a = s.get b
    · rw [if_pos (show Cond.holds _ .eq = true from hz.trans (decide_eq_true h))]
      show decide (_ = _) = _
      rw [hg, hg]
      simp only [sub_zero_iff, h, true_and]
    · rw [if_neg (by rw [Cond.holds, hz]; simp [h])]
      simp [h]

/-- A loop `ldp s1, s2; 2: mov tmp_lo, s1; mov tmp_hi, s2; body; casp s1, s2, n1, n2; cmp tmp_hi, s2;
ccmp tmp_lo, s1, #0, eq; b.ne 2b`. -/
structure CaspLoop (E : Env) (order : Call → Nat → Bool) (c : Call) (q q' : Bool)
    (s1 s2 n1 n2 base : Reg) (body : List Ins) (M : St → Prop) : Prop where
  hf : E.cpu.lse = true
  hflags : (c.block E).preservesFlags = false
  hprog : (blocks E order).prog c =
      [.ldp s1 s2 base] ++ ([.mov .tmpLo s1, .mov .tmpHi s2] ++ body) ++
        [.casp q q' s1 s2 n1 n2 base, .cmp .tmpHi s2, .ccmp .tmpLo s1 .eq, .bne 1]
  hbase : base ∉ (c.block E).outs c.al
  hentry : (c.entry E).get base = c.addr
  ho1 : s1 ∈ (c.block E).outs c.al
  ho2 : s2 ∈ (c.block E).outs c.al
  he1 : evenOdd s1 s2 = true
  he2 : evenOdd n1 n2 = true
  hs12 : s1 ≠ s2
  hz1 : s1 ≠ .xzr
  hz2 : s2 ≠ .xzr
  hl1 : Reg.tmpLo ≠ s1
  hl2 : Reg.tmpLo ≠ s2
  hh1 : Reg.tmpHi ≠ s1
  hh2 : Reg.tmpHi ≠ s2
  hrun : ∀ s, Preserved E c s → ∃ s', execs ([.mov .tmpLo s1, .mov .tmpHi s2] ++ body) s = some s' ∧
      Preserved E c s' ∧ s'.get .tmpLo = s'.get s1 ∧ s'.get .tmpHi = s'.get s2 ∧
      s'.get s1 = s.get s1 ∧ s'.get s2 = s.get s2 ∧ M s'
  hdone : ∀ s s', Preserved E c s → M s → s'.get s1 = s.get s1 → s'.get s2 = s.get s2 →
      c.op.Sem (join E.endian (s.get s1) (s.get s2)) (join E.endian (s.get n1) (s.get n2))
        (c.result E s')

namespace CaspLoop
variable {q q' : Bool} {s1 s2 n1 n2 base : Reg} {body : List Ins} {M : St → Prop}

/-- What holds when `casp` is about to run. -/
def Inv (_ : CaspLoop E order c q q' s1 s2 n1 n2 base body M) (s : St) : Prop :=
  Preserved E c s ∧ s.get .tmpLo = s.get s1 ∧ s.get .tmpHi = s.get s2 ∧ M s

theorem at_ (X : CaspLoop E order c q q' s1 s2 n1 n2 base body M) (k : Nat) :
    ((blocks E order).prog c)[3 + body.length + k]? =
      ([.casp q q' s1 s2 n1 n2 base, .cmp .tmpHi s2, .ccmp .tmpLo s1 .eq, .bne 1] : List Ins)[k]? := by
  have hlen : ([.ldp s1 s2 base] ++ ([.mov .tmpLo s1, .mov .tmpHi s2] ++ body) : List Ins).length =
      3 + body.length := by simp; omega
  rw [X.hprog, ← hlen, idx]

/-- From the loop's start to `casp`. -/
theorem go (X : CaspLoop E order c q q' s1 s2 n1 n2 base body M) {s : St} (hs : Preserved E c s) :
    ∃ s', Go (blocks E order) c 1 s (3 + body.length) s' ∧ X.Inv s' ∧
      s'.get s1 = s.get s1 ∧ s'.get s2 = s.get s2 := by
  obtain ⟨s', h1, h2, h3, h4, h5, h6, h7⟩ := X.hrun s hs
  have h8 := go_execs (E := E) (order := order) (c := c) (a := [.ldp s1 s2 base]) X.hprog h1
  refine ⟨s', ?_, ⟨h2, h3, h4, h7⟩, h5, h6⟩
  have : ([.ldp s1 s2 base] : List Ins).length +
    ([.mov .tmpLo s1, .mov .tmpHi s2] ++ body : List Ins).length = 3 + body.length := by simp; omega
  rw [this] at h8
  exact h8

theorem sem_ (X : CaspLoop E order c q q' s1 s2 n1 n2 base body M) {s : St} (hs : Preserved E c s) :
    (blocks E order).sem c (.casp q q' s1 s2 n1 n2 base) s =
      .acc (.op (.cas (join E.endian (s.get s1) (s.get s2)) (join E.endian (s.get n1) (s.get n2))
        .relaxed .relaxed)) (s.got E.endian s1 s2) :=
  sem_casp E.cpu _ _ _ (q := q) (q' := q') (hs.base X.hbase X.hentry) X.hf X.he1 X.he2

/-- What follows `casp`: the end if it stored, else the next attempt, computed from what it found. -/
theorem after (X : CaspLoop E order c q q' s1 s2 n1 n2 base body M) {s : St} (hs : X.Inv s)
    {x x' : BitVec 128} {r : Res (BitVec 128)}
    (hr : (Acc.op (.cas (join E.endian (s.get s1) (s.get s2)) (join E.endian (s.get n1) (s.get n2))
        .relaxed .relaxed)).sem x x' r) :
    (x = join E.endian (s.get s1) (s.get s2) ∧
      ∃ pc' s', Go (blocks E order) c (3 + body.length + 1) (s.got E.endian s1 s2 r) pc' s' ∧
        ((blocks E order).prog c)[pc']? = none ∧ c.op.Sem x x' (c.result E s') ∧ Preserved E c s') ∨
    (x ≠ join E.endian (s.get s1) (s.get s2) ∧ x' = x ∧
      ∃ s', Go (blocks E order) c (3 + body.length + 1) (s.got E.endian s1 s2 r) (3 + body.length) s' ∧
        X.Inv s' ∧ join E.endian (s'.get s1) (s'.get s2) = x) := by
  obtain ⟨hs, hlo, hhi, hm⟩ := hs
  have hcas : (x = join E.endian (s.get s1) (s.get s2) ∧
        x' = join E.endian (s.get n1) (s.get n2) ∧ r = .ok x) ∨
      (x ≠ join E.endian (s.get s1) (s.get s2) ∧ x' = x ∧ r = .err x) := by
    simp only [Acc.sem, Op.onCell, Op.ordOk] at hr
    by_cases hx : x = join E.endian (s.get s1) (s.get s2)
    · simp [hx] at hr; exact Or.inl ⟨hx, hr.1, by rw [hr.2, hx]⟩
    · simp [hx] at hr; exact Or.inr ⟨hx, hr⟩
  have hg : s.got E.endian s1 s2 r = (s.set s1 (word E.endian x false)).set s2 (word E.endian x true) := by
    rcases hcas with ⟨_, _, rfl⟩ | ⟨_, _, rfl⟩ <;> rfl
  obtain ⟨s', h1, h2, h3⟩ := cmp_ccmp .tmpHi s2 .tmpLo s1 (s.got E.endian s1 s2 r)
  have hgo1 : Go (blocks E order) c (3 + body.length + 1) (s.got E.endian s1 s2 r)
      (3 + body.length + 1 + 2) s' := by
    have := go_execs (E := E) (order := order) (c := c)
      (a := [.ldp s1 s2 base] ++ ([.mov .tmpLo s1, .mov .tmpHi s2] ++ body) ++
        [.casp q q' s1 s2 n1 n2 base])
      (b := [.cmp .tmpHi s2, .ccmp .tmpLo s1 .eq]) (d := [.bne 1]) (by rw [X.hprog]; simp) h1
    have hl : ([.ldp s1 s2 base] ++ ([.mov .tmpLo s1, .mov .tmpHi s2] ++ body) ++
        [.casp q q' s1 s2 n1 n2 base] : List Ins).length = 3 + body.length + 1 := by simp; omega
    rw [hl] at this
    exact this
  have hgo2 : Go (blocks E order) c (3 + body.length + 1 + 2) s'
      (if !s'.z then 1 else 3 + body.length + 1 + 2 + 1) s' :=
    .br (i := .bne 1) (by have := X.at_ 3; simpa [Nat.add_assoc] using this) rfl (.refl _ _)
  have gs1 : (s.got E.endian s1 s2 r).get s1 = word E.endian x false := by
    rw [hg, get_set_ne _ _ X.hs12, get_set_self _ _ X.hz1]
  have gs2 : (s.got E.endian s1 s2 r).get s2 = word E.endian x true := by
    rw [hg, get_set_self _ _ X.hz2]
  have gl : (s.got E.endian s1 s2 r).get .tmpLo = s.get s1 := by
    rw [hg, get_set_ne _ _ X.hl2, get_set_ne _ _ X.hl1, hlo]
  have gh : (s.got E.endian s1 s2 r).get .tmpHi = s.get s2 := by
    rw [hg, get_set_ne _ _ X.hh2, get_set_ne _ _ X.hh1, hhi]
  have hP' : Preserved E c s' :=
    (hs.got (r := r) X.ho1 X.ho2).frame (fun p _ => h2 p) (fun h => by simp [X.hflags] at h)
  rcases hcas with ⟨hx, hx', rfl⟩ | ⟨hx, rfl, rfl⟩
  · have hz : s'.z = true := by
      rw [h3]
      refine decide_eq_true ⟨?_, ?_⟩
      · rw [gh, gs2, hx, word_true]
      · rw [gl, gs1, hx, word_false]
    rw [hz] at hgo2
    refine Or.inl ⟨hx, _, s', hgo1.trans hgo2, ?_, ?_, hP'⟩
    · have := X.at_ 4
      simpa [Nat.add_assoc] using this
    · rw [hx, hx']
      refine X.hdone s s' hs hm ?_ ?_
      · rw [h2, gs1, hx, word_false]
      · rw [h2, gs2, hx, word_true]
  · have hz : s'.z = false := by
      rw [h3]
      refine decide_eq_false fun ⟨ha, hb⟩ => hx ?_
      rw [gh, gs2] at ha
      rw [gl, gs1] at hb
      rw [ha, hb, word_join]
    rw [hz] at hgo2
    obtain ⟨s'', g1, g2, g3, g4⟩ := X.go hP'
    refine Or.inr ⟨hx, rfl, s'', (hgo1.trans hgo2).trans g1, g2, ?_⟩
    rw [g3, g4, h2, h2, gs1, gs2, word_join]

theorem sem_first (X : CaspLoop E order c q q' s1 s2 n1 n2 base body M) {s : St} (hs : Preserved E c s) :
    (blocks E order).sem c (.ldp s1 s2 base) s =
      .acc (if E.cpu.lse2 then .op (.load .relaxed) else .peek) (s.got E.endian s1 s2) :=
  sem_ldp E.cpu _ _ _ (hs.base X.hbase X.hentry) X.hs12

theorem first_same {x x' : BitVec 128} {r : Res (BitVec 128)}
    (hr : (if E.cpu.lse2 then Acc.op (.load .relaxed) else .peek : Acc (BitVec 128)).sem x x' r) :
    x' = x := by
  cases h : E.cpu.lse2 <;> simp only [h, if_true, Bool.false_eq_true, if_false] at hr
  · exact hr.1
  · exact (Points.load_relaxed hr).1

theorem first_reads (r : Res (BitVec 128)) :
    (if E.cpu.lse2 then Acc.op (.load .relaxed) else .peek : Acc (BitVec 128)).Reads r := by
  cases h : E.cpu.lse2 <;> exact trivial

/-- Once `casp` compares with what is there, the loop ends. -/
theorem ends_fresh (X : CaspLoop E order c q q' s1 s2 n1 n2 base body M) {s : St} (hs : X.Inv s)
    {ρ : Bool} {x : BitVec 128} (hx : join E.endian (s.get s1) (s.get s2) = x) :
    Ends (blocks E order) c (fun r y => (spec E).sem c x y r) (3 + body.length) s ρ x := by
  refine Ends.acc (i := .casp q q' s1 s2 n1 n2 base) (by have := X.at_ 0; simpa using this)
    (X.sem_ hs.1) fun x' r hr => ?_
  rcases X.after hs hr with ⟨_, pc', s', h1, h2, h3, h4⟩ | ⟨h, _⟩
  · exact Ends.go h1 (Ends.done h2 ⟨_, _, rfl, h3, h4⟩)
  · exact absurd hx.symm h

theorem ends (X : CaspLoop E order c q q' s1 s2 n1 n2 base body M) (x : BitVec 128) :
    Ends (blocks E order) c (fun r y => (spec E).sem c x y r) 0 (c.entry E) false x := by
  refine Ends.acc (i := .ldp s1 s2 base) (by rw [X.hprog]; rfl) (X.sem_first preserved_entry)
    fun x' r hr => ?_
  obtain rfl := first_same hr
  obtain ⟨s', h1, h2, -⟩ := X.go (preserved_entry.got (r := r) X.ho1 X.ho2)
  refine Ends.go h1 (Ends.acc (i := .casp q q' s1 s2 n1 n2 base)
    (by have := X.at_ 0; simpa using this) (X.sem_ h2.1) fun x'' r hr => ?_)
  rcases X.after h2 hr with ⟨_, pc', s'', g1, g2, g3, g4⟩ | ⟨h, rfl, s'', g1, g2, g3⟩
  · exact Ends.go g1 (Ends.done g2 ⟨_, _, rfl, g3, g4⟩)
  · exact Ends.go g1 (X.ends_fresh g2 g3)

def correct (X : CaspLoop E order c q q' s1 s2 n1 n2 base body M) :
    Correct (blocks E order) (spec E) c where
  P pc s e := e = none ∧ ((pc = 0 ∧ Preserved E c s) ∨ (pc = 3 + body.length ∧ X.Inv s))
  G _ _ _ := True
  start := ⟨0, c.entry E, .refl _ _, rfl, Or.inl ⟨rfl, preserved_entry⟩⟩
  ok := by
    rintro pc s e ⟨rfl, ⟨rfl, hs⟩ | ⟨rfl, hs⟩⟩
    · refine ⟨.ldp s1 s2 base, by rw [X.hprog]; rfl, ?_⟩
      rw [X.sem_first hs]
      intro x x' r hr
      obtain rfl := first_same hr
      obtain ⟨s', h1, h2, -⟩ := X.go (hs.got (r := r) X.ho1 X.ho2)
      exact Or.inl ⟨_, s', none, h1, ⟨rfl, Or.inr ⟨rfl, h2⟩⟩, rfl, fun _ => trivial, by simp⟩
    · refine ⟨.casp q q' s1 s2 n1 n2 base, by have := X.at_ 0; simpa using this, ?_⟩
      rw [X.sem_ hs.1]
      intro x x' r hr
      rcases X.after hs hr with ⟨_, pc', s', h1, h2, h3, h4⟩ | ⟨_, rfl, s', h1, h2, _⟩
      · exact Or.inr ⟨_, s', h1, h2, Or.inl ⟨_, _, rfl, h3, h4⟩⟩
      · exact Or.inl ⟨_, s', none, h1, ⟨rfl, Or.inr ⟨rfl, h2⟩⟩, rfl, fun _ => trivial, by simp⟩
  ends := X.ends
  once := by
    rintro pc s e ⟨rfl, ⟨rfl, hs⟩ | ⟨rfl, hs⟩⟩
    · refine ⟨.ldp s1 s2 base, by rw [X.hprog]; rfl, ?_⟩
      rw [X.sem_first hs]
      intro x x' r hr
      exact .inl (first_reads r)
    · refine ⟨.casp q q' s1 s2 n1 n2 base, by have := X.at_ 0; simpa using this, ?_⟩
      rw [X.sem_ hs.1]
      intro x x' r hr
      rcases X.after hs hr with ⟨_, pc', s', h1, h2, _⟩ | ⟨hx, _⟩
      · exact .inr ⟨_, s', h1, h2⟩
      · refine .inl ⟨x, ?_⟩
        simp only [Acc.sem, Op.onCell, Op.ordOk] at hr
        simp [hx] at hr
        exact hr.2
  stops := by
    have two : ∀ s ρ x, X.Inv s → Stops (blocks E order) c (3 + body.length) s ρ x := by
      intro s ρ x hs
      refine Stops.acc (i := .casp q q' s1 s2 n1 n2 base) (by have := X.at_ 0; simpa using this) (X.sem_ hs.1)
        fun r hr _ => ?_
      rcases X.after hs hr with ⟨_, pc', s', h1, h2, _⟩ | ⟨_, _, s', h1, h2, h3⟩
      · exact Stops.go h1 (Stops.done h2)
      · refine Stops.go h1 (Stops.acc (i := .casp q q' s1 s2 n1 n2 base) (by have := X.at_ 0; simpa using this)
          (X.sem_ h2.1) fun r hr _ => ?_)
        rcases X.after h2 hr with ⟨_, pc', s', g1, g2, _⟩ | ⟨h, _⟩
        · exact Stops.go g1 (Stops.done g2)
        · exact absurd h3.symm h
    rintro pc s e ⟨rfl, ⟨rfl, hs⟩ | ⟨rfl, hs⟩⟩ ρ x
    · refine Stops.acc (i := .ldp s1 s2 base) (by rw [X.hprog]; rfl) (X.sem_first hs) fun r hr _ => ?_
      obtain ⟨s', h1, h2, -⟩ := X.go (hs.got (r := r) X.ho1 X.ho2)
      exact Stops.go h1 (two s' ρ x h2)
    · exact two s ρ x hs

end CaspLoop

/-! ## Single accesses -/

/-- Barriers, one access, barriers. -/
def onePoints (pre : List Ins) (i : Ins) (post : List Ins)
    (hprog : (blocks E order).prog c = pre ++ [i] ++ post)
    (a : Acc (BitVec 128)) (k : Res (BitVec 128) → St)
    (hpre : execs pre (c.entry E) = some (c.entry E))
    (hsem : i.sem E.cpu E.endian c.addr (c.entry E) = .acc a k)
    (hok : ∀ x x' r, a.sem x x' r → ∃ s', execs post (k r) = some s' ∧
      c.op.Sem x x' (c.result E s') ∧ Preserved E c s') :
    Correct (blocks E order) (spec E) c where
  P pc s e := e = none ∧ pc = pre.length ∧ s = c.entry E
  G _ _ _ := True
  start := by
    refine ⟨pre.length, c.entry E, ?_, rfl, rfl, rfl⟩
    have := go_execs (E := E) (order := order) (c := c) (a := []) (b := pre) (d := [i] ++ post)
      (by rw [hprog]; simp) hpre
    change Go _ _ 0 (c.entry E) _ _
    simpa using this
  ok := by
    rintro pc s e ⟨rfl, rfl, rfl⟩
    refine ⟨i, by rw [hprog]; simp, ?_⟩
    show Ok _ _ _ _ _ _ _ _ (i.sem E.cpu E.endian c.addr (c.entry E))
    rw [hsem]
    intro x x' r hr
    obtain ⟨s', h1, h2, h3⟩ := hok x x' r hr
    have := go_execs (E := E) (order := order) (c := c) (a := pre ++ [i]) (b := post) (d := [])
      (by rw [hprog]; simp) h1
    refine Or.inr ⟨_, s', by simpa using this, ?_, Or.inl ⟨_, _, rfl, h2, h3⟩⟩
    rw [hprog]
    simp; omega
  ends := by
    intro x
    have h0 := go_execs (E := E) (order := order) (c := c) (a := []) (b := pre) (d := [i] ++ post)
      (by rw [hprog]; simp) hpre
    simp only [List.length_nil, Nat.zero_add] at h0
    refine Ends.go h0 (Ends.acc (i := i) (by rw [hprog]; simp) hsem fun x' r hr => ?_)
    obtain ⟨s', h1, h2, h3⟩ := hok x x' r hr
    have := go_execs (E := E) (order := order) (c := c) (a := pre ++ [i]) (b := post) (d := [])
      (by rw [hprog]; simp) h1
    refine Ends.go (by simpa using this) (Ends.done ?_ ⟨_, _, rfl, h2, h3⟩)
    rw [hprog]
    simp; omega
  once := by
    rintro pc s e ⟨rfl, rfl, rfl⟩
    refine ⟨i, by rw [hprog]; simp, ?_⟩
    show Once _ _ _ (i.sem E.cpu E.endian c.addr (c.entry E))
    rw [hsem]
    intro x x' r hr
    obtain ⟨s', h1, h2, h3⟩ := hok x x' r hr
    have := go_execs (E := E) (order := order) (c := c) (a := pre ++ [i]) (b := post) (d := [])
      (by rw [hprog]; simp) h1
    refine .inr ⟨_, s', by simpa using this, ?_⟩
    rw [hprog]
    simp; omega
  stops := by
    rintro pc s e ⟨rfl, rfl, rfl⟩ ρ x
    refine Stops.acc (i := i) (by rw [hprog]; simp) hsem fun r hr _ => ?_
    obtain ⟨s', h1, h2, h3⟩ := hok x x r hr
    have := go_execs (E := E) (order := order) (c := c) (a := pre ++ [i]) (b := post) (d := [])
      (by rw [hprog]; simp) h1
    refine Stops.go (by simpa using this) (Stops.done ?_)
    rw [hprog]
    simp; omega

/-- `ldar tmp`, one access, barriers. -/
def ldarPoints (base : Reg) (i : Ins) (post : List Ins)
    (hprog : (blocks E order).prog c = [.ldar .tmp base] ++ [i] ++ post)
    (hbase : (c.entry E).get base = c.addr)
    (a : Acc (BitVec 128)) (k : St → Res (BitVec 128) → St)
    (hsem : ∀ v, i.sem E.cpu E.endian c.addr ((c.entry E).set .tmp v) = .acc a (k ((c.entry E).set .tmp v)))
    (hok : ∀ v x x' r, a.sem x x' r → ∃ s', execs post (k ((c.entry E).set .tmp v) r) = some s' ∧
      c.op.Sem x x' (c.result E s') ∧ Preserved E c s') :
    Correct (blocks E order) (spec E) c where
  P pc s e := e = none ∧ ((pc = 0 ∧ s = c.entry E) ∨ (pc = 1 ∧ ∃ v, s = (c.entry E).set .tmp v))
  G _ _ _ := True
  start := ⟨0, c.entry E, .refl _ _, rfl, Or.inl ⟨rfl, rfl⟩⟩
  ok := by
    rintro pc s e ⟨rfl, ⟨rfl, rfl⟩ | ⟨rfl, v, rfl⟩⟩
    · refine ⟨.ldar .tmp base, by rw [hprog]; rfl, ?_⟩
      show Ok _ _ _ _ _ _ _ _ (if (c.entry E).get base = c.addr then _ else _)
      rw [if_pos hbase]
      intro x x' r hr
      simp only [Acc.sem, Op.onCell, Op.ordOk] at hr
      simp at hr
      obtain ⟨rfl, rfl⟩ := hr
      exact Or.inl ⟨1, _, none, .refl _ _, ⟨rfl, Or.inr ⟨rfl, _, rfl⟩⟩, rfl, fun _ => trivial, by simp⟩
    · refine ⟨i, by rw [hprog]; simp, ?_⟩
      show Ok _ _ _ _ _ _ _ _ (i.sem E.cpu E.endian c.addr ((c.entry E).set .tmp v))
      rw [hsem]
      intro x x' r hr
      obtain ⟨s', h1, h2, h3⟩ := hok v x x' r hr
      have := go_execs (E := E) (order := order) (c := c) (a := [.ldar .tmp base] ++ [i]) (b := post)
        (d := []) (by rw [hprog]; simp) h1
      refine Or.inr ⟨_, s', by simpa using this, ?_, Or.inl ⟨_, _, rfl, h2, h3⟩⟩
      rw [hprog]
      simp; omega
  ends := by
    intro x
    refine Ends.acc (i := .ldar .tmp base) (by rw [hprog]; rfl)
      (if_pos (c := (c.entry E).get base = c.addr) hbase) fun x' r hr => ?_
    simp only [Acc.sem, Op.onCell, Op.ordOk] at hr
    simp at hr
    obtain ⟨rfl, rfl⟩ := hr
    refine Ends.acc (i := i) (by rw [hprog]; simp) (hsem _) fun x'' r hr => ?_
    obtain ⟨s', h1, h2, h3⟩ := hok _ _ x'' r hr
    have := go_execs (E := E) (order := order) (c := c) (a := [.ldar .tmp base] ++ [i]) (b := post)
      (d := []) (by rw [hprog]; simp) h1
    refine Ends.go (by simpa using this) (Ends.done ?_ ⟨_, _, rfl, h2, h3⟩)
    rw [hprog]
    simp; omega
  once := by
    rintro pc s e ⟨rfl, ⟨rfl, rfl⟩ | ⟨rfl, v, rfl⟩⟩
    · refine ⟨.ldar .tmp base, by rw [hprog]; rfl, ?_⟩
      show Once _ _ _ (if (c.entry E).get base = c.addr then _ else _)
      rw [if_pos hbase]
      intro x x' r hr
      exact .inl trivial
    · refine ⟨i, by rw [hprog]; simp, ?_⟩
      show Once _ _ _ (i.sem E.cpu E.endian c.addr ((c.entry E).set .tmp v))
      rw [hsem]
      intro x x' r hr
      obtain ⟨s', h1, h2, h3⟩ := hok v x x' r hr
      have := go_execs (E := E) (order := order) (c := c) (a := [.ldar .tmp base] ++ [i]) (b := post)
        (d := []) (by rw [hprog]; simp) h1
      refine .inr ⟨_, s', by simpa using this, ?_⟩
      rw [hprog]
      simp; omega
  stops := by
    have second : ∀ v ρ x, Stops (blocks E order) c 1 ((c.entry E).set .tmp v) ρ x := by
      intro v ρ x
      refine Stops.acc (i := i) (by rw [hprog]; simp) (hsem v) fun r hr _ => ?_
      obtain ⟨s', h1, h2, h3⟩ := hok v x x r hr
      have := go_execs (E := E) (order := order) (c := c) (a := [.ldar .tmp base] ++ [i]) (b := post)
        (d := []) (by rw [hprog]; simp) h1
      refine Stops.go (by simpa using this) (Stops.done ?_)
      rw [hprog]
      simp; omega
    rintro pc s e ⟨rfl, ⟨rfl, rfl⟩ | ⟨rfl, v, rfl⟩⟩ ρ x
    · refine Stops.acc (i := .ldar .tmp base) (by rw [hprog]; rfl)
        (if_pos (c := (c.entry E).get base = c.addr) hbase) fun r hr _ => ?_
      simp only [Acc.sem, Op.onCell, Op.ordOk] at hr
      simp at hr
      subst hr
      exact second _ _ _
    · exact second _ _ _

end Verif.Arm
