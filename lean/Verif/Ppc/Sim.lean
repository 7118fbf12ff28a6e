import Verif.Ppc.Arith
/-!
# The PowerPC64 blocks implement the 128-bit operations (C39): proof
-/
set_option autoImplicit false
namespace Verif.Ppc
open Verif.Object Verif.Lf Verif.Asm Verif.Wide
open Verif.X86 (hi lo fn3 fn2)

variable {E : Env} {c : Call}

theorem exec_sem {i : Ins} {f : Bool} {r0 : Option Reg} {a : BitVec 64} {s s' : St}
    (h : i.exec r0 s = some s') : i.sem f r0 a s = .go s' := by
  cases i <;> first | (cases h; rfl) | (exfalso; revert h; exact nofun)

theorem execs_run {is : List Ins} {s s' : St} (h : execs c.r0 is s = some s') :
    (blocks E).run c is s = some s' := by
  induction is generalizing s with
  | nil => exact h
  | cons i is ih =>
    simp only [execs, Option.bind_eq_some_iff] at h
    obtain ⟨s1, h1, h2⟩ := h
    have : (blocks E).sem c i s = .go s1 := exec_sem h1
    simp [Blocks.run, this, ih h2]

theorem execs_append {r0 : Option Reg} {a b : List Ins} {s s1 s2 : St} (h : execs r0 a s = some s1)
    (h' : execs r0 b s1 = some s2) : execs r0 (a ++ b) s = some s2 := by
  induction a generalizing s with
  | nil => cases h; exact h'
  | cons i is ih =>
    simp only [execs, Option.bind_eq_some_iff, List.cons_append] at h ⊢
    obtain ⟨s3, h1, h2⟩ := h
    exact ⟨s3, h1, ih h2⟩

theorem execs_fence (r0 : Option Reg) (k : Option Fence) (s : St) : execs r0 (fenceIf k) s = some s := by
  cases k <;> rfl

theorem idx {α : Type} (a b : List α) (k : Nat) : (a ++ b)[a.length + k]? = b[k]? := by
  rw [List.getElem?_append_right (by omega)]
  congr 1
  omega

/-- Runs through a stretch of register-only instructions. -/
theorem go_execs {a b d : List Ins} {s s' : St}
    (hp : (blocks E).prog c = a ++ b ++ d) (h : execs c.r0 b s = some s') :
    Go (blocks E) c a.length s (a.length + b.length) s' := by
  refine Go.run b (fun i hi => ?_) (execs_run h)
  rw [hp, List.append_assoc, idx, List.getElem?_append_left hi]

/-- What stays the same between two states, given what is declared. -/
structure Frame (E : Env) (c : Call) (s s' : St) : Prop where
  reg : ∀ q, q ∉ (c.block E).outs → s'.reg q = s.reg q
  cr0 : (c.block E).clobCr0 = false → s'.cr0 = s.cr0
  cr1 : (c.block E).clobCr1 = false → s'.cr1 = s.cr1
  rest : s'.crRest = s.crRest
  xer : (c.block E).clobXer = false → s'.ca = s.ca
  so : s'.so = s.so

theorem Preserved.frame {s s' : St} (h : Preserved E c s) (hf : Frame E c s s') : Preserved E c s' :=
  ⟨fun q hq => (hf.reg q hq).trans (h.reg q hq), fun hp => (hf.cr0 hp).trans (h.cr0 hp),
    fun hp => (hf.cr1 hp).trans (h.cr1 hp), hf.rest.trans h.rest, fun hp => (hf.xer hp).trans (h.xer hp),
    hf.so.trans h.so⟩

theorem Frame.refl (s : St) : Frame E c s s :=
  ⟨fun _ _ => rfl, fun _ => rfl, fun _ => rfl, rfl, fun _ => rfl, rfl⟩

theorem Frame.trans {s s1 s2 : St} (h : Frame E c s s1) (h' : Frame E c s1 s2) : Frame E c s s2 :=
  ⟨fun q hq => (h'.reg q hq).trans (h.reg q hq), fun hp => (h'.cr0 hp).trans (h.cr0 hp),
    fun hp => (h'.cr1 hp).trans (h.cr1 hp), h'.rest.trans h.rest, fun hp => (h'.xer hp).trans (h.xer hp),
    h'.so.trans h.so⟩

theorem reg_set (s : St) (q p : Reg) (x : BitVec 64) :
    (s.set q x).reg p = if p = q then x else s.reg p := rfl

theorem Frame.set {s : St} {q : Reg} {x : BitVec 64} (hq : q ∈ (c.block E).outs) :
    Frame E c s (s.set q x) :=
  ⟨by intro p hp; rw [reg_set, if_neg]; rintro rfl; exact hp hq,
    fun _ => rfl, fun _ => rfl, rfl, fun _ => rfl, rfl⟩

theorem Frame.got {s : St} {d d' : Reg} {x : BitVec 128} (hd : d ∈ (c.block E).outs)
    (hd' : d' ∈ (c.block E).outs) : Frame E c s (s.got d d' x) :=
  (Frame.set hd).trans (Frame.set hd')

theorem Frame.setCr0 {s : St} {f : Field} (h : (c.block E).clobCr0 = true) :
    Frame E c s { s with cr0 := f } :=
  ⟨fun _ _ => rfl, fun e => by simp [h] at e, fun _ => rfl, rfl, fun _ => rfl, rfl⟩

theorem preserved_entry : Preserved E c (c.entry E) := by
  refine ⟨fun _ _ => rfl, fun _ => ?_, fun _ => ?_, ?_, fun _ => ?_, ?_⟩ <;>
    · unfold Call.entry
      induction (c.block E).ins c.op with
      | nil => rfl
      | cons p ps ih => exact ih

theorem Does.toFrame {body : List Ins} {f : St → BitVec 128} {s s' : St}
    (h : Does c.r0 body f (c.block E).clobCr1 (c.block E).clobXer s s')
    (h8 : Reg.r8 ∈ (c.block E).outs) (h9 : Reg.r9 ∈ (c.block E).outs) (hc : s'.cr0 = s.cr0 ∨ (c.block E).clobCr0 = true) :
    Frame E c s s' := by
  refine ⟨fun q hq => h.frame q (fun e => hq (e ▸ h8)) (fun e => hq (e ▸ h9)), fun e => ?_, h.cr1, h.rest, h.xer,
    h.so⟩
  rcases hc with hc | hc
  · exact hc
  · simp [hc] at e

section
variable (f : Bool) (r0 : Option Reg) (addr : BitVec 64) (s : St)

theorem sem_lqarx {d d' base : Reg} (hd : d.next = some d') (h : s.reg base = addr) (hf : f = true)
    (h1 : d ≠ base) (h2 : d' ≠ base) :
    Ins.sem f r0 addr (.lqarx d base) s = .ll fun x => s.got d d' x := by
  simp only [Ins.sem, hd]
  exact if_pos ⟨h, hf, h1, h2⟩

theorem sem_stqcx {d d' base : Reg} (hd : d.next = some d') (h : s.reg base = addr) (hf : f = true) :
    Ins.sem f r0 addr (.stqcx d base) s =
      .sc (join (s.reg d) (s.reg d')) fun ok => { s with cr0 := ⟨false, false, ok, s.so⟩ } := by
  simp only [Ins.sem, hd]
  exact if_pos ⟨h, hf⟩

theorem sem_lq {d d' base : Reg} (hd : d.next = some d') (h : s.ra0 r0 base = addr) (hf : f = true)
    (h1 : d ≠ base) (h2 : d' ≠ base) :
    Ins.sem f r0 addr (.lq d base) s = .acc (.op (.load .relaxed)) fun
          | .val x => s.got d d' x
          | _ => s := by
  simp only [Ins.sem, hd]
  exact if_pos ⟨h, hf, h1, h2⟩

theorem sem_stq {d d' base : Reg} (hd : d.next = some d') (h : s.ra0 r0 base = addr) (hf : f = true) :
    Ins.sem f r0 addr (.stq d base) s =
      .acc (.op (.store (join (s.reg d) (s.reg d')) .relaxed)) fun _ => s := by
  simp only [Ins.sem, hd]
  exact if_pos ⟨h, hf⟩

theorem sem_bne {t : Nat} : Ins.sem f r0 addr (.bne t) s = .br (!s.cr0.eq) t := rfl

end

/-! ## `lqarx`/`stqcx.` loops -/

/-- The state after a `stqcx.`. -/
def St.cc (s : St) (ok : Bool) : St := { s with cr0 := ⟨false, false, ok, s.so⟩ }

/-- A loop `2: lqarx r6; body; stqcx. r8; bne 2b` between barriers. -/
def loopPoints (m : Mode) (body : List Ins) (M : BitVec 128 → St → Prop)
    (hprog : (blocks E).prog c = loop m body) (hcpu : E.cpu = true)
    (hbase : Reg.dst ∉ (c.block E).outs) (hentry : (c.entry E).reg .dst = c.addr)
    (hcr : (c.block E).clobCr0 = true)
    (hll : ∀ s x, Preserved E c s → ∃ s', execs c.r0 body (s.got .r6 .r7 x) = some s' ∧ Preserved E c s' ∧
      M x s')
    (hsc : ∀ s x, Preserved E c s → M x s →
      c.op.Sem x (join (s.reg .r8) (s.reg .r9)) (c.result E (s.cc true))) :
    Correct (blocks E) (spec E) c := by
  let L := (fenceIf m.rel).length
  have hat : ∀ k, ((blocks E).prog c)[L + k]? =
      ([.lqarx .r6 .dst] ++ body ++ [.stqcx .r8 .dst, .bne L] ++ fenceIf m.acq : List Ins)[k]? := fun k => by
    rw [hprog, loop, List.append_assoc, idx]
  have hat2 : ∀ k, ((blocks E).prog c)[L + (1 + body.length) + k]? =
      ([.stqcx .r8 .dst, .bne L] ++ fenceIf m.acq : List Ins)[k]? := fun k => by
    have hl : ([.lqarx .r6 .dst] ++ body : List Ins).length = 1 + body.length := by simp [Nat.add_comm]
    rw [Nat.add_assoc, hat, List.append_assoc, ← hl, idx]
  have hstart : Go (blocks E) c 0 (c.entry E) L (c.entry E) := by
    have := go_execs (E := E) (c := c) (a := []) (b := fenceIf m.rel)
      (d := ([.lqarx .r6 .dst] ++ body ++ [.stqcx .r8 .dst, .bne L]) ++ fenceIf m.acq)
      (by rw [hprog, loop]; simp [L]) (execs_fence _ _ (c.entry E))
    simpa [L] using this
  have hgo : ∀ s x, Preserved E c s → ∃ s', Go (blocks E) c (L + 1) (s.got .r6 .r7 x) (L + (1 + body.length)) s' ∧
      Preserved E c s' ∧ M x s' := by
    intro s x hs
    obtain ⟨s', h1, h2, h3⟩ := hll s x hs
    have := go_execs (E := E) (c := c) (a := fenceIf m.rel ++ [.lqarx .r6 .dst]) (b := body)
      (d := [.stqcx .r8 .dst, .bne L] ++ fenceIf m.acq) (by rw [hprog, loop]; simp [L]) h1
    refine ⟨s', ?_, h2, h3⟩
    simpa [L, Nat.add_assoc] using this
  have hend : ∀ s : St, ∃ pc', Go (blocks E) c (L + (1 + body.length) + 1 + 1) s pc' s ∧
      ((blocks E).prog c)[pc']? = none := by
    intro s
    have := go_execs (E := E) (c := c)
      (a := fenceIf m.rel ++ ([.lqarx .r6 .dst] ++ body ++ [.stqcx .r8 .dst, .bne L])) (b := fenceIf m.acq)
      (d := []) (by rw [hprog, loop]; simp [L]) (execs_fence _ _ s)
    refine ⟨_, by simpa [L, Nat.add_assoc, Nat.add_comm 1] using this, ?_⟩
    rw [hprog, loop]
    simp [L]; omega
  have hbr : ∀ (s : St) (b : Bool), Go (blocks E) c (L + (1 + body.length) + 1) (s.cc b)
      (if !b then L else L + (1 + body.length) + 1 + 1) (s.cc b) := fun s b =>
    .br (i := .bne L) (by have := hat2 1; simpa using this) rfl (.refl _ _)
  have hb : ∀ s, Preserved E c s → s.reg .dst = c.addr := fun s hs => (hs.reg _ hbase).trans hentry
  have hcc : ∀ s b, Preserved E c s → Preserved E c (s.cc b) := fun s b hs => hs.frame (.setCr0 hcr)
  have hs1 : ∀ s, Preserved E c s → (blocks E).sem c (.lqarx .r6 .dst) s = .ll fun x => s.got .r6 .r7 x :=
    fun s hs => sem_lqarx (d := .r6) (d' := .r7) (base := .dst) E.cpu c.r0 c.addr s rfl (hb s hs) hcpu (by decide) (by decide)
  have hs2 : ∀ s, Preserved E c s → (blocks E).sem c (.stqcx .r8 .dst) s =
      .sc (join (s.reg .r8) (s.reg .r9)) s.cc :=
    fun s hs => sem_stqcx (d := .r8) (d' := .r9) (base := .dst) E.cpu c.r0 c.addr s rfl (hb s hs) hcpu
  have hp1 : ((blocks E).prog c)[L]? = some (.lqarx .r6 .dst) := by have := hat 0; simpa using this
  have hp2 : ((blocks E).prog c)[L + (1 + body.length)]? = some (.stqcx .r8 .dst) := by
    have := hat2 0; simpa using this
  exact
  { P := fun pc s e => e = none ∧ ((pc = L ∧ Preserved E c s) ∨
      (pc = L + (1 + body.length) ∧ Preserved E c s ∧ ∃ x, M x s))
    G := fun pc s x => pc = L + (1 + body.length) → M x s
    start := ⟨L, c.entry E, hstart, rfl, Or.inl ⟨rfl, preserved_entry⟩⟩
    ok := by
      rintro pc s e ⟨rfl, ⟨rfl, hs⟩ | ⟨rfl, hs, x0, hm⟩⟩
      · refine ⟨_, hp1, ?_⟩
        rw [hs1 s hs]
        intro x
        obtain ⟨s', h1, h2, h3⟩ := hgo s x hs
        exact Or.inl ⟨_, s', none, h1, ⟨rfl, Or.inr ⟨rfl, h2, _, h3⟩⟩, rfl, fun _ _ => h3, by simp⟩
      · refine ⟨_, hp2, ?_⟩
        rw [hs2 s hs]
        refine ⟨fun x hg => ?_, fun x => ?_⟩
        · obtain ⟨pc', h1, h2⟩ := hend (s.cc true)
          exact Or.inr ⟨pc', _, (hbr s true).trans h1, h2,
            Or.inl ⟨_, _, rfl, hsc s x hs (hg rfl), hcc s true hs⟩⟩
        · exact Or.inl ⟨L, _, none, hbr s false, ⟨rfl, Or.inl ⟨rfl, hcc s false hs⟩⟩, rfl,
            fun h => h.elim, by simp⟩
    ends := by
      intro x
      refine Ends.go hstart (Ends.ll hp1 (hs1 _ preserved_entry) ?_)
      obtain ⟨s', h1, h2, h3⟩ := hgo _ x preserved_entry
      obtain ⟨pc', h4, h5⟩ := hend (s'.cc true)
      exact Ends.go h1 (Ends.sc hp2 (hs2 _ h2) (Ends.go ((hbr s' true).trans h4)
        (Ends.done h5 ⟨_, _, rfl, hsc s' x h2 h3, hcc s' true h2⟩)))
    once := by
      rintro pc s e ⟨rfl, ⟨rfl, hs⟩ | ⟨rfl, hs, -⟩⟩
      · refine ⟨_, hp1, ?_⟩
        rw [hs1 s hs]; exact trivial
      · refine ⟨_, hp2, ?_⟩
        rw [hs2 s hs]
        obtain ⟨pc', h1, h2⟩ := hend (s.cc true)
        exact ⟨pc', _, (hbr s true).trans h1, h2⟩
    stops := by
      have head : ∀ s ρ x, Preserved E c s → Stops (blocks E) c L s ρ x := by
        intro s ρ x hs
        refine Stops.ll hp1 (hs1 _ hs) ?_
        obtain ⟨s', h1, h2, h3⟩ := hgo _ x hs
        exact Stops.go h1 (Stops.sc hp2 (hs2 _ h2) nofun)
      rintro pc s e ⟨rfl, ⟨rfl, hs⟩ | ⟨rfl, hs, -⟩⟩ ρ x
      · exact head s ρ x hs
      · exact Stops.sc hp2 (hs2 _ hs) fun _ => Stops.go (hbr s false) (head _ _ _ (hcc s false hs)) }

/-! ## Compare-exchange -/

/-- The state after `cmpOld`. -/
def St.cmpd (s : St) : St :=
  let x := (s.reg .r9 ^^^ s.reg .oldLo) ||| (s.reg .r8 ^^^ s.reg .oldHi)
  { ((s.set .tmpLo (s.reg .r9 ^^^ s.reg .oldLo)).set .tmpHi (s.reg .r8 ^^^ s.reg .oldHi)).set .tmpLo x with
    cr0 := ⟨x.slt 0, (0 : BitVec 64).slt x, x == 0, s.so⟩ }

theorem cmpOld_run (r0 : Option Reg) (s : St) : execs r0 cmpOld s = some s.cmpd := rfl

theorem xor_eq_zero (a b : BitVec 64) : a ^^^ b = 0 ↔ a = b := BitVec.xor_eq_zero_iff

theorem cmpd_eq (s : St) {x old : BitVec 128} (h1 : s.reg .r8 = hi x) (h2 : s.reg .r9 = lo x)
    (h3 : s.reg .oldHi = hi old) (h4 : s.reg .oldLo = lo old) : s.cmpd.cr0.eq = decide (x = old) := by
  show ((s.reg .r9 ^^^ s.reg .oldLo) ||| (s.reg .r8 ^^^ s.reg .oldHi) == 0) = _
  rw [Bool.eq_iff_iff, beq_iff_eq, decide_eq_true_iff, h1, h2, h3, h4]
  have : (lo x ^^^ lo old) ||| (hi x ^^^ hi old) = 0 ↔ lo x = lo old ∧ hi x = hi old := by
    rw [← xor_eq_zero (lo x), ← xor_eq_zero (hi x)]
    exact BitVec.or_eq_zero_iff
  rw [this]
  constructor
  · rintro ⟨ha, hb⟩; rw [← join_hi_lo x, ← join_hi_lo old, ha, hb]
  · rintro rfl; exact ⟨rfl, rfl⟩

/-- The state after `mfcr tmp_lo`. -/
def St.fin (s : St) : St := s.set .tmpLo (s.cr.setWidth 64)

/-- Both compare-exchange blocks: what they have in common. -/
structure CasBlock (E : Env) (c : Call) (m : CasMode) (retry : List Ins) (old new : BitVec 128) : Prop where
  hprog : (blocks E).prog c = fenceIf m.rel ++ ([.lqarx .r8 .dst] ++ cmpOld ++
      [.bne ((fenceIf m.rel).length + (6 + retry.length) + (fenceIf m.success).length), .stqcx .r6 .dst] ++ retry) ++
      fenceIf m.success ++ fenceIf m.always ++ [.mfcr .tmpLo]
  hcpu : E.cpu = true
  houts : (c.block E).outs = [.tmpHi, .tmpLo, .r8, .r9]
  hcr : (c.block E).clobCr0 = true
  hdst : (c.entry E).reg .dst = c.addr
  hoh : (c.entry E).reg .oldHi = hi old
  hol : (c.entry E).reg .oldLo = lo old
  hnh : (c.entry E).reg .r6 = hi new
  hnl : (c.entry E).reg .r7 = lo new
  hres : ∀ s, c.result E s = if testCr0Eq (s.reg .tmpLo) then .ok (join (s.reg .r8) (s.reg .r9))
    else .err (join (s.reg .r8) (s.reg .r9))

namespace CasBlock
variable {m : CasMode} {retry : List Ins} {old new : BitVec 128}

/-- Position of `lqarx`. -/
def L (_ : CasBlock E c m retry old new) : Nat := (fenceIf m.rel).length

theorem start (X : CasBlock E c m retry old new) : Go (blocks E) c 0 (c.entry E) X.L (c.entry E) := by
  have := go_execs (E := E) (c := c) (a := []) (b := fenceIf m.rel) (d := _)
    (X.hprog.trans (by simp only [List.nil_append, List.append_assoc]; rfl)) (execs_fence _ _ (c.entry E))
  simpa [L] using this

theorem at_ (X : CasBlock E c m retry old new) (k : Nat) : ((blocks E).prog c)[X.L + k]? =
    ([.lqarx .r8 .dst] ++ cmpOld ++
      [.bne (X.L + (6 + retry.length) + (fenceIf m.success).length), .stqcx .r6 .dst] ++ retry ++
      fenceIf m.success ++ fenceIf m.always ++ [.mfcr .tmpLo] : List Ins)[k]? := by
  rw [X.hprog]
  have := idx (fenceIf m.rel) ([.lqarx .r8 .dst] ++ cmpOld ++
      [.bne (X.L + (6 + retry.length) + (fenceIf m.success).length), .stqcx .r6 .dst] ++ retry ++
      fenceIf m.success ++ fenceIf m.always ++ [.mfcr .tmpLo]) k
  rw [← this]
  simp [L]

/-- The start of `retry`. -/
theorem at_retry (X : CasBlock E c m retry old new) (k : Nat) (hk : k < retry.length) :
    ((blocks E).prog c)[X.L + 6 + k]? = retry[k]? := by
  have h := X.at_ (6 + k)
  rw [← Nat.add_assoc] at h
  rw [h]
  have := idx ([.lqarx .r8 .dst] ++ cmpOld ++
      [.bne (X.L + (6 + retry.length) + (fenceIf m.success).length), .stqcx .r6 .dst])
      (retry ++ fenceIf m.success ++ fenceIf m.always ++ [.mfcr .tmpLo]) k
  have hl : ([.lqarx .r8 .dst] ++ cmpOld ++
      [.bne (X.L + (6 + retry.length) + (fenceIf m.success).length), .stqcx .r6 .dst] : List Ins).length = 6 := rfl
  rw [hl] at this
  simp only [List.append_assoc] at this ⊢
  rw [this, List.getElem?_append_left hk]

/-- What the invariant says at `stqcx.`. -/
def Inv (_ : CasBlock E c m retry old new) (s : St) : Prop :=
  Preserved E c s ∧ s.reg .r8 = hi old ∧ s.reg .r9 = lo old

theorem mem (X : CasBlock E c m retry old new) {q : Reg} : q ∈ (c.block E).outs ↔ q ∈ [Reg.tmpHi, .tmpLo, .r8, .r9] := by
  rw [X.houts]

theorem frame_cmpd (X : CasBlock E c m retry old new) (s : St) : Frame E c s s.cmpd :=
  (((Frame.set (X.mem.2 (by decide))).trans (.set (X.mem.2 (by decide)))).trans
    (.set (X.mem.2 (by decide)))).trans (.setCr0 X.hcr)

theorem frame_fin (X : CasBlock E c m retry old new) (s : St) : Frame E c s s.fin :=
  .set (X.mem.2 (by decide))

/-- After `lqarx`. -/
theorem cmp (X : CasBlock E c m retry old new) {s : St} (hs : Preserved E c s) (x : BitVec 128) :
    ∃ s', Go (blocks E) c (X.L + 1) (s.got .r8 .r9 x) (if x = old then X.L + 5
      else X.L + (6 + retry.length) + (fenceIf m.success).length) s' ∧ Preserved E c s' ∧ s'.reg .r8 = hi x ∧
      s'.reg .r9 = lo x ∧ s'.cr0.eq = decide (x = old) := by
  refine ⟨(s.got .r8 .r9 x).cmpd, ?_, ?_, rfl, rfl, ?_⟩
  · have h1 := go_execs (E := E) (c := c) (a := fenceIf m.rel ++ [.lqarx .r8 .dst]) (b := cmpOld) (d := _)
      (X.hprog.trans (by simp only [List.append_assoc]; rfl)) (cmpOld_run c.r0 (s.got .r8 .r9 x))
    have e1 : (fenceIf m.rel ++ [.lqarx .r8 .dst] : List Ins).length = X.L + 1 := by simp [L]
    have e2 : (cmpOld : List Ins).length = 3 := rfl
    rw [e1, e2] at h1
    refine h1.trans ?_
    have heq : (s.got .r8 .r9 x).cmpd.cr0.eq = decide (x = old) :=
      cmpd_eq _ rfl rfl ((hs.reg .oldHi (fun h => by simp [X.mem] at h)).trans X.hoh)
        ((hs.reg .oldLo (fun h => by simp [X.mem] at h)).trans X.hol)
    refine .br (i := .bne (X.L + (6 + retry.length) + (fenceIf m.success).length)) (b := !decide (x = old))
      (n := X.L + (6 + retry.length) + (fenceIf m.success).length) ?_ ?_ ?_
    · have := X.at_ 4
      rw [Nat.add_assoc, this]; rfl
    · show Eff.br _ _ = _
      rw [heq]
    · by_cases h : x = old
      · simp only [h, decide_true, Bool.not_true, Bool.false_eq_true, if_false, if_true]
        exact .refl _ _
      · simp only [h, decide_false, Bool.not_false, if_true, if_false]
        exact .refl _ _
  · refine hs.frame (Frame.trans (.got (X.mem.2 (by decide)) (X.mem.2 (by decide))) (X.frame_cmpd _))
  · exact cmpd_eq _ rfl rfl ((hs.reg .oldHi (fun h => by simp [X.mem] at h)).trans X.hoh)
        ((hs.reg .oldLo (fun h => by simp [X.mem] at h)).trans X.hol)

/-- From `3:` to the end. -/
theorem tail (X : CasBlock E c m retry old new) (s : St) :
    ∃ pc', Go (blocks E) c (X.L + (6 + retry.length) + (fenceIf m.success).length) s pc' s.fin ∧
      ((blocks E).prog c)[pc']? = none := by
  have h1 := go_execs (E := E) (c := c) (a := fenceIf m.rel ++ ([.lqarx .r8 .dst] ++ cmpOld ++
      [.bne ((fenceIf m.rel).length + (6 + retry.length) + (fenceIf m.success).length), .stqcx .r6 .dst] ++ retry) ++
      fenceIf m.success) (b := fenceIf m.always ++ [.mfcr .tmpLo]) (d := [])
    (X.hprog.trans (by simp only [List.append_assoc, List.append_nil])) (execs_append (execs_fence c.r0 _ s) rfl)
  have e1 : (fenceIf m.rel ++ ([.lqarx .r8 .dst] ++ cmpOld ++
      [.bne ((fenceIf m.rel).length + (6 + retry.length) + (fenceIf m.success).length), .stqcx .r6 .dst] ++ retry) ++
      fenceIf m.success : List Ins).length = X.L + (6 + retry.length) + (fenceIf m.success).length := by
    simp [L, cmpOld]; omega
  rw [e1] at h1
  refine ⟨_, h1, ?_⟩
  rw [X.hprog]
  simp [L, cmpOld]; omega

/-- From after `retry` to the end. -/
theorem tail' (X : CasBlock E c m retry old new) (s : St) :
    ∃ pc', Go (blocks E) c (X.L + (6 + retry.length)) s pc' s.fin ∧ ((blocks E).prog c)[pc']? = none := by
  obtain ⟨pc', h, h'⟩ := X.tail s
  refine ⟨pc', Go.trans ?_ h, h'⟩
  have h1 := go_execs (E := E) (c := c) (a := fenceIf m.rel ++ ([.lqarx .r8 .dst] ++ cmpOld ++
      [.bne ((fenceIf m.rel).length + (6 + retry.length) + (fenceIf m.success).length), .stqcx .r6 .dst] ++ retry))
    (b := fenceIf m.success) (d := fenceIf m.always ++ [.mfcr .tmpLo])
    (X.hprog.trans (by simp only [List.append_assoc])) (execs_fence c.r0 _ s)
  have e1 : (fenceIf m.rel ++ ([.lqarx .r8 .dst] ++ cmpOld ++
      [.bne ((fenceIf m.rel).length + (6 + retry.length) + (fenceIf m.success).length), .stqcx .r6 .dst] ++ retry)
      : List Ins).length = X.L + (6 + retry.length) := by
    simp [L, cmpOld]; omega
  rw [e1] at h1
  exact h1

theorem res (X : CasBlock E c m retry old new) {s : St} {x : BitVec 128} (h8 : s.reg .r8 = hi x)
    (h9 : s.reg .r9 = lo x) : c.result E s.fin = if s.cr0.eq then .ok x else .err x := by
  rw [X.hres]
  have e1 : s.fin.reg .tmpLo = s.cr.setWidth 64 := rfl
  have e2 : s.fin.reg .r8 = hi x := h8
  have e3 : s.fin.reg .r9 = lo x := h9
  rw [e1, e2, e3, testCr0Eq_cr, join_hi_lo]

theorem sem1 (X : CasBlock E c m retry old new) {s : St} (hs : Preserved E c s) :
    (blocks E).sem c (.lqarx .r8 .dst) s = .ll fun x => s.got .r8 .r9 x :=
  sem_lqarx (d := .r8) (d' := .r9) (base := .dst) E.cpu c.r0 c.addr s rfl ((hs.reg _ (fun h => by simp [X.mem] at h)).trans X.hdst) X.hcpu
    (by decide) (by decide)

theorem sem2 (X : CasBlock E c m retry old new) {s : St} (hs : Preserved E c s) :
    (blocks E).sem c (.stqcx .r6 .dst) s = .sc new s.cc := by
  have h := sem_stqcx E.cpu c.r0 c.addr s (d := .r6) (d' := .r7) (base := .dst) rfl
    ((hs.reg .dst (fun h => by simp [X.mem] at h)).trans X.hdst) X.hcpu
  rw [(hs.reg .r6 (fun h => by simp [X.mem] at h)).trans X.hnh,
    (hs.reg .r7 (fun h => by simp [X.mem] at h)).trans X.hnl, join_hi_lo] at h
  exact h

theorem p1 (X : CasBlock E c m retry old new) : ((blocks E).prog c)[X.L]? = some (.lqarx .r8 .dst) := by
  have := X.at_ 0; simpa using this

theorem p2 (X : CasBlock E c m retry old new) : ((blocks E).prog c)[X.L + 5]? = some (.stqcx .r6 .dst) := by
  rw [X.at_ 5]; rfl

/-- The strong version. -/
def strong (X : CasBlock E c m [.bne (fenceIf m.rel).length] old new) (hop : c.op = .cas old new ∨ c.op = .casWeak old new) :
    Correct (blocks E) (spec E) c := by
  have hbr : ∀ (s : St) (b : Bool), Go (blocks E) c (X.L + 5 + 1) (s.cc b)
      (if !b then X.L else X.L + (6 + 1)) (s.cc b) := fun s b =>
    .br (i := .bne X.L) (by have := X.at_retry 0 (by simp); simpa [L] using this) rfl (.refl _ _)
  have hok : ∀ x, c.op.Sem x (if x = old then new else x) (if x = old then .ok x else .err x) := by
    intro x
    rcases hop with h | h <;> rw [h] <;> by_cases hx : x = old <;> simp [WOp.Sem, hx]
  -- the comparison failed
  have hfail : ∀ (s' : St) (x : BitVec 128), x ≠ old → Preserved E c s' → s'.reg .r8 = hi x → s'.reg .r9 = lo x →
      s'.cr0.eq = decide (x = old) → (spec E).sem c x x (some (c.result E s'.fin, s'.fin)) := by
    intro s' x hx h2 h3 h4 h5
    refine ⟨_, _, rfl, ?_, h2.frame (X.frame_fin _)⟩
    rw [X.res h3 h4, h5]
    have := hok x
    simpa [hx] using this
  -- it stored
  have hdone : ∀ s : St, X.Inv s → (spec E).sem c old new (some (c.result E (s.cc true).fin, (s.cc true).fin)) := by
    rintro s ⟨hs, h8, h9⟩
    refine ⟨_, _, rfl, ?_, (hs.frame (.setCr0 X.hcr)).frame (X.frame_fin (s.cc true))⟩
    rw [X.res (s := s.cc true) h8 h9]
    have := hok old
    simpa [St.cc] using this
  exact
  { P := fun pc s e => e = none ∧ ((pc = X.L ∧ Preserved E c s) ∨ (pc = X.L + 5 ∧ X.Inv s))
    G := fun pc _ x => pc = X.L + 5 → x = old
    start := ⟨X.L, c.entry E, X.start, rfl, Or.inl ⟨rfl, preserved_entry⟩⟩
    ok := by
      rintro pc s e ⟨rfl, ⟨rfl, hs⟩ | ⟨rfl, hs, h8, h9⟩⟩
      · refine ⟨_, X.p1, ?_⟩
        rw [X.sem1 hs]
        intro x
        obtain ⟨s', h1, h2, h3, h4, h5⟩ := X.cmp hs x
        by_cases hx : x = old
        · rw [if_pos hx] at h1
          subst hx
          exact Or.inl ⟨_, s', none, h1, ⟨rfl, Or.inr ⟨rfl, h2, h3, h4⟩⟩, rfl, fun _ _ => rfl, by simp⟩
        · rw [if_neg hx] at h1
          obtain ⟨pc', g1, g2⟩ := X.tail s'
          exact Or.inr ⟨pc', _, h1.trans g1, g2, Or.inl (hfail s' x hx h2 h3 h4 h5)⟩
      · refine ⟨_, X.p2, ?_⟩
        rw [X.sem2 hs]
        refine ⟨fun x hg => ?_, fun x => ?_⟩
        · obtain ⟨pc', g1, g2⟩ := X.tail' (s.cc true)
          obtain rfl := hg rfl
          exact Or.inr ⟨pc', _, (hbr s true).trans g1, g2, Or.inl (hdone s ⟨hs, h8, h9⟩)⟩
        · exact Or.inl ⟨X.L, _, none, hbr s false, ⟨rfl, Or.inl ⟨rfl, hs.frame (.setCr0 X.hcr)⟩⟩, rfl,
            fun h => h.elim, by simp⟩
    ends := by
      intro x
      refine Ends.go X.start (Ends.ll X.p1 (X.sem1 preserved_entry) ?_)
      obtain ⟨s', h1, h2, h3, h4, h5⟩ := X.cmp preserved_entry x
      by_cases hx : x = old
      · rw [if_pos hx] at h1
        subst hx
        obtain ⟨pc', g1, g2⟩ := X.tail' (s'.cc true)
        exact Ends.go h1 (Ends.sc X.p2 (X.sem2 h2) (Ends.go ((hbr s' true).trans g1)
          (Ends.done g2 (hdone s' ⟨h2, h3, h4⟩))))
      · rw [if_neg hx] at h1
        obtain ⟨pc', g1, g2⟩ := X.tail s'
        exact Ends.go (h1.trans g1) (Ends.done g2 (hfail s' x hx h2 h3 h4 h5))
    once := by
      rintro pc s e ⟨rfl, ⟨rfl, hs⟩ | ⟨rfl, hs, -⟩⟩
      · refine ⟨_, X.p1, ?_⟩
        rw [X.sem1 hs]; exact trivial
      · refine ⟨_, X.p2, ?_⟩
        rw [X.sem2 hs]
        obtain ⟨pc', g1, g2⟩ := X.tail' (s.cc true)
        exact ⟨pc', _, (hbr s true).trans g1, g2⟩
    stops := by
      have head : ∀ s ρ x, Preserved E c s → Stops (blocks E) c X.L s ρ x := by
        intro s ρ x hs
        refine Stops.ll X.p1 (X.sem1 hs) ?_
        obtain ⟨s', h1, h2, -⟩ := X.cmp hs x
        by_cases hx : x = old
        · rw [if_pos hx] at h1
          exact Stops.go h1 (Stops.sc X.p2 (X.sem2 h2) nofun)
        · rw [if_neg hx] at h1
          obtain ⟨pc', g1, g2⟩ := X.tail s'
          exact Stops.go (h1.trans g1) (Stops.done g2)
      rintro pc s e ⟨rfl, ⟨rfl, hs⟩ | ⟨rfl, hs, -⟩⟩ ρ x
      · exact head s ρ x hs
      · exact Stops.sc X.p2 (X.sem2 hs) fun _ => Stops.go (hbr s false) (head _ _ _ (hs.frame (.setCr0 X.hcr))) }

/-- The weak version. -/
def weak (X : CasBlock E c m [] old new) (hop : c.op = .casWeak old new) :
    Correct (blocks E) (spec E) c := by
  have hok : ∀ x, c.op.Sem x (if x = old then new else x) (if x = old then .ok x else .err x) := by
    intro x
    rw [hop]; by_cases hx : x = old <;> simp [WOp.Sem, hx]
  have hfail : ∀ (s' : St) (x : BitVec 128), x ≠ old → Preserved E c s' → s'.reg .r8 = hi x → s'.reg .r9 = lo x →
      s'.cr0.eq = decide (x = old) → (spec E).sem c x x (some (c.result E s'.fin, s'.fin)) := by
    intro s' x hx h2 h3 h4 h5
    refine ⟨_, _, rfl, ?_, h2.frame (X.frame_fin _)⟩
    rw [X.res h3 h4, h5]
    have := hok x
    simpa [hx] using this
  have hdone : ∀ s : St, X.Inv s → (spec E).sem c old new (some (c.result E (s.cc true).fin, (s.cc true).fin)) := by
    rintro s ⟨hs, h8, h9⟩
    refine ⟨_, _, rfl, ?_, (hs.frame (.setCr0 X.hcr)).frame (X.frame_fin (s.cc true))⟩
    rw [X.res (s := s.cc true) h8 h9]
    have := hok old
    simpa [St.cc] using this
  -- the store failed
  have hspur : ∀ s : St, X.Inv s → (spec E).sem c old old (some (c.result E (s.cc false).fin, (s.cc false).fin)) := by
    rintro s ⟨hs, h8, h9⟩
    refine ⟨_, _, rfl, ?_, (hs.frame (.setCr0 X.hcr)).frame (X.frame_fin (s.cc false))⟩
    rw [X.res (s := s.cc false) h8 h9, hop]
    exact Or.inr ⟨rfl, rfl⟩
  exact
  { P := fun pc s e => (e = none ∧ pc = X.L ∧ Preserved E c s) ∨
      (e = some (some (c.result E (s.cc false).fin, (s.cc false).fin)) ∧ pc = X.L + 5 ∧ X.Inv s)
    G := fun pc _ x => pc = X.L + 5 → x = old
    start := ⟨X.L, c.entry E, X.start, Or.inl ⟨rfl, rfl, preserved_entry⟩⟩
    ok := by
      rintro pc s e (⟨rfl, rfl, hs⟩ | ⟨rfl, rfl, hs, h8, h9⟩)
      · refine ⟨_, X.p1, ?_⟩
        rw [X.sem1 hs]
        intro x
        obtain ⟨s', h1, h2, h3, h4, h5⟩ := X.cmp hs x
        by_cases hx : x = old
        · rw [if_pos hx] at h1
          subst hx
          refine Or.inl ⟨_, s', _, h1, Or.inr ⟨rfl, rfl, h2, h3, h4⟩, rfl, fun _ _ => rfl, ?_⟩
          intro r hr
          cases hr
          exact Or.inr (hspur s' ⟨h2, h3, h4⟩)
        · rw [if_neg hx] at h1
          obtain ⟨pc', g1, g2⟩ := X.tail s'
          exact Or.inr ⟨pc', _, h1.trans g1, g2, Or.inl (hfail s' x hx h2 h3 h4 h5)⟩
      · refine ⟨_, X.p2, ?_⟩
        rw [X.sem2 hs]
        refine ⟨fun x hg => ?_, fun x => ?_⟩
        · obtain ⟨pc', g1, g2⟩ := X.tail' (s.cc true)
          obtain rfl := hg rfl
          exact Or.inr ⟨pc', _, g1, g2, Or.inl (hdone s ⟨hs, h8, h9⟩)⟩
        · obtain ⟨pc', g1, g2⟩ := X.tail' (s.cc false)
          exact Or.inr ⟨pc', _, g1, g2, Or.inr ⟨rfl, rfl⟩⟩
    ends := by
      intro x
      refine Ends.go X.start (Ends.ll X.p1 (X.sem1 preserved_entry) ?_)
      obtain ⟨s', h1, h2, h3, h4, h5⟩ := X.cmp preserved_entry x
      by_cases hx : x = old
      · rw [if_pos hx] at h1
        subst hx
        obtain ⟨pc', g1, g2⟩ := X.tail' (s'.cc true)
        exact Ends.go h1 (Ends.sc X.p2 (X.sem2 h2) (Ends.go g1 (Ends.done g2 (hdone s' ⟨h2, h3, h4⟩))))
      · rw [if_neg hx] at h1
        obtain ⟨pc', g1, g2⟩ := X.tail s'
        exact Ends.go (h1.trans g1) (Ends.done g2 (hfail s' x hx h2 h3 h4 h5))
    once := by
      rintro pc s e (⟨rfl, rfl, hs⟩ | ⟨rfl, rfl, hs, -⟩)
      · refine ⟨_, X.p1, ?_⟩
        rw [X.sem1 hs]; exact trivial
      · refine ⟨_, X.p2, ?_⟩
        rw [X.sem2 hs]
        obtain ⟨pc', g1, g2⟩ := X.tail' (s.cc true)
        exact ⟨pc', _, g1, g2⟩
    stops := by
      rintro pc s e (⟨rfl, rfl, hs⟩ | ⟨rfl, rfl, hs, -⟩) ρ x
      · refine Stops.ll X.p1 (X.sem1 hs) ?_
        obtain ⟨s', h1, h2, -⟩ := X.cmp hs x
        by_cases hx : x = old
        · rw [if_pos hx] at h1
          exact Stops.go h1 (Stops.sc X.p2 (X.sem2 h2) nofun)
        · rw [if_neg hx] at h1
          obtain ⟨pc', g1, g2⟩ := X.tail s'
          exact Stops.go (h1.trans g1) (Stops.done g2)
      · refine Stops.sc X.p2 (X.sem2 hs) fun _ => ?_
        obtain ⟨pc', g1, g2⟩ := X.tail' (s.cc false)
        exact Stops.go g1 (Stops.done g2) }

end CasBlock

/-! ## Single accesses -/

/-- A barrier, one access, instructions on registers. -/
def onePoints (k : Option Fence) (i : Ins) (post : List Ins)
    (hprog : (blocks E).prog c = fenceIf k ++ [i] ++ post)
    (a : Acc (BitVec 128)) (f : Res (BitVec 128) → St)
    (hsem : i.sem E.cpu c.r0 c.addr (c.entry E) = .acc a f)
    (hok : ∀ x x' r, a.sem x x' r → ∃ pc' s', Go (blocks E) c ((fenceIf k).length + 1) (f r) pc' s' ∧
      ((blocks E).prog c)[pc']? = none ∧ c.op.Sem x x' (c.result E s') ∧ Preserved E c s') :
    Correct (blocks E) (spec E) c := by
  have h0 : Go (blocks E) c 0 (c.entry E) (fenceIf k).length (c.entry E) := by
    have := go_execs (E := E) (c := c) (a := []) (b := fenceIf k) (d := [i] ++ post)
      (by rw [hprog]; simp) (execs_fence _ _ (c.entry E))
    simpa using this
  have hp : ((blocks E).prog c)[(fenceIf k).length]? = some i := by rw [hprog]; simp
  exact
  { P := fun pc s e => e = none ∧ pc = (fenceIf k).length ∧ s = c.entry E
    G := fun _ _ _ => True
    start := ⟨_, c.entry E, h0, rfl, rfl, rfl⟩
    ok := by
      rintro pc s e ⟨rfl, rfl, rfl⟩
      refine ⟨i, hp, ?_⟩
      show Ok _ _ _ _ _ _ _ _ (i.sem E.cpu c.r0 c.addr (c.entry E))
      rw [hsem]
      intro x x' r hr
      obtain ⟨pc', s', h1, h2, h3, h4⟩ := hok x x' r hr
      exact Or.inr ⟨pc', s', h1, h2, Or.inl ⟨_, _, rfl, h3, h4⟩⟩
    ends := by
      intro x
      refine Ends.go h0 (Ends.acc hp hsem fun x' r hr => ?_)
      obtain ⟨pc', s', h1, h2, h3, h4⟩ := hok x x' r hr
      exact Ends.go h1 (Ends.done h2 ⟨_, _, rfl, h3, h4⟩)
    once := by
      rintro pc s e ⟨rfl, rfl, rfl⟩
      refine ⟨i, hp, ?_⟩
      show Once _ _ _ (i.sem E.cpu c.r0 c.addr (c.entry E))
      rw [hsem]
      intro x x' r hr
      obtain ⟨pc', s', h1, h2, -⟩ := hok x x' r hr
      exact .inr ⟨pc', s', h1, h2⟩
    stops := by
      rintro pc s e ⟨rfl, rfl, rfl⟩ ρ x
      refine Stops.acc hp hsem fun r hr _ => ?_
      obtain ⟨pc', s', h1, h2, -⟩ := hok x x r hr
      exact Stops.go h1 (Stops.done h2) }

end Verif.Ppc
