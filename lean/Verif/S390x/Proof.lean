import Verif.S390x.Arith
import Verif.Arm.Proof
/-!
# Every call of the s390x back end is correct at its accesses (C41): proof
-/
set_option autoImplicit false
namespace Verif.S390x
open Verif.Object Verif.Lf Verif.Asm Verif.Wide
open Verif.X86 (hi lo fn3 fn2)
open Verif.Arm (fn3_sem fn2_sem sem_load sem_store sem_cas)

variable {E : Env} {c : Call}

theorem exec_sem {i : Ins} {f : Feat} {a : BitVec 64} {s s' : St}
    (h : i.exec f s = some s') : i.sem f a s = .go s' := by
  cases i <;> first
    | (cases h; rfl)
    | (show (match Ins.exec f _ s with | some s' => Eff.go s' | none => .fault) = _
       rw [h])
    | (exfalso; revert h; exact nofun)

theorem execs_run {is : List Ins} {s s' : St} (h : execs E.cpu is s = some s') :
    (blocks E).run c is s = some s' := by
  induction is generalizing s with
  | nil => exact h
  | cons i is ih =>
    simp only [execs, Option.bind_eq_some_iff] at h
    obtain ⟨s1, h1, h2⟩ := h
    have : (blocks E).sem c i s = .go s1 := exec_sem h1
    simp [Blocks.run, this, ih h2]

theorem idx {α : Type} (a b : List α) (k : Nat) : (a ++ b)[a.length + k]? = b[k]? := by
  rw [List.getElem?_append_right (by omega)]
  congr 1
  omega

/-- Runs through a stretch of register-only instructions. -/
theorem go_execs {a b d : List Ins} {s s' : St}
    (hp : (blocks E).prog c = a ++ b ++ d) (h : execs E.cpu b s = some s') :
    Go (blocks E) c a.length s (a.length + b.length) s' := by
  refine Go.run b (fun i hi => ?_) (execs_run h)
  rw [hp, List.append_assoc, idx, List.getElem?_append_left hi]

theorem preserved_entry : Preserved E c (c.entry E) := by
  refine ⟨fun _ _ => rfl, fun _ => ?_, ?_⟩ <;>
    · unfold Call.entry
      induction (c.block E).ins E.cfg c.op with
      | nil => rfl
      | cons p ps ih => exact ih

theorem Preserved.set {s : St} (h : Preserved E c s) {q : Reg} {x : BitVec 64} (hq : q ∈ (c.block E).outs c.r) :
    Preserved E c (s.set q x) :=
  ⟨fun p hp => by rw [reg_set, if_neg (by rintro rfl; exact hp hq)]; exact h.reg p hp, h.cc, h.mask⟩

theorem Preserved.setCc {s : St} (h : Preserved E c s) {x : BitVec 2} (hq : (c.block E).preservesFlags = false) :
    Preserved E c { s with cc := x } :=
  ⟨h.reg, fun e => by simp [hq] at e, h.mask⟩

theorem Preserved.half {s : St} (h : Preserved E c s) {q : Reg} {w : BitVec 128 → BitVec 64} {r : Res (BitVec 128)}
    (hq : q ∈ (c.block E).outs c.r) : Preserved E c (s.half q w r) := by
  cases r <;> first | exact h.set hq | exact h

theorem Preserved.swapped {s : St} (h : Preserved E c s) {q q' : Reg} {r : Res (BitVec 128)}
    (hq : q ∈ (c.block E).outs c.r) (hq' : q' ∈ (c.block E).outs c.r) (hf : (c.block E).preservesFlags = false) :
    Preserved E c (s.swapped q q' r) := by
  cases r <;> first | exact ((h.set hq).set hq').setCc hf | exact h.setCc hf

section
variable (f : Feat) (addr : BitVec 64) (s : St)

theorem ea_dst : s.ea .dst 0 = s.reg .dst := by
  show s.reg .dst + 0 = s.reg .dst
  exact BitVec.add_zero _

theorem sem_cdsg {n n' : Reg} (hn : n.next = some n') (h : s.reg .dst = addr) :
    Ins.sem f addr (.cdsg .r0 n .dst) s =
      .acc (.op (.cas (join (s.reg .r0) (s.reg .r1)) (join (s.reg n) (s.reg n')) .relaxed .relaxed))
        (s.swapped .r0 .r1) := by
  simp only [Ins.sem, hn]
  exact if_pos ((ea_dst s).trans h)

theorem sem_lg0 {d : Reg} (h : s.reg .dst = addr) :
    Ins.sem f addr (.lg d .dst 0) s = .acc (.op (.load .relaxed)) (s.half d hi) :=
  if_pos ((ea_dst s).trans h)

theorem sem_lg8 {d : Reg} (h : s.reg .dst = addr) :
    Ins.sem f addr (.lg d .dst 8) s = .acc (.op (.load .relaxed)) (s.half d lo) := by
  have e : s.ea .dst 8 = addr + 8 := by
    show s.reg .dst + 8 = _
    rw [h]
  have hne : s.ea .dst 8 ≠ addr := by
    rw [e]
    intro h
    have := congrArg BitVec.toNat h
    rw [BitVec.toNat_add] at this
    have h8 : (8 : BitVec 64).toNat = 8 := rfl
    rw [h8] at this
    have := addr.isLt
    omega
  exact (if_neg hne).trans (if_pos e)

theorem sem_lpq (h : s.reg .dst = addr) :
    Ins.sem f addr (.lpq .r0 .dst) s = .acc (.op (.load .relaxed)) (s.whole .r0 .r1) :=
  if_pos ((ea_dst s).trans h)

theorem sem_stpq (h : s.reg .dst = addr) :
    Ins.sem f addr (.stpq .r0 .dst) s =
      .acc (.op (.store (join (s.reg .r0) (s.reg .r1)) .relaxed)) fun _ => s :=
  if_pos ((ea_dst s).trans h)

end

/-! ## `cdsg` loops -/

/-- A point where a loop is about to do its `cdsg`: the new value is right for the expected one, and what
follows ends the block or goes back. -/
structure AtCdsg (E : Env) (c : Call) (pc : Nat) (s : St) : Prop where
  pres : Preserved E c s
  new : ∃ n n', ((blocks E).prog c)[pc]? = some (.cdsg .r0 n .dst) ∧ n.next = some n' ∧
    c.op.Sem (join (s.reg .r0) (s.reg .r1)) (join (s.reg n) (s.reg n')) (.val (join (s.reg .r0) (s.reg .r1)))
  back : ((blocks E).prog c)[pc + 1]? = some (.jl 2)
  done : ∀ s, ∃ pc', Go (blocks E) c (pc + 2) s pc' s ∧ ((blocks E).prog c)[pc']? = none

/-- A loop `lg; lg; 2: …; cdsg; jl 2b; …`. -/
structure CdsgLoop (E : Env) (c : Call) : Prop where
  flags : (c.block E).preservesFlags = false
  h0 : Reg.r0 ∈ (c.block E).outs c.r
  h1 : Reg.r1 ∈ (c.block E).outs c.r
  hd : Reg.dst ∉ (c.block E).outs c.r
  dst : (c.entry E).reg .dst = c.addr
  p0 : ((blocks E).prog c)[0]? = some (.lg .r1 .dst 8)
  p1 : ((blocks E).prog c)[1]? = some (.lg .r0 .dst 0)
  go : ∀ s, Preserved E c s → ∃ pc s', Go (blocks E) c 2 s pc s' ∧ AtCdsg E c pc s' ∧ s'.reg .r0 = s.reg .r0 ∧
    s'.reg .r1 = s.reg .r1
  res : ∀ s, c.result s = .val (join (s.reg .r0) (s.reg .r1))

namespace CdsgLoop

theorem dst_ (X : CdsgLoop E c) {s : St} (h : Preserved E c s) : s.reg .dst = c.addr :=
  (h.reg _ X.hd).trans X.dst

/-- What follows `cdsg`: the end if it stored, else the next attempt, computed from what it found. -/
theorem after (X : CdsgLoop E c) {pc : Nat} {s : St} (h : AtCdsg E c pc s) {n n' : Reg}
    (hsem : c.op.Sem (join (s.reg .r0) (s.reg .r1)) (join (s.reg n) (s.reg n')) (.val (join (s.reg .r0) (s.reg .r1))))
    {x x' : BitVec 128} {r : Res (BitVec 128)}
    (hr : (Acc.op (.cas (join (s.reg .r0) (s.reg .r1)) (join (s.reg n) (s.reg n')) .relaxed .relaxed)).sem x x' r) :
    (x = join (s.reg .r0) (s.reg .r1) ∧ ∃ pc' s', Go (blocks E) c (pc + 1) (s.swapped .r0 .r1 r) pc' s' ∧
        ((blocks E).prog c)[pc']? = none ∧ c.op.Sem x x' (c.result s') ∧ Preserved E c s') ∨
    (x ≠ join (s.reg .r0) (s.reg .r1) ∧ x' = x ∧
      ∃ pc' s', Go (blocks E) c (pc + 1) (s.swapped .r0 .r1 r) pc' s' ∧
        AtCdsg E c pc' s' ∧ join (s'.reg .r0) (s'.reg .r1) = x) := by
  have hP : Preserved E c (s.swapped .r0 .r1 r) := h.pres.swapped X.h0 X.h1 X.flags
  have hbr : Go (blocks E) c (pc + 1) (s.swapped .r0 .r1 r)
      (if (s.swapped .r0 .r1 r).cc == 1 then 2 else pc + 1 + 1) (s.swapped .r0 .r1 r) :=
    .br (i := .jl 2) h.back rfl (.refl _ _)
  rcases sem_cas hr with ⟨hx, hx', rfl⟩ | ⟨hx, rfl, rfl⟩
  · obtain ⟨pc', g1, g2⟩ := h.done (s.swapped .r0 .r1 (.ok x))
    refine Or.inl ⟨hx, pc', _, hbr.trans g1, g2, ?_, hP⟩
    rw [X.res, hx', hx]
    exact hsem
  · obtain ⟨pc', s', g1, g2, g3, g4⟩ := X.go _ hP
    refine Or.inr ⟨hx, rfl, pc', s', hbr.trans g1, g2, ?_⟩
    rw [g3, g4]
    show join (hi x') (lo x') = x'
    exact join_hi_lo x'

theorem ends_fresh (X : CdsgLoop E c) {pc : Nat} {s : St} (h : AtCdsg E c pc s) {ρ : Bool} {x : BitVec 128}
    (hx : join (s.reg .r0) (s.reg .r1) = x) :
    Ends (blocks E) c (fun r y => (spec E).sem c x y r) pc s ρ x := by
  obtain ⟨n, n', hp, hn, hsem⟩ := h.new
  refine Ends.acc hp (sem_cdsg E.cpu c.addr s hn (X.dst_ h.pres)) fun x' r hr => ?_
  rcases X.after h hsem hr with ⟨_, pc', s', h1, h2, h3, h4⟩ | ⟨h, _⟩
  · exact Ends.go h1 (Ends.done h2 ⟨_, _, rfl, h3, h4⟩)
  · exact absurd hx.symm h

theorem ends (X : CdsgLoop E c) (x : BitVec 128) :
    Ends (blocks E) c (fun r y => (spec E).sem c x y r) 0 (c.entry E) false x := by
  refine Ends.acc X.p0 (sem_lg8 E.cpu c.addr _ (X.dst_ preserved_entry)) fun x' r hr => ?_
  obtain ⟨rfl, rfl⟩ := Points.load_relaxed hr
  have hP1 : Preserved E c ((c.entry E).half .r1 lo (.val x')) := preserved_entry.half X.h1
  refine Ends.acc X.p1 (sem_lg0 E.cpu c.addr _ (X.dst_ hP1)) fun x'' r hr => ?_
  obtain ⟨rfl, rfl⟩ := Points.load_relaxed hr
  obtain ⟨pc, s', h1, h2, h3, h4⟩ := X.go _ (hP1.half (w := hi) (r := .val x'') X.h0)
  refine Ends.go h1 (X.ends_fresh h2 ?_)
  rw [h3, h4]
  exact join_hi_lo x''

/-- Loops are correct, whatever the first two reads found. -/
def correct (X : CdsgLoop E c) : Correct (blocks E) (spec E) c where
  P pc s e := e = none ∧ ((pc = 0 ∧ Preserved E c s) ∨ (pc = 1 ∧ Preserved E c s) ∨ AtCdsg E c pc s)
  G _ _ _ := True
  start := ⟨0, c.entry E, .refl _ _, rfl, Or.inl ⟨rfl, preserved_entry⟩⟩
  ok := by
    rintro pc s e ⟨rfl, ⟨rfl, hs⟩ | ⟨rfl, hs⟩ | hs⟩
    · refine ⟨_, X.p0, ?_⟩
      have hse : (blocks E).sem c (.lg .r1 .dst 8) s = _ := sem_lg8 E.cpu c.addr s (X.dst_ hs)
      rw [hse]
      intro x x' r hr
      obtain ⟨rfl, rfl⟩ := Points.load_relaxed hr
      exact Or.inl ⟨1, _, none, .refl _ _, ⟨rfl, Or.inr (Or.inl ⟨rfl, hs.half X.h1⟩)⟩, rfl, fun _ => trivial, by simp⟩
    · refine ⟨_, X.p1, ?_⟩
      have hse : (blocks E).sem c (.lg .r0 .dst 0) s = _ := sem_lg0 E.cpu c.addr s (X.dst_ hs)
      rw [hse]
      intro x x' r hr
      obtain ⟨rfl, rfl⟩ := Points.load_relaxed hr
      obtain ⟨pc, s', h1, h2, -, -⟩ := X.go _ (hs.half (w := hi) (r := .val x') X.h0)
      exact Or.inl ⟨pc, s', none, h1, ⟨rfl, Or.inr (Or.inr h2)⟩, rfl, fun _ => trivial, by simp⟩
    · obtain ⟨n, n', hp, hn, hsem⟩ := hs.new
      refine ⟨_, hp, ?_⟩
      have hse : (blocks E).sem c (.cdsg .r0 n .dst) s = _ := sem_cdsg E.cpu c.addr s hn (X.dst_ hs.pres)
      rw [hse]
      intro x x' r hr
      rcases X.after hs hsem hr with ⟨_, pc', s', h1, h2, h3, h4⟩ | ⟨_, rfl, pc', s', h1, h2, _⟩
      · exact Or.inr ⟨_, s', h1, h2, Or.inl ⟨_, _, rfl, h3, h4⟩⟩
      · exact Or.inl ⟨_, s', none, h1, ⟨rfl, Or.inr (Or.inr h2)⟩, rfl, fun _ => trivial, by simp⟩
  ends := X.ends
  once := by
    rintro pc s e ⟨rfl, ⟨rfl, hs⟩ | ⟨rfl, hs⟩ | hs⟩
    · refine ⟨_, X.p0, ?_⟩
      have hse : (blocks E).sem c (.lg .r1 .dst 8) s = _ := sem_lg8 E.cpu c.addr s (X.dst_ hs)
      rw [hse]
      exact fun _ _ _ _ => .inl trivial
    · refine ⟨_, X.p1, ?_⟩
      have hse : (blocks E).sem c (.lg .r0 .dst 0) s = _ := sem_lg0 E.cpu c.addr s (X.dst_ hs)
      rw [hse]
      exact fun _ _ _ _ => .inl trivial
    · obtain ⟨n, n', hp, hn, hsem⟩ := hs.new
      refine ⟨_, hp, ?_⟩
      have hse : (blocks E).sem c (.cdsg .r0 n .dst) s = _ := sem_cdsg E.cpu c.addr s hn (X.dst_ hs.pres)
      rw [hse]
      intro x x' r hr
      rcases sem_cas hr with ⟨h, -⟩ | ⟨-, -, h⟩
      · rcases X.after hs hsem hr with ⟨_, pc', s', h1, h2, -⟩ | ⟨h', _⟩
        · exact .inr ⟨_, s', h1, h2⟩
        · exact absurd h h'
      · exact .inl ⟨x, h⟩
  stops := by
    have two : ∀ pc s ρ x, AtCdsg E c pc s → Stops (blocks E) c pc s ρ x := by
      intro pc s ρ x hs
      obtain ⟨n, n', hp, hn, hsem⟩ := hs.new
      refine Stops.acc hp (sem_cdsg E.cpu c.addr s hn (X.dst_ hs.pres)) fun r hr _ => ?_
      rcases X.after hs hsem hr with ⟨_, pc', s', h1, h2, -⟩ | ⟨_, -, pc', s', h1, h2, h3⟩
      · exact Stops.go h1 (Stops.done h2)
      · refine Stops.go h1 ?_
        obtain ⟨n, n', hp, hn, hsem⟩ := h2.new
        refine Stops.acc hp (sem_cdsg E.cpu c.addr s' hn (X.dst_ h2.pres)) fun r hr _ => ?_
        rcases X.after h2 hsem hr with ⟨_, pc', s', g1, g2, -⟩ | ⟨h, _⟩
        · exact Stops.go g1 (Stops.done g2)
        · exact absurd h3.symm h
    have one : ∀ s ρ x, Preserved E c s → Stops (blocks E) c 1 s ρ x := by
      intro s ρ x hs
      refine Stops.acc X.p1 (sem_lg0 E.cpu c.addr s (X.dst_ hs)) fun r hr _ => ?_
      obtain ⟨pc, s', h1, h2, -, -⟩ := X.go _ (hs.half (w := hi) (r := r) X.h0)
      exact Stops.go h1 (two pc s' ρ x h2)
    rintro pc s e ⟨rfl, ⟨rfl, hs⟩ | ⟨rfl, hs⟩ | hs⟩ ρ x
    · exact Stops.acc X.p0 (sem_lg8 E.cpu c.addr s (X.dst_ hs)) fun r hr _ => one _ ρ x (hs.half X.h1)
    · exact one s ρ x hs
    · exact two pc s ρ x hs

/-- The straight-line case. -/
theorem ofBody (n n' : Reg) (body : List Ins) (hn : n.next = some n')
    (hprog : (blocks E).prog c = loop n body)
    (flags : (c.block E).preservesFlags = false)
    (h0 : Reg.r0 ∈ (c.block E).outs c.r) (h1 : Reg.r1 ∈ (c.block E).outs c.r)
    (hd : Reg.dst ∉ (c.block E).outs c.r) (dst : (c.entry E).reg .dst = c.addr)
    (hres : ∀ s, c.result s = .val (join (s.reg .r0) (s.reg .r1)))
    (hrun : ∀ s, Preserved E c s → ∃ s', execs E.cpu body s = some s' ∧ Preserved E c s' ∧
      s'.reg .r0 = s.reg .r0 ∧ s'.reg .r1 = s.reg .r1 ∧
      c.op.Sem (join (s.reg .r0) (s.reg .r1)) (join (s'.reg n) (s'.reg n')) (.val (join (s.reg .r0) (s.reg .r1)))) :
    CdsgLoop E c where
  flags := flags
  h0 := h0
  h1 := h1
  hd := hd
  dst := dst
  p0 := by rw [hprog]; rfl
  p1 := by rw [hprog]; rfl
  res := hres
  go s hs := by
    obtain ⟨s', g1, g2, g3, g4, g5⟩ := hrun s hs
    have hgo := go_execs (E := E) (c := c) (a := [.lg .r1 .dst 8, .lg .r0 .dst 0]) (b := body)
      (d := [.cdsg .r0 n .dst, .jl 2]) hprog g1
    have hat : ∀ k, ((blocks E).prog c)[2 + body.length + k]? =
        ([.cdsg .r0 n .dst, .jl 2] : List Ins)[k]? := fun k => by
      have hl : ([.lg .r1 .dst 8, .lg .r0 .dst 0] ++ body : List Ins).length = 2 + body.length := by simp; omega
      rw [hprog, loop, ← hl, idx]
    refine ⟨2 + body.length, s', hgo, ⟨g2, ⟨n, n', ?_, hn, ?_⟩, ?_, fun s => ⟨_, .refl _ _, ?_⟩⟩, g3, g4⟩
    · have := hat 0; simpa using this
    · rw [g3, g4]; exact g5
    · exact hat 1
    · exact hat 2

end CdsgLoop

/-! ## The calls -/

theorem entry_of {b : Block} {op : WOp} (hb : c.block E = b) (hop : c.op = op) :
    c.entry E = (b.ins E.cfg op).foldr (fun p s => s.set p.1 p.2) (c.st.set .dst c.addr) := by
  subst hb hop; rfl

theorem prog_of {b : Block} (hb : c.block E = b) : (blocks E).prog c = b.code E.cfg c.r := by
  subst hb; rfl

theorem even_ne : E.cfg.even ≠ .dst ∧ E.cfg.odd ≠ .dst ∧ E.cfg.even ≠ .r0 ∧ E.cfg.even ≠ .r1 ∧ E.cfg.odd ≠ .r0 ∧
    E.cfg.odd ≠ .r1 ∧ E.cfg.even ≠ E.cfg.odd ∧ E.cfg.even.next = some E.cfg.odd := by
  unfold Cfg.even Cfg.odd
  cases E.cfg.zos <;> decide

theorem pt_rmw3 (hE : E.Ok) {p : Op3} {v : BitVec 128} (hop : c.op = .rmw3 p v) (hb : c.block E = .rmw3 p)
    (hl : isCmp p = true → E.cpu.loc = true) : CdsgLoop E c := by
  have hsub : ∀ q, q ∉ (c.block E).outs c.r → q ∉ outs3 p ∧ q ≠ .r0 ∧ q ≠ .r1 := by
    intro q; rw [hb]; cases p <;> simp +contextual [Block.outs, outs3]
  refine CdsgLoop.ofBody .r12 .r13 (body3 E.cfg p) rfl (prog_of hb) (by rw [hb]; rfl) ?_ ?_ ?_ ?_ ?_ ?_
  · rw [hb]; cases p <;> simp [Block.outs]
  · rw [hb]; cases p <;> simp [Block.outs]
  · rw [hb]; cases p <;> simp [Block.outs]
  · rw [entry_of hb hop]; simp [Block.ins, reg_set]
  · intro s; unfold Call.result; rw [hop]
  · intro s hs
    obtain ⟨s', h⟩ := body3_run hE p hl s
    have hv1 : s.reg .valHi = hi v := (hs.reg _ (by rw [hb]; cases p <;> simp [Block.outs])).trans (by
      rw [entry_of hb hop]; simp [Block.ins, reg_set, WOp.arg])
    have hv2 : s.reg .valLo = lo v := (hs.reg _ (by rw [hb]; cases p <;> simp [Block.outs])).trans (by
      rw [entry_of hb hop]; simp [Block.ins, reg_set, WOp.arg])
    refine ⟨s', h.run, ⟨fun q hq => ?_, ?_, h.mask.trans hs.mask⟩, ?_, ?_, ?_⟩
    · rw [h.frame q (hsub q hq).1]; exact hs.reg q hq
    · rw [hb]; exact nofun
    · exact h.frame _ (by cases p <;> decide)
    · exact h.frame _ (by cases p <;> decide)
    · rw [h.val, hop, hv1, hv2, join_hi_lo]
      exact fn3_sem p v _

theorem pt_rmw2 (hE : E.Ok) {p : Op2} (hop : c.op = .rmw2 p) (hb : c.block E = .rmw2 p) : CdsgLoop E c := by
  have ho : (c.block E).outs c.r = [.r0, .r1, .r12, .r13] := by rw [hb]; rfl
  refine CdsgLoop.ofBody .r12 .r13 (body2 E.cfg p) rfl (prog_of hb) (by rw [hb]; rfl) ?_ ?_ ?_ ?_ ?_ ?_
  · rw [ho]; decide
  · rw [ho]; decide
  · rw [ho]; decide
  · rw [entry_of hb hop]
    cases p <;> cases hd : E.cfg.feat.distinct <;> simp [Block.ins, reg_set, hd]
  · intro s; unfold Call.result; rw [hop]
  · intro s hs
    obtain ⟨s', h⟩ := body2_run hE p s (by
      rintro rfl hd
      rw [hs.reg .zero (by rw [ho]; decide), entry_of hb hop]
      simp [Block.ins, reg_set, hd])
    refine ⟨s', h.run, ⟨fun q hq => ?_, ?_, h.mask.trans hs.mask⟩, ?_, ?_, ?_⟩
    · have hq' := hq
      rw [ho] at hq'
      simp only [List.mem_cons, List.not_mem_nil, or_false, not_or] at hq'
      rw [h.frame q (by simp [hq'])]; exact hs.reg q hq
    · rw [hb]; exact nofun
    · exact h.frame _ (by decide)
    · exact h.frame _ (by decide)
    · rw [h.val, hop]
      exact fn2_sem p _

/-- Value operands in the even/odd pair. -/
theorem entry_pair {b : Block} {op : WOp} (hb : c.block E = b) (hop : c.op = op)
    (hi_ : b.ins E.cfg op = [(E.cfg.even, hi op.arg), (E.cfg.odd, lo op.arg)]) :
    (c.entry E).reg E.cfg.even = hi op.arg ∧ (c.entry E).reg E.cfg.odd = lo op.arg ∧
      (c.entry E).reg .dst = c.addr := by
  obtain ⟨h1, h2, _, _, _, _, h3, _⟩ := even_ne (E := E)
  rw [entry_of hb hop, hi_]
  simp [reg_set, h1.symm, h2.symm, h3.symm]

theorem pt_swap {v : BitVec 128} (hop : c.op = .swap v) (hb : c.block E = .swap) : CdsgLoop E c := by
  have ho : (c.block E).outs c.r = [.r0, .r1] := by rw [hb]; rfl
  obtain ⟨e1, e2, e3, e4, e5, e6, e7, e8⟩ := even_ne (E := E)
  obtain ⟨i1, i2, i3⟩ := entry_pair hb hop rfl
  refine CdsgLoop.ofBody E.cfg.even E.cfg.odd [] e8 (prog_of hb) (by rw [hb]; rfl) ?_ ?_ ?_ i3 ?_ ?_
  · rw [ho]; decide
  · rw [ho]; decide
  · rw [ho]; decide
  · intro s; unfold Call.result; rw [hop]
  · intro s hs
    refine ⟨s, rfl, hs, rfl, rfl, ?_⟩
    rw [hs.reg E.cfg.even (by rw [ho]; simp [e3, e4]), hs.reg E.cfg.odd (by rw [ho]; simp [e5, e6]), i1, i2, join_hi_lo, hop]
    exact ⟨rfl, rfl⟩

/-- Which of the two values `atomic_cmp!` stores. -/
def takeVal (p : Bool × Cond × Cond × Cond) (vh vl a b : BitVec 64) : Bool :=
  p.2.1.cc (if p.1 then cmpS vh a else cmpU vh a) ||
    (!p.2.2.1.cc (if p.1 then cmpS vh a else cmpU vh a) && p.2.2.2.cc (cmpU vl b))

theorem takeVal_sem {o : Op3} {p : Bool × Cond × Cond × Cond} (hp : cmpOps o = some p) (v x : BitVec 128) :
    (WOp.rmw3 o v).Sem x (if takeVal p (hi v) (lo v) (hi x) (lo x) then v else x) (.val x) := by
  have key : ∀ s : Bool, ∀ vh vl a b : BitVec 64,
      (if s then (vh ++ vl).slt (a ++ b) else (vh ++ vl).ult (a ++ b)) =
        ((if s then vh.slt a else vh.ult a) || (vh == a && vl.ult b)) := by
    intro s vh vl a b
    cases s
    · exact Ppc.ult_split _ _ _ _
    · exact Ppc.slt_split _ _ _ _
  have h := fn3_sem o v x
  have ev : hi v ++ lo v = v := X86.join_halves v
  have ex : hi x ++ lo x = x := X86.join_halves x
  have tri : ∀ a b : BitVec 64, (!b.ult a && !(a == b)) = a.ult b := by
    intro a b
    by_cases h : a = b
    · subst h; simp [BitVec.ult]
    · rw [ult_or b a (Ne.symm h)]; simp [h]
  have tri' : ∀ a b : BitVec 64, (!b.slt a && !(a == b)) = a.slt b := by
    intro a b
    by_cases h : a = b
    · subst h; simp [BitVec.slt]
    · rw [slt_or b a (Ne.symm h)]; simp [h]
  have fin : ∀ (lt : BitVec 64 → BitVec 64 → Bool) (_ : ∀ a b, (!lt b a && !(a == b)) = lt a b) (_ : ∀ a, lt a a = false),
      (lt (hi x) (hi v) || (!lt (hi v) (hi x) && !(lo v).ult (lo x))) =
        !(lt (hi v) (hi x) || (hi v == hi x && (lo v).ult (lo x))) := by
    intro lt ht hr
    by_cases e : hi v = hi x
    · rw [e]; simp [hr]
    · have := ht (hi x) (hi v)
      have e' : (hi x == hi v) = false := by simpa using Ne.symm e
      have e'' : (hi v == hi x) = false := by simpa using e
      rw [e'] at this
      rw [e'']
      revert this
      cases lt (hi x) (hi v) <;> cases lt (hi v) (hi x) <;> simp
  have fin2 : ∀ (lt : BitVec 64 → BitVec 64 → Bool) (_ : ∀ a b, (!lt b a && !(a == b)) = lt a b) (_ : ∀ a, lt a a = false),
      (lt (hi v) (hi x) || (!lt (hi x) (hi v) && !(lo x).ult (lo v))) =
        !(lt (hi x) (hi v) || (hi x == hi v && (lo x).ult (lo v))) := by
    intro lt ht hr
    by_cases e : hi v = hi x
    · rw [e]; simp [hr]
    · have := ht (hi v) (hi x)
      have e' : (hi x == hi v) = false := by simpa using Ne.symm e
      have e'' : (hi v == hi x) = false := by simpa using e
      rw [e''] at this
      rw [e']
      revert this
      cases lt (hi x) (hi v) <;> cases lt (hi v) (hi x) <;> simp
  have flip : ∀ (b : Bool) (p q : BitVec 128), (if !b then p else q) = if b then q else p := by
    intro b p q; cases b <;> rfl
  cases o <;> simp only [cmpOps, Option.some.injEq, reduceCtorEq] at hp <;> subst hp
  · have e : takeVal (true, .h, .l, .he) (hi v) (lo v) (hi x) (lo x) = !v.slt x := by
      show (Cond.h.cc (cmpS _ _) || (!Cond.l.cc (cmpS _ _) && Cond.he.cc _)) = _
      rw [cc_h_S, cc_l_S, cc_he_U, fin BitVec.slt tri' (fun a => by simp [BitVec.slt])]
      conv => rhs; rw [← ev, ← ex, Ppc.slt_split]
    rw [e, flip]; exact h
  · have e : takeVal (false, .h, .l, .he) (hi v) (lo v) (hi x) (lo x) = !v.ult x := by
      show (Cond.h.cc (cmpU _ _) || (!Cond.l.cc (cmpU _ _) && Cond.he.cc _)) = _
      rw [cc_h_U, cc_l_U, cc_he_U, fin BitVec.ult tri (fun a => by simp [BitVec.ult])]
      conv => rhs; rw [← ev, ← ex, Ppc.ult_split]
    rw [e, flip]; exact h
  · have e : takeVal (true, .l, .h, .le) (hi v) (lo v) (hi x) (lo x) = !x.slt v := by
      show (Cond.l.cc (cmpS _ _) || (!Cond.h.cc (cmpS _ _) && Cond.le.cc _)) = _
      rw [cc_h_S, cc_l_S, cc_le_U, fin2 BitVec.slt tri' (fun a => by simp [BitVec.slt])]
      conv => rhs; rw [← ev, ← ex, Ppc.slt_split]
    rw [Ppc.min_alt] at h
    rw [e, flip]; exact h
  · have e : takeVal (false, .l, .h, .le) (hi v) (lo v) (hi x) (lo x) = !x.ult v := by
      show (Cond.l.cc (cmpU _ _) || (!Cond.h.cc (cmpU _ _) && Cond.le.cc _)) = _
      rw [cc_h_U, cc_l_U, cc_le_U, fin2 BitVec.ult tri (fun a => by simp [BitVec.ult])]
      conv => rhs; rw [← ev, ← ex, Ppc.ult_split]
    rw [Ppc.umin_alt] at h
    rw [e, flip]; exact h

theorem sem_cmpBr {sg : Bool} {k : Cond} {a b : Reg} {t : Nat} {s : St} :
    (blocks E).sem c (cmpBr sg k a b t) s =
      .br (k.cc (if sg then cmpS (s.reg a) (s.reg b) else cmpU (s.reg a) (s.reg b))) t := by
  cases sg <;> rfl

theorem pt_cmp {p : Op3} {v : BitVec 128} (hop : c.op = .rmw3 p v) (hb : c.block E = .cmp p)
    (hp : isCmp p = true) : CdsgLoop E c := by
  obtain ⟨q, hq⟩ : ∃ q, cmpOps p = some q := by
    cases p <;> first | exact ⟨_, rfl⟩ | exact absurd hp (by decide)
  have ho : (c.block E).outs c.r = [.r0, .r1] := by rw [hb]; rfl
  have hprog : (blocks E).prog c = cmpLoop E.cfg q := by rw [prog_of hb]; simp only [Block.code, hq]
  obtain ⟨e1, e2, e3, e4, e5, e6, e7, e8⟩ := even_ne (E := E)
  obtain ⟨i1, i2, i3⟩ := entry_pair hb hop rfl
  refine ⟨by rw [hb]; rfl, by rw [ho]; decide, by rw [ho]; decide, by rw [ho]; decide, i3, by rw [hprog]; rfl,
    by rw [hprog]; rfl, fun s hs => ?_, fun s => by unfold Call.result; rw [hop]⟩
  have hv1 : s.reg E.cfg.even = hi v := (hs.reg _ (by rw [ho]; simp [e3, e4])).trans (by rw [i1]; rfl)
  have hv2 : s.reg E.cfg.odd = lo v := (hs.reg _ (by rw [ho]; simp [e5, e6])).trans (by rw [i2]; rfl)
  have hsem := takeVal_sem hq v (join (s.reg .r0) (s.reg .r1))
  have eh : hi (join (s.reg .r0) (s.reg .r1)) = s.reg .r0 := X86.hi_join _ _
  have el : lo (join (s.reg .r0) (s.reg .r1)) = s.reg .r1 := X86.lo_join _ _
  rw [eh, el] at hsem
  -- the two places
  have hval : (takeVal q (hi v) (lo v) (s.reg .r0) (s.reg .r1) = true) → AtCdsg E c 8 s := fun ht =>
    ⟨hs, ⟨E.cfg.even, E.cfg.odd, by rw [hprog]; rfl, e8, by
      rw [hv1, hv2, join_hi_lo, hop]; rw [if_pos ht] at hsem; exact hsem⟩, by rw [hprog]; rfl,
      fun s => ⟨10, .refl _ _, by rw [hprog]; rfl⟩⟩
  have hprev : (takeVal q (hi v) (lo v) (s.reg .r0) (s.reg .r1) = false) → AtCdsg E c 5 s := fun ht =>
    ⟨hs, ⟨.r0, .r1, by rw [hprog]; rfl, rfl, by
      rw [hop]; rw [if_neg (by simp [ht])] at hsem; exact hsem⟩, by rw [hprog]; rfl,
      fun s => ⟨10, .br (i := .j 10) (by rw [hprog]; rfl) rfl (.refl _ _), by rw [hprog]; rfl⟩⟩
  -- the three comparisons
  have hgo : Go (blocks E) c 2 s (if takeVal q (hi v) (lo v) (s.reg .r0) (s.reg .r1) then 8 else 5) s := by
    refine .br (i := cmpBr q.1 q.2.1 E.cfg.even .r0 8) (by rw [hprog]; rfl) sem_cmpBr ?_
    rw [hv1]
    unfold takeVal
    cases h1 : q.2.1.cc (if q.1 then cmpS (hi v) (s.reg .r0) else cmpU (hi v) (s.reg .r0)) with
    | true => exact .refl _ _
    | false =>
      refine .br (i := cmpBr q.1 q.2.2.1 E.cfg.even .r0 5) (by rw [hprog]; rfl) sem_cmpBr ?_
      rw [hv1]
      cases h2 : q.2.2.1.cc (if q.1 then cmpS (hi v) (s.reg .r0) else cmpU (hi v) (s.reg .r0)) with
      | true => exact .refl _ _
      | false =>
        refine .br (i := cmpBr false q.2.2.2 E.cfg.odd .r1 8) (by rw [hprog]; rfl) sem_cmpBr ?_
        rw [hv2]
        simp only [Bool.false_eq_true, if_false, Bool.not_false, Bool.true_and, Bool.false_or]
        cases q.2.2.2.cc (cmpU (lo v) (s.reg .r1)) <;> exact .refl _ _
  cases ht : takeVal q (hi v) (lo v) (s.reg .r0) (s.reg .r1) with
  | true => rw [ht] at hgo; exact ⟨8, s, hgo, hval ht, rfl, rfl⟩
  | false => rw [ht] at hgo; exact ⟨5, s, hgo, hprev ht, rfl, rfl⟩

/-! ## Single accesses -/

/-- One access, instructions on registers. -/
def onePoints (i : Ins) (post : List Ins)
    (hprog : (blocks E).prog c = [i] ++ post)
    (a : Acc (BitVec 128)) (f : Res (BitVec 128) → St)
    (hsem : i.sem E.cpu c.addr (c.entry E) = .acc a f)
    (hok : ∀ x x' r, a.sem x x' r → ∃ s', execs E.cpu post (f r) = some s' ∧
      c.op.Sem x x' (c.result s') ∧ Preserved E c s') :
    Correct (blocks E) (spec E) c := by
  have hp : ((blocks E).prog c)[0]? = some i := by rw [hprog]; rfl
  have hgo : ∀ x x' r, a.sem x x' r → ∃ s', Go (blocks E) c 1 (f r) (1 + post.length) s' ∧
      ((blocks E).prog c)[1 + post.length]? = none ∧ c.op.Sem x x' (c.result s') ∧ Preserved E c s' := by
    intro x x' r hr
    obtain ⟨s', h1, h2, h3⟩ := hok x x' r hr
    have := go_execs (E := E) (c := c) (a := [i]) (b := post) (d := []) (by rw [hprog]; simp) h1
    exact ⟨s', this, by rw [hprog]; simp; omega, h2, h3⟩
  exact
  { P := fun pc s e => e = none ∧ pc = 0 ∧ s = c.entry E
    G := fun _ _ _ => True
    start := ⟨_, c.entry E, .refl _ _, rfl, rfl, rfl⟩
    ok := by
      rintro pc s e ⟨rfl, rfl, rfl⟩
      refine ⟨i, hp, ?_⟩
      show Ok (blocks E) (spec E) c _ _ _ _ _ (i.sem E.cpu c.addr (c.entry E))
      rw [hsem]
      intro x x' r hr
      obtain ⟨s', h1, h2, h3, h4⟩ := hgo x x' r hr
      exact Or.inr ⟨_, s', h1, h2, Or.inl ⟨_, _, rfl, h3, h4⟩⟩
    ends := by
      intro x
      refine Ends.acc hp hsem fun x' r hr => ?_
      obtain ⟨s', h1, h2, h3, h4⟩ := hgo x x' r hr
      exact Ends.go h1 (Ends.done h2 ⟨_, _, rfl, h3, h4⟩)
    once := by
      rintro pc s e ⟨rfl, rfl, rfl⟩
      refine ⟨i, hp, ?_⟩
      show Once (blocks E) c _ (i.sem E.cpu c.addr (c.entry E))
      rw [hsem]
      intro x x' r hr
      obtain ⟨s', h1, h2, -⟩ := hgo x x' r hr
      exact .inr ⟨_, s', h1, h2⟩
    stops := by
      rintro pc s e ⟨rfl, rfl, rfl⟩ ρ x
      refine Stops.acc hp hsem fun r hr _ => ?_
      obtain ⟨s', h1, h2, -⟩ := hgo x x r hr
      exact Stops.go h1 (Stops.done h2) }

theorem pt_load (hop : c.op = .load) (hb : c.block E = .load) : Nonempty (Correct (blocks E) (spec E) c) := by
  have hd : (c.entry E).reg .dst = c.addr := by rw [entry_of hb hop]; simp [Block.ins, reg_set]
  have ho : (c.block E).outs c.r = [.r0, .r1] := by rw [hb]; rfl
  refine ⟨onePoints (.lpq .r0 .dst) [] (prog_of hb) _ _ (sem_lpq E.cpu c.addr _ hd) fun x x' r hr => ?_⟩
  obtain ⟨rfl, rfl⟩ := Points.load_relaxed hr
  refine ⟨_, rfl, ?_, ((preserved_entry.set (by rw [ho]; decide)).set (by rw [ho]; decide))⟩
  have e : c.result ((c.entry E).whole .r0 .r1 (.val x')) = .val x' := by
    unfold Call.result; rw [hop]
    show Res.val (join (hi x') (lo x')) = _
    rw [join_hi_lo]
  rw [e, hop]
  exact ⟨rfl, rfl⟩

theorem pt_store {v : BitVec 128} {ser : Bool} (hop : c.op = .store v) (hb : c.block E = .store ser) :
    Nonempty (Correct (blocks E) (spec E) c) := by
  have hd : (c.entry E).reg .dst = c.addr := by rw [entry_of hb hop]; simp [Block.ins, reg_set]
  have h0 : (c.entry E).reg .r0 = hi v := by rw [entry_of hb hop]; simp [Block.ins, reg_set, WOp.arg]
  have h1 : (c.entry E).reg .r1 = lo v := by rw [entry_of hb hop]; simp [Block.ins, reg_set, WOp.arg]
  refine ⟨onePoints (.stpq .r0 .dst) (if ser then [serialization E.cfg] else []) (prog_of hb) _ _
    (sem_stpq E.cpu c.addr _ hd) fun x x' r hr => ?_⟩
  obtain ⟨rfl, rfl⟩ := sem_store (by decide) hr
  refine ⟨c.entry E, ?_, ?_, preserved_entry⟩
  · cases ser
    · rfl
    · simp only [if_true, serialization]
      cases E.cfg.feat.fast <;> rfl
  · rw [h0, h1, join_hi_lo]
    have : c.result (c.entry E) = .unit := by unfold Call.result; rw [hop]
    rw [this, hop]
    exact ⟨rfl, rfl⟩

theorem pt_cas {old new : BitVec 128} (hop : c.op = .cas old new ∨ c.op = .casWeak old new) (hb : c.block E = .cas) :
    Nonempty (Correct (blocks E) (spec E) c) := by
  obtain ⟨e1, e2, e3, e4, e5, e6, e7, e8⟩ := even_ne (E := E)
  have hent : c.entry E = ((((c.st.set .dst c.addr).set E.cfg.odd (lo new)).set E.cfg.even (hi new)).set .r1 (lo old)).set
      .r0 (hi old) := by
    rcases hop with h | h <;> rw [entry_of hb h] <;> rfl
  have hd : (c.entry E).reg .dst = c.addr := by rw [hent]; simp [reg_set, e1.symm, e2.symm]
  have h0 : (c.entry E).reg .r0 = hi old := by rw [hent]; simp [reg_set]
  have h1 : (c.entry E).reg .r1 = lo old := by rw [hent]; simp [reg_set]
  have h2 : (c.entry E).reg E.cfg.even = hi new := by rw [hent]; simp [reg_set, e3, e4]
  have h3 : (c.entry E).reg E.cfg.odd = lo new := by rw [hent]; simp [reg_set, e5, e6, e7.symm]
  have ho : (c.block E).outs c.r = [.r0, .r1, c.r] := by rw [hb]; rfl
  have hf : (c.block E).preservesFlags = false := by rw [hb]; rfl
  have hres : ∀ s : St, c.result s = if extractCc (s.reg c.r) then .ok (join (s.reg .r0) (s.reg .r1))
      else .err (join (s.reg .r0) (s.reg .r1)) := by
    intro s; unfold Call.result
    rcases hop with h | h <;> rw [h]
  refine ⟨onePoints (.cdsg .r0 E.cfg.even .dst) [.ipm c.r] (prog_of hb) _ _
    (sem_cdsg E.cpu c.addr _ e8 hd) fun x x' r hr => ?_⟩
  have hP : Preserved E c ((c.entry E).swapped .r0 .r1 r) :=
    preserved_entry.swapped (by rw [ho]; simp) (by rw [ho]; simp) hf
  refine ⟨_, rfl, ?_, hP.set (by rw [ho]; simp)⟩
  rw [h0, h1, h2, h3, join_hi_lo, join_hi_lo] at hr
  generalize hs : (c.entry E).swapped .r0 .r1 r = s at hP
  have g1 : (s.set c.r (ipmOf s.cc s.mask (s.reg c.r))).reg c.r = ipmOf s.cc s.mask (s.reg c.r) := by
    rw [reg_set, if_pos rfl]
  have g2 : (s.set c.r (ipmOf s.cc s.mask (s.reg c.r))).reg .r0 = s.reg .r0 := by
    rw [reg_set, if_neg c.late.1.symm]
  have g3 : (s.set c.r (ipmOf s.cc s.mask (s.reg c.r))).reg .r1 = s.reg .r1 := by
    rw [reg_set, if_neg c.late.2.symm]
  rw [hres, g1, g2, g3, extractCc_ipm]
  rcases sem_cas hr with ⟨rfl, rfl, rfl⟩ | ⟨hx, rfl, rfl⟩
  · have c0 : s.cc = 0 := by rw [← hs]; rfl
    have c1 : s.reg .r0 = hi x := by rw [← hs]; exact h0
    have c2 : s.reg .r1 = lo x := by rw [← hs]; exact h1
    rw [c0, c1, c2, join_hi_lo]
    rcases hop with h | h <;> rw [h]
    · exact Or.inl ⟨rfl, rfl, rfl⟩
    · exact Or.inl ⟨rfl, rfl, rfl⟩
  · have c0 : s.cc = 1 := by rw [← hs]; rfl
    have c1 : s.reg .r0 = hi x' := by rw [← hs]; rfl
    have c2 : s.reg .r1 = lo x' := by rw [← hs]; rfl
    rw [c0, c1, c2, join_hi_lo]
    rcases hop with h | h <;> rw [h]
    · exact Or.inr ⟨hx, rfl, rfl⟩
    · exact Or.inr ⟨rfl, rfl⟩

/-- Every call. -/
theorem correct_exist (hE : E.Ok) (c : Call) : Nonempty (Correct (blocks E) (spec E) c) := by
  cases hop : c.op with
  | load => exact pt_load hop (by rw [Call.block, hop]; rfl)
  | store v =>
    have hv := c.valid
    rw [hop] at hv
    have hb : c.block E = select E.cfg (.store v) c.ord := by rw [Call.block, hop]
    cases ho : c.ord with
    | relaxed => exact pt_store (ser := false) hop (by rw [hb, ho]; rfl)
    | release => exact pt_store (ser := false) hop (by rw [hb, ho]; rfl)
    | seqCst => exact pt_store (ser := true) hop (by rw [hb, ho]; rfl)
    | acquire => exact absurd ho hv.1
    | acqRel => exact absurd ho hv.2
  | swap v => exact ⟨(pt_swap hop (by rw [Call.block, hop]; rfl)).correct⟩
  | cas x y => exact pt_cas (Or.inl hop) (by rw [Call.block, hop]; rfl)
  | casWeak x y => exact pt_cas (Or.inr hop) (by rw [Call.block, hop]; rfl)
  | rmw3 p v =>
    have hb : c.block E = if isCmp p && !E.cfg.feat.loc then .cmp p else .rmw3 p := by rw [Call.block, hop]; rfl
    cases hc : isCmp p && !E.cfg.feat.loc with
    | true =>
      rw [hc] at hb
      exact ⟨(pt_cmp hop hb (Bool.and_eq_true_iff.1 hc).1).correct⟩
    | false =>
      rw [hc] at hb
      refine ⟨(pt_rmw3 hE hop hb fun h => hE.loc ?_).correct⟩
      rw [h] at hc
      simpa using hc
  | rmw2 p => exact ⟨(pt_rmw2 hE hop (by rw [Call.block, hop]; rfl)).correct⟩

end Verif.S390x
