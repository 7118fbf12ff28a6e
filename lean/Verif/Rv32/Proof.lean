import Verif.Spec.Rv32
import Verif.Wide.Ops
/-!
# The riscv32 back end implements the 64-bit operations (C45): proof
-/
set_option autoImplicit false
namespace Verif.Rv32
open Verif.Object Verif.Lf Verif.Asm Verif.Wide

theorem join_lo_hi (x : BitVec 64) : join (lo x) (hi x) = x := by
  apply BitVec.eq_of_toNat_eq
  simp only [join, hi, lo, BitVec.toNat_append, BitVec.extractLsb'_toNat, Nat.shiftRight_eq_div_pow, Nat.shiftLeft_eq]
  have := x.isLt
  have h := Nat.two_pow_add_eq_or_of_lt (b := x.toNat / 2 ^ 0 % 2 ^ 32) (i := 32) (by omega) (x.toNat / 2 ^ 32 % 2 ^ 32)
  rw [Nat.mul_comm] at h
  rw [← h]
  omega

theorem reg_set (s : St) (q p : Reg) (x : BitVec 32) :
    (s.set q x).reg p = if p = q then x else s.reg p := rfl

/-- What an operation other than load and compare-exchange returns, having found `x`. -/
def ret : Op64 → BitVec 64 → Res (BitVec 64)
  | .store _, _ => .unit
  | _, x => .val x

/-- The closures compute the operations. -/
theorem next_sem (op : Op64) (h1 : op ≠ .load) (h2 : ∀ x y, op ≠ .cas x y) (h3 : ∀ x y, op ≠ .casWeak x y)
    (x : BitVec 64) : op.Sem x (next op x) (ret op x) := by
  cases op with
  | load => exact absurd rfl h1
  | cas x y => exact absurd rfl (h2 x y)
  | casWeak x y => exact absurd rfl (h3 x y)
  | store v => exact ⟨rfl, rfl⟩
  | swap v => exact ⟨rfl, rfl⟩
  | rmw3 p v =>
    have := rmw3_sem p v x (next3 p v x) rfl
    cases p <;> exact this
  | rmw2 p =>
    have := rmw2_sem p x
    cases p <;> exact this

/-! ## The `amocas.d` line -/

theorem decode_load (o f : MemOrd) : decode (loadWord (amocasOrderInsn o f).2) =
    some (.amocas (amocasOrder o f).aq (amocasOrder o f).rl .a2 .a2 .a0) := by
  cases o <;> cases f <;> rfl

theorem decode_cas (o f : MemOrd) : decode (casWord (amocasOrderInsn o f).2) =
    some (.amocas (amocasOrder o f).aq (amocasOrder o f).rl .a4 .a2 .a0) := by
  cases o <;> cases f <;> rfl

theorem fence_insn (o f : MemOrd) : (amocasOrderInsn o f).1 = (amocasOrder o f).fence := by
  cases o <;> cases f <;> rfl

/-- An instruction that is an `amocas.d`, possibly encoded. -/
def Ins.IsAmo (i : Ins) (aq rl : Bool) (d n base : Reg) : Prop :=
  i = .amocas aq rl d n base ∨ ∃ w, i = .word w ∧ decode w = some (.amocas aq rl d n base)

theorem Ins.IsAmo.sem {i : Ins} {aq rl : Bool} {d n base : Reg} (h : i.IsAmo aq rl d n base) (z : Bool)
    (a : BitVec 32) (s : St) : i.sem z a s = amocasSem z a d n base s := by
  rcases h with rfl | ⟨w, rfl, h⟩
  · rfl
  · simp only [Ins.sem, h]

theorem casAsm_eq (g : Cfg) (o f : MemOrd) : ∃ i, casAsm g o f = [fenceLine (amocasOrder o f).fence, i] ∧
    i.IsAmo (amocasOrder o f).aq (amocasOrder o f).rl .a4 .a2 g.base := by
  unfold casAsm Rv64.Cfg.base
  cases g.preLlvm20
  · exact ⟨_, rfl, Or.inl rfl⟩
  · exact ⟨_, by rw [fence_insn]; rfl, Or.inr ⟨_, rfl, decode_cas o f⟩⟩

theorem loadAsm_eq (g : Cfg) (o : MemOrd) : ∃ i, loadAsm g o = [fenceLine (amocasOrder o o).fence, i] ∧
    i.IsAmo (amocasOrder o o).aq (amocasOrder o o).rl .a2 .a2 g.base := by
  unfold loadAsm Rv64.Cfg.base
  cases g.preLlvm20
  · exact ⟨_, rfl, Or.inl rfl⟩
  · exact ⟨_, by rw [fence_insn]; rfl, Or.inr ⟨_, rfl, decode_load o o⟩⟩

theorem fenceLine_sem (b z : Bool) (a : BitVec 32) (s : St) : (fenceLine b).sem z a s = .go s := by
  cases b <;> rfl

variable {E : Env} {c : Call}

theorem base_ne : E.cfg.base ≠ .a2 ∧ E.cfg.base ≠ .a3 ∧ E.cfg.base ≠ .a4 ∧ E.cfg.base ≠ .a5 ∧ E.cfg.base ≠ .outLo ∧
    E.cfg.base ≠ .outHi := by
  unfold Rv64.Cfg.base; cases E.cfg.preLlvm20 <;> simp

theorem base_unused (op : Op64) : E.cfg.base ∉ Used op := by
  obtain ⟨h1, h2, h3, h4, h5, h6⟩ := base_ne (E := E)
  cases op <;> simp [Used, *]

theorem Preserved.base {s : St} (h : Preserved E c s) : s.reg E.cfg.base = c.addr := by
  rw [h _ (base_unused _), reg_set, if_pos rfl]

theorem Preserved.set {s : St} (h : Preserved E c s) {q : Reg} {x : BitVec 32} (hq : q ∈ Used c.op) :
    Preserved E c (s.set q x) := by
  intro p hp
  rw [reg_set, if_neg (by rintro rfl; exact hp hq)]
  exact h p hp

theorem sem_amo {i : Ins} {aq rl : Bool} {d d' n n' : Reg} (hi : i.IsAmo aq rl d n E.cfg.base)
    (hz : E.cpu = true) (hd : d.next = some d') (hn : n.next = some n') {s : St} (h : Preserved E c s) :
    i.sem E.cpu c.addr s =
      .acc (.op (.cas (join (s.reg d) (s.reg d')) (join (s.reg n) (s.reg n')) .relaxed .relaxed)) (s.swapped d d') := by
  rw [hi.sem]
  unfold amocasSem
  rw [hd, hn]
  exact if_pos ⟨hz, h.base⟩

theorem Preserved.swapped {s : St} (h : Preserved E c s) {q q' : Reg} {r : Res (BitVec 64)}
    (hq : q ∈ Used c.op) (hq' : q' ∈ Used c.op) : Preserved E c (s.swapped q q' r) := by
  cases r <;> first | exact h | exact (h.set hq).set hq'

theorem Preserved.half {s : St} (h : Preserved E c s) {q : Reg} {w : BitVec 64 → BitVec 32} {r : Res (BitVec 64)}
    (hq : q ∈ Used c.op) : Preserved E c (s.half q w r) := by
  cases r <;> first | exact h | exact h.set hq

/-! ## Loads -/

theorem pt_load (hz : E.cpu = true) (hop : c.op = .load) {o : MemOrd} (hb : c.block E = .load o) :
    Nonempty (Correct (blocks E) (spec E) c) := by
  obtain ⟨i, hcode, hi⟩ := loadAsm_eq E.cfg o
  have hprog : (blocks E).prog c = [fenceLine (amocasOrder o o).fence, i] := by
    show (c.block E).code E.cfg c.op = _
    rw [hb]; exact hcode
  have hent : c.entry E = ((c.st.set E.cfg.base c.addr).set .a2 0).set .a3 0 := by
    unfold Call.entry; rw [hop]
  have hP : Preserved E c (c.entry E) := by
    have h0 : Preserved E c (c.st.set E.cfg.base c.addr) := fun q _ => rfl
    rw [hent]
    exact (h0.set (by rw [hop]; simp [Used])).set (by rw [hop]; simp [Used])
  have hg : Go (blocks E) c 0 (c.entry E) 1 (c.entry E) :=
    .go (i := fenceLine (amocasOrder o o).fence) (by rw [hprog]; rfl) (fenceLine_sem _ _ _ _) (.refl _ _)
  have hp : ((blocks E).prog c)[1]? = some i := by rw [hprog]; rfl
  have hend : ((blocks E).prog c)[2]? = none := by rw [hprog]; rfl
  have hse : (blocks E).sem c i (c.entry E) = _ := sem_amo hi hz (d := .a2) (n := .a2) rfl rfl hP
  have h2 : (c.entry E).reg .a2 = 0 := by rw [hent]; rfl
  have h3 : (c.entry E).reg .a3 = 0 := by rw [hent]; rfl
  have hok : ∀ x x' r, (Acc.op (.cas (join ((c.entry E).reg .a2) ((c.entry E).reg .a3))
      (join ((c.entry E).reg .a2) ((c.entry E).reg .a3)) .relaxed .relaxed)).sem x x' r →
      (spec E).sem c x x' (some ((blocks E).out c ((c.entry E).swapped .a2 .a3 r))) := by
    intro x x' r hr
    have hPs : Preserved E c ((c.entry E).swapped .a2 .a3 r) :=
      hP.swapped (by rw [hop]; simp [Used]) (by rw [hop]; simp [Used])
    refine ⟨_, _, rfl, ?_, hPs⟩
    have hr' : ∀ y : BitVec 64, c.result (((c.entry E).set .a2 (lo y)).set .a3 (Rv32.hi y)) = .val y := by
      intro y
      unfold Call.result; rw [hop]
      show Res.val (join (lo y) (Rv32.hi y)) = _
      rw [join_lo_hi]
    rw [hop]
    rcases sem_cas hr with ⟨h, h', rfl⟩ | ⟨h, rfl, rfl⟩
    · exact ⟨by rw [h', h], hr' x⟩
    · exact ⟨rfl, hr' x'⟩
  exact ⟨{
    P := fun pc s e => e = none ∧ pc = 1 ∧ s = c.entry E
    G := fun _ _ _ => True
    start := ⟨_, _, hg, rfl, rfl, rfl⟩
    ok := by
      rintro pc s e ⟨rfl, rfl, rfl⟩
      refine ⟨i, hp, ?_⟩
      rw [hse]
      intro x x' r hr
      exact Or.inr ⟨2, _, .refl _ _, hend, Or.inl (hok x x' r hr)⟩
    ends := by
      intro x
      refine Ends.go hg (Ends.acc hp hse fun x' r hr => ?_)
      exact Ends.done hend (hok x x' r hr)
    once := by
      rintro pc s e ⟨rfl, rfl, rfl⟩
      refine ⟨i, hp, ?_⟩
      rw [hse]
      intro x x' r hr
      exact .inr ⟨2, _, .refl _ _, hend⟩
    stops := by
      rintro pc s e ⟨rfl, rfl, rfl⟩ ρ x
      exact Stops.acc hp hse fun r hr _ => Stops.done hend }⟩

/-! ## Compare-exchange -/

/-- State when `prev` and `n` have been passed. -/
def St.passed (s : St) (n : BitVec 64) : St :=
  (((s.set .a2 (lo n)).set .a3 (hi n)).set .a4 (lo s.prev)).set .a5 (hi s.prev)

theorem Preserved.passed {s : St} {n : BitVec 64} (h : Preserved E c s) (ho : ∀ q, q ∈ [Rv64.Reg.a2, .a3, .a4, .a5] →
    q ∈ Used c.op) : Preserved E c (s.passed n) :=
  (((h.set (ho _ (by simp))).set (ho _ (by simp))).set (ho _ (by simp))).set (ho _ (by simp))

/-- State after the compare-exchange with its result in `got`. -/
def St.after (s : St) (n y : BitVec 64) : St :=
  { ((s.passed n).set .a4 (lo y)).set .a5 (Rv32.hi y) with got := y }

theorem Preserved.after {s : St} {n y : BitVec 64} (h : Preserved E c s) (ho : ∀ q, q ∈ [Rv64.Reg.a2, .a3, .a4, .a5] →
    q ∈ Used c.op) : Preserved E c (s.after n y) :=
  ((h.passed (n := n) ho).set (x := lo y) (q := .a4) (ho _ (by simp))).set (x := Rv32.hi y) (q := .a5) (ho _ (by simp))

theorem sem_pass {i : Ins} {aq rl : Bool} (hi : i.IsAmo aq rl .a4 .a2 E.cfg.base)
    (hz : E.cpu = true) {s : St} {n : BitVec 64} (h : Preserved E c (s.passed n)) :
    i.sem E.cpu c.addr (s.passed n) = .acc (.op (.cas s.prev n .relaxed .relaxed)) ((s.passed n).swapped .a4 .a5) := by
  rw [sem_amo hi hz (d := .a4) (n := .a2) rfl rfl h]
  have e1 : join ((s.passed n).reg .a4) ((s.passed n).reg .a5) = s.prev := join_lo_hi _
  have e2 : join ((s.passed n).reg .a2) ((s.passed n).reg .a3) = n := join_lo_hi _
  rw [e1, e2]

theorem got_after (s : St) (n y : BitVec 64) (z : Bool) (a : BitVec 32) :
    (Ins.setGot .a4 .a5).sem z a (((s.passed n).set .a4 (lo y)).set .a5 (Rv32.hi y)) = .go (s.after n y) := by
  have e : join ((((s.passed n).set .a4 (lo y)).set .a5 (Rv32.hi y)).reg .a4)
      ((((s.passed n).set .a4 (lo y)).set .a5 (Rv32.hi y)).reg .a5) = y := join_lo_hi _
  simp only [Ins.sem, e]
  rfl

theorem pt_cas (hz : E.cpu = true) {old new : BitVec 64} (hop : c.op = .cas old new ∨ c.op = .casWeak old new)
    {o f : MemOrd} (hb : c.block E = .cas o f) : Nonempty (Correct (blocks E) (spec E) c) := by
  obtain ⟨i, hcode, hi⟩ := casAsm_eq E.cfg (o.upgradeSuccess f) f
  generalize hm : amocasOrder (o.upgradeSuccess f) f = m at hcode hi
  have harg : c.op.arg = new := by rcases hop with h | h <;> rw [h] <;> rfl
  have hprog : (blocks E).prog c = [.pass fun _ => new, fenceLine m.fence, i, .setGot .a4 .a5] := by
    show (c.block E).code E.cfg c.op = _
    rw [hb]
    simp only [Block.code, hcode, harg, List.cons_append, List.nil_append]
  have hent : c.entry E = { c.st.set E.cfg.base c.addr with prev := old } := by
    unfold Call.entry; rcases hop with h | h <;> rw [h]
  have hu : ∀ q, q ∈ [Rv64.Reg.a2, .a3, .a4, .a5] → q ∈ Used c.op := by
    rcases hop with h | h <;> rw [h] <;> exact fun q h => h
  have hP : Preserved E c (c.entry E) := by rw [hent]; exact fun q _ => rfl
  have hprev : (c.entry E).prev = old := by rw [hent]
  have hP1 := hP.passed (n := new) hu
  have hg : Go (blocks E) c 0 (c.entry E) 2 ((c.entry E).passed new) :=
    .go (i := .pass fun _ => new) (by rw [hprog]; rfl) rfl
      (.go (i := fenceLine m.fence) (by rw [hprog]; rfl) (fenceLine_sem _ _ _ _) (.refl _ _))
  have hp : ((blocks E).prog c)[2]? = some i := by rw [hprog]; rfl
  have hend : ((blocks E).prog c)[4]? = none := by rw [hprog]; rfl
  have hse : (blocks E).sem c i ((c.entry E).passed new) = _ := sem_pass hi hz hP1
  rw [hprev] at hse
  have hok : ∀ x x' r, (Acc.op (.cas old new .relaxed .relaxed)).sem x x' r →
      ∃ s', Go (blocks E) c 3 (((c.entry E).passed new).swapped .a4 .a5 r) 4 s' ∧
        (spec E).sem c x x' (some ((blocks E).out c s')) := by
    intro x x' r hr
    have hgo : ∀ y : BitVec 64, Go (blocks E) c 3 ((((c.entry E).passed new).set .a4 (lo y)).set .a5 (Rv32.hi y)) 4
        ((c.entry E).after new y) := fun y =>
      have h : (blocks E).sem c (.setGot .a4 .a5) _ = _ := got_after (c.entry E) new y E.cpu c.addr
      .go (by rw [hprog]; rfl) h (.refl _ _)
    have hres : ∀ y, c.result ((c.entry E).after new y) = if y == old then .ok y else .err y := by
      intro y
      have e : ((c.entry E).after new y).prev = old := hprev
      unfold Call.result
      rcases hop with h | h <;> rw [h] <;> simp only [e] <;> rfl
    rcases sem_cas hr with ⟨h, h', rfl⟩ | ⟨h, rfl, rfl⟩
    · refine ⟨_, hgo x, _, _, rfl, ?_, hP.after hu⟩
      rw [hres, if_pos (by simp [h])]
      rcases hop with e | e <;> rw [e]
      · exact Or.inl ⟨h, h', rfl⟩
      · exact Or.inl ⟨h, h', rfl⟩
    · refine ⟨_, hgo x', _, _, rfl, ?_, hP.after hu⟩
      rw [hres, if_neg (by simp [h])]
      rcases hop with e | e <;> rw [e]
      · exact Or.inr ⟨h, rfl, rfl⟩
      · exact Or.inr ⟨rfl, rfl⟩
  exact ⟨{
    P := fun pc s e => e = none ∧ pc = 2 ∧ s = (c.entry E).passed new
    G := fun _ _ _ => True
    start := ⟨_, _, hg, rfl, rfl, rfl⟩
    ok := by
      rintro pc s e ⟨rfl, rfl, rfl⟩
      refine ⟨i, hp, ?_⟩
      rw [hse]
      intro x x' r hr
      obtain ⟨s', h1, h2⟩ := hok x x' r hr
      exact Or.inr ⟨4, s', h1, hend, Or.inl h2⟩
    ends := by
      intro x
      refine Ends.go hg (Ends.acc hp hse fun x' r hr => ?_)
      obtain ⟨s', h1, h2⟩ := hok x x' r hr
      exact Ends.go h1 (Ends.done hend h2)
    once := by
      rintro pc s e ⟨rfl, rfl, rfl⟩
      refine ⟨i, hp, ?_⟩
      rw [hse]
      intro x x' r hr
      obtain ⟨s', h1, -⟩ := hok x x' r hr
      exact .inr ⟨4, s', h1, hend⟩
    stops := by
      rintro pc s e ⟨rfl, rfl, rfl⟩ ρ x
      refine Stops.acc hp hse fun r hr _ => ?_
      obtain ⟨s', h1, -⟩ := hok x x r hr
      exact Stops.go h1 (Stops.done hend) }⟩

/-! ## Loops -/

theorem sem_lw0 {s : St} {d : Reg} (h : Preserved E c s) :
    (Ins.lw d E.cfg.base 0).sem E.cpu c.addr s = .acc (.op (.load .relaxed)) (s.half d lo) := by
  refine if_pos (c := s.reg E.cfg.base + 0 = c.addr) ?_
  rw [h.base]; exact BitVec.add_zero _

theorem sem_lw4 {s : St} {d : Reg} (h : Preserved E c s) :
    (Ins.lw d E.cfg.base 4).sem E.cpu c.addr s = .acc (.op (.load .relaxed)) (s.half d hi) := by
  have h1 : ¬ s.reg E.cfg.base + 4 = c.addr := by
    rw [h.base]
    intro e
    have := congrArg BitVec.toNat e
    have h4 : (4 : BitVec 32).toNat = 4 := rfl
    rw [BitVec.toNat_add, h4] at this
    have := c.addr.isLt
    omega
  refine (if_neg h1).trans (if_pos ?_)
  rw [h.base]

/-- Operations that loop. -/
def IsRmw (op : Op64) : Prop := op ≠ .load ∧ (∀ x y, op ≠ .cas x y) ∧ ∀ x y, op ≠ .casWeak x y

theorem pt_rmw (hz : E.cpu = true) (hop : IsRmw c.op) {o f : MemOrd} (hb : c.block E = .rmw o f) :
    Nonempty (Correct (blocks E) (spec E) c) := by
  obtain ⟨i, hcode, hi⟩ := casAsm_eq E.cfg (o.upgradeSuccess f) f
  generalize hm : amocasOrder (o.upgradeSuccess f) f = m at hcode hi
  have hprog : (blocks E).prog c = [.lw .outLo E.cfg.base 0, .lw .outHi E.cfg.base 4, .setPrev .outLo .outHi,
      .pass (next c.op), fenceLine m.fence, i, .setGot .a4 .a5, .ifSame 10, .retry, .jump 3] := by
    show (c.block E).code E.cfg c.op = _
    rw [hb]
    simp only [Block.code, hcode, List.cons_append, List.nil_append]
  have hent : c.entry E = c.st.set E.cfg.base c.addr := by
    obtain ⟨h1, h2, h3⟩ := hop
    unfold Call.entry
    cases h : c.op <;> first | rfl | exact absurd h h1 | exact absurd h (h2 _ _) | exact absurd h (h3 _ _)
  have hused : Used c.op = [.a2, .a3, .a4, .a5, .outLo, .outHi] := by
    obtain ⟨h1, h2, h3⟩ := hop
    cases h : c.op <;> first | rfl | exact absurd h h1 | exact absurd h (h2 _ _) | exact absurd h (h3 _ _)
  have hu : ∀ q, q ∈ [Rv64.Reg.a2, .a3, .a4, .a5] → q ∈ Used c.op := by
    intro q hq; rw [hused]; simp at hq ⊢; rcases hq with h | h | h | h <;> simp [h]
  have hP : Preserved E c (c.entry E) := by rw [hent]; exact fun q _ => rfl
  have p0 : ((blocks E).prog c)[0]? = some (.lw .outLo E.cfg.base 0) := by rw [hprog]; rfl
  have p1 : ((blocks E).prog c)[1]? = some (.lw .outHi E.cfg.base 4) := by rw [hprog]; rfl
  have p5 : ((blocks E).prog c)[5]? = some i := by rw [hprog]; rfl
  have hend : ((blocks E).prog c)[10]? = none := by rw [hprog]; rfl
  have hlo : Rv64.Reg.outLo ∈ Used c.op := by rw [hused]; simp
  have hhi : Rv64.Reg.outHi ∈ Used c.op := by rw [hused]; simp
  have hres : ∀ s : St, c.result s = ret c.op s.got := by
    obtain ⟨h1, h2, h3⟩ := hop
    intro s
    unfold Call.result
    cases h : c.op <;> first | rfl | exact absurd h h1 | exact absurd h (h2 _ _) | exact absurd h (h3 _ _) | simp
  -- from the loop's head to the access
  have head : ∀ s : St, Go (blocks E) c 3 s 5 (s.passed (next c.op s.prev)) := fun s =>
    .go (i := .pass (next c.op)) (by rw [hprog]; rfl) rfl
      (.go (i := fenceLine m.fence) (by rw [hprog]; rfl) (fenceLine_sem _ _ _ _) (.refl _ _))
  have hse : ∀ s : St, Preserved E c s → (blocks E).sem c i (s.passed (next c.op s.prev)) =
      .acc (.op (.cas s.prev (next c.op s.prev) .relaxed .relaxed)) ((s.passed (next c.op s.prev)).swapped .a4 .a5) :=
    fun s h => sem_pass hi hz (h.passed hu)
  have back : ∀ (s : St) (y : BitVec 64), Go (blocks E) c 6 (((s.passed (next c.op s.prev)).set .a4 (lo y)).set .a5 (Rv32.hi y))
      (if y == s.prev then 10 else 8) (s.after (next c.op s.prev) y) := fun s y =>
    have h : (blocks E).sem c (.setGot .a4 .a5) _ = _ := got_after s (next c.op s.prev) y E.cpu c.addr
    .go (by rw [hprog]; rfl) h
      (.br (i := .ifSame 10) (b := y == s.prev) (n := 10) (by rw [hprog]; rfl) rfl (.refl _ _))
  have again : ∀ (s : St) (y : BitVec 64), Go (blocks E) c 8 (s.after (next c.op s.prev) y) 3
      { s.after (next c.op s.prev) y with prev := y } := fun s y =>
    .go (i := .retry) (by rw [hprog]; rfl) rfl
      (.br (i := .jump 3) (b := true) (n := 3) (by rw [hprog]; rfl) rfl (.refl _ _))
  -- the access
  have step : ∀ s : St, Preserved E c s → ∀ x x' r,
      (Acc.op (.cas s.prev (next c.op s.prev) .relaxed .relaxed)).sem x x' r →
      (x = s.prev ∧ ∃ s', Go (blocks E) c 6 ((s.passed (next c.op s.prev)).swapped .a4 .a5 r) 10 s' ∧
        (spec E).sem c x x' (some ((blocks E).out c s'))) ∨
      (x ≠ s.prev ∧ x' = x ∧ ∃ s', Preserved E c s' ∧ s'.prev = x ∧
        Go (blocks E) c 6 ((s.passed (next c.op s.prev)).swapped .a4 .a5 r) 5 (s'.passed (next c.op s'.prev))) := by
    intro s hs x x' r hr
    have hPa : ∀ y, Preserved E c (s.after (next c.op s.prev) y) := fun y => hs.after hu
    rcases sem_cas hr with ⟨h, h', rfl⟩ | ⟨h, rfl, rfl⟩
    · refine Or.inl ⟨h, s.after (next c.op s.prev) x, ?_, _, _, rfl, ?_, hPa x⟩
      · have := back s x
        rw [if_pos (by simp [h])] at this
        exact this
      · rw [hres, h', ← h]
        exact next_sem c.op hop.1 hop.2.1 hop.2.2 x
    · have := back s x'
      rw [if_neg (by simp [h])] at this
      exact Or.inr ⟨h, rfl, { s.after (next c.op s.prev) x' with prev := x' }, hPa x', rfl,
        (this.trans (again s x')).trans (head _)⟩
  have fresh : ∀ (s : St) (x : BitVec 64), Preserved E c s → s.prev = x → ∀ ρ,
      Ends (blocks E) c (fun r y => (spec E).sem c x y r) 5 (s.passed (next c.op s.prev)) ρ x := by
    intro s x hs hx ρ
    refine Ends.acc p5 (hse s hs) fun x' r hr => ?_
    rcases step s hs x x' r hr with ⟨_, s', h1, h2⟩ | ⟨h, -⟩
    · exact Ends.go h1 (Ends.done hend h2)
    · exact absurd hx.symm h
  have first : ∀ s : St, Preserved E c s → ∃ s', Preserved E c s' ∧ s'.prev = join (s.reg .outLo) (s.reg .outHi) ∧
      Go (blocks E) c 2 s 5 (s'.passed (next c.op s'.prev)) := by
    intro s hs
    refine ⟨{ s with prev := join (s.reg .outLo) (s.reg .outHi) }, hs, rfl, ?_⟩
    exact .go (i := .setPrev .outLo .outHi) (by rw [hprog]; rfl) rfl (head _)
  exact ⟨{
    P := fun pc s e => e = none ∧ ((pc = 0 ∧ Preserved E c s) ∨ (pc = 1 ∧ Preserved E c s) ∨
      (pc = 5 ∧ ∃ s0, Preserved E c s0 ∧ s = s0.passed (next c.op s0.prev)))
    G := fun _ _ _ => True
    start := ⟨0, c.entry E, .refl _ _, rfl, Or.inl ⟨rfl, hP⟩⟩
    ok := by
      rintro pc s e ⟨rfl, ⟨rfl, hs⟩ | ⟨rfl, hs⟩ | ⟨rfl, s0, hs, rfl⟩⟩
      · refine ⟨_, p0, ?_⟩
        have h : (blocks E).sem c (.lw .outLo E.cfg.base 0) s = _ := sem_lw0 hs
        rw [h]
        intro x x' r hr
        obtain ⟨rfl, rfl⟩ := Points.load_relaxed hr
        exact Or.inl ⟨1, _, none, .refl _ _, ⟨rfl, Or.inr (Or.inl ⟨rfl, hs.half hlo⟩)⟩, rfl, fun _ => trivial, by simp⟩
      · refine ⟨_, p1, ?_⟩
        have h : (blocks E).sem c (.lw .outHi E.cfg.base 4) s = _ := sem_lw4 hs
        rw [h]
        intro x x' r hr
        obtain ⟨rfl, rfl⟩ := Points.load_relaxed hr
        obtain ⟨s', h1, -, h2⟩ := first _ (hs.half (w := Rv32.hi) (r := .val x') hhi)
        exact Or.inl ⟨5, _, none, h2, ⟨rfl, Or.inr (Or.inr ⟨rfl, s', h1, rfl⟩)⟩, rfl, fun _ => trivial, by simp⟩
      · refine ⟨i, p5, ?_⟩
        rw [hse s0 hs]
        intro x x' r hr
        rcases step s0 hs x x' r hr with ⟨_, s', h1, h2⟩ | ⟨_, rfl, s', h1, _, h2⟩
        · exact Or.inr ⟨10, s', h1, hend, Or.inl h2⟩
        · exact Or.inl ⟨5, _, none, h2, ⟨rfl, Or.inr (Or.inr ⟨rfl, s', h1, rfl⟩)⟩, rfl, fun _ => trivial, by simp⟩
    ends := by
      intro x
      refine Ends.acc p0 (sem_lw0 hP) fun x' r hr => ?_
      obtain ⟨rfl, rfl⟩ := Points.load_relaxed hr
      have hP1 : Preserved E c ((c.entry E).half .outLo lo (.val x')) := hP.half hlo
      refine Ends.acc p1 (sem_lw4 hP1) fun x'' r hr => ?_
      obtain ⟨rfl, rfl⟩ := Points.load_relaxed hr
      obtain ⟨s', h1, h2, h3⟩ := first _ (hP1.half (w := Rv32.hi) (r := .val x'') hhi)
      refine Ends.go h3 (fresh s' _ h1 ?_ _)
      rw [h2]
      exact join_lo_hi x''
    once := by
      rintro pc s e ⟨rfl, ⟨rfl, hs⟩ | ⟨rfl, hs⟩ | ⟨rfl, s0, hs, rfl⟩⟩
      · refine ⟨_, p0, ?_⟩
        have h : (blocks E).sem c (.lw .outLo E.cfg.base 0) s = _ := sem_lw0 hs
        rw [h]
        exact fun _ _ _ _ => .inl trivial
      · refine ⟨_, p1, ?_⟩
        have h : (blocks E).sem c (.lw .outHi E.cfg.base 4) s = _ := sem_lw4 hs
        rw [h]
        exact fun _ _ _ _ => .inl trivial
      · refine ⟨i, p5, ?_⟩
        rw [hse s0 hs]
        intro x x' r hr
        rcases sem_cas hr with ⟨h, -⟩ | ⟨-, -, h⟩
        · rcases step s0 hs x x' r hr with ⟨_, s', h1, -⟩ | ⟨h', _⟩
          · exact .inr ⟨10, s', h1, hend⟩
          · exact absurd h h'
        · exact .inl ⟨x, h⟩
    stops := by
      have two : ∀ s0 ρ x, Preserved E c s0 → Stops (blocks E) c 5 (s0.passed (next c.op s0.prev)) ρ x := by
        intro s0 ρ x hs
        refine Stops.acc p5 (hse s0 hs) fun r hr _ => ?_
        rcases step s0 hs x x r hr with ⟨_, s', h1, -⟩ | ⟨_, -, s', h1, h3, h2⟩
        · exact Stops.go h1 (Stops.done hend)
        · refine Stops.go h2 (Stops.acc p5 (hse s' h1) fun r hr _ => ?_)
          rcases step s' h1 x x r hr with ⟨_, s'', g1, -⟩ | ⟨h, -⟩
          · exact Stops.go g1 (Stops.done hend)
          · exact absurd h3.symm h
      have one : ∀ s ρ x, Preserved E c s → Stops (blocks E) c 1 s ρ x := by
        intro s ρ x hs
        refine Stops.acc p1 (sem_lw4 hs) fun r hr _ => ?_
        obtain ⟨s', h1, -, h2⟩ := first _ (hs.half (w := Rv32.hi) (r := r) hhi)
        exact Stops.go h2 (two s' ρ x h1)
      rintro pc s e ⟨rfl, ⟨rfl, hs⟩ | ⟨rfl, hs⟩ | ⟨rfl, s0, hs, rfl⟩⟩ ρ x
      · exact Stops.acc p0 (sem_lw0 hs) fun r hr _ => one _ ρ x (hs.half hlo)
      · exact one s ρ x hs
      · exact two s0 ρ x hs }⟩

/-! ## The selection -/

/-- A block that suits the operation. -/
inductive Good : Op64 → Block → Prop where
  | load {o} : Good .load (.load o)
  | cas {x y s f} : Good (.cas x y) (.cas s f)
  | casWeak {x y s f} : Good (.casWeak x y) (.cas s f)
  | rmw {op s f} (h : IsRmw op) : Good op (.rmw s f)

theorem casBlock_cas {g : Cfg} {d : Bool} (hq : g.zacas = true ∨ d = true) (op : Op64) (s f : MemOrd) :
    ∃ s' f', casBlock g d op s f = .cas s' f' := by
  unfold casBlock
  cases hz : g.zacas
  · have hd : d = true := by rcases hq with h | h; · rw [hz] at h; cases h
                             · exact h
    subst hd
    cases s.upgradeSuccess f <;> exact ⟨_, _, rfl⟩
  · exact ⟨_, _, rfl⟩

theorem zacasFn_rmw {g : Cfg} {d : Bool} (hq : g.zacas = true ∨ d = true) (op : Op64) (o : MemOrd) :
    ∃ s f, zacasFn g d op o = .rmw s f := by
  obtain ⟨s, f, h⟩ := casBlock_cas hq op o .relaxed
  exact ⟨s, f, by unfold zacasFn; rw [h]⟩

theorem rmwBlock_rmw {g : Cfg} {d : Bool} (hq : g.zacas = true ∨ d = true) (op : Op64) (o : MemOrd) :
    rmwBlock g d op o = zacasFn g d op o := by
  unfold rmwBlock
  cases hz : g.zacas
  · have hd : d = true := by rcases hq with h | h; · rw [hz] at h; cases h
                             · exact h
    subst hd
    cases o <;> rfl
  · rfl

theorem select_good {g : Cfg} {d : Bool} (hq : g.zacas = true ∨ d = true) {op : Op64} {o f : MemOrd}
    (hv : op.OrdOk o f) : Good op (select g d op o f) := by
  cases op with
  | load =>
    simp only [select, loadBlock]
    cases hz : g.zacas
    · have hd : d = true := by rcases hq with h | h; · rw [hz] at h; cases h
                               · exact h
      subst hd
      cases o with
      | release => exact absurd rfl hv.1
      | acqRel => exact absurd rfl hv.2
      | _ => exact .load
    · exact .load
  | cas x y =>
    obtain ⟨s', f', h⟩ := casBlock_cas hq (.cas x y) o f
    simp only [select, h]
    exact .cas
  | casWeak x y =>
    obtain ⟨s', f', h⟩ := casBlock_cas hq (.casWeak x y) o f
    simp only [select, h]
    exact .casWeak
  | store v =>
    simp only [select, rmwBlock_rmw hq]
    obtain ⟨s, f, h⟩ := zacasFn_rmw hq (.swap v) o
    rw [h]; exact .rmw (by simp [IsRmw])
  | swap v =>
    simp only [select, rmwBlock_rmw hq]
    obtain ⟨s, f, h⟩ := zacasFn_rmw hq (.swap v) o
    rw [h]; exact .rmw (by simp [IsRmw])
  | rmw3 p v =>
    simp only [select, rmwBlock_rmw hq]
    obtain ⟨s, f, h⟩ := zacasFn_rmw hq (.rmw3 p v) o
    rw [h]; exact .rmw (by simp [IsRmw])
  | rmw2 p =>
    simp only [select, rmwBlock_rmw hq]
    obtain ⟨s, f, h⟩ := zacasFn_rmw hq (.rmw2 p) o
    rw [h]; exact .rmw (by simp [IsRmw])

/-- Every call. -/
theorem correct_exist (hE : E.Ok) (hq : E.Zacas) (c : Call) : Nonempty (Correct (blocks E) (spec E) c) := by
  have hz : E.cpu = true := hq.elim hE.built hE.detected
  have hg : Good c.op (c.block E) := select_good hq c.valid
  generalize hb : c.block E = b at hg
  generalize hop : c.op = op at hg
  cases hg with
  | load => exact pt_load hz hop hb
  | cas => exact pt_cas hz (Or.inl hop) hb
  | casWeak => exact pt_cas hz (Or.inr hop) hb
  | rmw h => exact pt_rmw hz (by rw [hop]; exact h) hb

end Verif.Rv32
