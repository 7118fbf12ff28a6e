import Verif.Rv32.Order
import Verif.Rv32.Proof
import Verif.Rv64.OrderProof
/-!
# Orderings of the riscv32 back end (C46): proof
-/
set_option autoImplicit false
namespace Verif.Rv32
open Verif.Lf Verif.Asm Verif.Wide
open Verif.Arm (Acquiring Releasing AsksRelease)
open Verif.Rv64 (Shape Weak)
open Verif.Ppc (AsksAcquire)

variable {m : Mode} {w : Bool} {t : List Ev}

/-! ## Following a trace -/

variable {E : Env} {c : Call} {n pc : Nat} {s s' : St}

theorem Trace.inv_done (h : Trace E c n pc s t s') (hp : ((blocks E).prog c)[pc]? = none) : t = [] ∧ s' = s := by
  cases h with
  | done => exact ⟨rfl, rfl⟩
  | go hp' | br hp' | acc hp' => rw [hp] at hp'; cases hp'

theorem Trace.inv_go (h : Trace E c n pc s t s') {i : Ins} {s1 : St} (hp : ((blocks E).prog c)[pc]? = some i)
    (hs : (blocks E).sem c i s = .go s1) :
    ∃ n' t', n = n' + 1 ∧ t = i.events .unit ++ t' ∧ Trace E c n' (pc + 1) s1 t' s' := by
  cases h with
  | done hp' => rw [hp] at hp'; cases hp'
  | go hp' hs' r =>
    rw [hp] at hp'; cases hp'
    rw [hs] at hs'; cases hs'
    exact ⟨_, _, rfl, rfl, r⟩
  | br hp' hs' | acc hp' hs' =>
    rw [hp] at hp'; cases hp'
    rw [hs] at hs'; cases hs'

theorem Trace.inv_br (h : Trace E c n pc s t s') {i : Ins} {b : Bool} {k : Nat}
    (hp : ((blocks E).prog c)[pc]? = some i) (hs : (blocks E).sem c i s = .br b k) :
    ∃ n' t', n = n' + 1 ∧ t = i.events .unit ++ t' ∧ Trace E c n' (if b then k else pc + 1) s t' s' := by
  cases h with
  | done hp' => rw [hp] at hp'; cases hp'
  | br hp' hs' r =>
    rw [hp] at hp'; cases hp'
    rw [hs] at hs'; cases hs'
    exact ⟨_, _, rfl, rfl, r⟩
  | go hp' hs' | acc hp' hs' =>
    rw [hp] at hp'; cases hp'
    rw [hs] at hs'; cases hs'

theorem Trace.inv_acc (h : Trace E c n pc s t s') {i : Ins} {a : Acc (BitVec 64)} {k : Res (BitVec 64) → St}
    (hp : ((blocks E).prog c)[pc]? = some i) (hs : (blocks E).sem c i s = .acc a k) :
    ∃ n' t' x x' v, n = n' + 1 ∧ a.sem x x' v ∧ t = i.events v ++ t' ∧ Trace E c n' (pc + 1) (k v) t' s' := by
  cases h with
  | done hp' => rw [hp] at hp'; cases hp'
  | acc hp' hs' ha r =>
    rw [hp] at hp'; cases hp'
    rw [hs] at hs'; cases hs'
    exact ⟨_, _, _, _, _, rfl, ha, rfl, r⟩
  | br hp' hs' | go hp' hs' =>
    rw [hp] at hp'; cases hp'
    rw [hs] at hs'; cases hs'

theorem Ins.IsAmo.events {i : Ins} {aq rl : Bool} {d n base : Reg} (h : i.IsAmo aq rl d n base) (v : Res (BitVec 64)) :
    i.events v = [amoEvent aq rl v] := by
  rcases h with rfl | ⟨w, rfl, h⟩
  · rfl
  · simp only [Ins.events, h]

/-- The fence line's events before an `amocas.d`. -/
theorem shape_amo {v : Res (BitVec 64)} (hv : ∃ x, v = .ok x ∧ w = true ∨ v = .err x ∧ w = false) :
    Shape m w ((fenceLine m.fence).events .unit ++ ([amoEvent m.aq m.rl v] ++ [])) := by
  obtain ⟨x, ⟨rfl, rfl⟩ | ⟨rfl, rfl⟩⟩ := hv
  all_goals
    cases hf : m.fence
    · exact ⟨[], by simp [fenceLine, Ins.events, amoEvent], by simp, by simp [hf]⟩
    · exact ⟨[.full], by simp [fenceLine, Ins.events, amoEvent], by simp [Weak, Rv64.Ev.full], fun _ => ⟨[], rfl⟩⟩

theorem load_shape (hz : E.cpu = true) (hop : c.op = .load) {o : MemOrd} (hb : c.block E = .load o)
    (h : Trace E c n 0 (c.entry E) t s') : ∃ w, Shape (amocasOrder o o) w t := by
  obtain ⟨i, hcode, hi⟩ := loadAsm_eq E.cfg o
  have hprog : (blocks E).prog c = [fenceLine (amocasOrder o o).fence, i] := by
    show (c.block E).code E.cfg c.op = _
    rw [hb]; exact hcode
  have hP : Preserved E c (c.entry E) := by
    have hent : c.entry E = ((c.st.set E.cfg.base c.addr).set .a2 0).set .a3 0 := by
      unfold Call.entry; rw [hop]
    have h0 : Preserved E c (c.st.set E.cfg.base c.addr) := fun q _ => rfl
    rw [hent]
    exact (h0.set (by rw [hop]; simp [Used])).set (by rw [hop]; simp [Used])
  obtain ⟨n1, t1, -, rfl, k1⟩ := h.inv_go (i := fenceLine (amocasOrder o o).fence) (by rw [hprog]; rfl)
    (fenceLine_sem _ _ _ _)
  have hse : (blocks E).sem c i (c.entry E) = _ := sem_amo hi hz (d := .a2) (n := .a2) rfl rfl hP
  obtain ⟨n2, t2, x, x', v, -, hv, rfl, k2⟩ := k1.inv_acc (by rw [hprog]; rfl) hse
  obtain ⟨rfl, -⟩ := k2.inv_done (by rw [hprog]; rfl)
  rw [hi.events]
  rcases sem_cas hv with ⟨_, _, rfl⟩ | ⟨_, _, rfl⟩
  · exact ⟨true, shape_amo ⟨_, Or.inl ⟨rfl, rfl⟩⟩⟩
  · exact ⟨false, shape_amo ⟨_, Or.inr ⟨rfl, rfl⟩⟩⟩

theorem cas_shape (hz : E.cpu = true) {old new : BitVec 64} (hop : c.op = .cas old new ∨ c.op = .casWeak old new)
    {o f : MemOrd} (hb : c.block E = .cas o f) (h : Trace E c n 0 (c.entry E) t s') :
    ∃ w, Shape (amocasOrder (o.upgradeSuccess f) f) w t ∧ ((∃ x, c.result s' = .ok x) → w = true) := by
  obtain ⟨i, hcode, hi⟩ := casAsm_eq E.cfg (o.upgradeSuccess f) f
  generalize hm : amocasOrder (o.upgradeSuccess f) f = m at hcode hi
  have harg : c.op.arg = new := by rcases hop with h | h <;> rw [h] <;> rfl
  have hprog : (blocks E).prog c = [.pass fun _ => new, fenceLine m.fence, i, .setGot .a4 .a5] := by
    show (c.block E).code E.cfg c.op = _
    rw [hb]
    simp only [Block.code, hcode, harg, List.cons_append, List.nil_append]
  have hent : c.entry E = { c.st.set E.cfg.base c.addr with prev := old } := by
    unfold Call.entry; rcases hop with h | h <;> rw [h]
  have hu : ∀ q, q ∈ [Rv64.Reg.a2, .a3, .a4, .a5] → q ∈ Used c.op := by
    rcases hop with h | h <;> rw [h] <;> exact fun q h => h
  have hP : Preserved E c (c.entry E) := by rw [hent]; exact fun q _ => rfl
  have hprev : (c.entry E).prev = old := by rw [hent]
  obtain ⟨n1, t1, -, rfl, k3⟩ := h.inv_go (i := .pass fun _ => new) (s1 := (c.entry E).passed new) (by rw [hprog]; rfl) rfl
  obtain ⟨n2, t2, -, rfl, k4⟩ := k3.inv_go (i := fenceLine m.fence) (by rw [hprog]; rfl) (fenceLine_sem _ _ _ _)
  have hse : (blocks E).sem c i ((c.entry E).passed new) = _ := sem_pass hi hz (hP.passed (n := new) hu)
  rw [hprev] at hse
  obtain ⟨n3, t3, x, x', v, -, hv, rfl, k5⟩ := k4.inv_acc (by rw [hprog]; rfl) hse
  have hgo : ∀ y : BitVec 64, (blocks E).sem c (.setGot .a4 .a5)
      ((((c.entry E).passed new).set .a4 (lo y)).set .a5 (Rv32.hi y)) = .go ((c.entry E).after new y) :=
    fun y => got_after (c.entry E) new y E.cpu c.addr
  have hres : ∀ y, c.result ((c.entry E).after new y) = if y == old then .ok y else .err y := by
    intro y
    have e : ((c.entry E).after new y).prev = old := hprev
    unfold Call.result
    rcases hop with h | h <;> rw [h] <;> simp only [e] <;> rfl
  rw [hi.events]
  rcases sem_cas hv with ⟨_, _, rfl⟩ | ⟨hne, rfl, rfl⟩
  · obtain ⟨n4, t4, -, rfl, k6⟩ := k5.inv_go (by rw [hprog]; rfl) (hgo x)
    obtain ⟨rfl, rfl⟩ := k6.inv_done (by rw [hprog]; rfl)
    exact ⟨true, shape_amo ⟨_, Or.inl ⟨rfl, rfl⟩⟩, fun _ => rfl⟩
  · obtain ⟨n4, t4, -, rfl, k7⟩ := k5.inv_go (by rw [hprog]; rfl) (hgo x')
    obtain ⟨rfl, rfl⟩ := k7.inv_done (by rw [hprog]; rfl)
    refine ⟨false, shape_amo ⟨_, Or.inr ⟨rfl, rfl⟩⟩, ?_⟩
    rintro ⟨y, hy⟩
    rw [hres, if_neg (by simp [hne])] at hy
    cases hy

theorem rmw_shape (hz : E.cpu = true) (hop : IsRmw c.op) {o f : MemOrd} (hb : c.block E = .rmw o f)
    (h : Trace E c n 0 (c.entry E) t s') : Shape (amocasOrder (o.upgradeSuccess f) f) true t := by
  obtain ⟨i, hcode, hi⟩ := casAsm_eq E.cfg (o.upgradeSuccess f) f
  generalize hm : amocasOrder (o.upgradeSuccess f) f = m at hcode hi
  have hprog : (blocks E).prog c = [.lw .outLo E.cfg.base 0, .lw .outHi E.cfg.base 4, .setPrev .outLo .outHi,
      .pass (next c.op), fenceLine m.fence, i, .setGot .a4 .a5, .ifSame 10, .retry, .jump 3] := by
    show (c.block E).code E.cfg c.op = _
    rw [hb]
    simp only [Block.code, hcode, List.cons_append, List.nil_append]
  have hent : c.entry E = c.st.set E.cfg.base c.addr := by
    obtain ⟨h1, h2, h3⟩ := hop
    unfold Call.entry
    cases h : c.op <;> first | rfl | exact absurd h h1 | exact absurd h (h2 _ _) | exact absurd h (h3 _ _)
  have hused : Used c.op = [.a2, .a3, .a4, .a5, .outLo, .outHi] := by
    obtain ⟨h1, h2, h3⟩ := hop
    cases h : c.op <;> first | rfl | exact absurd h h1 | exact absurd h (h2 _ _) | exact absurd h (h3 _ _)
  have hu : ∀ q, q ∈ [Rv64.Reg.a2, .a3, .a4, .a5] → q ∈ Used c.op := by
    intro q hq; rw [hused]; simp at hq ⊢; rcases hq with h | h | h | h <;> simp [h]
  have hP : Preserved E c (c.entry E) := by rw [hent]; exact fun q _ => rfl
  -- from the loop's head
  have head : ∀ (n : Nat) (t : List Ev) (s : St), Preserved E c s → Trace E c n 3 s t s' → Shape m true t := by
    intro n
    induction n using Nat.strongRecOn with
    | _ n ih =>
      intro t s hs h
      obtain ⟨n1, t1, rfl, rfl, k8⟩ := h.inv_go (i := .pass (next c.op)) (s1 := s.passed (next c.op s.prev))
        (by rw [hprog]; rfl) rfl
      obtain ⟨n2, t2, rfl, rfl, k9⟩ := k8.inv_go (i := fenceLine m.fence) (by rw [hprog]; rfl) (fenceLine_sem _ _ _ _)
      have hse : (blocks E).sem c i (s.passed (next c.op s.prev)) = _ := sem_pass hi hz (hs.passed hu)
      obtain ⟨n3, t3, x, x', v, rfl, hv, rfl, k10⟩ := k9.inv_acc (by rw [hprog]; rfl) hse
      have hgo : ∀ y : BitVec 64, (blocks E).sem c (.setGot .a4 .a5)
          (((s.passed (next c.op s.prev)).set .a4 (lo y)).set .a5 (Rv32.hi y)) =
          .go (s.after (next c.op s.prev) y) := fun y => got_after s (next c.op s.prev) y E.cpu c.addr
      have hif : ∀ y : BitVec 64, (blocks E).sem c (.ifSame 10) (s.after (next c.op s.prev) y) = .br (y == s.prev) 10 :=
        fun y => rfl
      rw [hi.events]
      rcases sem_cas hv with ⟨h0, _, rfl⟩ | ⟨hne, rfl, rfl⟩
      · obtain ⟨n4, t4, rfl, rfl, k11⟩ := k10.inv_go (by rw [hprog]; rfl) (hgo x)
        obtain ⟨n5, t5, rfl, rfl, k12⟩ := k11.inv_br (by rw [hprog]; rfl) (hif x)
        rw [if_pos (by simp [h0])] at k12
        obtain ⟨rfl, -⟩ := k12.inv_done (by rw [hprog]; rfl)
        exact shape_amo ⟨_, Or.inl ⟨rfl, rfl⟩⟩
      · obtain ⟨n4, t4, rfl, rfl, k13⟩ := k10.inv_go (by rw [hprog]; rfl) (hgo x')
        obtain ⟨n5, t5, rfl, rfl, k14⟩ := k13.inv_br (by rw [hprog]; rfl) (hif x')
        rw [if_neg (by simp [hne])] at k14
        obtain ⟨n6, t6, rfl, rfl, k15⟩ := k14.inv_go (i := .retry)
          (s1 := { s.after (next c.op s.prev) x' with prev := x' }) (by rw [hprog]; rfl) rfl
        obtain ⟨n7, t7, rfl, rfl, k16⟩ := k15.inv_br (i := .jump 3) (b := true) (k := 3) (by rw [hprog]; rfl) rfl
        have hS := ih n7 (by omega) _ { s.after (next c.op s.prev) x' with prev := x' }
          (fun q hq => hs.after hu q hq) k16
        have h1 := hS.cons (e := amoEvent m.aq m.rl (.err x')) ⟨rfl, rfl, rfl⟩
        cases hf : m.fence
        · exact h1
        · exact h1.cons trivial
  have hlo : Rv64.Reg.outLo ∈ Used c.op := by rw [hused]; simp
  have hhi : Rv64.Reg.outHi ∈ Used c.op := by rw [hused]; simp
  have h0 : (blocks E).sem c (.lw .outLo E.cfg.base 0) (c.entry E) = _ := sem_lw0 hP
  obtain ⟨n1, t1, x1, y1, v1, -, hv1, rfl, k17⟩ := h.inv_acc (by rw [hprog]; rfl) h0
  have hP1 : Preserved E c ((c.entry E).half .outLo lo v1) := hP.half hlo
  have h4 : (blocks E).sem c (.lw .outHi E.cfg.base 4) ((c.entry E).half .outLo lo v1) = _ := sem_lw4 hP1
  obtain ⟨n2, t2, x2, y2, v2, -, hv2, rfl, k18⟩ := k17.inv_acc (by rw [hprog]; rfl) h4
  have hP2 : Preserved E c (((c.entry E).half .outLo lo v1).half .outHi Rv32.hi v2) := hP1.half hhi
  obtain ⟨n3, t3, -, rfl, k19⟩ := k18.inv_go (i := .setPrev .outLo .outHi) (by rw [hprog]; rfl) rfl
  generalize ((c.entry E).half .outLo lo v1).half .outHi Rv32.hi v2 = s2 at hP2 k19
  have hS := head n3 _ { s2 with prev := join (s2.reg .outLo) (s2.reg .outHi) } (fun q hq => hP2 q hq) k19
  exact (hS.cons (e := .acc true false false false) ⟨rfl, rfl, rfl⟩).cons
    (e := .acc true false false false) ⟨rfl, rfl, rfl⟩

/-! ## Modes -/

/-- What the fences and annotations of a call's `amocas.d` ensure. -/
structure Asked (c : Call) (m : Mode) : Prop where
  acq : (∀ v, c.op ≠ .store v) → Acquiring c.ord → m.aq = true
  acqFail : (∃ x y, c.op = .cas x y ∨ c.op = .casWeak x y) → Acquiring c.fail → m.aq = true
  rel : c.op ≠ .load → Releasing c.ord → m.rl = true
  sc : c.ord = .seqCst → m.aq = true ∧ m.rl = true
  scLoad : c.op = .load → c.ord = .seqCst → m.fence = true
  scFail : (∃ x y, c.op = .cas x y ∨ c.op = .casWeak x y) → c.fail = .seqCst → m.aq = true ∧ m.fence = true

/-- The mode of a block. -/
def Block.mode : Block → Mode
  | .load o => amocasOrder o o
  | .cas s f | .rmw s f => amocasOrder (s.upgradeSuccess f) f
  | _ => ⟨false, false, false⟩

theorem asked (hq : E.Zacas) (c : Call) : Asked c (c.block E).mode := by
  have hv := c.valid
  have hd : E.cfg.zacas = false → E.det = true := by
    intro h; rcases hq with h' | h'
    · rw [h] at h'; cases h'
    · exact h'
  unfold Call.block
  obtain ⟨op, o, f, v, a, st⟩ := c
  simp only at hv ⊢
  cases hz : E.cfg.zacas
  · rw [hd hz]
    cases op with
    | load =>
      cases o <;> first | exact absurd rfl hv.1 | exact absurd rfl hv.2 | skip
      all_goals
        constructor <;> simp [select, loadBlock, hz, Block.mode, amocasOrder, Acquiring]
    | cas x y | casWeak x y =>
      cases o <;> cases f <;> first | exact absurd rfl hv.1 | exact absurd rfl hv.2 | skip
      all_goals
        constructor <;> simp [select, casBlock, hz, Block.mode, amocasOrder, Acquiring, Releasing, MemOrd.upgradeSuccess]
    | _ =>
      cases o
      all_goals
        constructor <;> simp [select, rmwBlock, zacasFn, casBlock, hz, Block.mode, amocasOrder, Acquiring, Releasing,
          MemOrd.upgradeSuccess]
  · cases op with
    | load =>
      cases o <;> first | exact absurd rfl hv.1 | exact absurd rfl hv.2 | skip
      all_goals
        constructor <;> simp [select, loadBlock, hz, Block.mode, amocasOrder, Acquiring]
    | cas x y | casWeak x y =>
      cases o <;> cases f <;> first | exact absurd rfl hv.1 | exact absurd rfl hv.2 | skip
      all_goals
        constructor <;> simp [select, casBlock, hz, Block.mode, amocasOrder, Acquiring, Releasing, MemOrd.upgradeSuccess]
    | _ =>
      cases o
      all_goals
        constructor <;> simp [select, rmwBlock, zacasFn, casBlock, hz, Block.mode, amocasOrder, Acquiring, Releasing,
          MemOrd.upgradeSuccess]

/-- The shape of every call's events. -/
theorem shape (hE : E.Ok) (hq : E.Zacas) (c : Call) {t : List Ev} {r : Res (BitVec 64)} (h : c.Events E t r) :
    ∃ w, Shape (c.block E).mode w t ∧
      (c.op ≠ .load → (∀ x y, c.op ≠ .cas x y ∧ c.op ≠ .casWeak x y) → w = true) ∧ ((∃ x, r = .ok x) → w = true) := by
  have hz : E.cpu = true := hq.elim hE.built hE.detected
  have hg : Good c.op (c.block E) := select_good hq c.valid
  obtain ⟨n, s, h, rfl⟩ := h
  generalize hb : c.block E = b at hg
  generalize hop : c.op = op at hg
  cases hg with
  | load =>
    obtain ⟨w, h⟩ := load_shape hz hop hb h
    refine ⟨w, h, fun h => absurd rfl h, ?_⟩
    rintro ⟨x, hx⟩
    unfold Call.result at hx
    rw [hop] at hx; cases hx
  | cas =>
    obtain ⟨w, h, h'⟩ := cas_shape hz (Or.inl hop) hb h
    exact ⟨w, h, fun _ h => absurd rfl (h _ _).1, h'⟩
  | casWeak =>
    obtain ⟨w, h, h'⟩ := cas_shape hz (Or.inr hop) hb h
    exact ⟨w, h, fun _ h => absurd rfl (h _ _).2, h'⟩
  | rmw hr => exact ⟨true, rmw_shape hz (by rw [hop]; exact hr) hb h, fun _ _ => rfl, fun _ => rfl⟩

end Verif.Rv32
