import Verif.X86.Sim
import Verif.Spec.X86Fn
/-!
# The x86_64 back end on the processor's memory behaves like native accesses
-/
set_option autoImplicit false
namespace Verif.X86.Fn
open Verif.Lf Verif.Object Verif.Wide

/-- The blocks an operation may run. -/
inductive Fits : WOp → MemOrd → Block → Prop where
  | loadV {o} : Fits .load o .loadV
  | loadCx {o} : Fits .load o .loadCx
  | storeV {v o} : Fits (.store v) o (.storeV v (o == .seqCst))
  | storeCx {v o} : Fits (.store v) o (.swap v)
  | swap {v o} : Fits (.swap v) o (.swap v)
  | cas {p q o} : Fits (.cas p q) o (.cas p q)
  | casWeak {p q o} : Fits (.casWeak p q) o (.cas p q)
  | rmw3 {p v o} : Fits (.rmw3 p v) o (.rmw3 p v)
  | rmw2 {p o} : Fits (.rmw2 p) o (.rmw2 p)

theorem selRmw_asm {E : Env} {n op b b'} (h : selRmw E n op b = .asm b') : b' = b := by
  unfold selRmw at h
  split at h
  · cases h
  · cases h; rfl

theorem fits {E : Env} {op : WOp} {o : MemOrd} {b : Block} (h : select E op o = .asm b) : Fits op o b := by
  cases op with
  | load =>
    simp only [select, selLoad] at h
    split at h <;> cases h <;> constructor
  | store v =>
    simp only [select, selStore] at h
    cases o <;> simp only at h <;> (first | (cases h; done) | (split at h <;> cases h <;> first | exact .storeV | exact .storeCx))
  | swap v => obtain rfl := selRmw_asm h; constructor
  | cas p q =>
    simp only [select, selCas] at h
    split at h <;> cases h; constructor
  | casWeak p q =>
    simp only [select, selCas] at h
    split at h <;> cases h; constructor
  | rmw3 p v => obtain rfl := selRmw_asm h; constructor
  | rmw2 p => obtain rfl := selRmw_asm h; constructor

/-- With CMPXCHG16B, a valid call runs a block whose instructions the processor has. -/
theorem select_asm {E : Env} (ok : E.Ok) (hc : E.Cx16) {op : WOp} {o f : MemOrd} (hv : op.OrdOk o f) :
    ∃ b, select E op o = .asm b ∧ E.has b = true := by
  obtain ⟨⟨fc, fa, fs, fn⟩, det, cc, ca, conv⟩ := E
  have h1 := ok.cx16
  have h2 := ok.avx
  have h3 := ok.detCx16
  have h4 := ok.detAvx
  simp only [Env.Cx16] at hc h1 h2 h3 h4
  have e : ∀ x : Nat, Detect.testBit det x = true ∨ Detect.testBit det x = false := fun x => by
    cases Detect.testBit det x <;> simp
  cases op with
  | load =>
    simp only [select, selLoad, Env.impl, Detect.X86.direct, Detect.X86.pick]
    rcases e Detect.X86.cmpxchg16b with h5 | h5 <;> rcases e Detect.X86.avx with h6 | h6 <;>
      cases fc <;> cases fa <;> cases fn <;> cases fs <;>
      simp_all [Env.has]
  | store v =>
    cases o <;> simp [WOp.OrdOk] at hv <;>
    simp only [select, selStore, Env.impl, Detect.X86.direct, Detect.X86.pick] <;>
    rcases e Detect.X86.cmpxchg16b with h5 | h5 <;> rcases e Detect.X86.avx with h6 | h6 <;>
      cases fc <;> cases fa <;> cases fn <;> cases fs <;>
      simp_all [Env.has]
  | cas p q =>
    simp only [select, selCas, Env.impl, Detect.X86.direct, Detect.X86.pick]
    rcases e Detect.X86.cmpxchg16b with h5 | h5 <;> cases fc <;> simp_all [Env.has]
  | casWeak p q =>
    simp only [select, selCas, Env.impl, Detect.X86.direct, Detect.X86.pick]
    rcases e Detect.X86.cmpxchg16b with h5 | h5 <;> cases fc <;> simp_all [Env.has]
  | swap v =>
    simp only [select, selRmw, Env.impl, Detect.X86.direct, Detect.X86.pick]
    rcases e Detect.X86.cmpxchg16b with h5 | h5 <;> cases fc <;> simp_all [Env.has]
  | rmw3 p v =>
    simp only [select, selRmw, Env.impl, Detect.X86.direct, Detect.X86.pick]
    rcases e Detect.X86.cmpxchg16b with h5 | h5 <;> cases fc <;> simp_all [Env.has]
  | rmw2 p =>
    simp only [select, selRmw, Env.impl, Detect.X86.direct, Detect.X86.pick]
    rcases e Detect.X86.cmpxchg16b with h5 | h5 <;> cases fc <;> simp_all [Env.has]

theorem block_sem {op : WOp} {o : MemOrd} {b : Block} (h : Fits op o b) {x x' : BitVec 128} {r : Res (BitVec 128)}
    (hs : b.Sem x x' r) : op.Sem x x' (fix op r) := by
  cases h with
  | loadV => exact hs
  | loadCx => exact hs
  | storeV => exact ⟨hs.1, rfl⟩
  | storeCx => exact ⟨hs.1, rfl⟩
  | swap => exact hs
  | cas => exact hs
  | casWeak =>
    rcases hs with h | ⟨-, h⟩
    · exact Or.inl h
    · exact Or.inr h
  | @rmw3 p v o => cases p <;> exact hs
  | @rmw2 p o => cases p <;> exact hs

/-- The access at a program point, and whether its instruction is locked. -/
theorem step_acc {op : WOp} {l : X86.Loc} {a : Acc (BitVec 128)} {f} (h : step l = .acc a f) :
    ((∃ o, a = .op (.load o)) ∧ locked (.asm op l) = false) ∨
    ((∃ v, a = .op (.store v .release)) ∧ locked (.asm op l) = false) ∨
    ((∃ p q, a = .op (.cas p q .seqCst .seqCst)) ∧ locked (.asm op l) = true) := by
  cases hi : l.ins with
  | none => simp [step, hi] at h
  | some i =>
    cases i <;> simp only [step, hi] at h <;>
      first
      | (split at h <;> cases h; simp [locked, hi])
      | cases h
      | (simp [Ins.exec] at h)

/-- Progress of a call. -/
inductive At (E : Env) : FLoc → Tso.Loc Call (Option (Res (BitVec 128))) → Prop where
  | pending {c : OpCall} {l : X86.Loc} {ac : X86.Call} {n : Nat} (hs : select E c.op c.ord = .asm ac.block)
      (ha : Anchor ac (tauN n l)) : At E (.asm c.op l) (.pending (.op c))
  | wait {op : WOp} {l : X86.Loc} {g : Res (BitVec 128) × Regs} (hi : l.ins = some .fence)
      (hr : step { l with pc := l.pc + 1 } = .ret g) : At E (.asm op l) (.wait (some (fix op g.1)))
  | done {op : WOp} {l : X86.Loc} {g : Res (BitVec 128) × Regs} {n : Nat} (hr : step (tauN n l) = .ret g) :
      At E (.asm op l) (.done (some (fix op g.1)))
  | xchg : At E .xchg (.pending .fence)
  | fenced : At E .done (.done (some .unit))

/-- After the vector store. -/
theorem storeV_after {c : X86.Call} {l : X86.Loc} {v : BitVec 128} {w : Bool} (hb : c.block = .storeV v w)
    (h : Anchor c l) :
    step l = .acc (.op (.store v .release)) (fun _ => { l with pc := l.pc + 1 }) ∧
      (w = false → step { l with pc := l.pc + 1 } = .ret (.unit, l.regs)) ∧
      (w = true → Loc.ins { l with pc := l.pc + 1 } = some .fence ∧
        step { l with pc := l.pc + 1 + 1 } = .ret (.unit, l.regs)) := by
  obtain ⟨block, conv, addr, g, fl⟩ := c
  obtain ⟨call, pc, regs, flags⟩ := l
  simp only at hb; subst hb
  obtain ⟨hc, hp, hr⟩ := h
  simp only at hc hp hr; subst hc hp hr
  cases conv <;> cases w <;>
    refine ⟨step_stx rfl rfl, ?_, ?_⟩ <;> intro h <;> first | (cases h; done) | rfl | exact ⟨rfl, rfl⟩

theorem next_asm_acc {op : WOp} {l : X86.Loc} {a f} (h : next (.asm op l) = .acc a f) :
    ∃ f', step l = .acc a f' ∧ f = fun r => .asm op (f' r) := by
  simp only [next] at h
  cases hs : step l with
  | ret r => rw [hs] at h; cases h
  | tau k => rw [hs] at h; cases h
  | acc a' f' => rw [hs] at h; cases h; exact ⟨f', rfl, rfl⟩

theorem next_asm_tau {op : WOp} {l : X86.Loc} {k} (h : next (.asm op l) = .tau k) :
    ∃ l', step l = .tau l' ∧ k = .asm op l' := by
  simp only [next] at h
  cases hs : step l with
  | ret r => rw [hs] at h; cases h
  | tau k' => rw [hs] at h; cases h; exact ⟨_, rfl, rfl⟩
  | acc a' f' => rw [hs] at h; cases h

theorem next_asm_ret {op : WOp} {l : X86.Loc} {r} (h : next (.asm op l) = .ret r) :
    ∃ g, step l = .ret g ∧ r = some (fix op g.1) := by
  simp only [next] at h
  cases hs : step l with
  | ret g => rw [hs] at h; cases h; exact ⟨g, rfl, rfl⟩
  | tau k' => rw [hs] at h; cases h
  | acc a' f' => rw [hs] at h; cases h

theorem tauN_step {l k : X86.Loc} (h : step l = .tau k) (n : Nat) : tauN n l = tauN (n - 1) k ∨ n = 0 := by
  cases n with
  | zero => exact Or.inr rfl
  | succ n => exact Or.inl (tauN_tau h n)

/-- The classes of operations and blocks agree. -/
theorem commit_cls {c : OpCall} {b : Block} (h : Fits c.op c.ord b) {p q : BitVec 128}
    (hcom : b.commit (.op (.cas p q .seqCst .seqCst))) {x x' : BitVec 128} {r : Res (BitVec 128)} (hs : b.Sem x x' r) :
    cls (.op c) = .rmw ∨ (cls (.op c) = .load ∧ x' = x) ∨
      ∃ w, cls (.op c) = .store x' w ∧ ∀ y, spec.sem (.op c) y x' (some (fix c.op r)) := by
  obtain ⟨op, ord, fail, valid, addr, regs, flags⟩ := c
  simp only at h ⊢
  cases h with
  | loadV => cases hcom
  | loadCx => exact Or.inr (Or.inl ⟨rfl, hs.1⟩)
  | storeV => cases hcom
  | storeCx => obtain ⟨rfl, -⟩ := hs; exact Or.inr (Or.inr ⟨_, rfl, fun y => ⟨_, rfl, rfl, rfl⟩⟩)
  | swap => exact Or.inl rfl
  | cas => exact Or.inl rfl
  | casWeak => exact Or.inl rfl
  | rmw3 => exact Or.inl rfl
  | rmw2 => exact Or.inl rfl

/-- The back end simulates native accesses. -/
def tsim (E : Env) (ok : E.Ok) (hc : E.Cx16) : Tso.TSim (code E) locked spec cls where
  at_ := At E
  start := by
    intro op
    cases op with
    | op c =>
      obtain ⟨b, h1, h2⟩ := select_asm ok hc c.valid
      obtain ⟨n, ha⟩ := start_anchor ⟨b, E.conv, c.addr, c.regs, c.flags⟩
      simp only [code, start, h1, h2, if_true]
      exact .pending h1 ha
    | fence => exact .xchg
  tau := by
    intro l st l' hat hn
    have hn' : next l = .tau l' := hn
    cases hat with
    | @pending c l ac n hs ha =>
      obtain ⟨k, hk, rfl⟩ := next_asm_tau hn'
      refine Or.inl (.pending (n := n - 1) hs ?_)
      rcases tauN_step hk n with e | rfl
      · rw [← e]; exact ha
      · obtain ⟨a, f, hst, _⟩ := anchor_ok ha
        simp only [tauN] at hst
        rw [hk] at hst; cases hst
    | @wait op l g hi hr =>
      obtain ⟨k, hk, rfl⟩ := next_asm_tau hn'
      refine Or.inr ⟨by simp [locked, hi], Or.inl ⟨_, rfl, ?_⟩⟩
      simp only [step, hi, Next.tau.injEq] at hk
      subst hk
      exact .done (n := 0) hr
    | @done op l g n hr =>
      obtain ⟨k, hk, rfl⟩ := next_asm_tau hn'
      refine Or.inl (.done (n := n - 1) ?_)
      rcases tauN_step hk n with e | rfl
      · rw [← e]; exact hr
      · simp only [tauN] at hr
        rw [hk] at hr; cases hr
    | xchg =>
      simp only [next, Next.tau.injEq] at hn'
      subst hn'
      exact Or.inr ⟨rfl, Or.inr ⟨_, some .unit, rfl, rfl, fun _ => ⟨rfl, rfl⟩, .fenced⟩⟩
    | fenced => cases hn'
  load := by
    intro l st o f x r hat hn hl hs
    have hn' : next l = .acc (.op (.load o)) f := hn
    cases hat with
    | @pending c l ac n hsel ha =>
      obtain ⟨f', hst, rfl⟩ := next_asm_acc hn'
      rw [tauN_acc hst] at ha
      obtain ⟨a', f2, hst2, hok⟩ := anchor_ok ha
      rw [hst] at hst2
      obtain ⟨rfl, rfl⟩ := Next.acc.inj hst2
      rcases hok x x r hs with ⟨-, n', h2, -⟩ | ⟨r', h1, h3, n', h2⟩
      · exact Or.inl (.pending hsel h2)
      · have hfit := fits hsel
        refine Or.inr ⟨_, some (fix c.op r'.1), rfl, ?_, ⟨_, rfl, block_sem hfit h1.1⟩, .done h2⟩
        generalize hb : ac.block = b at hfit h3
        generalize hop : c.op = op at hfit
        generalize c.ord = oo at hfit
        cases hfit <;> first | (cases h3; done) | simp only [cls, hop]
    | @wait op l g hi hr =>
      obtain ⟨f', hst, rfl⟩ := next_asm_acc hn'
      simp [step, hi] at hst
    | @done op l g n hr =>
      obtain ⟨f', hst, rfl⟩ := next_asm_acc hn'
      rw [tauN_acc hst, hst] at hr; cases hr
    | xchg => cases hn'
    | fenced => cases hn'
  store := by
    intro l st v o f hat hn hl
    have hn' : next l = .acc (.op (.store v o)) f := hn
    cases hat with
    | @pending c l ac n hsel ha =>
      obtain ⟨f', hst, rfl⟩ := next_asm_acc hn'
      rw [tauN_acc hst] at ha
      have hblock : ∃ w, ac.block = .storeV v w := by
        obtain ⟨a', f2, hst2, hok⟩ := anchor_ok ha
        rw [hst] at hst2
        obtain ⟨rfl, rfl⟩ := Next.acc.inj hst2
        cases hb : ac.block with
        | storeV v' w =>
          obtain ⟨h1, -, -⟩ := storeV_after hb ha
          rw [hst] at h1
          obtain ⟨h1, -⟩ := Next.acc.inj h1
          cases h1
          exact ⟨w, rfl⟩
        | _ =>
          exfalso
          obtain rfl : o = .release := by
            rcases step_acc (op := c.op) hst with ⟨⟨_, e⟩, -⟩ | ⟨⟨_, e⟩, -⟩ | ⟨⟨_, _, e⟩, -⟩ <;> cases e
            rfl
          rcases hok (~~~v) v .unit (by simp [Acc.sem, Op.onCell, Op.ordOk]) with ⟨h1, -⟩ | ⟨r', -, h3, -⟩
          · have := congrArg (fun b : BitVec 128 => b.getLsbD 0) h1
            simp at this
          · rw [hb] at h3; cases h3
      obtain ⟨w, hb⟩ := hblock
      have hfit := fits hsel
      obtain ⟨h1, h2, h3⟩ := storeV_after hb ha
      rw [hst] at h1
      obtain ⟨-, rfl⟩ := Next.acc.inj h1
      have key : c.op = .store v ∧ w = (c.ord == .seqCst) := by
        rw [hb] at hfit
        generalize c.op = op at hfit
        generalize c.ord = oo at hfit
        cases hfit; exact ⟨rfl, rfl⟩
      have hcl : cls (.op c) = .store v w := by rw [key.2]; simp only [cls, key.1]
      have hsem : ∀ x, spec.sem (.op c) x v (some (fix c.op .unit)) := fun x =>
        ⟨_, rfl, by rw [key.1]; exact ⟨rfl, rfl⟩⟩
      refine ⟨_, w, _, rfl, hcl, hsem, ?_⟩
      cases w with
      | false => exact .done (n := 0) (g := (.unit, l.regs)) (h2 rfl)
      | true => exact .wait (g := (.unit, l.regs)) (h3 rfl).1 (h3 rfl).2
    | @wait op l g hi hr =>
      obtain ⟨f', hst, rfl⟩ := next_asm_acc hn'
      simp [step, hi] at hst
    | @done op l g n hr =>
      obtain ⟨f', hst, rfl⟩ := next_asm_acc hn'
      rw [tauN_acc hst, hst] at hr; cases hr
    | xchg => cases hn'
    | fenced => cases hn'
  acc := by
    intro l st a f x x' r hat hn hl hs
    have hn' : next l = .acc a f := hn
    cases hat with
    | @pending c l ac n hsel ha =>
      obtain ⟨f', hst, rfl⟩ := next_asm_acc hn'
      rw [tauN_acc hst] at ha
      obtain ⟨a', f2, hst2, hok⟩ := anchor_ok ha
      rw [hst] at hst2
      obtain ⟨rfl, rfl⟩ := Next.acc.inj hst2
      rcases hok x x' r hs with ⟨h1, n', h2, -⟩ | ⟨r', h1, h3, n', h2⟩
      · exact Or.inl ⟨h1, .pending hsel h2⟩
      · have hfit := fits hsel
        rcases step_acc (op := c.op) hst with ⟨-, e⟩ | ⟨-, e⟩ | ⟨⟨p, q, rfl⟩, -⟩
        · rw [e] at hl; cases hl
        · rw [e] at hl; cases hl
        exact Or.inr ⟨_, some (fix c.op r'.1), rfl, ⟨_, rfl, block_sem hfit h1.1⟩, .done h2,
          commit_cls hfit h3 h1.1⟩
    | @wait op l g hi hr =>
      obtain ⟨f', hst, rfl⟩ := next_asm_acc hn'
      simp [step, hi] at hst
    | @done op l g n hr =>
      obtain ⟨f', hst, rfl⟩ := next_asm_acc hn'
      rw [tauN_acc hst, hst] at hr; cases hr
    | xchg => cases hn'
    | fenced => cases hn'
  ret := by
    intro l st r hat hn
    have hn' : next l = .ret r := hn
    cases hat with
    | @pending c l ac n hs ha =>
      obtain ⟨g, hg, rfl⟩ := next_asm_ret hn'
      rw [tauN_ret hg] at ha
      obtain ⟨a', f', hst, _⟩ := anchor_ok ha
      rw [hg] at hst; cases hst
    | @wait op l g hi hr =>
      obtain ⟨g, hg, rfl⟩ := next_asm_ret hn'
      simp [step, hi] at hg
    | @done op l g n hr =>
      obtain ⟨g', hg, rfl⟩ := next_asm_ret hn'
      rw [tauN_ret hg, hg] at hr
      cases hr; rfl
    | xchg => cases hn'
    | fenced => cases hn'; rfl

end Verif.X86.Fn
