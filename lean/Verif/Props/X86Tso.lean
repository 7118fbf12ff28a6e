import Verif.X86.TsoSim
import Verif.Tso.Sc
import Verif.Spec.ArmOrder
/-!
# 128-bit atomics and `fence` on the memory of an x86_64 processor (C51)

`tso K (code E) locked` runs the back end, one instruction per step, for any number of 16-byte objects and
threads, on a memory with store buffers (`Spec.Tso`); `native K spec cls` is the memory with native 128-bit
accesses.
-/
set_option autoImplicit false
namespace Verif.X86.Fn
open Verif.Lf Verif.Object Verif.Wide Verif.Tso

variable {K : Type} [DecidableEq K]

/-- **C51a.** The back end behaves, on x86's memory, like native 128-bit accesses: whatever its histories are,
and whatever memory and buffers they lead to, native accesses (a load; a store, with a wait for the store buffer
if it is `SeqCst`; a locked instruction; a wait for `fence(SeqCst)`) can do the same. This includes that no call
executes an instruction the processor does not have. -/
theorem x86_native_tso (E : Env) (ok : E.Ok) (hc : E.Cx16) (M : Tso.Mem K (BitVec 128))
    (h : List (Object.Ev (K × Call) (Option (Res (BitVec 128))))) (s)
    (hx : Runs (tso K (code E) locked) M h s) : ∃ s', Runs (native K spec cls) M h s' ∧ s'.mem = s.mem :=
  (tsim E ok hc).runs hx

/-- **C51b.** If all stores are `SeqCst`, histories on x86's memory are linearizable. -/
theorem x86_seqCst_linearizable (E : Env) (ok : E.Ok) (hc : E.Cx16) (m : K → BitVec 128)
    (h : List (Object.Ev (K × Call) (Option (Res (BitVec 128))))) (s)
    (hx : Runs (tso K (code E) locked) (Mem.flat m) h s)
    (hs : ∀ t k c v, (k, Call.op c) ∈ calls t h → c.op = .store v → c.ord = .seqCst) :
    Linearizable (spec.many (K := K)) m h := by
  obtain ⟨s', hr, -⟩ := x86_native_tso E ok hc _ h s hx
  refine waiting_linearizable hr fun t p v hp he => ?_
  obtain ⟨k, c⟩ := p
  cases c with
  | fence => cases he
  | op c =>
    simp only [cls] at he
    cases hop : c.op <;> rw [hop] at he <;> simp at he
    have := hs t k c _ hp hop
    exact he.2 this

/-- In a thread's calls, between a store that is not `SeqCst` and any later load there is a `fence(SeqCst)`, a `SeqCst`
store, or a read-modify-write (of any ordering; on any object). -/
def FencedCalls (l : List (K × Call)) : Prop :=
  ∀ (i j : Nat) (k k' : K) (p q : OpCall) (v : BitVec 128), i < j → l[i]? = some (k, .op p) → p.op = .store v →
    p.ord ≠ .seqCst → l[j]? = some (k', .op q) → q.op = .load →
    ∃ (n : Nat) (k'' : K), i < n ∧ n < j ∧
      (l[n]? = some (k'', .fence) ∨ ∃ w : OpCall, l[n]? = some (k'', .op w) ∧ w.op ≠ .load ∧
        ((∃ v', w.op = .store v') → w.ord = .seqCst))

theorem fencedCalls {l : List (K × Call)} (h : FencedCalls l) : Fenced (fun p : K × Call => cls p.2) l := by
  intro i j p q v hij hp hq hcp hcq
  obtain ⟨k, p⟩ := p
  obtain ⟨k', q⟩ := q
  cases p with
  | fence => cases hcp
  | op p =>
  cases q with
  | fence => cases hcq
  | op q =>
  have h1 : ∃ v, p.op = .store v ∧ p.ord ≠ .seqCst := by
    simp only [cls] at hcp
    cases hop : p.op <;> rw [hop] at hcp <;> simp at hcp
    exact ⟨_, rfl, hcp.2⟩
  have h2 : q.op = .load := by
    simp only [cls] at hcq
    cases hop : q.op <;> rw [hop] at hcq <;> simp at hcq
  obtain ⟨v', hv, ho⟩ := h1
  obtain ⟨n, k'', h3, h4, h5⟩ := h i j k k' p q v' hij hp hv ho hq h2
  rcases h5 with h5 | ⟨w, h5, h6, h7⟩
  · exact ⟨n, _, h3, h4, h5, rfl⟩
  · refine ⟨n, _, h3, h4, h5, ?_⟩
    simp only [cls]
    cases hop : w.op with
    | load => exact absurd hop h6
    | store v => simp [Cls.waits, h7 ⟨v, hop⟩]
    | _ => rfl

/-- **C51c.** If every thread puts a `fence(SeqCst)`, a `SeqCst` store or a read-modify-write between a store that is
not `SeqCst` and later loads, histories on x86's memory are sequentially consistent. -/
theorem x86_fenced_sc (E : Env) (ok : E.Ok) (hc : E.Cx16) (m : K → BitVec 128)
    (h : List (Object.Ev (K × Call) (Option (Res (BitVec 128))))) (s)
    (hx : Runs (tso K (code E) locked) (Mem.flat m) h s) (hf : ∀ t, FencedCalls (calls t h)) :
    SeqConsistent (spec.many (K := K)) m h := by
  obtain ⟨s', hr, -⟩ := x86_native_tso E ok hc _ h s hx
  exact fenced_sc hr fun t => fencedCalls (hf t)

/-- **C51d.** Where CMPXCHG16B is not known to be available, every operation goes to the sequence lock: it is the same
operation, and the orderings are at least as strong as those asked for. -/
theorem x86_fallback (E : Env) (hc : ¬ E.Cx16) (op : WOp) (o f : MemOrd) (hok : op.OrdOk o f) :
    ∃ o' f', select E op o = .fallback op o' f' ∧ (Arm.Acquiring o ∧ (∀ v, op ≠ .store v) → Arm.Acquiring o') ∧
      (Arm.Releasing o → Arm.Releasing o') ∧ (o = .seqCst → o' = .seqCst) ∧
      ((∃ p q, op = .cas p q ∨ op = .casWeak p q) → f' = .seqCst) ∧ op.OrdOk o' f' := by
  obtain ⟨⟨fc, fa, fs, fn⟩, det, cc, ca, conv⟩ := E
  simp only [Env.Cx16, not_or, Bool.not_eq_true] at hc
  obtain ⟨rfl, hd⟩ := hc
  cases op with
  | store v =>
    cases o with
    | seqCst => exact ⟨.seqCst, .relaxed, by simp [select, selStore, Env.impl, Detect.X86.direct, Detect.X86.pick, hd,
        Arm.Acquiring, Arm.Releasing, WOp.OrdOk]⟩
    | acquire => exact absurd rfl hok.1
    | acqRel => exact absurd rfl hok.2
    | _ => exact ⟨.release, .relaxed, by simp [select, selStore, Env.impl, Detect.X86.direct, Detect.X86.pick, hd,
        Arm.Acquiring, Arm.Releasing, WOp.OrdOk]⟩
  | cas p q | casWeak p q => exact ⟨.seqCst, .seqCst, by simp [select, selCas, Env.impl, Detect.X86.direct, Detect.X86.pick, hd,
        Arm.Acquiring, Arm.Releasing, WOp.OrdOk]⟩
  | _ => exact ⟨.seqCst, .relaxed, by simp [select, selLoad, selRmw, Env.impl, Detect.X86.direct, Detect.X86.pick, hd,
        Arm.Acquiring, Arm.Releasing, WOp.OrdOk]⟩

/-! ## Concrete cases -/

/-- A processor with everything, detected at run time. -/
def ex : Env where
  flags := { cx16 := false, avx := false, sse := true, noDetect := false }
  det := 7
  cpuCx16 := true
  cpuAvx := true
  conv := .unix

example : ex.Ok := by constructor <;> first | decide | exact ⟨by decide, by decide⟩
example : ex.Cx16 := Or.inr (by decide)
/-- One without CMPXCHG16B. -/
example : ¬ ({ ex with det := 1 } : Env).Cx16 := by simp [Env.Cx16, ex]; decide
example : select ex .load .acquire = .asm .loadV := rfl
example : select { ex with det := 5 } .load .acquire = .asm .loadCx := rfl
example : select ex (.store 1) .seqCst = .asm (.storeV 1 true) := rfl

def g0 : Regs := ⟨0, 0, 0, 0, 0, 0, 0, 0, 0, 0, 0⟩
def f0 : Flags := ⟨false, false, false, false⟩
def st (v : BitVec 128) (o : MemOrd) (hv : o ≠ .acquire ∧ o ≠ .acqRel) : Call :=
  .op ⟨.store v, o, .relaxed, hv, 0, g0, f0⟩
def ld : Call := .op ⟨.load, .seqCst, .relaxed, ⟨by decide, by decide⟩, 0, g0, f0⟩

theorem ex_store {M : Tso.Mem K (BitVec 128)} {h s} (hr : Runs (tso K (code ex) locked) M h s) (t : Tid)
    (ht : s.th t = none) (k : K) (v : BitVec 128) :
    ∃ s', Runs (tso K (code ex) locked) M
      (h ++ [.inv t (k, st v .release ⟨by decide, by decide⟩)] ++ [.ret t (some .unit)]) s' ∧
      s'.mem = s.mem.push t k v ∧ s'.th = s.th := by
  have r1 := Exec.ev hr (.inv s t (k, st v .release ⟨by decide, by decide⟩) ht)
  have hn : (code ex).next ((code ex).start (st v .release ⟨by decide, by decide⟩)) = .acc (.op (.store v .release))
      fun _ => .asm (.store v) { X86.code.start ⟨.storeV v false, .unix, 0, g0, f0⟩ with pc := 1 } := rfl
  have hs := CodeStep.store (t := t) (k := k) (m := s.mem) (locked := locked) hn rfl
  have r2 := Exec.tau r1 (.act _ t (k, _) (k, _) _ (by simp; rfl) ⟨Eq.refl k, hs⟩)
  have r3 := Exec.ev r2 (.ret _ t (k, _) (some .unit) (by simp; rfl) rfl)
  refine ⟨_, r3, rfl, ?_⟩
  funext u
  by_cases hu : u = t
  · subst hu; simp [ht]
  · simp [Function.update_of_ne hu]

theorem ex_load {M : Tso.Mem K (BitVec 128)} {h s} (hr : Runs (tso K (code ex) locked) M h s) (t : Tid)
    (ht : s.th t = none) (k : K) :
    ∃ s', Runs (tso K (code ex) locked) M
      (h ++ [.inv t (k, ld)] ++ [.ret t (some (.val (s.mem.view t k)))]) s' ∧ s'.mem = s.mem ∧ s'.th = s.th := by
  have r1 := Exec.ev hr (.inv s t (k, ld) ht)
  have hn : (code ex).next ((code ex).start ld) = .acc (.op (.load .seqCst)) fun r => .asm .load
      (Loc.got (X86.code.start ⟨.loadV, .unix, 0, g0, f0⟩)
        (fun x => { (X86.code.start ⟨.loadV, .unix, 0, g0, f0⟩).regs with xmm := x }) r) := rfl
  have hs := CodeStep.load (t := t) (k := k) (m := s.mem) (locked := locked) (r := .val (s.mem.view t k)) hn rfl rfl
  have r2 := Exec.tau r1 (.act _ t (k, _) (k, _) _ (by simp; rfl) ⟨Eq.refl k, hs⟩)
  have r3 := Exec.ev r2 (.ret _ t (k, _) (some (.val (s.mem.view t k))) (by simp; rfl) rfl)
  refine ⟨_, r3, rfl, ?_⟩
  funext u
  by_cases hu : u = t
  · subst hu; simp [ht]
  · simp [Function.update_of_ne hu]

/-- Store buffering: two threads each store to one object (`Release`) and then load the other. -/
def sb : List (Object.Ev (Bool × Call) (Option (Res (BitVec 128)))) :=
  [.inv 0 (false, st 1 .release ⟨by decide, by decide⟩), .ret 0 (some .unit), .inv 0 (true, ld), .ret 0 (some (.val 0)),
   .inv 1 (true, st 1 .release ⟨by decide, by decide⟩), .ret 1 (some .unit), .inv 1 (false, ld), .ret 1 (some (.val 0))]

/-- Both loads may return the old value … -/
theorem sb_runs : ∃ s, Runs (tso Bool (code ex) locked) (Mem.flat fun _ => 0) sb s := by
  have r0 : Runs (tso Bool (code ex) locked) (Mem.flat fun _ => 0) [] _ := .refl _
  obtain ⟨s1, r1, m1, t1⟩ := ex_store r0 0 rfl false 1
  obtain ⟨s2, r2, m2, t2⟩ := ex_load r1 0 (by rw [t1]) true
  obtain ⟨s3, r3, m3, t3⟩ := ex_store r2 1 (by rw [t2, t1]) true 1
  obtain ⟨s4, r4, m4, t4⟩ := ex_load r3 1 (by rw [t3, t2, t1]) false
  have e2 : s1.mem.view 0 true = 0 := by rw [m1]; rfl
  have e4 : s3.mem.view 1 false = 0 := by rw [m3, m2, m1]; rfl
  rw [e2] at r4
  rw [e4] at r4
  exact ⟨s4, r4⟩

theorem legal_snoc {C O R : Type} {S : Spec C O R} {c c2 : C} {l : List (Act O R)} {a : Act O R}
    (h : Legal S c (l ++ [a]) c2) : ∃ c1, Legal S c l c1 ∧ S.sem a.op c1 c2 a.r := by
  generalize e : l ++ [a] = l' at h
  cases h with
  | nil => simp at e
  | @snoc c' _ l2 a2 h h' =>
    obtain ⟨rfl, e2⟩ := List.append_inj' e rfl
    cases e2
    exact ⟨c', h, h'⟩

theorem interleave {A : Type} (p : A → Bool) {l : List A} {a b c d : A} (h1 : l.filter p = [a, b])
    (h2 : l.filter (fun x => !p x) = [c, d]) :
    l = [a, b, c, d] ∨ l = [a, c, b, d] ∨ l = [a, c, d, b] ∨ l = [c, a, b, d] ∨ l = [c, a, d, b] ∨ l = [c, d, a, b] := by
  have hlen : l.length = 4 := by
    have := List.length_eq_length_filter_add (l := l) p
    rw [h1, h2] at this
    exact this
  match l, hlen with
  | [w, x, y, z], _ =>
    cases hw : p w <;> cases hx : p x <;> cases hy : p y <;> cases hz : p z <;>
      simp [List.filter, hw, hx, hy, hz] at h1 h2 <;> simp [h1, h2]

theorem many_store {c c' : Bool → BitVec 128} {r} {k : Bool} {v : BitVec 128} {o hv}
    (h : (spec.many (K := Bool)).sem (k, st v o hv) c c' r) : c' = Function.update c k v := by
  obtain ⟨x, ⟨w, -, hx, -⟩, rfl⟩ := h
  rw [show x = v from hx]

theorem many_load {c c' : Bool → BitVec 128} {v : BitVec 128} {k : Bool}
    (h : (spec.many (K := Bool)).sem (k, ld) c c' (some (.val v))) : c' = c ∧ c k = v := by
  obtain ⟨x, ⟨w, hw, hx, hr⟩, rfl⟩ := h
  rw [show w = .val (c k) from hr] at hw
  rw [show x = c k from hx]
  simp at hw
  exact ⟨Function.update_eq_self _ _, hw.symm⟩

theorem of_prefixes {O R : Type} {D : List (Act O R)} {ops : List O} {rs : List R} (h1 : D.map Act.op <+: ops)
    (h2 : rs <+: D.map Act.r) (h3 : ops.length = rs.length) : D.map Act.op = ops ∧ D.map Act.r = rs := by
  have l1 := h1.length_le
  have l2 := h2.length_le
  simp only [List.length_map] at l1 l2
  exact ⟨h1.eq_of_length (by simp; omega), (h2.eq_of_length (by simp; omega)).symm⟩

theorem two {O R : Type} {D : List (Act O R)} {p q : O} {x y : R} (h : D.map Act.op = [p, q] ∧ D.map Act.r = [x, y]) :
    ∃ a b, D = [a, b] ∧ a.op = p ∧ b.op = q ∧ b.r = y := by
  match D with
  | [] => simp at h
  | [a] => simp at h
  | [a, b] => simp at h; exact ⟨a, b, rfl, h.1.1, h.1.2, h.2.2⟩
  | a :: b :: c :: D => simp at h

/-- … which is not sequentially consistent: the hypothesis of C51c is needed. -/
theorem sb_not_sc : ¬ SeqConsistent (spec.many (K := Bool)) (fun _ => 0) sb := by
  rintro ⟨l, c', hl, h⟩
  have h0 := of_prefixes (h 0).1 (h 0).2 rfl
  have h1 := of_prefixes (h 1).1 (h 1).2 rfl
  have hn : ∀ t, t ≠ 0 → t ≠ 1 → only t l = [] := by
    intro t e0 e1
    have := (h t).1
    have e : calls t sb = [] := by simp [calls, sb, Ne.symm e0, Ne.symm e1]
    rw [e] at this
    simpa using this
  have ht : ∀ a ∈ l, a.t = 0 ∨ a.t = 1 := by
    intro a ha
    by_cases e0 : a.t = 0
    · exact Or.inl e0
    by_cases e1 : a.t = 1
    · exact Or.inr e1
    have := List.filter_eq_nil_iff.1 (hn a.t e0 e1) a ha
    simp at this
  have hf : only 1 l = l.filter fun a => !(a.t == 0) := by
    refine List.filter_congr fun a ha => ?_
    rcases ht a ha with e | e <;> rw [e] <;> rfl
  rw [hf] at h1
  obtain ⟨a, b, f0, ha, hb, hbr⟩ := two h0
  obtain ⟨c, d, f1, hcc, hd, hdr⟩ := two h1
  have last4 : ∀ {w x y z : Act (Bool × Call) (Option (Res (BitVec 128)))},
      Legal (spec.many (K := Bool)) (fun _ => 0) [w, x, y, z] c' → ∃ c1 c2 c3,
        (spec.many (K := Bool)).sem w.op (fun _ => 0) c1 w.r ∧ (spec.many (K := Bool)).sem x.op c1 c2 x.r ∧
        (spec.many (K := Bool)).sem y.op c2 c3 y.r ∧ (spec.many (K := Bool)).sem z.op c3 c' z.r := by
    intro w x y z hl
    obtain ⟨c3, hl, h4⟩ := legal_snoc (l := [w, x, y]) hl
    obtain ⟨c2, hl, h3⟩ := legal_snoc (l := [w, x]) hl
    obtain ⟨c1, hl, h2⟩ := legal_snoc (l := [w]) hl
    obtain ⟨c0, hl, h1⟩ := legal_snoc (l := []) hl
    have : c0 = fun _ => 0 := by
      generalize e : ([] : List (Act (Bool × Call) (Option (Res (BitVec 128))))) = l0 at hl
      cases hl with
      | nil => rfl
      | snoc h h' => simp at e
    subst this
    exact ⟨c1, c2, c3, h1, h2, h3, h4⟩
  rcases interleave (fun a : Act (Bool × Call) (Option (Res (BitVec 128))) => a.t == 0) (l := l) f0 f1 with rfl | rfl | rfl | rfl | rfl | rfl <;>
    obtain ⟨c1, c2, c3, h1, h2, h3, h4⟩ := last4 hl <;>
    simp only [ha, hb, hcc, hd, hbr, hdr] at h1 h2 h3 h4
  · have e1 := many_store h1
    obtain ⟨e2, -⟩ := many_load h2
    have e3 := many_store h3
    obtain ⟨-, e4⟩ := many_load h4
    rw [e3, e2, e1] at e4; exact absurd e4 (by decide)
  · have e1 := many_store h1
    have e2 := many_store h2
    obtain ⟨e3, e4⟩ := many_load h3
    rw [e2] at e4; exact absurd e4 (by simp)
  · have e1 := many_store h1
    have e2 := many_store h2
    obtain ⟨e3, e4⟩ := many_load h3
    rw [e2, e1] at e4; exact absurd e4 (by decide)
  · have e1 := many_store h1
    have e2 := many_store h2
    obtain ⟨e3, e4⟩ := many_load h3
    rw [e2, e1] at e4; exact absurd e4 (by decide)
  · have e1 := many_store h1
    have e2 := many_store h2
    obtain ⟨e3, e4⟩ := many_load h3
    rw [e2] at e4; exact absurd e4 (by simp)
  · have e1 := many_store h1
    obtain ⟨e2, -⟩ := many_load h2
    have e3 := many_store h3
    obtain ⟨-, e4⟩ := many_load h4
    rw [e3, e2, e1] at e4; exact absurd e4 (by decide)

/-- With a `fence(SeqCst)` after each store the hypothesis of C51c holds. -/
example : FencedCalls [(false, st 1 .release ⟨by decide, by decide⟩), (false, .fence), (true, ld)] := by
  intro i j k k' p q v hij hi hp ho hj hq
  match i, j with
  | 0, 0 => omega
  | 0, 1 => simp at hj
  | 0, 2 => exact ⟨1, false, by omega, by omega, Or.inl rfl⟩
  | 0, j + 3 => simp at hj
  | 1, _ => simp at hi
  | 2, _ =>
    simp at hi
    obtain ⟨-, hi⟩ := hi
    cases hi; cases hp
  | i + 3, _ => simp at hi

/-- … and without it does not. -/
example : ¬ FencedCalls [(false, st 1 .release ⟨by decide, by decide⟩), (true, ld)] := by
  intro h
  obtain ⟨n, k, h1, h2, -⟩ := h 0 1 _ _ _ _ _ (by decide) rfl rfl (by decide) rfl rfl
  omega

end Verif.X86.Fn
