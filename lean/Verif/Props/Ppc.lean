import Verif.Ppc.OrderProof
import Verif.Lf.LlScRun
import Verif.Utils.Pair
/-!
# 128-bit atomics on PowerPC64 (C39, C40)

`(blocks E).code.sys K` runs the inline-assembly blocks of `powerpc64.rs`, one instruction per step, for
any number of 16-byte objects (`K`) and threads, from arbitrary contents of registers and condition
register, whichever operand the compiler puts in `r0`, with a build and processor `E`.
-/
set_option autoImplicit false
namespace Verif.Ppc
open Verif.Lf Verif.Object Verif.Asm Verif.Wide
open Verif.Arm (Acquiring Releasing AsksRelease AsksSeqCst fn3_sem fn2_sem)

/-! ## Values -/

/-- **C39a.** The instructions of a read-modify-write between `lqarx` and `stqcx.`, from any registers,
condition register and carry: they leave the operation's result on 128-bit integers in `r8`, `r9` and every
other register as it was. -/
theorem ppc_rmw3_value (r0 : Option Reg) (h6 : r0 ≠ some .r6) (h7 : r0 ≠ some .r7) (h9 : r0 ≠ some .r9)
    (o : Op3) (s : St) :
    ∃ s', execs r0 (body3 o) s = some s' ∧
      (WOp.rmw3 o (join (s.reg .valHi) (s.reg .valLo))).Sem (join (s.reg .r6) (s.reg .r7))
        (join (s'.reg .r8) (s'.reg .r9)) (.val (join (s.reg .r6) (s.reg .r7))) ∧
      (∀ q, q ≠ .r8 → q ≠ .r9 → s'.reg q = s.reg q) := by
  obtain ⟨s', h⟩ := body3_run h6 h7 h9 o s
  exact ⟨s', h.run, by rw [h.val]; exact fn3_sem o _ _, h.frame⟩

/-- **C39b.** `neg`, both versions. -/
theorem ppc_neg_value (r0 : Option Reg) (old : Bool) (s : St) (hz : old = true → s.reg .zero = 0) :
    ∃ s', execs r0 (bodyNeg old) s = some s' ∧
      (WOp.rmw2 .neg).Sem (join (s.reg .r6) (s.reg .r7))
        (join (s'.reg .r8) (s'.reg .r9)) (.val (join (s.reg .r6) (s.reg .r7))) ∧
      (∀ q, q ≠ .r8 → q ≠ .r9 → s'.reg q = s.reg q) := by
  obtain ⟨s', h⟩ := bodyNeg_run (r0 := r0) old s hz
  exact ⟨s', h.run, by rw [h.val]; exact fn2_sem .neg _, h.frame⟩

/-- The register words the blocks exchange with Rust are the halves of the `U128` union (C30): on both
byte orders `pair.hi` is the more significant one, which is what the even register of a pair holds. -/
theorem ppc_halves_are_union (e : Pair.Endian) (x : BitVec 128) :
    Pair.pair e false 8 x.toNat = ((X86.lo x).toNat, (X86.hi x).toNat) := by
  have hx : x.toNat < 2 ^ (8 * (8 + 8)) := x.isLt
  rw [Pair.pair_eq _ _ _ _ hx, if_neg (by simp)]
  simp only [X86.lo, X86.hi, BitVec.extractLsb'_toNat, Nat.shiftRight_eq_div_pow]
  have := x.isLt
  congr 1 <;> omega

/-! ## Concurrent histories -/

/-- **C39c.** Where the quadword instructions are known to be available (at compile time or by detection),
every concurrent history of 128-bit operations is linearizable with respect to a plain 128-bit integer,
whatever `stqcx.` fail.  No call faults, and each leaves alone the registers and the parts of the
condition register and XER its operands do not declare. -/
theorem ppc_linearizable {E : Env} (hE : E.Ok) (hq : E.Quad) {K : Type} [DecidableEq K]
    (m : K → LlSc.Cell (BitVec 128))
    (h : List (Object.Ev (K × Call) (Option (Res (BitVec 128) × St)))) (s)
    (hx : Runs ((blocks E).code.sys K) m h s) :
    LinearizableTo ((spec E).many (K := K)) (fun k => (m k).val) h (fun k => (s.mem k).val) :=
  Asm.linearizable (fun c => (Classical.choice (correct_exist hE hq c)).toPoints) hx

/-- **C39d.** Undisturbed, every operation finishes, whatever the registers contain at entry, having
done exactly what is specified. -/
theorem ppc_finishes {E : Env} (hE : E.Ok) (hq : E.Quad) (c : Call) (x : BitVec 128) :
    (blocks E).code.Ends (fun r y => (spec E).sem c x y r) ((blocks E).code.start c) false x :=
  Asm.finishes (Classical.choice (correct_exist hE hq c)) x

/-- The sequence lock does the work, with orderings `o'`, `f'`. -/
def Block.IsFallback (b : Block) (o' f' : MemOrd) : Prop := b = .fallback o' f'

/-- **C39e.** Where they are not known to be available, every operation goes to the sequence lock (C01),
with orderings that ask for no less than the caller did: never are some operations on an object done by
instructions and others under the lock. -/
theorem ppc_fallback {E : Env} (hq : ¬ E.Quad) (c : Call) :
    ∃ o' f', (c.block E).IsFallback o' f' ∧
      (c.op.OrdOk o' f') ∧
      (Acquiring c.ord → (∀ v, c.op ≠ .store v) → Acquiring o') ∧
      (Releasing c.ord → c.op ≠ .load → Releasing o') ∧
      (c.ord = .seqCst → o' = .seqCst) ∧
      (((∃ x y, c.op = .cas x y) ∨ ∃ x y, c.op = .casWeak x y) →
        (Acquiring c.fail → Acquiring f') ∧ (c.fail = .seqCst → f' = .seqCst)) := by
  have h1 : E.cfg.quad = false := by
    cases h : E.cfg.quad
    · rfl
    · exact absurd (Or.inl h) hq
  have h2 : E.det = false := by
    cases h : E.det
    · rfl
    · exact absurd (Or.inr h) hq
  have hv := c.valid
  unfold Call.block Block.IsFallback
  generalize c.op = op at *
  generalize c.ord = o at *
  generalize c.fail = f at *
  cases op with
  | rmw2 p =>
    cases p <;> cases o <;>
      simp_all [select, rmwBlock, WOp.OrdOk, Acquiring, Releasing]
  | cas x y | casWeak x y =>
    cases o <;> cases f <;>
      simp_all [select, casBlock, casWeakBlock, WOp.OrdOk, Acquiring, Releasing, MemOrd.upgradeSuccess, and_assoc]
  | _ =>
    cases o <;>
      simp_all [select, loadBlock, storeBlock, rmwBlock, WOp.OrdOk, Acquiring, Releasing]

/-- With the instructions, no call is left to the lock. -/
theorem ppc_no_fallback {E : Env} (hq : E.Quad) (c : Call) (o' f' : MemOrd) :
    ¬ (c.block E).IsFallback o' f' := by
  have hg : Good c.op (c.block E) := select_good hq c.valid
  intro h
  unfold Block.IsFallback at h
  rw [h] at hg
  generalize c.op = op at hg
  cases hg

/-! ## Orderings -/

/-- Every call has a completed execution, so the theorems below are about something. -/
theorem ppc_events_exist {E : Env} (hE : E.Ok) (hq : E.Quad) (c : Call) : ∃ t r, c.Events E t r := by
  let A := blocks E
  have key : ∀ (l : Loc Call St (BitVec 64)) (ρ : Bool) (x : BitVec 128) (Q : _ → BitVec 128 → Prop)
      (_ : ∀ y, ¬ Q none y), A.code.Ends Q l ρ x → l.call = c → l.half = none → ∀ τ,
      ∃ t s', Trace E c l.pc l.st τ t s' := by
    intro l ρ x Q hQ h
    have hpr : A.prog c = (c.block E).code := rfl
    have hse : ∀ i s, A.sem c i s = i.sem E.cpu c.r0 c.addr s := fun _ _ => rfl
    have no2 : ∀ (i : Ins) (s : St) w k, i.sem E.cpu c.r0 c.addr s ≠ .ll2 w k := by
      intro i s w k h
      cases i with
      | lq | stq | lqarx | stqcx =>
        simp only [Ins.sem] at h
        split at h
        · split at h <;> cases h
        · cases h
      | _ => cases h
    induction h with
    | @ret l ρ x r h hq' =>
      intro hc hh τ
      simp only [Blocks.code, Blocks.next, hc, hpr, hse] at h
      cases hp : (c.block E).code[l.pc]? with
      | none => exact ⟨_, _, .done hp⟩
      | some i =>
        simp only [hp] at h
        cases hs : i.sem E.cpu c.r0 c.addr l.st with
        | fault => simp only [hs] at h; cases h; exact absurd hq' (hQ _)
        | ll2 w k => exact absurd hs (no2 _ _ _ _)
        | _ => simp [hs] at h
    | @tau l ρ x l' h _ ih =>
      intro hc hh τ
      simp only [Blocks.code, Blocks.next, hc, hpr, hse] at h
      cases hp : (c.block E).code[l.pc]? with
      | none => simp [hp] at h
      | some i =>
        simp only [hp] at h
        cases hs : i.sem E.cpu c.r0 c.addr l.st with
        | go s' =>
          simp only [hs, LlSc.Next.tau.injEq] at h
          subst h
          obtain ⟨t, s', ht⟩ := ih hc hh (i.taint τ)
          exact ⟨_, _, .go hp hs ht⟩
        | br b n =>
          simp only [hs, LlSc.Next.tau.injEq] at h
          subst h
          obtain ⟨t, s', ht⟩ := ih rfl hh (i.taint τ)
          exact ⟨_, _, .br hp hs ht⟩
        | ll2 w k => exact absurd hs (no2 _ _ _ _)
        | _ => simp [hs] at h
    | @acc l ρ x a f h _ ih =>
      intro hc hh τ
      simp only [Blocks.code, Blocks.next, hc, hpr, hse] at h
      cases hp : (c.block E).code[l.pc]? with
      | none => simp [hp] at h
      | some i =>
        simp only [hp] at h
        cases hs : i.sem E.cpu c.r0 c.addr l.st with
        | acc a' k =>
          simp only [hs, LlSc.Next.acc.injEq] at h
          obtain ⟨rfl, rfl⟩ := h
          obtain ⟨t, s', ht⟩ := ih _ _ (a'.exec_sem false x) hc hh (i.taint τ)
          exact ⟨_, _, .acc hp hs (a'.exec_sem false x) ht⟩
        | ll2 w k => exact absurd hs (no2 _ _ _ _)
        | _ => simp [hs] at h
    | @ll l ρ x f h _ ih =>
      intro hc hh τ
      simp only [Blocks.code, Blocks.next, hc, hpr, hse] at h
      cases hp : (c.block E).code[l.pc]? with
      | none => simp [hp] at h
      | some i =>
        simp only [hp] at h
        cases hs : i.sem E.cpu c.r0 c.addr l.st with
        | ll k =>
          simp only [hs, LlSc.Next.ll.injEq] at h
          subst h
          obtain ⟨t, s', ht⟩ := ih hc hh (i.taint τ)
          exact ⟨_, _, .ll hp hs ht⟩
        | ll2 w k => exact absurd hs (no2 _ _ _ _)
        | _ => simp [hs] at h
    | @sc l x v f h _ ih =>
      intro hc hh τ
      simp only [Blocks.code, Blocks.next, hc, hpr, hse] at h
      cases hp : (c.block E).code[l.pc]? with
      | none => simp [hp] at h
      | some i =>
        simp only [hp] at h
        cases hs : i.sem E.cpu c.r0 c.addr l.st with
        | sc v' k =>
          simp only [hs, LlSc.Next.sc.injEq] at h
          obtain ⟨rfl, rfl⟩ := h
          obtain ⟨t, s', ht⟩ := ih hc hh (i.taint τ)
          exact ⟨_, _, .sc hp hs ht⟩
        | ll2 w k => exact absurd hs (no2 _ _ _ _)
        | _ => simp [hs] at h
  obtain ⟨t, s', ht⟩ := key _ _ _ _ (fun y => by rintro ⟨v, s, h, -⟩; simp at h) (ppc_finishes hE hq c 0) rfl rfl .none
  exact ⟨t, _, s', ht, rfl⟩

/-- **C40a.** An operation whose orderings ask for acquire (on the outcome it had) is an acquire operation:
in every execution, whatever the thread did before and does after, and however often the loop was
repeated, its (last) read of the object is ordered before everything after it. -/
theorem ppc_acquire {E : Env} (hq : E.Quad) (c : Call) (t : List Ev) (r : Res (BitVec 128))
    (h : c.Events E t r) (ha : AsksAcquire c.op c.ord c.fail r) : IsAcquire t :=
  (events_acq h (select_acq hq c.valid ha)).isAcquire

/-- **C40b.** An operation whose ordering asks for release is a release operation: everything before it
is ordered before each of its writes. -/
theorem ppc_release {E : Env} (hq : E.Quad) (c : Call) (t : List Ev) (r : Res (BitVec 128))
    (h : c.Events E t r) (ha : AsksRelease c.op c.ord) : IsRelease t := by
  obtain ⟨t', rfl⟩ := events_rel h
  rcases select_rel (f := c.fail) hq c.valid ha with e | e
  · exact RelShape.isRelease ⟨_, t', by rw [Call.block, e]; rfl, Or.inr rfl⟩
  · exact RelShape.isRelease ⟨_, t', by rw [Call.block, e]; rfl, Or.inl rfl⟩

/-- **C40c.** Whatever a thread did before, a sequentially consistent operation is ordered after: two
sequentially consistent operations in particular are kept in order. -/
theorem ppc_seqCst {E : Env} (hq : E.Quad) (d : Call) (t u : List Ev) (r : Res (BitVec 128))
    (hu : d.Events E u r) (hd : AsksSeqCst d.op d.ord d.fail) : KeptInOrder t u := by
  obtain ⟨t', rfl⟩ := events_rel hu
  exact ScShape.kept ⟨t', by rw [Call.block, select_sc hq d.valid hd]; rfl⟩ t

/-! ## Concrete cases -/

/-- Registers and condition register full of garbage. -/
def garbage : St := ⟨fun _ => 0xdeadbeef, ⟨true, true, true, true⟩, ⟨true, false, true, true⟩, 0xabcdef, true, true⟩

/-- Detected at run time. -/
def detected : Env := ⟨⟨false, false⟩, true, true⟩

/-- Built for POWER8. -/
def built : Env := ⟨⟨true, true⟩, false, true⟩

/-- Neither. -/
def neither : Env := ⟨⟨false, true⟩, false, true⟩

example : detected.Ok ∧ detected.Quad ∧ built.Ok ∧ built.Quad ∧ neither.Ok ∧ ¬ neither.Quad := by
  refine ⟨⟨?_, ?_⟩, Or.inr rfl, ⟨?_, ?_⟩, Or.inl rfl, ⟨?_, ?_⟩, ?_⟩ <;>
    simp [detected, built, neither, Env.Quad]

/-- A call with given orderings; `val_lo` (or `old_lo`) is in `r0`. -/
def mk (op : WOp) (o f : MemOrd) (h : op.OrdOk o f) : Call :=
  ⟨op, o, f, h, 0x1000, some .valLo, fun q e => by cases e; simp, garbage⟩

/-- Thread 0's `fetch_min` (signed) by `lqarx`/`stqcx.` reads before thread 1's weak compare-exchange
stores, so its `stqcx.` fails; it tries again. -/
def demo : List (Cmd Unit Call) :=
  [.call 0 () (mk (.rmw3 .min 0x5_0000000000000000) .seqCst .relaxed trivial), .go 0, .go 0,
   .call 1 () (mk (.casWeak 0x3_0000000000000007 (-1 : BitVec 128)) .acqRel .acquire ⟨by decide, by decide⟩),
   .go 1, .go 1, .go 1, .go 1, .go 1, .go 1, .go 1, .go 1, .go 1, .ret 1,
   .go 0, .go 0, .go 0, .go 0, .go 0, .go 0, .go 0, .go 0, .go 0,
   .go 0, .go 0, .go 0, .go 0, .go 0, .go 0, .go 0, .go 0, .go 0, .go 0, .go 0, .ret 0]

example : (((blocks built).code).outcome demo (fun _ => 0x3_0000000000000007) ()).map
    (fun p => (p.1.map fun q => (q.1, q.2.map fun r => r.1), p.2)) =
    some ([(1, some (.ok 0x3_0000000000000007)), (0, some (.val (-1)))], -1) := by
  decide +kernel

/-- Events of a `SeqCst` load. -/
example : (mk .load .seqCst .relaxed ⟨by decide, by decide⟩).Events detected
    [.sync, .rd, .br true, .isync] (.val 3) := by
  have h0 : ∀ {x : BitVec 128}, Acc.sem (.op (.load .relaxed)) x x (.val x) := by
    intro x; simp [Acc.sem, Op.onCell, Op.ordOk]
  let s := ((mk .load .seqCst .relaxed ⟨by decide, by decide⟩).entry detected).got .r4 .r5 3
  refine ⟨{ s with cr0 := ⟨false, false, true, true⟩ }, ?_, ?_⟩
  · change Trace _ _ 0 _ Taint.none ((Ins.fence .sync).events Taint.none false ++
      ((Ins.lq .r4 .dst).events Taint.none true ++ ((Ins.cmpw .r4 .r4).events (Taint.read .r4) false ++
      ((Ins.bne 4).events ((Ins.cmpw .r4 .r4).taint (.read .r4)) false ++
      ((Ins.fence .isync).events ((Ins.cmpw .r4 .r4).taint (.read .r4)) false ++ []))))) _
    refine .go rfl rfl ?_
    refine .acc (x := 3) (x' := 3) (v := .val 3) rfl rfl h0 ?_
    refine .go rfl rfl ?_
    refine .br (b := false) (n := 4) rfl rfl ?_
    refine .go rfl rfl ?_
    exact .done rfl
  · decide +kernel

/-- A compare-exchange with `Acquire` on success only, that fails: no barrier after it is asked for, and
there is none. -/
example : ¬ AsksAcquire (n := 128) (.cas 1 2) .acquire .relaxed (.err 3) := by
  rintro (h | ⟨-, x, h⟩)
  · simp [Acquiring] at h
  · cases h

/-- A read without a dependent branch before the `isync` is not an acquire operation: the definitions tell
the sequences apart. -/
example : ¬ IsAcquire [.rd, .br false, .isync] := by
  rintro ⟨-, h⟩
  have h0 : LastRead [.rd, .br false, .isync] 0 := by
    refine ⟨rfl, fun j hj => ?_⟩
    match j, hj with
    | 0, _ => exact Nat.le_refl _
    | k + 3, h => simp at h
  have h1 := h [] [.wr] 0 3 h0 (by decide) (Or.inr rfl)
  have hb : ∀ i j, ¬ Before [Ev.rd, .br false, .isync, .wr] i j := by
    intro i j hb
    have hn : ∀ (k : Nat) (e : Ev), [Ev.rd, .br false, .isync, .wr][k]? = some e →
        e ≠ .sync ∧ e ≠ .lwsync ∧ e ≠ .br true := by
      intro k e he
      match k, he with
      | 0, he | 1, he | 2, he | 3, he => simp at he; subst he; simp
      | k + 4, he => simp at he
    cases hb with
    | sync _ _ _ _ h | lwsync _ _ _ _ _ h => have := hn _ _ h; simp at this
    | ctrl _ _ _ _ _ h => have := hn _ _ h; simp at this
  have ho : ∀ i j, ¬ Ordered [Ev.rd, .br false, .isync, .wr] i j := by
    intro i j ho
    induction ho with
    | one h => exact hb _ _ h
    | trans _ _ ih => exact ih
  exact ho _ _ h1

end Verif.Ppc
