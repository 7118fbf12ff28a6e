import Verif.S390x.OrderProof
import Verif.Lf.LlScRun
import Verif.Utils.Pair
/-!
# 128-bit atomics on s390x (C41, C42)

`(blocks E).code.sys K` runs the inline-assembly blocks of `s390x.rs`, one instruction per step, for any
number of 16-byte objects (`K`) and threads, from arbitrary contents of registers, condition code and
program mask, whichever register the compiler gives the operand `{r}`, with a build and processor `E`.
-/
set_option autoImplicit false
namespace Verif.S390x
open Verif.Lf Verif.Object Verif.Asm Verif.Wide
open Verif.Arm (Acquiring Releasing AsksRelease AsksSeqCst fn3_sem fn2_sem)
open Verif.Ppc (AsksAcquire)

/-! ## Values -/

/-- **C41a.** The instructions of a read-modify-write between the reads and `cdsg`, with any of the
optional facilities, from any registers and condition code: they leave the operation's result on 128-bit
integers in `r12`, `r13`, and every register but those and `tmp` as it was. -/
theorem s390x_rmw3_value {E : Env} (hE : E.Ok) (o : Op3) (hl : isCmp o = true → E.cfg.feat.loc = true) (s : St) :
    ∃ s', execs E.cpu (body3 E.cfg o) s = some s' ∧
      (WOp.rmw3 o (join (s.reg .valHi) (s.reg .valLo))).Sem (join (s.reg .r0) (s.reg .r1))
        (join (s'.reg .r12) (s'.reg .r13)) (.val (join (s.reg .r0) (s.reg .r1))) ∧
      (∀ q, q ≠ .r12 → q ≠ .r13 → q ≠ .tmp → s'.reg q = s.reg q) := by
  obtain ⟨s', h⟩ := body3_run hE o (fun h => hE.loc (hl h)) s
  refine ⟨s', h.run, by rw [h.val]; exact fn3_sem o _ _, fun q h1 h2 h3 => h.frame q ?_⟩
  cases o <;> simp [outs3, h1, h2, h3]

/-- **C41b.** `not` and `neg`. -/
theorem s390x_rmw2_value {E : Env} (hE : E.Ok) (o : Op2) (s : St)
    (hz : o = .neg → E.cfg.feat.distinct = true → s.reg .zero = 0) :
    ∃ s', execs E.cpu (body2 E.cfg o) s = some s' ∧
      (WOp.rmw2 o).Sem (join (s.reg .r0) (s.reg .r1))
        (join (s'.reg .r12) (s'.reg .r13)) (.val (join (s.reg .r0) (s.reg .r1))) ∧
      (∀ q, q ≠ .r12 → q ≠ .r13 → s'.reg q = s.reg q) := by
  obtain ⟨s', h⟩ := body2_run hE o s hz
  exact ⟨s', h.run, by rw [h.val]; exact fn2_sem o _, fun q h1 h2 => h.frame q (by simp [h1, h2])⟩

/-- The success test of compare-exchange: of what `ipm` puts in a register with any contents, under any
program mask, `extract_cc` says whether the condition code was 0. -/
theorem s390x_extract_cc (cc : BitVec 2) (mask : BitVec 4) (x : BitVec 64) :
    extractCc (ipmOf cc mask x) = true ↔ cc = 0 := by
  rw [extractCc_ipm]; simp

/-- The register words the blocks exchange with Rust are the halves of the `U128` union (C30): on this
big-endian target `pair.hi` is the more significant one, which is what the even register of a pair
holds. -/
theorem s390x_halves_are_union (x : BitVec 128) :
    Pair.pair .big false 8 x.toNat = ((X86.lo x).toNat, (X86.hi x).toNat) := by
  have hx : x.toNat < 2 ^ (8 * (8 + 8)) := x.isLt
  rw [Pair.pair_eq _ _ _ _ hx, if_neg (by simp)]
  simp only [X86.lo, X86.hi, BitVec.extractLsb'_toNat, Nat.shiftRight_eq_div_pow]
  have := x.isLt
  congr 1 <;> omega

/-! ## Concurrent histories -/

/-- **C41c.** On any processor the program was built for, every concurrent history of 128-bit operations
is linearizable with respect to a plain 128-bit integer, although the loops begin with two separate reads
of the halves.  No call faults, and each leaves alone the registers its operands do not declare, the
program mask, and where declared the condition code. -/
theorem s390x_linearizable {E : Env} (hE : E.Ok) {K : Type} [DecidableEq K]
    (m : K → LlSc.Cell (BitVec 128))
    (h : List (Object.Ev (K × Call) (Option (Res (BitVec 128) × St)))) (s)
    (hx : Runs ((blocks E).code.sys K) m h s) :
    LinearizableTo ((spec E).many (K := K)) (fun k => (m k).val) h (fun k => (s.mem k).val) :=
  Asm.linearizable (fun c => (Classical.choice (correct_exist hE c)).toPoints) hx

/-- **C41d.** Undisturbed, every operation finishes, whatever the registers contain at entry, having
done exactly what is specified. -/
theorem s390x_finishes {E : Env} (hE : E.Ok) (c : Call) (x : BitVec 128) :
    (blocks E).code.Ends (fun r y => (spec E).sem c x y r) ((blocks E).code.start c) false x :=
  Asm.finishes (Classical.choice (correct_exist hE c)) x

/-! ## Orderings -/

/-- Every call has a completed execution, so the theorems below are about something. -/
theorem s390x_events_exist {E : Env} (hE : E.Ok) (c : Call) : ∃ t r, c.Events E t r := by
  let A := blocks E
  have key : ∀ (l : Loc Call St (BitVec 64)) (ρ : Bool) (x : BitVec 128) (Q : _ → BitVec 128 → Prop)
      (_ : ∀ y, ¬ Q none y), A.code.Ends Q l ρ x → l.call = c → l.half = none →
      ∃ t s', Trace E c l.pc l.st t s' := by
    intro l ρ x Q hQ h
    have hpr : A.prog c = (c.block E).code E.cfg c.r := rfl
    have hse : ∀ i s, A.sem c i s = i.sem E.cpu c.addr s := fun _ _ => rfl
    have hno : ∀ (i : Ins) (s : St), (∀ w k, i.sem E.cpu c.addr s ≠ .ll2 w k) ∧
        (∀ k, i.sem E.cpu c.addr s ≠ .ll k) ∧ (∀ v k, i.sem E.cpu c.addr s ≠ .sc v k) := by
      intro i s
      refine ⟨?_, ?_, ?_⟩
      all_goals
        intros
        intro h
        unfold Ins.sem at h
        split at h
        all_goals first | (cases h; done) | skip
        all_goals repeat' split at h
        all_goals cases h
    induction h with
    | @ret l ρ x r h hq' =>
      intro hc hh
      simp only [Blocks.code, Blocks.next, hc, hpr, hse] at h
      cases hp : ((c.block E).code E.cfg c.r)[l.pc]? with
      | none => exact ⟨_, _, .done hp⟩
      | some i =>
        simp only [hp] at h
        cases hs : i.sem E.cpu c.addr l.st with
        | fault => simp only [hs] at h; cases h; exact absurd hq' (hQ _)
        | ll2 w k => exact absurd hs ((hno _ _).1 _ _)
        | _ => simp [hs] at h
    | @tau l ρ x l' h _ ih =>
      intro hc hh
      simp only [Blocks.code, Blocks.next, hc, hpr, hse] at h
      cases hp : ((c.block E).code E.cfg c.r)[l.pc]? with
      | none => simp [hp] at h
      | some i =>
        simp only [hp] at h
        cases hs : i.sem E.cpu c.addr l.st with
        | go s' =>
          simp only [hs, LlSc.Next.tau.injEq] at h
          subst h
          obtain ⟨t, s', ht⟩ := ih hc hh
          exact ⟨_, _, .go hp hs ht⟩
        | br b n =>
          simp only [hs, LlSc.Next.tau.injEq] at h
          subst h
          obtain ⟨t, s', ht⟩ := ih rfl hh
          exact ⟨_, _, .br hp hs ht⟩
        | ll2 w k => exact absurd hs ((hno _ _).1 _ _)
        | _ => simp [hs] at h
    | @acc l ρ x a f h _ ih =>
      intro hc hh
      simp only [Blocks.code, Blocks.next, hc, hpr, hse] at h
      cases hp : ((c.block E).code E.cfg c.r)[l.pc]? with
      | none => simp [hp] at h
      | some i =>
        simp only [hp] at h
        cases hs : i.sem E.cpu c.addr l.st with
        | acc a' k =>
          simp only [hs, LlSc.Next.acc.injEq] at h
          obtain ⟨rfl, rfl⟩ := h
          obtain ⟨t, s', ht⟩ := ih _ _ (a'.exec_sem false x) hc hh
          exact ⟨_, _, .acc hp hs (a'.exec_sem false x) ht⟩
        | ll2 w k => exact absurd hs ((hno _ _).1 _ _)
        | _ => simp [hs] at h
    | @ll l ρ x f h _ ih =>
      intro hc hh
      simp only [Blocks.code, Blocks.next, hc, hpr, hse] at h
      cases hp : ((c.block E).code E.cfg c.r)[l.pc]? with
      | none => simp [hp] at h
      | some i =>
        simp only [hp] at h
        cases hs : i.sem E.cpu c.addr l.st with
        | ll k => exact absurd hs ((hno _ _).2.1 _)
        | ll2 w k => exact absurd hs ((hno _ _).1 _ _)
        | _ => simp [hs] at h
    | @sc l x v f h _ ih =>
      intro hc hh
      simp only [Blocks.code, Blocks.next, hc, hpr, hse] at h
      cases hp : ((c.block E).code E.cfg c.r)[l.pc]? with
      | none => simp [hp] at h
      | some i =>
        simp only [hp] at h
        cases hs : i.sem E.cpu c.addr l.st with
        | sc v' k => exact absurd hs ((hno _ _).2.2 _ _)
        | ll2 w k => exact absurd hs ((hno _ _).1 _ _)
        | _ => simp [hs] at h
  obtain ⟨t, s', ht⟩ := key _ _ _ _ (fun y => by rintro ⟨v, s, h, -⟩; simp at h) (s390x_finishes hE c 0) rfl rfl
  exact ⟨t, _, s', ht, rfl⟩

/-- **C42a.** An operation whose orderings ask for acquire (on the outcome it had) is an acquire operation:
in every execution, whatever the thread did before and does after, and however often the loop was
repeated, its last read of the object is ordered before everything after it. -/
theorem s390x_acquire {E : Env} (c : Call) (t : List Ev) (r : Res (BitVec 128))
    (h : c.Events E t r) (ha : AsksAcquire c.op c.ord c.fail r) : IsAcquire t := by
  obtain ⟨s, h, -⟩ := h
  have ho : ∀ v, c.op ≠ .store v := by intro v e; rw [e] at ha; exact ha
  obtain ⟨i, hi, hr⟩ := first_reads (E := E) ho
  obtain ⟨v, t', rfl⟩ := h.head hi
  exact isAcquire_of_read (List.mem_append_left _ (hr _ _))

/-- **C42b.** An operation whose ordering asks for release is a release operation: everything before it
is ordered before each of its writes. -/
theorem s390x_release {E : Env} (c : Call) (t : List Ev) (r : Res (BitVec 128))
    (_h : c.Events E t r) (_ha : AsksRelease c.op c.ord) : IsRelease t :=
  isRelease_any t

/-- **C42c.** Two sequentially consistent operations of a thread are kept in order, a store followed by a
load included: every access of the first is performed before every access of the second. -/
theorem s390x_seqCst {E : Env} (hE : E.Ok) (c d : Call) (t u : List Ev) (r r' : Res (BitVec 128))
    (ht : c.Events E t r) (_hu : d.Events E u r') (hc : AsksSeqCst c.op c.ord c.fail)
    (_hd : AsksSeqCst d.op d.ord d.fail) : KeptInOrder t u := by
  obtain ⟨s, h, -⟩ := ht
  by_cases ho : ∀ v, c.op ≠ .store v
  · exact (h.covered (code_safe ho)).kept u
  · obtain ⟨v, hop⟩ : ∃ v, c.op = .store v := by simpa using ho
    have : c.ord = .seqCst := by rw [hop] at hc; exact hc
    exact (store_covered hE hop this h).kept u

/-! ## Concrete cases -/

/-- Registers, condition code and program mask full of garbage. -/
def garbage : St := ⟨fun _ => 0xdeadbeef, 3, 0xa⟩

/-- z10, the oldest supported one. -/
def z10 : Env := ⟨⟨⟨false, false, false, false⟩, false⟩, ⟨false, false, false, false⟩⟩

/-- Built for z196, runs on z15. -/
def z196 : Env := ⟨⟨⟨true, true, true, false⟩, true⟩, ⟨true, true, true, true⟩⟩

example : z10.Ok ∧ z196.Ok := by
  refine ⟨⟨?_, ?_, ?_, ?_⟩, ⟨?_, ?_, ?_, ?_⟩⟩ <;> simp [z10, z196]

/-- A call with given orderings; `{r}` is in the register of `dst`. -/
def mk (op : WOp) (o f : MemOrd) (h : op.OrdOk o f) : Call :=
  ⟨op, o, f, h, 0x1000, .dst, by decide, garbage⟩

/-- Thread 0's signed `fetch_min` reads the low word, thread 1's compare-exchange replaces the value, and
thread 0 reads the high word: its `cdsg` fails, and it tries again. -/
def demo : List (Cmd Unit Call) :=
  [.call 0 () (mk (.rmw3 .min 0x5_0000000000000000) .seqCst .relaxed trivial), .go 0,
   .call 1 () (mk (.cas 0x3_0000000000000007 0x4_0000000000000009) .acqRel .acquire ⟨by decide, by decide⟩),
   .go 1, .go 1, .ret 1,
   .go 0, .go 0, .go 0, .go 0, .go 0, .go 0, .go 0, .go 0, .go 0, .go 0, .ret 0]

example : (((blocks z10).code).outcome demo (fun _ => 0x3_0000000000000007) ()).map
    (fun p => (p.1.map fun q => (q.1, q.2.map fun r => r.1), p.2)) =
    some ([(1, some (.ok 0x3_0000000000000007)), (0, some (.val 0x4_0000000000000009))], 0x4_0000000000000009) := by
  decide +kernel

/-- Events of a `SeqCst` store. -/
example : (mk (.store 3) .seqCst .relaxed ⟨by decide, by decide⟩).Events z196 [.wr, .ser] .unit := by
  have h0 : ∀ {x : BitVec 128}, Acc.sem (.op (.store 3 .relaxed)) x 3 .unit := by
    intro x; simp [Acc.sem, Op.onCell, Op.ordOk]
  refine ⟨(mk (.store 3) .seqCst .relaxed ⟨by decide, by decide⟩).entry z196, ?_, rfl⟩
  change Trace _ _ 0 _ ((Ins.stpq .r0 .dst).events z196.cpu .unit ++ ((Ins.bcr 14).events z196.cpu .unit ++ [])) _
  refine .acc (x := 0) (x' := 3) (v := .unit) rfl (a := .op (.store 3 .relaxed)) rfl h0 ?_
  refine .go rfl rfl ?_
  exact .done rfl

/-- A plain store followed by a load would not be kept in order: the definitions tell the sequences
apart. -/
example : ¬ KeptInOrder [.wr] [.rd] := by
  intro h
  have h1 := h [] [] [] 0 0 (Or.inr rfl) (Or.inl rfl)
  have hb : ∀ i j, ¬ Before [Ev.wr, .rd] i j := by
    intro i j hb
    cases hb with
    | order hi hj hn hlt =>
      have hj2 : j < 2 := by rcases hj with h | h <;> exact (List.getElem?_eq_some_iff.1 h).1
      obtain ⟨rfl, rfl⟩ : i = 0 ∧ j = 1 := by omega
      exact hn ⟨rfl, rfl⟩
    | ser hi hj h1 h2 h =>
      have hj2 : j < 2 := by rcases hj with h | h <;> exact (List.getElem?_eq_some_iff.1 h).1
      omega
  have ho : ∀ i j, ¬ Ordered [Ev.wr, .rd] i j := by
    intro i j ho
    induction ho with
    | one h => exact hb _ _ h
    | trans _ _ ih => exact ih
  exact ho _ _ h1

end Verif.S390x
