import Verif.Arm.OrderSelect
import Verif.Lf.LlScRun
import Verif.Utils.Pair
/-!
# 128-bit atomics on AArch64 (C37, C38)

`(blocks E order).code.sys K` runs the inline-assembly blocks of `aarch64.rs`, one instruction per
step, for any number of 16-byte objects (`K`) and threads, from arbitrary contents of registers and
flags, on a processor and build `E`; a split `ldxp` reads its halves in the order `order` says.
-/
set_option autoImplicit false
namespace Verif.Arm
open Verif.Lf Verif.Object Verif.Asm Verif.Wide
open Verif.X86 (fn3 fn2)

/-! ## Values -/

/-- **C37a.** The instructions of a three-operand read-modify-write between `ldxp` and `stxp`, from any
registers and flags, on either byte order: they leave the operation's result on 128-bit integers in
`new_lo`, `new_hi` and every other register as it was. -/
theorem arm_rmw3_value (e : Endian) (o : Op3) (s : St) :
    ∃ s', execs (bodyLx3 e o) s = some s' ∧
      (WOp.rmw3 o (join e (s.get .valLo) (s.get .valHi))).Sem (join e (s.get .prevLo) (s.get .prevHi))
        (join e (s'.get .newLo) (s'.get .newHi)) (.val (join e (s.get .prevLo) (s.get .prevHi))) ∧
      (∀ q, q ≠ .newLo → q ≠ .newHi → s'.get q = s.get q) := by
  obtain ⟨s', h1, h2, h3, -⟩ := bodyLx3_run e o s
  refine ⟨s', h1, ?_, h3⟩
  rw [h2]; exact fn3_sem o _ _

/-- **C37b.** The same between `ldp` and `casp`. -/
theorem arm_rmw3_value_casp (e : Endian) (o : Op3) (s : St) :
    ∃ s', execs (bodyCas3 e o) s = some s' ∧
      (WOp.rmw3 o (join e (s.get .valLo) (s.get .valHi))).Sem (join e (s.get .x6) (s.get .x7))
        (join e (s'.get .x4) (s'.get .x5)) (.val (join e (s.get .x6) (s.get .x7))) ∧
      (∀ q, q ≠ .x4 → q ≠ .x5 → s'.get q = s.get q) := by
  obtain ⟨s', h1, h2, h3⟩ := bodyCas3_run e o s
  refine ⟨s', h1, ?_, h3⟩
  rw [h2]; exact fn3_sem o _ _

/-- **C37c.** `not` and `neg`, in both kinds of loop. -/
theorem arm_rmw2_value (e : Endian) (o : Op2) (s : St) :
    (∃ s', execs (bodyLx2 e o) s = some s' ∧
      (WOp.rmw2 o).Sem (join e (s.get .prevLo) (s.get .prevHi))
        (join e (s'.get .newLo) (s'.get .newHi)) (.val (join e (s.get .prevLo) (s.get .prevHi)))) ∧
    (∃ s', execs (bodyCas2 e o) s = some s' ∧
      (WOp.rmw2 o).Sem (join e (s.get .x6) (s.get .x7))
        (join e (s'.get .x4) (s'.get .x5)) (.val (join e (s.get .x6) (s.get .x7)))) := by
  obtain ⟨s', h1, h2, -, -⟩ := bodyLx2_run e o s
  obtain ⟨s'', h1', h2', -⟩ := bodyCas2_run e o s
  refine ⟨⟨s', h1, ?_⟩, ⟨s'', h1', ?_⟩⟩
  · rw [h2]; exact fn2_sem o _
  · rw [h2']; exact fn2_sem o _

/-- The words the blocks pass in registers are the halves of the `U128` union (C30). -/
theorem arm_halves_are_union (e : Endian) (x : BitVec 128) :
    Pair.pair (match e with | .little => .little | .big => .big) true 8 x.toNat =
      ((word e x false).toNat, (word e x true).toNat) := by
  have hx : x.toNat < 2 ^ (8 * (8 + 8)) := x.isLt
  cases e
  · rw [Pair.pair_eq _ _ _ _ hx, if_neg (by simp)]
    simp only [word, X86.lo, X86.hi, BitVec.extractLsb'_toNat, Nat.shiftRight_eq_div_pow]
    have := x.isLt
    congr 1 <;> omega
  · rw [Pair.pair_eq _ _ _ _ hx, if_pos (by simp)]
    simp only [word, X86.lo, X86.hi, BitVec.extractLsb'_toNat, Nat.shiftRight_eq_div_pow]
    have := x.isLt
    congr 1 <;> omega

/-! ## Concurrent histories -/

/-- **C37d.** Every concurrent history of 128-bit operations is linearizable with respect to a plain
128-bit integer: for every build configuration, every processor at least as capable as the build and
the run-time detection say, either byte order, every order in which `ldxp` reads its halves and every
pattern of failing `stxp`.  No call faults, and each leaves alone the registers and flags its operands
do not declare. -/
theorem arm_linearizable {E : Env} (hE : E.Ok) (order : Call → Nat → Bool) {K : Type} [DecidableEq K]
    (m : K → LlSc.Cell (BitVec 128))
    (h : List (Object.Ev (K × Call) (Option (Res (BitVec 128) × St)))) (s)
    (hx : Runs ((blocks E order).code.sys K) m h s) :
    LinearizableTo ((spec E).many (K := K)) (fun k => (m k).val) h (fun k => (s.mem k).val) :=
  Asm.linearizable (fun c => (Classical.choice (correct_exist hE order c)).toPoints) hx

/-- **C37e.** Undisturbed, every operation finishes, whatever the registers contain at entry, having
done exactly what is specified. -/
theorem arm_finishes {E : Env} (hE : E.Ok) (order : Call → Nat → Bool) (c : Call) (x : BitVec 128) :
    (blocks E order).code.Ends (fun r y => (spec E).sem c x y r) ((blocks E order).code.start c) false x :=
  Asm.finishes (Classical.choice (correct_exist hE order c)) x

/-! ## Orderings -/

/-- Every call has a completed execution, so the theorems below are about something. -/
theorem arm_events_exist {E : Env} (hE : E.Ok) (c : Call) : ∃ t, c.Events E t := by
  let A := blocks E fun _ _ => false
  have key : ∀ (l : Loc Call St (BitVec 64)) (ρ : Bool) (x : BitVec 128) (Q : _ → BitVec 128 → Prop)
      (_ : ∀ y, ¬ Q none y), A.code.Ends Q l ρ x → l.call = c →
      (l.half = none → ∃ t, Trace E c l.pc l.st t) ∧
      (∀ w, l.half = some w → ∀ i wd k, ((c.block E).code E.endian c.al)[l.pc]? = some i →
        i.sem E.cpu E.endian c.addr l.st = .ll2 wd k → ∃ t w0 w1, Trace E c (l.pc + 1) (k w0 w1) t) := by
    intro l ρ x Q hQ h
    have hpr : A.prog c = (c.block E).code E.endian c.al := rfl
    have hse : ∀ i s, A.sem c i s = i.sem E.cpu E.endian c.addr s := fun _ _ => rfl
    induction h with
    | @ret l ρ x r h hq =>
      intro hc
      simp only [Blocks.code, Blocks.next, hc, hpr, hse] at h
      refine ⟨fun hh => ?_, fun w hh i wd k hp hs => ?_⟩
      · cases hp : ((c.block E).code E.endian c.al)[l.pc]? with
        | none => exact ⟨_, .done hp⟩
        | some i =>
          simp only [hp] at h
          cases hs : i.sem E.cpu E.endian c.addr l.st with
          | fault => simp only [hs] at h; cases h; exact absurd hq (hQ _)
          | ll2 => simp [hs, hh] at h
          | _ => simp [hs] at h
      · simp [hp, hs, hh] at h
    | @tau l ρ x l' h _ ih =>
      intro hc
      simp only [Blocks.code, Blocks.next, hc, hpr, hse] at h
      refine ⟨fun hh => ?_, fun w hh i wd k hp hs => ?_⟩
      · cases hp : ((c.block E).code E.endian c.al)[l.pc]? with
        | none => simp [hp] at h
        | some i =>
          simp only [hp] at h
          cases hs : i.sem E.cpu E.endian c.addr l.st with
          | go s' =>
            simp only [hs, LlSc.Next.tau.injEq] at h
            subst h
            obtain ⟨t, ht⟩ := (ih hc).1 hh
            exact ⟨_, .go hp hs ht⟩
          | br b n =>
            simp only [hs, LlSc.Next.tau.injEq] at h
            subst h
            obtain ⟨t, ht⟩ := (ih rfl).1 hh
            exact ⟨_, .br hp hs ht⟩
          | ll2 => simp [hs, hh] at h
          | _ => simp [hs] at h
      · simp [hp, hs, hh] at h
    | @acc l ρ x a f h _ ih =>
      intro hc
      simp only [Blocks.code, Blocks.next, hc, hpr, hse] at h
      refine ⟨fun hh => ?_, fun w hh i wd k hp hs => ?_⟩
      · cases hp : ((c.block E).code E.endian c.al)[l.pc]? with
        | none => simp [hp] at h
        | some i =>
          simp only [hp] at h
          cases hs : i.sem E.cpu E.endian c.addr l.st with
          | acc a' k =>
            simp only [hs, LlSc.Next.acc.injEq] at h
            obtain ⟨rfl, rfl⟩ := h
            obtain ⟨t, ht⟩ := (ih _ _ (a'.exec_sem false x) hc).1 hh
            exact ⟨_, .acc hp hs (a'.exec_sem false x) ht⟩
          | ll2 => simp [hs, hh] at h
          | _ => simp [hs] at h
      · simp only [hp, hs, hh, LlSc.Next.acc.injEq] at h
        obtain ⟨rfl, rfl⟩ := h
        have := (ih x (.val x) (by simp [Acc.sem, Op.onCell, Op.ordOk]) hc).1 rfl
        obtain ⟨t, ht⟩ := this
        exact ⟨t, _, _, ht⟩
    | @ll l ρ x f h _ ih =>
      intro hc
      simp only [Blocks.code, Blocks.next, hc, hpr, hse] at h
      refine ⟨fun hh => ?_, fun w hh i wd k hp hs => ?_⟩
      · cases hp : ((c.block E).code E.endian c.al)[l.pc]? with
        | none => simp [hp] at h
        | some i =>
          simp only [hp] at h
          cases hs : i.sem E.cpu E.endian c.addr l.st with
          | ll k =>
            simp only [hs, LlSc.Next.ll.injEq] at h
            subst h
            obtain ⟨t, ht⟩ := (ih hc).1 hh
            exact ⟨_, .ll hp hs ht⟩
          | ll2 wd k =>
            simp only [hs, hh, LlSc.Next.ll.injEq] at h
            subst h
            obtain ⟨t, w0, w1, ht⟩ := (ih rfl).2 _ rfl i wd k hp hs
            exact ⟨_, .ll2 hp hs ht⟩
          | _ => simp [hs] at h
      · simp [hp, hs, hh] at h
    | @sc l x v f h _ ih =>
      intro hc
      simp only [Blocks.code, Blocks.next, hc, hpr, hse] at h
      refine ⟨fun hh => ?_, fun w hh i wd k hp hs => ?_⟩
      · cases hp : ((c.block E).code E.endian c.al)[l.pc]? with
        | none => simp [hp] at h
        | some i =>
          simp only [hp] at h
          cases hs : i.sem E.cpu E.endian c.addr l.st with
          | sc v' k =>
            simp only [hs, LlSc.Next.sc.injEq] at h
            obtain ⟨rfl, rfl⟩ := h
            obtain ⟨t, ht⟩ := (ih hc).1 hh
            exact ⟨_, .sc hp hs ht⟩
          | ll2 => simp [hs, hh] at h
          | _ => simp [hs] at h
      · simp [hp, hs, hh] at h
  refine (key _ _ _ _ (fun y => ?_) (arm_finishes hE (fun _ _ => false) c 0) rfl).1 rfl
  rintro ⟨v, s, h, -⟩
  simp at h

/-- The events of a completed call, by its block. -/
theorem events_shape {E : Env} (hE : E.Ok) {c : Call} {t : List Ev} (h : c.Events E t) :
    Shape (c.block E) t := by
  obtain ⟨n, hp⟩ := Trace.path h
  exact shape_of (select_good hE c.valid) hp

/-- **C38a.** An operation whose orderings ask for acquire is an acquire operation: in every execution,
whatever the thread did before and does after, and however often the loop was repeated, its (last) read
of the object is ordered before everything after it. -/
theorem arm_acquire {E : Env} (hE : E.Ok) (c : Call) (ha : AsksAcquire c.op c.ord c.fail) (t : List Ev)
    (h : c.Events E t) : IsAcquire t := by
  obtain ⟨h1, h2⟩ := shape_acq (events_shape hE h) (select_acq c.valid ha)
  exact isAcquire h1 h2

/-- **C38b.** An operation whose ordering asks for release is a release operation: everything before it
is ordered before each of its writes. -/
theorem arm_release {E : Env} (hE : E.Ok) (c : Call) (ha : AsksRelease c.op c.ord) (t : List Ev)
    (h : c.Events E t) : IsRelease t :=
  isRelease (shape_rel (events_shape hE h) (select_rel c.valid ha))

/-- **C38c.** Two sequentially consistent operations of a thread are kept in order (a store and a later
load of another object in particular), whatever is between them and whichever instructions each
uses. -/
theorem arm_seqCst {E : Env} (hE : E.Ok) (c d : Call) (hc : AsksSeqCst c.op c.ord c.fail)
    (hd : AsksSeqCst d.op d.ord d.fail) (t u : List Ev) (ht : c.Events E t) (hu : d.Events E u) :
    KeptInOrder t u :=
  keptInOrder (shape_sc (events_shape hE ht) (select_sc hc)).1
    (shape_sc (events_shape hE hu) (select_sc hd)).2

/-- **C38d.** In MSVC builds a sequentially consistent store or read-modify-write has a full barrier
after every write it does with anything but a single read-modify-write instruction. -/
theorem arm_msvc_fence {E : Env} (hE : E.Ok) (hm : E.cfg.msvc = true) (c : Call) (hop : c.op ≠ .load)
    (hc : c.ord = .seqCst) (t : List Ev) (h : c.Events E t) (i : Nat) (r : Bool)
    (hi : t[i]? = some (.wr r false)) : ∃ k, i < k ∧ t[k]? = some .full := by
  have hs := events_shape hE h
  have hg := select_good hE c.valid
  rw [hc] at hg
  simp only [Call.block, hc] at hs
  exact fence_after hm hop hg hs hi

/-! ## Concrete cases -/

/-- Registers full of garbage. -/
def garbage : St := ⟨fun _ => 0xdeadbeef, true, false, true, false⟩

/-- A build and processor without optional features, big-endian, MSVC fences. -/
def plainBE : Env := ⟨⟨⟨false, false, false, false⟩, false, true, false, true, true⟩,
  ⟨false, false, false, false⟩, ⟨false, false, false, false⟩, .big⟩

/-- A plain build on a processor with FEAT_LSE and FEAT_LSE2, both detected at run time. -/
def detected : Env := ⟨⟨⟨false, false, false, false⟩, false, false, false, true, true⟩,
  ⟨true, true, false, false⟩, ⟨true, true, false, false⟩, .little⟩

/-- A build for FEAT_LSE, processor with more. -/
def lse : Env := ⟨⟨⟨true, false, false, false⟩, false, false, false, true, true⟩,
  ⟨true, true, true, true⟩, ⟨true, true, true, true⟩, .little⟩

example : plainBE.Ok ∧ detected.Ok ∧ lse.Ok := by
  refine ⟨⟨?_, ?_⟩, ⟨?_, ?_⟩, ⟨?_, ?_⟩⟩ <;> constructor <;> decide

/-- A call with given orderings. -/
def mk (op : WOp) (o f : MemOrd) (h : op.OrdOk o f) : Call := ⟨op, o, f, h, .lo, 0x1000, garbage⟩

/-- Thread 0's `fetch_sub(1)` by `ldxp`/`stxp` reads one half before and one after thread 1's swap,
so its `stxp` fails; it tries again. -/
def demo : List (Cmd Unit Call) :=
  [.call 0 () (mk (.rmw3 .sub 1) .seqCst .relaxed trivial), .go 0,
   .call 1 () (mk (.swap 0x5_0000000000000000) .relaxed .relaxed trivial),
   .go 1, .go 1, .go 1, .go 1, .ret 1,
   .go 0, .go 0, .go 0, .go 0, .go 0,
   .go 0, .go 0, .go 0, .go 0, .go 0, .go 0, .go 0, .ret 0]

example : (((blocks plainBE fun _ _ => true).code).outcome demo (fun _ => 0x3_0000000000000007) ()).map
    (fun p => (p.1.map fun q => (q.1, q.2.map fun r => r.1), p.2)) =
    some ([(1, some (.val 0x3_0000000000000007)), (0, some (.val 0x5_0000000000000000))],
      0x4_ffffffffffffffff) := by
  decide +kernel

/-- The same by `casp`: the first `ldp` reads before the swap. -/
def demo2 : List (Cmd Unit Call) :=
  [.call 0 () (mk (.rmw3 .sub 1) .seqCst .relaxed trivial), .go 0,
   .call 1 () (mk (.swap 0x5_0000000000000000) .relaxed .relaxed trivial),
   .go 1, .go 1, .go 1, .go 1, .go 1, .go 1, .go 1, .ret 1,
   .go 0, .go 0, .go 0, .go 0, .go 0, .go 0, .go 0, .go 0,
   .go 0, .go 0, .go 0, .go 0, .go 0, .go 0, .go 0, .go 0, .ret 0]

example : (((blocks lse fun _ _ => false).code).outcome demo2 (fun _ => 0x3_0000000000000007) ()).map
    (fun p => (p.1.map fun q => (q.1, q.2.map fun r => r.1), p.2)) =
    some ([(1, some (.val 0x3_0000000000000007)), (0, some (.val 0x5_0000000000000000))],
      0x4_ffffffffffffffff) := by
  decide +kernel

/-- Events of concrete calls. -/
example : (mk .load .seqCst .relaxed ⟨by decide, by decide⟩).Events detected
    [.rd .full false, .rd .plain false, .ld] := by
  have h0 : ∀ {x : BitVec 128}, Acc.sem (.op (.load .acquire)) x x (.val x) := by
    intro x; simp [Acc.sem, Op.onCell, Op.ordOk]
  have h1 : ∀ {x : BitVec 128}, Acc.sem (.op (.load .relaxed)) x x (.val x) := by
    intro x; simp [Acc.sem, Op.onCell, Op.ordOk]
  change Trace _ _ 0 _ ((Ins.ldar .tmp .outLo).events true ++ ((Ins.ldp .outLo .outHi .outLo).events true ++
    ((Ins.dmb .ishld).events false ++ [])))
  refine .acc (x := 3) (x' := 3) (v := .val 3) rfl rfl h0 ?_
  refine .acc (x := 3) (x' := 3) (v := .val 3) rfl rfl h1 ?_
  refine .go rfl rfl ?_
  exact .done rfl

/-- A store on MSVC, with one failed attempt. -/
example : (mk (.store 5) .seqCst .relaxed ⟨by decide, by decide⟩).Events plainBE
    [.rd .full false, .rd .full false, .wr true false, .full] := by
  change Trace _ _ 0 _ ((Ins.ldxp true .xzr .tmp .dst).events false ++
    ((Ins.stxp true .tmp .valLo .valHi .dst).events false ++ ((Ins.cbnz .tmp 0).events false ++
    ((Ins.ldxp true .xzr .tmp .dst).events false ++
    ((Ins.stxp true .tmp .valLo .valHi .dst).events true ++ ((Ins.cbnz .tmp 0).events false ++
    ((Ins.dmb .ish).events false ++ [])))))))
  refine .ll2 (w0 := 0) (w1 := 0) rfl rfl ?_
  refine .sc (ok := false) rfl rfl ?_
  refine .br (b := true) (n := 0) rfl rfl ?_
  refine .ll2 (w0 := 0) (w1 := 0) rfl rfl ?_
  refine .sc (ok := true) rfl rfl ?_
  refine .br (b := false) (n := 0) rfl rfl ?_
  refine .go rfl rfl ?_
  exact .done rfl

/-- A relaxed `ldp` is not an acquire operation: the definitions tell orderings apart. -/
example : ¬ IsAcquire [.rd .plain false] := by
  rintro ⟨-, h⟩
  have h0 : LastRead [.rd .plain false] 0 := by
    refine ⟨⟨_, _, rfl⟩, fun j a m hj => ?_⟩
    match j, hj with
    | 0, _ => exact Nat.le_refl _
  have h1 := h [] [.rd .plain false] 0 1 h0 (by decide) ⟨_, rfl, Or.inl rfl⟩
  have hb : ∀ i j, ¬ Bob [Ev.rd .plain false, .rd .plain false] i j := by
    intro i j hb
    have hn : ∀ (k : Nat) (e : Ev), [Ev.rd .plain false, .rd .plain false][k]? = some e → e = .rd .plain false := by
      intro k e he
      match k, he with
      | 0, he => simpa using he.symm
      | 1, he => simpa using he.symm
    cases hb with
    | full _ _ _ _ h | ld _ _ _ _ h => have := hn _ _ h; simp at this
    | acq h ha => have := hn _ _ h; simp at this; exact ha this.1
    | rel _ h => have := hn _ _ h; simp at this
    | relAcq h => have := hn _ _ h; simp at this
    | amo _ _ _ _ h => have := hn _ _ h; simp at this
  have ho : ∀ i j, ¬ Ordered [Ev.rd .plain false, .rd .plain false] i j := by
    intro i j ho
    induction ho with
    | one h => exact hb _ _ h
    | trans _ _ ih => exact ih
  exact ho _ _ h1

end Verif.Arm
