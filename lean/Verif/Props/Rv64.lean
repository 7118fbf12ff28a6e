import Verif.Rv64.OrderProof
import Verif.Lf.LlScRun
import Verif.Utils.Pair
/-!
# 128-bit atomics on riscv64 (C43, C44)

`(blocks E).code.sys K` runs the inline-assembly blocks of `riscv64.rs` and the Rust loops around them, one
instruction or Rust statement per step, for any number of 16-byte objects (`K`) and threads, from
arbitrary contents of registers, with a build and processor `E`.
-/
set_option autoImplicit false
namespace Verif.Rv64
open Verif.Lf Verif.Object Verif.Asm Verif.Wide
open Verif.Arm (Acquiring Releasing AsksRelease)
open Verif.Ppc (AsksAcquire)

/-! ## Values -/

/-- **C43a.** The closures compute the operations on 128-bit integers. -/
theorem rv64_next_value (op : WOp) (h1 : op ≠ .load) (h2 : ∀ x y, op ≠ .cas x y) (h3 : ∀ x y, op ≠ .casWeak x y)
    (x : BitVec 128) : ∃ r, op.Sem x (next op x) r ∧ (r = .val x ∨ ∃ v, op = .store v) := by
  refine ⟨_, next_sem op h1 h2 h3 x, ?_⟩
  cases op <;> simp [ret]

/-- **C43b.** For assemblers that do not know Zacas the instructions are given as numbers: these encode
`amocas.q` with the same registers and, for every pair of orderings, the same fence and annotations as the
other version has. -/
theorem rv64_encodings (o f : MemOrd) :
    decode (loadWord (amocasOrderInsn o f).2) =
      some (.amocas (amocasOrder o f).aq (amocasOrder o f).rl .a2 .a2 .a0) ∧
    decode (casWord (amocasOrderInsn o f).2) =
      some (.amocas (amocasOrder o f).aq (amocasOrder o f).rl .a4 .a2 .a0) ∧
    (amocasOrderInsn o f).1 = (amocasOrder o f).fence :=
  ⟨decode_load o f, decode_cas o f, fence_insn o f⟩

/-- The register words the blocks exchange with Rust are the halves of the `U128` union (C30): on this
little-endian target `pair.lo` is the less significant one, which is what the even register of a pair
holds and what is at the lower address. -/
theorem rv64_halves_are_union (x : BitVec 128) :
    Pair.pair .little false 8 x.toNat = ((X86.lo x).toNat, (X86.hi x).toNat) := by
  have hx : x.toNat < 2 ^ (8 * (8 + 8)) := x.isLt
  rw [Pair.pair_eq _ _ _ _ hx, if_neg (by simp)]
  simp only [X86.lo, X86.hi, BitVec.extractLsb'_toNat, Nat.shiftRight_eq_div_pow]
  have := x.isLt
  congr 1 <;> omega

/-! ## Concurrent histories -/

/-- **C43c.** Where Zacas is known to be available, at compile time or by detection, every concurrent
history of 128-bit operations is linearizable with respect to a plain 128-bit integer, although loads write
when they find zero and the loops begin with two separate reads of the halves.  No call faults, and each
leaves alone the registers its operands do not declare. -/
theorem rv64_linearizable {E : Env} (hE : E.Ok) (hq : E.Zacas) {K : Type} [DecidableEq K]
    (m : K → LlSc.Cell (BitVec 128))
    (h : List (Object.Ev (K × Call) (Option (Res (BitVec 128) × St)))) (s)
    (hx : Runs ((blocks E).code.sys K) m h s) :
    LinearizableTo ((spec E).many (K := K)) (fun k => (m k).val) h (fun k => (s.mem k).val) :=
  Asm.linearizable (fun c => (Classical.choice (correct_exist hE hq c)).toPoints) hx

/-- **C43d.** Undisturbed, every operation finishes, whatever the registers contain at entry, having
done exactly what is specified. -/
theorem rv64_finishes {E : Env} (hE : E.Ok) (hq : E.Zacas) (c : Call) (x : BitVec 128) :
    (blocks E).code.Ends (fun r y => (spec E).sem c x y r) ((blocks E).code.start c) false x :=
  Asm.finishes (Classical.choice (correct_exist hE hq c)) x

/-- The operation a call of the sequence lock must do for `op`: a store is done as a swap whose result is
dropped. -/
def lockOp : WOp → WOp
  | .store v => .swap v
  | op => op

/-- **C43e.** Where Zacas is not known to be available, every operation goes to the sequence lock (C01),
with orderings that ask for no less than the caller did: never are some operations on an object done by
instructions and others under the lock. -/
theorem rv64_fallback {E : Env} (hq : ¬ E.Zacas) (c : Call) :
    ∃ o' f', c.block E = .fallback (lockOp c.op) o' f' ∧
      ((lockOp c.op).OrdOk o' f') ∧
      (Acquiring c.ord → Acquiring o') ∧
      (Releasing c.ord → c.op ≠ .load → Releasing o') ∧
      (c.ord = .seqCst → o' = .seqCst) ∧
      (((∃ x y, c.op = .cas x y) ∨ ∃ x y, c.op = .casWeak x y) →
        (Acquiring c.fail → Acquiring f') ∧ (c.fail = .seqCst → f' = .seqCst)) := by
  have h1 : E.cfg.zacas = false := by
    cases h : E.cfg.zacas
    · rfl
    · exact absurd (Or.inl h) hq
  have h2 : E.det = false := by
    cases h : E.det
    · rfl
    · exact absurd (Or.inr h) hq
  have hv := c.valid
  unfold Call.block
  generalize c.op = op at *
  generalize c.ord = o at *
  generalize c.fail = f at *
  cases op with
  | cas x y | casWeak x y =>
    cases o <;> cases f <;>
      simp_all [select, casBlock, lockOp, WOp.OrdOk, Acquiring, Releasing, MemOrd.upgradeSuccess, and_assoc]
  | _ =>
    cases o <;>
      simp_all [select, loadBlock, rmwBlock, lockOp, WOp.OrdOk, Acquiring, Releasing]

/-- What the lock does for a store is the store. -/
theorem lockOp_sem (op : WOp) (x y : BitVec 128) (r : Res (BitVec 128)) (h : (lockOp op).Sem x y r) :
    ∃ r', op.Sem x y r' ∧ ((∀ v, op ≠ .store v) → r' = r) := by
  cases op with
  | store v => exact ⟨.unit, ⟨h.1, rfl⟩, fun h => absurd rfl (h v)⟩
  | _ => exact ⟨r, h, fun _ => rfl⟩

/-- With Zacas, no call is left to the lock, also none of the compare-exchanges inside a loop. -/
theorem rv64_no_fallback {E : Env} (hq : E.Zacas) (c : Call) (op : WOp) (o' f' : MemOrd) :
    c.block E ≠ .fallback op o' f' ∧ c.block E ≠ .unreachable := by
  have hg : Good c.op (c.block E) := select_good hq c.valid
  constructor
  · intro h
    rw [h] at hg
    generalize c.op = op at hg
    cases hg
  · intro h
    rw [h] at hg
    generalize c.op = op at hg
    cases hg

/-! ## Orderings -/

/-- Every call has a completed execution, so the theorems below are about something. -/
theorem rv64_events_exist {E : Env} (hE : E.Ok) (hq : E.Zacas) (c : Call) : ∃ t r, c.Events E t r := by
  let A := blocks E
  have key : ∀ (l : Loc Call St (BitVec 64)) (ρ : Bool) (x : BitVec 128) (Q : _ → BitVec 128 → Prop)
      (_ : ∀ y, ¬ Q none y), A.code.Ends Q l ρ x → l.call = c → l.half = none →
      ∃ n t s', Trace E c n l.pc l.st t s' := by
    intro l ρ x Q hQ h
    have hpr : A.prog c = (c.block E).code E.cfg c.op := rfl
    have hse : ∀ i s, A.sem c i s = i.sem E.cpu c.addr s := fun _ _ => rfl
    have hno : ∀ (i : Ins) (s : St), (∀ w k, i.sem E.cpu c.addr s ≠ .ll2 w k) ∧
        (∀ k, i.sem E.cpu c.addr s ≠ .ll k) ∧ (∀ v k, i.sem E.cpu c.addr s ≠ .sc v k) := by
      intro i s
      refine ⟨?_, ?_, ?_⟩
      all_goals
        intros
        intro h
        unfold Ins.sem amocasSem at h
        split at h
        all_goals first | (cases h; done) | skip
        all_goals repeat' split at h
        all_goals cases h
    induction h with
    | @ret l ρ x r h hq' =>
      intro hc hh
      simp only [Blocks.code, Blocks.next, hc, hpr, hse] at h
      cases hp : ((c.block E).code E.cfg c.op)[l.pc]? with
      | none => exact ⟨_, _, _, .done hp⟩
      | some i =>
        simp only [hp] at h
        cases hs : i.sem E.cpu c.addr l.st with
        | fault => simp only [hs] at h; cases h; exact absurd hq' (hQ _)
        | ll2 w k => exact absurd hs ((hno _ _).1 _ _)
        | _ => simp [hs] at h
    | @tau l ρ x l' h _ ih =>
      intro hc hh
      simp only [Blocks.code, Blocks.next, hc, hpr, hse] at h
      cases hp : ((c.block E).code E.cfg c.op)[l.pc]? with
      | none => simp [hp] at h
      | some i =>
        simp only [hp] at h
        cases hs : i.sem E.cpu c.addr l.st with
        | go s' =>
          simp only [hs, LlSc.Next.tau.injEq] at h
          subst h
          obtain ⟨n, t, s', ht⟩ := ih hc hh
          exact ⟨_, _, _, .go hp hs ht⟩
        | br b n =>
          simp only [hs, LlSc.Next.tau.injEq] at h
          subst h
          obtain ⟨n, t, s', ht⟩ := ih rfl hh
          exact ⟨_, _, _, .br hp hs ht⟩
        | ll2 w k => exact absurd hs ((hno _ _).1 _ _)
        | _ => simp [hs] at h
    | @acc l ρ x a f h _ ih =>
      intro hc hh
      simp only [Blocks.code, Blocks.next, hc, hpr, hse] at h
      cases hp : ((c.block E).code E.cfg c.op)[l.pc]? with
      | none => simp [hp] at h
      | some i =>
        simp only [hp] at h
        cases hs : i.sem E.cpu c.addr l.st with
        | acc a' k =>
          simp only [hs, LlSc.Next.acc.injEq] at h
          obtain ⟨rfl, rfl⟩ := h
          obtain ⟨n, t, s', ht⟩ := ih _ _ (a'.exec_sem false x) hc hh
          exact ⟨_, _, _, .acc hp hs (a'.exec_sem false x) ht⟩
        | ll2 w k => exact absurd hs ((hno _ _).1 _ _)
        | _ => simp [hs] at h
    | @ll l ρ x f h _ ih =>
      intro hc hh
      simp only [Blocks.code, Blocks.next, hc, hpr, hse] at h
      cases hp : ((c.block E).code E.cfg c.op)[l.pc]? with
      | none => simp [hp] at h
      | some i =>
        simp only [hp] at h
        cases hs : i.sem E.cpu c.addr l.st with
        | ll k => exact absurd hs ((hno _ _).2.1 _)
        | ll2 w k => exact absurd hs ((hno _ _).1 _ _)
        | _ => simp [hs] at h
    | @sc l x v f h _ ih =>
      intro hc hh
      simp only [Blocks.code, Blocks.next, hc, hpr, hse] at h
      cases hp : ((c.block E).code E.cfg c.op)[l.pc]? with
      | none => simp [hp] at h
      | some i =>
        simp only [hp] at h
        cases hs : i.sem E.cpu c.addr l.st with
        | sc v' k => exact absurd hs ((hno _ _).2.2 _ _)
        | ll2 w k => exact absurd hs ((hno _ _).1 _ _)
        | _ => simp [hs] at h
  obtain ⟨n, t, s', ht⟩ := key _ _ _ _ (fun y => by rintro ⟨v, s, h, -⟩; simp at h) (rv64_finishes hE hq c 0) rfl rfl
  exact ⟨t, _, n, s', ht, rfl⟩

/-- **C44a.** An operation whose orderings ask for acquire (on the outcome it had) is an acquire operation:
in every execution, whatever the thread did before and does after, and however often the loop was
repeated, its last read of the object is ordered before everything after it. -/
theorem rv64_acquire {E : Env} (hE : E.Ok) (hq : E.Zacas) (c : Call) (t : List Ev) (r : Res (BitVec 128))
    (h : c.Events E t r) (ha : AsksAcquire c.op c.ord c.fail r) : IsAcquire t := by
  obtain ⟨w, hs, -⟩ := shape hE hq c h
  have hm := asked hq c
  refine hs.isAcquire ?_
  have h1 := hm.acq
  have h2 := hm.acqFail
  generalize c.op = op at ha h1 h2
  cases op with
  | store v => exact absurd ha id
  | cas x y =>
    rcases ha with ha | ⟨ha, -⟩
    · exact h2 ⟨_, _, Or.inl rfl⟩ ha
    · exact h1 (by simp) ha
  | casWeak x y =>
    rcases ha with ha | ⟨ha, -⟩
    · exact h2 ⟨_, _, Or.inr rfl⟩ ha
    · exact h1 (by simp) ha
  | _ => exact h1 (by simp) ha

/-- **C44b.** An operation whose ordering asks for release is a release operation: everything before it
is ordered before each of its writes. -/
theorem rv64_release {E : Env} (hE : E.Ok) (hq : E.Zacas) (c : Call) (t : List Ev) (r : Res (BitVec 128))
    (h : c.Events E t r) (ha : AsksRelease c.op c.ord) : IsRelease t := by
  obtain ⟨w, hs, -⟩ := shape hE hq c h
  refine hs.isRelease ((asked hq c).rel ?_ ?_)
  · intro e; rw [e] at ha; exact ha
  · generalize c.op = op at ha
    cases op <;> first | exact ha | exact absurd ha id

/-- What sequentially consistent calls have. -/
theorem seqCst_shape {E : Env} (hE : E.Ok) (hq : E.Zacas) (c : Call) {t : List Ev} {r : Res (BitVec 128)}
    (h : c.Events E t r) (ha : AsksSeqCst c.op c.ord c.fail r) :
    ∃ m w, Shape m w t ∧ m.aq = true ∧ (m.fence = true ∨ (w = true ∧ m.rl = true)) := by
  obtain ⟨w, hs, h1, h2⟩ := shape hE hq c h
  have hm := asked hq c
  refine ⟨_, w, hs, ?_⟩
  have g1 := hm.sc
  have g2 := hm.scLoad
  have g3 := hm.scFail
  generalize c.op = op at ha h1 g1 g2 g3
  cases op with
  | load => exact ⟨(g1 ha).1, Or.inl (g2 rfl ha)⟩
  | cas x y =>
    rcases ha with ha | ⟨ha, hr⟩
    · exact ⟨(g3 ⟨_, _, Or.inl rfl⟩ ha).1, Or.inl (g3 ⟨_, _, Or.inl rfl⟩ ha).2⟩
    · exact ⟨(g1 ha).1, Or.inr ⟨h2 hr, (g1 ha).2⟩⟩
  | casWeak x y =>
    rcases ha with ha | ⟨ha, hr⟩
    · exact ⟨(g3 ⟨_, _, Or.inr rfl⟩ ha).1, Or.inl (g3 ⟨_, _, Or.inr rfl⟩ ha).2⟩
    · exact ⟨(g1 ha).1, Or.inr ⟨h2 hr, (g1 ha).2⟩⟩
  | _ => exact ⟨(g1 ha).1, Or.inr ⟨h1 (by simp) (by simp), (g1 ha).2⟩⟩

/-- **C44c.** Two sequentially consistent operations of a thread are kept in order, a store followed by a
load included: every access of the first is performed before every access of the second. -/
theorem rv64_seqCst {E : Env} (hE : E.Ok) (hq : E.Zacas) (c d : Call) (t u : List Ev) (r r' : Res (BitVec 128))
    (ht : c.Events E t r) (_hu : d.Events E u r') (hc : AsksSeqCst c.op c.ord c.fail r)
    (_hd : AsksSeqCst d.op d.ord d.fail r') : KeptInOrder t u := by
  obtain ⟨m, w, hs, h1, h2⟩ := seqCst_shape hE hq c ht hc
  exact hs.kept h2 h1 u

/-- **C44d.** Everything a thread did before a sequentially consistent operation is ordered before that
operation's last access (the one that decides its result), loads and failing compare-exchanges included.
This is what keeps it in order with sequentially consistent stores that other code, such as the compiler's
for narrower atomics, does without a fence behind. -/
theorem rv64_seqCst_after_everything {E : Env} (hE : E.Ok) (hq : E.Zacas) (c : Call) (t : List Ev)
    (r : Res (BitVec 128)) (ht : c.Events E t r) (hc : AsksSeqCst c.op c.ord c.fail r) : AfterEverything t := by
  obtain ⟨m, w, hs, -, h2⟩ := seqCst_shape hE hq c ht hc
  exact hs.afterEverything h2

/-! ## Concrete cases -/

/-- Registers full of garbage. -/
def garbage : St := ⟨fun _ => 0xdeadbeef, 1, 2⟩

/-- Built with Zacas, old LLVM. -/
def built : Env := ⟨⟨true, true⟩, false, true⟩

/-- Detects Zacas, new LLVM. -/
def detects : Env := ⟨⟨false, false⟩, true, true⟩

/-- A processor without Zacas. -/
def without : Env := ⟨⟨false, false⟩, false, false⟩

example : built.Ok ∧ built.Zacas ∧ detects.Ok ∧ detects.Zacas ∧ without.Ok ∧ ¬ without.Zacas := by
  refine ⟨⟨?_, ?_⟩, Or.inl rfl, ⟨?_, ?_⟩, Or.inr rfl, ⟨?_, ?_⟩, ?_⟩ <;> simp [built, detects, without, Env.Zacas]

/-- A call with given orderings. -/
def mk (op : WOp) (o f : MemOrd) (h : op.OrdOk o f) : Call := ⟨op, o, f, h, 0x1000, garbage⟩

/-- Thread 0's signed `fetch_min` reads the low word, thread 1's compare-exchange replaces the value, and
thread 0 reads the high word: its compare-exchange fails, and it tries again. Then thread 1 loads. -/
def demo : List (Cmd Unit Call) :=
  [.call 0 () (mk (.rmw3 .min 0x5_0000000000000000) .seqCst .relaxed trivial), .go 0,
   .call 1 () (mk (.cas 0x3_0000000000000007 0x4_0000000000000009) .acqRel .acquire ⟨by decide, by decide⟩),
   .go 1, .go 1, .go 1, .go 1, .ret 1,
   .go 0, .go 0, .go 0, .go 0, .go 0, .go 0, .go 0, .go 0, .go 0, .go 0, .go 0, .go 0, .go 0, .go 0, .ret 0,
   .call 1 () (mk .load .seqCst .relaxed ⟨by decide, by decide⟩), .go 1, .go 1, .ret 1]

example : (((blocks built).code).outcome demo (fun _ => 0x3_0000000000000007) ()).map
    (fun p => (p.1.map fun q => (q.1, q.2.map fun r => r.1), p.2)) =
    some ([(1, some (.ok 0x3_0000000000000007)), (0, some (.val 0x4_0000000000000009)),
      (1, some (.val 0x4_0000000000000009))], 0x4_0000000000000009) := by
  decide +kernel

example : (((blocks detects).code).outcome demo (fun _ => 0x3_0000000000000007) ()).map
    (fun p => (p.1.map fun q => (q.1, q.2.map fun r => r.1), p.2)) =
    some ([(1, some (.ok 0x3_0000000000000007)), (0, some (.val 0x4_0000000000000009)),
      (1, some (.val 0x4_0000000000000009))], 0x4_0000000000000009) := by
  decide +kernel

/-- On a processor without it the instruction would fault. -/
example (aq rl : Bool) (a : BitVec 64) (s : St) : (Ins.amocas aq rl .a4 .a2 .ptr).sem false a s = .fault := by
  simp [Ins.sem, amocasSem, Reg.next]

/-- Events of a `SeqCst` load that finds 5. -/
example : (mk .load .seqCst .relaxed ⟨by decide, by decide⟩).Events built
    [.full, .acc true false true false] (.val 5) := by
  have h0 : Acc.sem (.op (.cas (0 : BitVec 128) 0 .relaxed .relaxed)) 5 5 (.err 5) := by
    simp [Acc.sem, Op.onCell, Op.ordOk]
  refine ⟨2, ((mk .load .seqCst .relaxed ⟨by decide, by decide⟩).entry built).swapped .a2 .a3 (.err 5), ?_, rfl⟩
  change Trace _ _ _ 0 _ ((Ins.fence).events .unit ++ ((Ins.word (loadWord 0xe)).events (.err 5) ++ [])) _
  refine .go rfl rfl ?_
  refine .acc (x := 5) (x' := 5) (v := .err 5) rfl (a := .op (.cas 0 0 .relaxed .relaxed)) rfl h0 ?_
  exact .done rfl

/-- Without the fence a load would not be after everything: a failing `amocas.q.aqrl` is no release. -/
example : ¬ AfterEverything [.acc true false true false] := by
  intro h
  have hl : LastMem [Ev.acc true false true false] 0 := by
    refine ⟨⟨_, _, _, _, rfl, Or.inl ⟨rfl, rfl⟩⟩, fun j hj => ?_⟩
    obtain ⟨_, _, _, _, hj, -⟩ := hj
    have := (List.getElem?_eq_some_iff.1 hj).1
    simp at this; omega
  have h1 := h.2 [.acc false true false true] [] 0 0 hl (by simp) ⟨_, _, _, _, rfl, Or.inr ⟨rfl, rfl⟩⟩
  have hb : ∀ i j, ¬ Before [Ev.acc false true false true, .acc true false true false] i j := by
    intro i j hb
    cases hb with
    | fence hi hj h1 h2 h =>
      obtain ⟨_, _, _, _, hj, -⟩ := hj
      have := (List.getElem?_eq_some_iff.1 hj).1
      simp at this; omega
    | aq hi hj hlt =>
      obtain ⟨_, _, _, _, hj, -⟩ := hj
      have := (List.getElem?_eq_some_iff.1 hj).1
      simp at this
      obtain ⟨rfl, rfl⟩ : i = 0 ∧ j = 1 := by omega
      cases hi
    | rl hi hj hlt =>
      have := (List.getElem?_eq_some_iff.1 hj).1
      simp at this
      obtain ⟨rfl, rfl⟩ : i = 0 ∧ j = 1 := by omega
      cases hj
  have ho : ∀ i j, ¬ Ordered [Ev.acc false true false true, .acc true false true false] i j := by
    intro i j ho
    induction ho with
    | one h => exact hb _ _ h
    | trans _ _ ih => exact ih
  exact ho _ _ h1

end Verif.Rv64
