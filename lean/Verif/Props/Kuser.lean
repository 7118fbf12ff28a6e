import Verif.Kuser.Free
import Verif.Kuser.Order
import Verif.Lf.LlScRun
/-!
# 64-bit atomics on Arm Linux before v6 (C47, C48)

`(blocks E).code.sys K` runs the loops of `src/imp/atomic64/arm_linux.rs`, one instruction, helper call or Rust
statement per step, for any number of 8-byte objects (`K`) and threads, from arbitrary contents of
registers, with a kernel and byte order `E`.
-/
set_option autoImplicit false
namespace Verif.Kuser
open Verif.Lf Verif.Object Verif.Asm Verif.Wide
open Verif.Arm (Acquiring Releasing)
open Verif.Pair (Endian)

/-! ## Values -/

/-- **C47a.** The closures compute the operations on 64-bit integers. -/
theorem kuser_next_value (op : Op64) (x : BitVec 64) :
    ∃ r, op.Sem x (next op x) r ∧ (r = .val x ∨ r = .ok x ∨ r = .err x ∨ ∃ v, op = .store v) := by
  refine ⟨_, next_sem op x, ?_⟩
  cases op with
  | cas old new | casWeak old new =>
    by_cases h : x = old
    · exact Or.inr (Or.inl (by simp [ret, h]))
    · exact Or.inr (Or.inr (Or.inl (by simp [ret, h])))
  | _ => simp [ret]

/-- **C47b.** The two words read from memory are the halves of the `U64` union as it is laid out on Arm
(C30), with either byte order: joining them gives the integer back. -/
theorem kuser_halves_are_union (e : Endian) (x : BitVec 64) :
    Pair.pair e true 4 x.toNat = ((word0 e x).toNat, (word1 e x).toNat) ∧
      Pair.whole e true 4 (word0 e x).toNat (word1 e x).toNat = (join e (word0 e x) (word1 e x)).toNat := by
  have hx : x.toNat < 2 ^ (8 * (4 + 4)) := x.isLt
  have h1 : Pair.pair e true 4 x.toNat = ((word0 e x).toNat, (word1 e x).toNat) := by
    rw [Pair.pair_eq _ _ _ _ hx]
    have := x.isLt
    cases e
    all_goals
      simp only [word0, word1, lo, hi, BitVec.extractLsb'_toNat, Nat.shiftRight_eq_div_pow, and_true, reduceCtorEq,
        if_true, if_false]
      congr 1 <;> omega
  refine ⟨h1, ?_⟩
  rw [join_words]
  have := Pair.whole_pair e true 4 x.toNat hx
  rw [h1] at this
  exact this

/-! ## Concurrent histories -/

/-- **C47c.** Where the kernel says that it has the helper, every concurrent history of 64-bit
operations is linearizable with respect to a plain 64-bit integer, although each begins with two separate
reads of the halves and even a load writes. No call faults. It does not matter whether the helper may fail
for no reason. -/
theorem kuser_linearizable {E : Env} (hE : E.Ok) (hk : E.hasKuser = true) {K : Type} [DecidableEq K]
    (m : K → LlSc.Cell (BitVec 64)) (h : List (Object.Ev (K × Call) (Option (Res (BitVec 64))))) (s)
    (hx : Runs ((blocks E).code.sys K) m h s) :
    LinearizableTo (spec.many (K := K)) (fun k => (m k).val) h (fun k => (s.mem k).val) :=
  Asm.linearizable (points hE hk) hx

/-- **C47d.** Undisturbed, every operation finishes, whatever the registers contain at entry, having
done exactly what is specified, if the helper fails only when the value is not the expected one. -/
theorem kuser_finishes {E : Env} (hE : E.Ok) (hk : E.hasKuser = true) (hsp : E.spurious = false) (c : Call)
    (x : BitVec 64) :
    (blocks E).code.Ends (fun r y => spec.sem c x y r) ((blocks E).code.start c) false x :=
  Asm.finishes ⟨points hE hk c, ends hE hk hsp c, (free hE hk c).once, (free hE hk c).stops⟩ x

/-- The operation a call of the sequence lock must do for `op`: a store is done as a swap whose result is
dropped. -/
def lockOp : Op64 → Op64
  | .store v => .swap v
  | op => op

/-- **C47e.** Where the kernel does not say so, every operation goes to the sequence lock (C01), with
`SeqCst` orderings, which ask for no less than any others; otherwise none does: never are some operations on
an object done by the helper and others under the lock. -/
theorem kuser_fallback (E : Env) (c : Call) :
    (E.hasKuser = false → c.block E = .fallback (lockOp c.op) .seqCst .seqCst ∧
      (lockOp c.op).OrdOk .seqCst .seqCst) ∧
    (E.hasKuser = true → c.block E = .loop) ∧
    (E.hasKuser = true ↔ E.detectFalse = false ∧ 5 ≤ E.version.toInt) := by
  refine ⟨fun h => ?_, fun h => block_loop h c, ?_⟩
  · unfold Call.block select
    rw [h]
    cases c.op <;> simp [lockOp, WOp.OrdOk]
  · unfold Env.hasKuser
    cases E.detectFalse <;> simp

/-- What the lock does for a store is the store. -/
theorem lockOp_sem (op : Op64) (x y : BitVec 64) (r : Res (BitVec 64)) (h : (lockOp op).Sem x y r) :
    ∃ r', op.Sem x y r' ∧ ((∀ v, op ≠ .store v) → r' = r) := by
  cases op with
  | store v => exact ⟨.unit, ⟨h.1, rfl⟩, fun h => absurd rfl (h v)⟩
  | _ => exact ⟨r, h, fun _ => rfl⟩

/-! ## Orderings -/

/-- Every call has a completed execution. -/
theorem kuser_events_exist {E : Env} (hE : E.Ok) (hk : E.hasKuser = true) (c : Call) : ∃ t r, c.Events E t r := by
  have hsp : ∃ E' : Env, E'.Ok ∧ E'.hasKuser = true ∧ E'.spurious = false ∧ E' = { E with spurious := false } :=
    ⟨{ E with spurious := false }, hE, hk, rfl, rfl⟩
  obtain ⟨E', hE', hk', hs', e⟩ := hsp
  obtain ⟨n, t, s', h⟩ := trace_exists (A := blocks E') Ins.events (c := c) (by
      intro i s
      refine ⟨?_, ?_, ?_⟩
      all_goals
        intros
        intro h
        simp only [blocks, Ins.sem] at h
        repeat' split at h
        all_goals cases h) (Q := fun r y => spec.sem c 0 y r) (fun y => by rintro ⟨v, h, -⟩; cases h)
    (ends hE' hk' hs' c 0)
  have key : ∀ n pc s t s', Trace (blocks E') Ins.events c n pc s t s' → Trace (blocks E) Ins.events c n pc s t s' := by
    intro n pc s t s' h
    have hprog : (blocks E').prog c = (blocks E).prog c := by rw [prog_loop hk', prog_loop hk]
    have hsem : ∀ i s, i ≠ .kuser → (blocks E').sem c i s = (blocks E).sem c i s := by
      intro i s hi
      subst e
      cases i <;> first | rfl | exact absurd rfl hi
    induction h with
    | done h => exact .done (hprog ▸ h)
    | @go n pc s i s1 t s' hp h _ ih =>
      refine .go (hprog ▸ hp) ?_ ih
      rw [← hsem]
      · exact h
      · rintro rfl
        simp only [blocks, Ins.sem] at h
        repeat' split at h
        all_goals cases h
    | @br n pc s i b k t s' hp h _ ih =>
      refine .br (hprog ▸ hp) ?_ ih
      rw [← hsem]
      · exact h
      · rintro rfl
        simp only [blocks, Ins.sem] at h
        repeat' split at h
        all_goals cases h
    | @acc n pc s i a k x x' v t s' hp h hs _ ih =>
      by_cases hi : i = .kuser
      · subst hi
        simp only [blocks, Ins.sem] at h
        split at h
        · rename_i hc
          rw [hs', if_neg (by simp)] at h
          cases h
          have e2 : (blocks E).sem c .kuser s = .acc (kuserAcc E s) s.called := sem_kuser (by subst e; exact hc.1) hc.2
          refine .acc (x := x) (x' := x') (hprog ▸ hp) e2 ?_ ih
          unfold kuserAcc
          split
          · exact Or.inl hs
          · exact hs
        · cases h
      · refine .acc (hprog ▸ hp) ?_ hs ih
        rw [← hsem _ _ hi]; exact h
  refine ⟨t, _, n, s', ?_, rfl⟩
  have := key _ _ _ _ _ h
  subst e
  exact this

/-- **C48a.** Whatever the orderings asked for, every 64-bit operation is an acquire operation (its last
read is ordered before everything after it) and a release operation (everything before it is ordered before
its write), in every execution and however often the loop was repeated. -/
theorem kuser_acqRel {E : Env} (hE : E.Ok) (hk : E.hasKuser = true) (c : Call) (t : List Ev) (r : Res (BitVec 64))
    (h : c.Events E t r) : IsAcquire t ∧ IsRelease t :=
  ⟨(shape hE hk h).acquire, (shape hE hk h).release⟩

/-- **C48b.** It is kept in order with every later operation of the thread, of this or another module. -/
theorem kuser_seqCst {E : Env} (hE : E.Ok) (hk : E.hasKuser = true) (c : Call) (t u : List Ev) (r : Res (BitVec 64))
    (h : c.Events E t r) : KeptInOrder t u :=
  Arm.kept_of_full (shape hE hk h).fenced

/-! ## Concrete cases -/

/-- Kernel 3.1, little-endian. -/
def le : Env := ⟨.little, 5, false, true, false⟩
/-- Big-endian, with a helper that may fail for no reason. -/
def be : Env := ⟨.big, 7, false, true, true⟩
/-- Kernel 2.6.15. -/
def old : Env := ⟨.little, 3, false, false, false⟩

example : le.Ok ∧ le.hasKuser = true ∧ be.Ok ∧ be.hasKuser = true ∧ old.Ok ∧ old.hasKuser = false := by
  refine ⟨fun _ => rfl, by decide +kernel, fun _ => rfl, by decide +kernel, ?_, by decide +kernel⟩
  intro h; exact absurd h (by decide +kernel)

def garbage : St := ⟨1, 2, 3, 4, 5, true⟩

def mk (op : Op64) (o f : MemOrd) (h : op.OrdOk o f) : Call := ⟨op, o, f, h, 0x1000, garbage⟩

/-- Thread 0's `fetch_add` reads one word, thread 1's compare-exchange replaces the value, thread 0 reads the
other word, fails and tries again; then thread 1 loads. -/
def demo : List (Cmd Unit Call) :=
  [.call 0 () (mk (.rmw3 .add 0x1_00000001) .relaxed .relaxed trivial), .go 0,
   .call 1 () (mk (.cas 0x3_ffffffff 0x4_00000009) .acqRel .acquire ⟨by decide, by decide⟩),
   .go 1, .go 1, .go 1, .go 1, .go 1, .go 1, .ret 1,
   .go 0, .go 0, .go 0, .go 0, .go 0, .go 0, .go 0, .go 0, .go 0, .go 0, .go 0, .ret 0,
   .call 1 () (mk .load .seqCst .relaxed ⟨by decide, by decide⟩), .go 1, .go 1, .go 1, .go 1, .go 1, .go 1, .ret 1]

example : (((blocks le).code).outcome demo (fun _ => 0x3_ffffffff) ()) =
    some ([(1, some (.ok 0x3_ffffffff)), (0, some (.val 0x4_00000009)),
      (1, some (.val 0x5_0000000a))], 0x5_0000000a) := by
  decide +kernel

example : (((blocks be).code).outcome demo (fun _ => 0x3_ffffffff) ()) =
    some ([(1, some (.ok 0x3_ffffffff)), (0, some (.val 0x4_00000009)),
      (1, some (.val 0x5_0000000a))], 0x5_0000000a) := by
  decide +kernel

/-- Calling the helper where there is none would fault. -/
example (c : Call) (s : St) : (blocks old).sem c .kuser s = .fault := by
  simp [blocks, Ins.sem, old]

end Verif.Kuser
