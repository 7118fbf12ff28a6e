import Verif.WM.Sim
import Verif.WM.NativeProps
import Verif.WM.Run
import Verif.Fallback.Config
/-!
# Properties of the global-lock fallback under weak memory (C05, C09-C11)

`Lock.Behaviour c v0 x0 h`: `h` is a history of the fallback code (`Fallback/Code.lean`: all accesses
with the orderings written in `src/imp/fallback/*.rs`) run by any number of threads on the C11-style
memory of `WM/Machine.lean`, with threads also using variables and fences of their own.  The bound on
the number of calls (2^63 or 2^63 - 2^31) is the version-counter bound of C07, needed because a load
may, in weak memory, be arbitrarily slow in learning of other operations.
-/
set_option autoImplicit false
set_option linter.unusedSectionVars false
namespace Verif.WM
open Verif.Fallback

namespace Lock
variable {V X : Type} [DecidableEq V]

/-- The histories of the lock-based code. -/
def Behaviour (c : Cfg V) (v0 : Obj → V) (x0 : Nat → X) (h : List (Ev V X)) : Prop :=
  ∃ s, Exec Step (init c v0 x0) h s

end Lock

variable {V X : Type} [DecidableEq V] {c : Cfg V} {v0 : Obj → V} {x0 : Nat → X} {h : List (Ev V X)}

/-- **C10 (refinement).**  Whatever the lock-based atomics do, native atomics, accessed with the
orderings the callers asked for, can do: values, synchronisation, coherence, SC order. -/
theorem fallback_refines_native (ok : c.Sound) (hv : ∀ o, c.fits o (v0 o)) (hx : Lock.Behaviour c v0 x0 h)
    (hb : Lock.calls h < c.maxOverlap) : Native.Behaviour v0 x0 h := by
  obtain ⟨s, x⟩ := hx
  obtain ⟨-, -, a, ha, -⟩ := Lock.sim ok hv x hb
  exact ⟨a, ha⟩

/-! ## Values and coherence (C10) -/

/-- **C10 (untorn).**  Every value an operation reports was the initial value of the object or was put
there by operations called before the report: never a mixture of the words of two values. -/
theorem fallback_untorn (ok : c.Sound) (hv : ∀ o, c.fits o (v0 o)) (hx : Lock.Behaviour c v0 x0 h) (hb : Lock.calls h < c.maxOverlap)
    {i k : Nat} {t : Tid} {o : Obj} {op : Op V} {r : Res V} (C : Called h i k t o op r) {y : V}
    (hy : Reads r y) : Written v0 (h.take k) o y :=
  Native.untorn (fallback_refines_native ok hv hx hb) C hy

/-- **C10 (coherence).**  Once a thread has read or written a value of the object that cannot be
changed back (all operations in the history keep `Q`), with any ordering, all its later operations
on that object see such a value. -/
theorem fallback_coherent (ok : c.Sound) (hv : ∀ o, c.fits o (v0 o)) (hx : Lock.Behaviour c v0 x0 h) (hb : Lock.calls h < c.maxOverlap)
    {o : Obj} {Q : V → Prop} (hk : AllKeep h o Q) {i k i' k' : Nat} {t : Tid} {op op' : Op V} {r r' : Res V}
    (C : Called h i k t o op r) (C' : Called h i' k' t o op' r') (hlt : k < i') {x y : V}
    (hl : Leaves op r x) (hn : r ≠ .panic) (hq : Q x) (hy : Reads r' y) : Q y :=
  Native.recency (fallback_refines_native ok hv hx hb) hk C C' hlt (.inl rfl) hl hn hq hy

/-! ## Synchronisation (C09) -/

/-- **C09 (message passing, with release sequences).**  Variable `a` is only ever set to `x1`.  Values
with `Q` get into object `o` only through operations with release ordering made by threads that have
stored `x1` to `a` before; other operations are arbitrary but do not create `Q` (read-modify-writes may
pass it on with any ordering).  Then a thread that obtains a value with `Q` by an operation with acquire
ordering finds `x1` in `a` afterwards. -/
theorem fallback_message_passing (ok : c.Sound) (hv : ∀ o, c.fits o (v0 o)) (hx : Lock.Behaviour c v0 x0 h)
    (hb : Lock.calls h < c.maxOverlap) {a : Nat} {x1 : X} {o : Obj} {Q : V → Prop} (h0 : ¬ Q (v0 o))
    (hw : OnlyStores h a x1)
    (hc : ∀ (n : Nat) (t : Tid) (op : Op V), h[n]? = some (.inv t o op) → Keeps (fun y => ¬ Q y) op ∨
      (∃ w, wrOrd op = some w ∧ rels w = true) ∧ ∃ m < n, ∃ ow r, h[m]? = some (.client t (.store a x1 ow) r))
    {i k j : Nat} {t : Tid} {op : Op V} {r : Res V} (C : Called h i k t o op r)
    (ha : acqs (effOrd op r) = true) {y : V} (hy : Reads r y) (hq : Q y) (hj : k < j) {ol : MemOrd}
    {z : Option X} (hz : h[j]? = some (.client t (.load a ol) z)) : z = some x1 :=
  Native.message_passing (fallback_refines_native ok hv hx hb) h0 hw hc C ha hy hq hj hz

/-! ## Sequential consistency (C11) -/

/-- **C11 (order of SeqCst operations on one object).**  A `SeqCst` operation called after another
`SeqCst` operation on the object has returned, in whatever thread, sees its effect. -/
theorem fallback_sc_recency (ok : c.Sound) (hv : ∀ o, c.fits o (v0 o)) (hx : Lock.Behaviour c v0 x0 h) (hb : Lock.calls h < c.maxOverlap)
    {o : Obj} {Q : V → Prop} (hk : AllKeep h o Q) {i k i' k' : Nat} {t t' : Tid} {op op' : Op V}
    {r r' : Res V} (C : Called h i k t o op r) (C' : Called h i' k' t' o op' r') (hlt : k < i')
    (hs : effOrd op r = .seqCst) (hs' : effOrd op' r' = .seqCst) {x y : V}
    (hl : Leaves op r x) (hn : r ≠ .panic) (hq : Q x) (hy : Reads r' y) : Q y :=
  Native.recency (fallback_refines_native ok hv hx hb) hk C C' hlt (.inr ⟨hs, hs'⟩) hl hn hq hy

/-- **C11 (store buffering).**  Thread `A` sets flag `o1` and then reads `o2`; thread `B` sets flag
`o2` and then reads `o1`; all four operations are `SeqCst`.  At least one of the two sees the other's
flag. -/
theorem fallback_store_buffering (ok : c.Sound) (hv : ∀ o, c.fits o (v0 o)) (hx : Lock.Behaviour c v0 x0 h)
    (hb : Lock.calls h < c.maxOverlap) {o1 o2 : Obj} {Q1 Q2 : V → Prop} (hk1 : AllKeep h o1 Q1)
    (hk2 : AllKeep h o2 Q2) {A B : Tid} {a1 a2 a3 a4 b1 b2 b3 b4 : Nat} {opA opA' opB opB' : Op V}
    {rA rA' rB rB' : Res V}
    (CA : Called h a1 a2 A o1 opA rA) (CA' : Called h a3 a4 A o2 opA' rA') (hA : a2 < a3)
    (CB : Called h b1 b2 B o2 opB rB) (CB' : Called h b3 b4 B o1 opB' rB') (hB : b2 < b3)
    (sA : effOrd opA rA = .seqCst) (sA' : effOrd opA' rA' = .seqCst)
    (sB : effOrd opB rB = .seqCst) (sB' : effOrd opB' rB' = .seqCst)
    {xA xB yA yB : V} (lA : Leaves opA rA xA) (nA : rA ≠ .panic) (qA : Q1 xA)
    (lB : Leaves opB rB xB) (nB : rB ≠ .panic) (qB : Q2 xB)
    (dA : Reads rA' yA) (dB : Reads rB' yB) : Q2 yA ∨ Q1 yB := by
  rcases Nat.lt_or_ge a2 b3 with hlt | hge
  · exact .inr (fallback_sc_recency ok hv hx hb hk1 CA CB' hlt sA sB' lA nA qA dB)
  · exact .inl (fallback_sc_recency ok hv hx hb hk2 CB CA' (by omega) sB sA' lB nB qB dA)

/-- **C11 (SeqCst operations as fences).**  If `A` stores to its variable and then completes a `SeqCst`
operation on a fallback object (or a `SeqCst` fence), and after that `B` begins and completes one, then
`B`'s later reads of the variable see the store, even with relaxed orderings. -/
theorem fallback_sc_fences (ok : c.Sound) (hv : ∀ o, c.fits o (v0 o)) (hx : Lock.Behaviour c v0 x0 h) (hb : Lock.calls h < c.maxOverlap)
    {a : Nat} {x1 : X} (hw : OnlyStores h a x1) {m f g f' g' j : Nat} {A B : Tid} {ow ol : MemOrd}
    {r z : Option X} (hm : h[m]? = some (.client A (.store a x1 ow) r)) (hmf : m < f)
    (F : FullFence h f g A) (hg : g < f') (F' : FullFence h f' g' B) (hj : g' < j)
    (hz : h[j]? = some (.client B (.load a ol) z)) : z = some x1 :=
  Native.sc_fences (fallback_refines_native ok hv hx hb) hw hm hmf F hg F' hj hz

/-- **C11 (mixed store buffering).**  `A` stores to a variable, synchronises, then reads the fallback
object with `SeqCst`; `B` writes the fallback object with `SeqCst`, synchronises, then reads the variable:
at least one sees the other's write. -/
theorem fallback_store_buffering_mixed (ok : c.Sound) (hv : ∀ o, c.fits o (v0 o)) (hx : Lock.Behaviour c v0 x0 h)
    (hb : Lock.calls h < c.maxOverlap) {a : Nat} {x1 : X} (hw : OnlyStores h a x1) {o : Obj} {Q : V → Prop}
    (hk : AllKeep h o Q) {A B : Tid} {m f g i k i' k' f' g' j : Nat} {ow ol : MemOrd} {r0 z : Option X}
    {op op' : Op V} {r r' : Res V}
    (hm : h[m]? = some (.client A (.store a x1 ow) r0)) (hmf : m < f) (F : FullFence h f g A)
    (hgi : g < i) (C : Called h i k A o op r) (s : effOrd op r = .seqCst)
    (C' : Called h i' k' B o op' r') (s' : effOrd op' r' = .seqCst) (hkf : k' < f')
    (F' : FullFence h f' g' B) (hj : g' < j) (hz : h[j]? = some (.client B (.load a ol) z))
    {x y : V} (hl : Leaves op' r' x) (hn : r' ≠ .panic) (hq : Q x) (hy : Reads r y) :
    z = some x1 ∨ Q y := by
  rcases Nat.lt_or_ge g f' with hlt | hge
  · exact .inl (fallback_sc_fences ok hv hx hb hw hm hmf F hlt F' hj hz)
  · exact .inr (fallback_sc_recency ok hv hx hb hk C' C (by omega) s' s hl hn hq hy)

/-! ## No data races (C05, C09) -/

/-- **C05 under weak memory.**  When a thread makes the plain (non-atomic) read of a word under the lock,
every write ever made to that word happens before the read: the read does not race with a write made
before it in time, and returns the latest value. -/
theorem plain_read_knows_all_writes (ok : c.Sound) (hv : ∀ o, c.fits o (v0 o)) {s : Lock.State c X} (x : Exec Lock.Step (Lock.init c v0 x0) h s)
    (hb : Lock.calls h < c.maxOverlap) {t : Tid} {l : Fallback.Loc} (ha : c.act (s.pc t) = some (.naLoad l)) :
    ∀ m ∈ s.mem l, m.ts ≤ (s.tv t).cur (.mem l) := by
  obtain ⟨lk, ob, a, -, I, -⟩ := Lock.sim ok hv x hb
  have hi := I.hinv t
  cases hp : s.pc t <;> rw [hp] at ha hi <;> simp only [Cfg.act, Option.some.injEq, reduceCtorEq,
    Act.naLoad.injEq] at ha
  next k p i acc =>
  subst ha
  intro m hm
  obtain ⟨hH, hP, -, -, hn, -⟩ := hi
  obtain ⟨kk, h1, h2, -⟩ := (I.obj k.obj).chunks i m hm
  have hpd := hP k.obj rfl
  have hkk : kk ≤ (ob k.obj).K := by rcases h2 with h | h <;> omega
  have h5 := (I.obj k.obj).fvct i (ob k.obj).K _ hn le_rfl le_rfl ((I.obj k.obj).vtE _ le_rfl)
  refine le_trans ?_ (h5.trans (hH.fv _))
  rw [h1]
  rcases hkk.lt_or_eq with h | rfl
  · exact ((I.obj k.obj).ct_lt hn h (.inl le_rfl)).le
  · exact le_rfl

/-- **C05 under weak memory.**  Conversely, when a thread writes a word of an object, every plain read
ever made of that word, by any thread `u`, happens before the write (`nr` counts the plain reads; a view's
`rd` component counts the plain reads that happen before). -/
theorem write_knows_all_plain_reads (ok : c.Sound) (hv : ∀ o, c.fits o (v0 o)) {s : Lock.State c X}
    (x : Exec Lock.Step (Lock.init c v0 x0) h s) (hb : Lock.calls h < c.maxOverlap) {t : Tid} {o : Obj} {i : Nat}
    {y : BitVec c.W} {ord : MemOrd} (ha : c.act (s.pc t) = some (.store (.chunk o i) y ord)) (u : Tid) :
    (s.nr (.chunk o i) u : Ts) ≤ (s.tv t).cur (.rd (.chunk o i) u) := by
  obtain ⟨lk, ob, a, -, I, -⟩ := Lock.sim ok hv x hb
  have hh := I.held t (c.lockOf o)
  cases hp : s.pc t <;> rw [hp] at ha hh <;> simp only [Cfg.act, Option.some.injEq, reduceCtorEq,
    Act.store.injEq, Loc.chunk.injEq, false_and] at ha
  next k p j new r =>
  obtain ⟨⟨rfl, rfl⟩, -, -⟩ := ha
  exact I.markH _ t (hh.1 rfl) k.obj rfl j u

/-- Only words of objects are read by plain reads, and they are written by nothing but stores, so the two
theorems above cover every pair of conflicting accesses. -/
theorem plain_read_words_only {pc : Pc V c.W} {l : Fallback.Loc} (ha : c.act pc = some (.naLoad l)) :
    ∃ o i, l = .chunk o i := by
  cases pc <;> simp only [Cfg.act, Option.some.injEq, reduceCtorEq, Act.naLoad.injEq] at ha
  exact ⟨_, _, ha.symm⟩

theorem words_not_swapped {pc : Pc V c.W} {o : Obj} {i : Nat} {y : BitVec c.W} {ord : MemOrd} :
    c.act pc ≠ some (.swap (.chunk o i) y ord) := by
  cases pc <;> simp [Cfg.act]

/-! ## The three configurations of the crate -/

theorem u128_narrow_refines_native (be : Bool) (addr : Obj → Nat) {v0 : Obj → BitVec 128}
    {h : List (Ev (BitVec 128) X)} (hx : Lock.Behaviour (u128Narrow be addr) v0 x0 h)
    (hb : Lock.calls h < 2 ^ 63) : Native.Behaviour v0 x0 h :=
  fallback_refines_native (u128Narrow_ok be addr).toSound (fun _ => trivial) hx (by rw [maxOverlap_narrow]; exact hb)

theorem u128_wide_refines_native (be : Bool) (addr : Obj → Nat) {v0 : Obj → BitVec 128}
    {h : List (Ev (BitVec 128) X)} (hx : Lock.Behaviour (u128Wide be addr) v0 x0 h)
    (hb : Lock.calls h < 2 ^ 63 - 2 ^ 31) : Native.Behaviour v0 x0 h :=
  fallback_refines_native (u128Wide_ok be addr).toSound (fun _ => trivial) hx (by rw [maxOverlap_wide]; exact hb)

theorem u64_wide_refines_native (be : Bool) (addr : Obj → Nat) {v0 : Obj → BitVec 64}
    {h : List (Ev (BitVec 64) X)} (hx : Lock.Behaviour (u64Wide be addr) v0 x0 h)
    (hb : Lock.calls h < 2 ^ 63 - 2 ^ 31) : Native.Behaviour v0 x0 h :=
  fallback_refines_native (u64Wide_ok be addr).toSound (fun _ => trivial) hx (by rw [maxOverlap_wide64]; exact hb)

/-! ## The hypotheses are met: concrete weak-memory executions -/

namespace WmDemo
open Lock (Cmd)

def cfg : Cfg (BitVec 128) := u128Narrow false fun o => 16 * o
theorem ok : cfg.Ok := u128Narrow_ok _ _
theorem small {h : List (Ev (BitVec 128) Nat)} (hb : Lock.calls h < 100) : Lock.calls h < cfg.maxOverlap := by
  have : cfg.maxOverlap = 2 ^ 63 := maxOverlap_narrow _ _
  omega
def s0 : Lock.State cfg Nat := Lock.init cfg (fun _ => 5) (fun _ => 0)

/-- Thread 0 stores 7 to its variable, then publishes with a release store to the 128-bit object 0;
thread 1 gets the new value with an acquire load and reads the variable. -/
def mp : List (Cmd (BitVec 128) Nat) :=
  [.store 0 0 7 .relaxed, .call 0 0 (.store (2 ^ 64 + 9) .release), .go 0 0, .go 0 0, .go 0 0, .go 0 0, .go 0 0,
   .ret 0 .unit,
   .call 1 0 (.load .acquire), .go 1 0, .go 1 0, .go 1 0, .go 1 0, .go 1 0, .ret 1 (.val (2 ^ 64 + 9)),
   .load 1 0 .relaxed 0 7]

/-- The same, but thread 1's load starts from an old value of the lock word and returns the old value,
although the store has completed: allowed, and shows that the memory is weak. -/
def stale : List (Cmd (BitVec 128) Nat) :=
  [.store 0 0 7 .relaxed, .call 0 0 (.store (2 ^ 64 + 9) .release), .go 0 0, .go 0 0, .go 0 0, .go 0 0, .go 0 0,
   .ret 0 .unit,
   .call 1 0 (.load .acquire), .go 1 2, .go 1 1, .go 1 1, .go 1 0, .go 1 2, .ret 1 (.val 5),
   .load 1 0 .relaxed 1 0]

/-- Store buffering with `SeqCst` operations on objects 0 and 1; thread 1's load of object 0 sees
thread 0's store. -/
def sb : List (Cmd (BitVec 128) Nat) :=
  [.call 0 0 (.store 1 .seqCst), .call 1 1 (.store 1 .seqCst)] ++
  List.replicate 7 (.go 0 0) ++ List.replicate 7 (.go 1 0) ++ [.ret 0 .unit, .ret 1 .unit,
   .call 0 1 (.load .seqCst), .call 1 0 (.load .seqCst)] ++
  List.replicate 7 (.go 0 0) ++ List.replicate 7 (.go 1 0) ++ [.ret 0 (.val 1), .ret 1 (.val 1)]

theorem mp_runs : (Lock.run s0 mp).isSome = true := by decide +kernel
theorem stale_runs : (Lock.run s0 stale).isSome = true := by decide +kernel
theorem sb_runs : (Lock.run s0 sb).isSome = true := by decide +kernel

theorem behaviour {ks : List (Cmd (BitVec 128) Nat)} (h : (Lock.run s0 ks).isSome = true) :
    Lock.Behaviour cfg (fun _ => 5) (fun _ => 0) (ks.filterMap Cmd.ev) := by
  obtain ⟨s, hs⟩ := Option.isSome_iff_exists.1 h
  exact ⟨s, Lock.run_sound (Lock.cmds_fit ok _) hs⟩

/-- The history of `mp`. -/
theorem mp_hist : mp.filterMap Cmd.ev = [.client 0 (.store 0 7 .relaxed) none,
    .inv 0 0 (.store (2 ^ 64 + 9) .release), .ret 0 .unit, .inv 1 0 (.load .acquire),
    .ret 1 (.val (2 ^ 64 + 9)), .client 1 (.load 0 .relaxed) (some 7)] := rfl

/-- All hypotheses of `fallback_message_passing` hold of `mp`. -/
example (z : Option Nat) (hz : (mp.filterMap Cmd.ev)[5]? = some (.client 1 (.load 0 .relaxed) z)) :
    z = some 7 := by
  have hx := behaviour mp_runs
  rw [mp_hist] at hx hz
  refine fallback_message_passing (a := 0) (x1 := 7) (o := 0) (Q := fun y => y = 2 ^ 64 + 9) (i := 3) (k := 4)
    (j := 5) (t := 1) (op := .load .acquire) (r := .val (2 ^ 64 + 9)) (y := 2 ^ 64 + 9) (ol := .relaxed)
    ok.toSound (fun _ => trivial) hx (small (by decide)) (by decide +kernel) ?_ ?_ ?_ rfl rfl rfl (by omega) hz
  · intro n t act r hn hw
    match n with
    | 0 => cases hn; exact ⟨_, rfl⟩
    | 1 | 2 | 3 | 4 => cases hn
    | 5 => cases hn; cases hw
    | n + 6 => simp at hn
  · intro n t op hn
    match n with
    | 0 | 2 | 4 | 5 => cases hn
    | 1 => cases hn; exact .inr ⟨⟨_, rfl, rfl⟩, 0, by omega, _, _, rfl⟩
    | 3 => cases hn; exact .inl trivial
    | n + 6 => simp at hn
  · refine ⟨by omega, rfl, rfl, fun j h1 h2 => by omega⟩

/-- All hypotheses of `fallback_store_buffering` (and so of `fallback_sc_recency`) hold of `sb`. -/
example (y z : BitVec 128) (hy : (sb.filterMap Cmd.ev)[6]? = some (.ret 0 (.val y)))
    (hz : (sb.filterMap Cmd.ev)[7]? = some (.ret 1 (.val z))) : y = 1 ∨ z = 1 := by
  have hx := behaviour sb_runs
  have e : sb.filterMap Cmd.ev = [.inv 0 0 (.store 1 .seqCst), .inv 1 1 (.store 1 .seqCst), .ret 0 .unit,
    .ret 1 .unit, .inv 0 1 (.load .seqCst), .inv 1 0 (.load .seqCst), .ret 0 (.val 1), .ret 1 (.val 1)] := rfl
  rw [e] at hx hy hz
  refine fallback_store_buffering (o1 := 0) (o2 := 1) (Q1 := fun y => y = 1) (Q2 := fun y => y = 1) (A := 0)
    (B := 1) (a1 := 0) (a2 := 2) (a3 := 4) (a4 := 6) (b1 := 1) (b2 := 3) (b3 := 5) (b4 := 7)
    (xA := 1) (xB := 1) (yA := y) (yB := z) (rA' := .val y) (rB' := .val z) ok.toSound (fun _ => trivial) hx (small (by decide)) ?_ ?_
    ⟨by omega, rfl, rfl, ?_⟩ ⟨by omega, rfl, hy, ?_⟩ (by omega) ⟨by omega, rfl, rfl, ?_⟩
    ⟨by omega, rfl, hz, ?_⟩ (by omega) rfl rfl rfl rfl rfl (by simp) rfl rfl (by simp) rfl rfl rfl
  · intro n t op hn
    match n with
    | 0 | 5 => cases hn; first | rfl | trivial
    | 1 | 2 | 3 | 4 | 6 | 7 => cases hn
    | n + 8 => simp at hn
  · intro n t op hn
    match n with
    | 1 | 4 => cases hn; first | rfl | trivial
    | 0 | 2 | 3 | 5 | 6 | 7 => cases hn
    | n + 8 => simp at hn
  · intro j h1 h2 r'
    obtain rfl : j = 1 := by omega
    simp
  · intro j h1 h2 r'
    obtain rfl : j = 5 := by omega
    simp
  · intro j h1 h2 r'
    obtain rfl : j = 2 := by omega
    simp
  · intro j h1 h2 r'
    obtain rfl : j = 6 := by omega
    simp

/-- The stale read of `stale` is the initial value: `fallback_untorn` applies. -/
example : Written (fun _ => 5) ((stale.filterMap Cmd.ev).take 4) 0 5 :=
  fallback_untorn ok.toSound (fun _ => trivial) (behaviour stale_runs) (small (by decide)) (i := 3) (k := 4) (t := 1)
    (op := .load .acquire) (r := .val 5) ⟨by omega, rfl, rfl, fun j h1 h2 => by omega⟩ rfl

/-- Thread 1 of `plain` is about to make the plain read, after thread 0 wrote the word: the hypotheses of
`plain_read_knows_all_writes` and `write_knows_all_plain_reads` are met by states of these runs. -/
def plain : List (Cmd (BitVec 128) Nat) :=
  [.call 0 0 (.store (2 ^ 64 + 9) .release)] ++ List.replicate 5 (.go 0 0) ++ [.ret 0 .unit,
   .call 1 0 (.swap 3 .acqRel), .go 1 0, .go 1 0]

theorem plain_runs : ((Lock.run s0 plain).map fun s => cfg.act (s.pc 1)) = some (some (.naLoad (.chunk 0 0))) := by
  decide +kernel
theorem plain_runs' : ((Lock.run s0 (plain ++ [.go 1 0, .go 1 0])).map fun s => cfg.act (s.pc 1)) =
    some (some (.store (.chunk 0 0) 3 .relaxed)) := by
  decide +kernel

end WmDemo

end Verif.WM
