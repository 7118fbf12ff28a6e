import Verif.Fallback.Wrap
import Verif.Fallback.Tight
import Verif.Spec.Local
/-!
# Properties of the global-lock fallback (C01-C08), interleaving semantics

Everything here is about `Cfg.Step` (`Fallback/SC.lean`), the machine that runs the fallback code
(`Fallback/Code.lean`) with any number of threads and objects.  `Cfg.StepB` are the same steps taken
only while no optimistic load has been overtaken by `maxOverlap` completed write sections.
-/
namespace Verif
namespace Fallback
set_option linter.unusedSectionVars false
variable {V : Type} [DecidableEq V] {c : Cfg V}
variable {cells : Obj → V} {v0 : Nat → Nat} {ext : Nat → BitVec c.W}

/-! ## Vocabulary of the statements -/

/-- Program points between taking and releasing the lock of object `o`
(`seq_lock_common.rs` L25 succeeded, L73/L92 not yet done). -/
def InSection (pc : Pc V c.W) (o : Obj) : Prop :=
  (∃ k p, pc = .relFence k p ∧ k.obj = o) ∨
  (∃ k p i acc, pc = .naRead k p i acc ∧ k.obj = o) ∨
  (∃ k p i new r, pc = .wrChunk k p i new r ∧ k.obj = o) ∨
  (∃ k p r, pc = .hiLoad k p r ∧ k.obj = o) ∨
  (∃ k p h r, pc = .hiStore k p h r ∧ k.obj = o) ∨
  (∃ k p r, pc = .dropStore k p r ∧ k.obj = o) ∨
  (∃ k p r, pc = .abortStore k p r ∧ k.obj = o)

theorem InSection.owns {pc : Pc V c.W} {o : Obj} (h : InSection pc o) :
    c.owns pc = some (c.lockOf o) := by
  rcases h with ⟨_, _, rfl, rfl⟩ | ⟨_, _, _, _, rfl, rfl⟩ | ⟨_, _, _, _, _, rfl, rfl⟩ |
    ⟨_, _, _, rfl, rfl⟩ | ⟨_, _, _, _, rfl, rfl⟩ | ⟨_, _, _, rfl, rfl⟩ | ⟨_, _, _, rfl, rfl⟩ <;> rfl

theorem inSection_of_owns {pc : Pc V c.W} {l : Nat} (hown : c.owns pc = some l) :
    ∃ o, InSection pc o ∧ c.lockOf o = l := by
  cases pc <;>
    simp only [Cfg.owns, Cfg.holds, Option.map_none, Option.map_some, Option.some.injEq,
      reduceCtorEq] at hown
  · exact ⟨_, Or.inl ⟨_, _, rfl, rfl⟩, hown⟩
  · exact ⟨_, Or.inr (Or.inl ⟨_, _, _, _, rfl, rfl⟩), hown⟩
  · exact ⟨_, Or.inr (Or.inr (Or.inl ⟨_, _, _, _, _, rfl, rfl⟩)), hown⟩
  · exact ⟨_, Or.inr (Or.inr (Or.inr (Or.inl ⟨_, _, _, rfl, rfl⟩))), hown⟩
  · exact ⟨_, Or.inr (Or.inr (Or.inr (Or.inr (Or.inl ⟨_, _, _, _, rfl, rfl⟩)))), hown⟩
  · exact ⟨_, Or.inr (Or.inr (Or.inr (Or.inr (Or.inr (Or.inl ⟨_, _, _, rfl, rfl⟩))))), hown⟩
  · exact ⟨_, Or.inr (Or.inr (Or.inr (Or.inr (Or.inr (Or.inr ⟨_, _, _, rfl, rfl⟩))))), hown⟩

/-! ## A concrete run used to show that hypotheses can be met

Two 128-bit objects at addresses 0 and 16·67 (they share lock 0); thread 0 loads object 0 while
thread 1 swaps it and thread 2 stores to the other object. -/

/-- The answer of a thread about to return. -/
def retOf {V : Type} {W : Nat} : Pc V W → Option (Res V)
  | .ret r => some r
  | _ => none

theorem retOf_eq {V : Type} {W : Nat} {pc : Pc V W} {r : Res V} (h : retOf pc = some r) :
    pc = .ret r := by
  cases pc <;> simp [retOf] at h; rw [h]

namespace Demo

def cfg : Cfg (BitVec 128) := u128Narrow false fun o => 16 * 67 * o
def s0 : State (BitVec 128) cfg.W := cfg.init (fun _ => 5) (fun _ => 2 ^ 63 - 1) (fun _ => 0)

/-- thread 1 swaps in `2^64 + 7` up to its second chunk store; thread 0 has read one old word. -/
def mid : List (Cmd (BitVec 128)) :=
  [.call 0 0 (.load .acquire), .go 0, .go 0, .call 1 0 (.swap (2 ^ 64 + 7) .seqCst), .go 1, .go 1,
   .go 1, .go 1, .go 1, .go 1]

/-- ... then everything completes; the load fails validation and takes the lock itself. -/
def full : List (Cmd (BitVec 128)) :=
  mid ++ [.call 2 1 (.store 9 .release), .go 2, .go 2, .go 0, .go 1, .go 1, .go 1, .ret 1,
    .go 0, .go 0, .go 0, .go 0, .go 0, .go 0, .go 0, .ret 0,
    .go 2, .go 2, .go 2, .go 2, .go 2, .go 2, .ret 2]

theorem ok : cfg.Ok := u128Narrow_ok _ _
theorem mid_runs : (cfg.run s0 mid).isSome = true := by decide +kernel
theorem full_runs : (cfg.run s0 full).isSome = true := by decide +kernel

end Demo

/-! ## C01 -/

/-- **C01.** Every history of the fallback is linearizable: the specification automaton (one
indivisible step on a plain cell between call and return) produces the same calls and results.  Any
number of threads, objects, addresses and operations, any length, any initial lock versions. -/
theorem fallback_linearizable (ok : c.Sound) (hc : ∀ o, c.fits o (cells o)) {h : List (Ev V)} {s : State V c.W}
    (x : Exec c.StepB (c.init cells v0 ext) h s) : Atomic.Linearizable cells h := by
  obtain ⟨a, owner, hx, -⟩ := Cfg.sim_exec ok hc x
  exact Revisable.to_atomic hx

/-- **C01**, with the side condition on wrap-around discharged for every run of fewer than
`maxOverlap` calls (2^63, or 2^63 - 2^31, in the real configurations). -/
theorem fallback_linearizable_of_calls (ok : c.Sound) (hc : ∀ o, c.fits o (cells o)) {h : List (Ev V)} {s : State V c.W}
    (x : Exec c.Step (c.init cells v0 ext) h s) (hb : calls h < c.maxOverlap) :
    Atomic.Linearizable cells h :=
  fallback_linearizable ok hc (Cfg.exec_bounded x hb)

/-- **C01** for the 128-bit integers with 64-bit chunks. -/
theorem u128Narrow_linearizable {be : Bool} {addr : Obj → Nat} {cells : Obj → BitVec 128}
    {v0 : Nat → Nat} {ext} {h : List (Ev (BitVec 128))} {s}
    (x : Exec (u128Narrow be addr).Step ((u128Narrow be addr).init cells v0 ext) h s)
    (hb : calls h < 2 ^ 63) : Atomic.Linearizable cells h :=
  fallback_linearizable_of_calls (u128Narrow_ok be addr).toSound (fun _ => trivial) x (by rw [maxOverlap_narrow]; exact hb)

/-- **C01** for the 128-bit integers with 32-bit chunks. -/
theorem u128Wide_linearizable {be : Bool} {addr : Obj → Nat} {cells : Obj → BitVec 128}
    {v0 : Nat → Nat} {ext} {h : List (Ev (BitVec 128))} {s}
    (x : Exec (u128Wide be addr).Step ((u128Wide be addr).init cells v0 ext) h s)
    (hb : calls h < 2 ^ 63 - 2 ^ 31) : Atomic.Linearizable cells h :=
  fallback_linearizable_of_calls (u128Wide_ok be addr).toSound (fun _ => trivial) x (by rw [maxOverlap_wide]; exact hb)

/-- **C01** for the 64-bit integers with 32-bit chunks. -/
theorem u64Wide_linearizable {be : Bool} {addr : Obj → Nat} {cells : Obj → BitVec 64}
    {v0 : Nat → Nat} {ext} {h : List (Ev (BitVec 64))} {s}
    (x : Exec (u64Wide be addr).Step ((u64Wide be addr).init cells v0 ext) h s)
    (hb : calls h < 2 ^ 63 - 2 ^ 31) : Atomic.Linearizable cells h :=
  fallback_linearizable_of_calls (u64Wide_ok be addr).toSound (fun _ => trivial) x (by rw [maxOverlap_wide64]; exact hb)

/-- Results of a history, for the examples. -/
def rets (h : List (Ev V)) : List (Tid × Res V) :=
  h.filterMap fun | .ret t r => some (t, r) | .inv .. => none

/-- Non-vacuity: the demo run is an execution with overlapping calls on objects sharing a lock and a
version counter about to wrap; the overtaken load returns the value of the swap that overtook it. -/
example : Exec Demo.cfg.Step Demo.s0 (Demo.cfg.hist Demo.s0 Demo.full)
      (Demo.cfg.final! Demo.s0 Demo.full)
    ∧ calls (Demo.cfg.hist Demo.s0 Demo.full) < Demo.cfg.maxOverlap
    ∧ rets (Demo.cfg.hist Demo.s0 Demo.full) = [(1, .val 5), (0, .val (2 ^ 64 + 7)), (2, .unit)] :=
  ⟨Demo.cfg.run_exec _ _ (Demo.ok.cmds _) Demo.full_runs, by decide +kernel, by decide +kernel⟩

/-! ## C02 -/

/-- **C02.** Take any execution; at `s1` thread `t` calls `load` on `o`, and at `s3` it is about to
return `v`, having neither called nor returned in between.  Then at some moment `sm` between call
and return all words of the object were those of `v` at the same time. -/
theorem load_not_torn (ok : c.Sound) (hc : ∀ o, c.fits o (cells o)) {h1 h2 : List (Ev V)} {s1 s2 s3 : State V c.W}
    {t : Tid} {o : Obj} {ord : MemOrd} {v : V}
    (x1 : Exec c.StepB (c.init cells v0 ext) h1 s1)
    (call : c.StepB s1 (some (.inv t o (.load ord))) s2)
    (x2 : Exec c.StepB s2 h2 s3) (hno : ∀ e ∈ h2, ¬ Ev.by t e)
    (hret : s3.pc t = .ret (.val v)) :
    ∃ ha hb sm, h2 = ha ++ hb ∧ Exec c.StepB s2 ha sm ∧ Exec c.StepB sm hb s3 ∧
      ∀ i, i < c.n o → sm.mem (.chunk o i) = c.split o v i := by
  obtain ⟨a1, owner1, -, R1, cf1⟩ := Cfg.sim_exec ok hc x1
  obtain ⟨st, nw⟩ := call
  cases st with
  | inv _ _ _ hidle hf =>
    have cf2 := cf1.step (.inv s1 t o (.load ord) hidle hf)
    by_cases hord : (Op.load ord : Op V).ordOk = true
    · have R2 := R1.invOk (o := o) (op := .load ord) hidle hord
      obtain ⟨a3, owner3, R3, -, ⟨y, hy⟩, hm⟩ := Cfg.moment_inv (ord := ord) (o := o) ok x2 hno R2 cf2
        (by simp only [Function.update_self])
      have T := R3.th t
      rw [hret] at T
      rcases T with T | ⟨o', op', T⟩
      · rw [hy] at T; cases T
      · rw [hy] at T
        injection T with e1 e2 e3
        subst e1; subst e3
        exact hm o v (by rw [hy]; rfl)
    · -- an invalid ordering panics, so `v` cannot have been returned
      exfalso
      have hp : c.start ⟨o, .load ord⟩ = .ret .panic := by
        unfold Cfg.start
        cases ord <;> simp [Op.ordOk] at hord <;> rfl
      have x3 : Exec c.Step _ h2 s3 := x2.mono fun _ _ _ st => st.1
      have := Cfg.mustAnswer_exec (t := t) (r := .panic) x3 hno (by
        simp only [Function.update_self]; rw [hp]; rfl)
      rw [hret] at this
      simp [Cfg.mustAnswer] at this

/-- Non-vacuity: in the demo run thread 0's load is called, interrupted, and returns a value. -/
example : ∃ h1 h2 s1 s2 s3, Exec Demo.cfg.StepB Demo.s0 h1 s1 ∧
    Demo.cfg.StepB s1 (some (.inv 0 0 (.load .acquire))) s2 ∧
    Exec Demo.cfg.StepB s2 h2 s3 ∧ s3.pc 0 = .ret (.val (2 ^ 64 + 7)) := by
  have h0 : Exec Demo.cfg.Step (Demo.cfg.init (fun _ => 5) (fun _ => 2 ^ 63 - 1) (fun _ => 0)) []
    Demo.s0 := .refl _
  have st := Demo.cfg.exec1_sound (s := Demo.s0) (d := .call 0 0 (.load .acquire)) trivial rfl
  obtain ⟨T, C⟩ := Cfg.ci_exec h0
  have x2 := Demo.cfg.run_execB ((Demo.full.drop 1).take 24) (Demo.ok.cmds _) (.ev h0 st) (by decide +kernel)
    (by decide +kernel)
  refine ⟨[], _, _, _, _, .refl _, ⟨st, C.noWrap (by decide +kernel)⟩, x2, ?_⟩
  exact retOf_eq (by decide +kernel)

/-! ## C03 -/

/-- Operations that may write. -/
def Writes : Op V → Prop
  | .load _ => False
  | _ => True

/-- **C03a.** Whenever a thread is about to store a word of an object, the history shows that thread
inside a call of a writing operation on that very object (so never inside a load), and whatever that
call eventually returns is neither `Err` nor a panic. -/
theorem store_only_by_successful_writer {h h2 : List (Ev V)} {s s' : State V c.W} {t : Tid}
    {o : Obj} {i : Nat} {w : BitVec c.W} {ord : MemOrd}
    (x : Exec c.Step (c.init cells v0 ext) h s)
    (hst : c.act (s.pc t) = some (.store (.chunk o i) w ord)) :
    (∃ op, openCall h t = some (o, op) ∧ Writes op) ∧
    (Exec c.Step s h2 s' → (∀ e ∈ h2, ¬ Ev.by t e) → ∀ r, s'.pc t = .ret r →
      (∀ v, r ≠ .err v) ∧ r ≠ .panic) := by
  obtain ⟨k, p, new, r, hpc, rfl, -⟩ := Cfg.act_chunk hst
  have hw := Cfg.writeOk_exec x t
  rw [hpc] at hw
  refine ⟨⟨k.op, Cfg.openCall_exec x t k (by rw [hpc]; rfl), ?_⟩, ?_⟩
  · cases hop : k.op with
    | load ord => exact hw.1 ⟨ord, hop⟩
    | _ => trivial
  · intro x2 hno r' hr
    have := Cfg.mustAnswer_exec (r := r) x2 hno (by rw [hpc]; rfl)
    rw [hr] at this
    obtain rfl := Option.some.inj this
    exact hw.2

/-- **C03b.** The version of a lock grows only when a thread inside a call of a writing operation, on
an object of that lock, releases it; whatever that call returns is neither `Err` nor a panic. -/
theorem version_only_by_successful_writer {h h2 : List (Ev V)} {s s' s'' : State V c.W}
    {e : Option (Ev V)} {l : Nat}
    (x : Exec c.Step (c.init cells v0 ext) h s) (st : c.Step s e s') (hv : s'.ver l ≠ s.ver l) :
    ∃ t o op, openCall h t = some (o, op) ∧ c.lockOf o = l ∧ Writes op ∧
      (Exec c.Step s h2 s'' → (∀ e ∈ h2, ¬ Ev.by t e) → ∀ r, s''.pc t = .ret r →
        (∀ v, r ≠ .err v) ∧ r ≠ .panic) := by
  obtain ⟨t, k, p, r, hpc, rfl⟩ := Cfg.ver_change st hv
  have hw := Cfg.writeOk_exec x t
  rw [hpc] at hw
  refine ⟨t, k.obj, k.op, Cfg.openCall_exec x t k (by rw [hpc]; rfl), rfl, ?_, ?_⟩
  · cases hop : k.op with
    | load ord => exact hw.1 ⟨ord, hop⟩
    | _ => trivial
  · intro x2 hno r' hr
    have := Cfg.mustAnswer_exec (r := r) x2 hno (by rw [hpc]; rfl)
    rw [hr] at this
    obtain rfl := Option.some.inj this
    exact hw.2

/-- **C03c.** Whenever no thread is inside a write section of lock `l`, its word encodes exactly the
version (twice the count of completed sections): loads and failed compare_exchanges, which do not
move the count, put back exactly the word they found. -/
theorem free_lock_encodes_version (ok : c.Sound) {h : List (Ev V)} {s : State V c.W} {l : Nat}
    (x : Exec c.Step (c.init cells v0 ext) h s)
    (hfree : ∀ t o, c.lockOf o = l → ¬ InSection (s.pc t) o) :
    s.mem (.lo l) = BitVec.ofNat c.W (2 * s.ver l) := by
  obtain ⟨owner, R⟩ := Cfg.lockInv_exec ok x
  refine R.free l ?_
  cases ho : owner l with
  | none => rfl
  | some t =>
    exfalso
    have hown := (R.own t l).2 ho
    have := inSection_of_owns hown
    obtain ⟨o, h1, h2⟩ := this
    exact hfree t o h2 h1

/-- Non-vacuity of C03a: after `mid` thread 1 is about to store the second word. -/
example : Demo.cfg.act ((Demo.cfg.final! Demo.s0 Demo.mid).pc 1)
    = some (.store (.chunk 0 1) 1 .relaxed) := by
  decide +kernel

/-! ## C04 -/

/-- **C04a.** Two threads inside write sections whose objects use the same lock (in particular the
same object) are the same thread. -/
theorem mutual_exclusion (ok : c.Sound) {h : List (Ev V)} {s : State V c.W} {t u : Tid} {o o' : Obj}
    (x : Exec c.Step (c.init cells v0 ext) h s) (ht : InSection (s.pc t) o)
    (hu : InSection (s.pc u) o') (hl : c.lockOf o = c.lockOf o') : t = u := by
  obtain ⟨owner, R⟩ := Cfg.lockInv_exec ok x
  have h1 := (R.own t _).1 ht.owns
  have h2 := (R.own u _).1 hu.owns
  rw [hl, h2] at h1
  exact (Option.some.inj h1).symm

/-- **C04b.** A word of an object changes only by a step of a thread inside that object's write
section. -/
theorem words_change_only_in_section {s s' : State V c.W} {e : Option (Ev V)} {o : Obj} {i : Nat}
    (st : c.Step s e s') (hne : s'.mem (.chunk o i) ≠ s.mem (.chunk o i)) :
    ∃ t, InSection (s.pc t) o ∧ e = none ∧ ∀ u, u ≠ t → s'.pc u = s.pc u := by
  obtain ⟨t, k, p, new, r, hpc, ho, he, hu⟩ := Cfg.chunk_change st hne
  exact ⟨t, Or.inr (Or.inr (Or.inl ⟨_, _, _, _, _, hpc, ho⟩)), he, hu⟩

/-! ## C05 -/

/-- **C05a.** When a thread is about to read a word of `o` with an ordinary (non-atomic) read, no
other thread is about to write any word of `o`: the read and a write are never enabled together. -/
theorem plain_read_no_race (ok : c.Sound) {h : List (Ev V)} {s : State V c.W} {t u : Tid} {o : Obj}
    {i j : Nat} {w : BitVec c.W} {ord : MemOrd}
    (x : Exec c.Step (c.init cells v0 ext) h s)
    (hr : c.act (s.pc t) = some (.naLoad (.chunk o i))) :
    c.act (s.pc u) ≠ some (.store (.chunk o j) w ord) := by
  intro hw
  obtain ⟨k, p, new, r, hpc, ho, -⟩ := Cfg.act_chunk hw
  have hpt : ∃ k p acc, s.pc t = .naRead k p i acc ∧ k.obj = o := by
    cases hp : s.pc t <;> rw [hp] at hr <;> simp [Cfg.act] at hr
    obtain ⟨rfl, rfl⟩ := hr
    exact ⟨_, _, _, rfl, rfl⟩
  obtain ⟨k', p', acc, hpt, ho'⟩ := hpt
  have := mutual_exclusion ok x (t := t) (u := u) (o := o) (o' := o)
    (Or.inr (Or.inl ⟨_, _, _, _, hpt, ho'⟩)) (Or.inr (Or.inr (Or.inl ⟨_, _, _, _, _, hpc, ho⟩))) rfl
  subst this
  rw [hpt] at hpc; cases hpc

/-- **C05b.** The plain read returns the current whole value: when its last word is read, the
operation goes on with exactly the value that memory holds at that moment. -/
theorem plain_read_current (ok : c.Sound) {h : List (Ev V)} {s : State V c.W} {t : Tid} {k : Call V}
    {p : BitVec c.W} {i : Nat} {acc : Nat → BitVec c.W}
    (x : Exec c.Step (c.init cells v0 ext) h s)
    (hpc : s.pc t = .naRead k p i acc) (hlast : ¬ i + 1 < c.n k.obj) :
    c.next (s.pc t) (s.mem (.chunk k.obj i))
      = c.decideOp k p (c.join k.obj fun j => s.mem (.chunk k.obj j)) := by
  obtain ⟨hi, hacc⟩ := Cfg.readOk_exec ok x t k p i acc hpc
  rw [hpc]
  simp only [Cfg.next, if_neg hlast]
  congr 1
  apply ok.join_congr
  intro j hj
  by_cases e : j = i
  · subst e; rw [Function.update_self]
  · rw [Function.update_of_ne e]; exact hacc j (by omega)

/-! ## C06 -/

/-- **C06.** From every reachable state there is a continuation, without new calls, in which every
call in progress returns. -/
theorem no_deadlock (ok : c.Sound) {h : List (Ev V)} {s : State V c.W}
    (x : Exec c.Step (c.init cells v0 ext) h s) :
    ∃ h' s', Exec c.Step s h' s' ∧ (∀ t, s'.pc t = .idle) ∧ (∀ e ∈ h', ∃ t r, e = .ret t r) := by
  obtain ⟨owner, R⟩ := Cfg.lockInv_exec ok x
  obtain ⟨T, C⟩ := Cfg.ci_exec x
  exact Cfg.quiesce ok _ T (le_refl _) s owner R C.idle

/-- **C06**, obstruction freedom: a thread that nobody else blocks (no other thread is inside a
write section of its lock) finishes by its own steps alone. -/
theorem completes_alone (ok : c.Sound) {h : List (Ev V)} {s : State V c.W} {t : Tid}
    (x : Exec c.Step (c.init cells v0 ext) h s)
    (hfree : ∀ u o o', u ≠ t → openCall h t = some (o, o') → ∀ o2, c.lockOf o2 = c.lockOf o →
      ¬ InSection (s.pc u) o2) :
    ∃ h' s', Exec c.Step s h' s' ∧ s'.pc t = .idle ∧ (∀ u, u ≠ t → s'.pc u = s.pc u) := by
  obtain ⟨owner, R⟩ := Cfg.lockInv_exec ok x
  have hun : Cfg.Unblocked c s t := by
    intro u hne o ho hown
    rw [Cfg.callObj_pcCall] at ho
    cases hk : Cfg.pcCall (s.pc t) with
    | none => rw [hk] at ho; simp at ho
    | some k =>
      rw [hk] at ho
      obtain rfl : k.obj = o := Option.some.inj ho
      obtain ⟨o2, h1, h2⟩ := inSection_of_owns hown
      exact hfree u k.obj k.op hne (Cfg.openCall_exec x t k hk) o2 h2 h1
  obtain ⟨h', s', owner', x', hpc, -, -⟩ := Cfg.solo ok t _ s owner (le_refl _) R hun
  exact ⟨h', s', x', by rw [hpc, Function.update_self], fun u hu => by
    rw [hpc, Function.update_of_ne hu]⟩

/-! ## C07 -/

/-- **C07, 64-bit version.** Thread `t` reads the version word at `s1` (finding it unlocked), and
re-reads it at `s2` in the same call.  If the two words agree then no write section of that lock
completed in between - provided the load is not overtaken by 2^(W-1) of them (`StepB`/`NoWrap`), for
every initial version, also one about to wrap. -/
theorem validation_exact_narrow (ok : c.Sound) (hc : ∀ o, c.fits o (cells o)) (hn : c.wide = false) {h1 h2 : List (Ev V)}
    {s1 s2 : State V c.W} {t : Tid} {k k' : Call V} {hi hi' lo' : BitVec c.W}
    {acc : Nat → BitVec c.W}
    (x1 : Exec c.StepB (c.init cells v0 ext) h1 s1)
    (hpc1 : s1.pc t = .optLo k hi) (hlo : s1.mem (.lo (c.lockOf k.obj)) ≠ 1)
    (x2 : Exec c.StepB (c.doAct s1 t (.load (.lo (c.lockOf k.obj)) .acquire)) h2 s2)
    (hno : ∀ e ∈ h2, ¬ Ev.by t e)
    (hpc2 : s2.pc t = .valLo k' hi' lo' acc) (nw : c.NoWrap s1 ∧ c.NoWrap s2)
    (hacc : s2.mem (.lo (c.lockOf k'.obj)) = lo') :
    s2.ver (c.lockOf k.obj) = s1.ver (c.lockOf k.obj) := by
  have hst1 : c.StepB s1 none (c.doAct s1 t (.load (.lo (c.lockOf k.obj)) .acquire)) :=
    ⟨.act s1 t _ (by rw [hpc1]; rfl), nw.1⟩
  obtain ⟨a1, owner1, -, R1, cf1⟩ := Cfg.sim_exec ok hc x1
  obtain ⟨a2, owner2, -, R2, -⟩ := Cfg.sim_exec ok hc ((Exec.tau x1 hst1).trans x2)
  have T1 := R1.th t
  rw [hpc1] at T1
  obtain ⟨-, -, hst, -⟩ := T1
  have hnext : (c.doAct s1 t (.load (.lo (c.lockOf k.obj)) .acquire)).pc t
      = .optChunk k hi (s1.mem (.lo (c.lockOf k.obj))) 0 (fun _ => 0) := by
    simp only [Cfg.doAct, Function.update_self, execSC]
    rw [hpc1]; simp only [Cfg.next]; rw [if_neg hlo]
  obtain ⟨hA, hS, hV⟩ := Cfg.segment
    (Cfg.afterStamp_next k hi (s1.mem (.lo (c.lockOf k.obj)))) x2 hno
    (by rw [hnext]; exact ⟨rfl, rfl, rfl⟩)
  rw [hpc2] at hA
  obtain ⟨rfl, -, rfl⟩ := hA
  obtain ⟨-, e1⟩ := Cfg.owner_none_of_lo ok R1 hlo
  obtain ⟨-, e2⟩ := Cfg.owner_none_of_lo ok R2 (by rw [hacc]; exact hlo)
  have nwt := nw.2 t k'.obj (by rw [hpc2]; rfl)
  have hb : c.maxOverlap = c.B := by simp [Cfg.maxOverlap, hn, Cfg.B]
  have hv := hV (c.lockOf k'.obj)
  have hS' : s2.start t = s1.start t := hS
  have hv' : s1.ver (c.lockOf k'.obj) ≤ s2.ver (c.lockOf k'.obj) := by
    simpa [Cfg.doAct, Cfg.bump, hpc1] using hv
  refine (Cfg.stamp_near ok hv' ?_ ?_).symm
  · omega
  · rw [← e1, ← e2, hacc]

/-- **C07, version in two halves.** As above; `s1` reads the low half, `s2` re-reads it and finds the
same, `s3` re-reads the high half and finds what it was when the load began.  Then no write section
of that lock completed between the two reads of the low half - provided the load is not overtaken by
2^(2W-1) - 2^(W-1) write sections. -/
theorem validation_exact_wide (ok : c.Sound) (hc : ∀ o, c.fits o (cells o)) (hw : c.wide = true) {h1 h2 h3 : List (Ev V)}
    {s1 s2 s3 : State V c.W} {t : Tid} {k k' k'' : Call V} {hi hi' lo' hi'' lo'' m : BitVec c.W}
    {acc acc' : Nat → BitVec c.W}
    (x1 : Exec c.StepB (c.init cells v0 ext) h1 s1)
    (hpc1 : s1.pc t = .optLo k hi) (hlo : s1.mem (.lo (c.lockOf k.obj)) ≠ 1)
    (x2 : Exec c.StepB (c.doAct s1 t (.load (.lo (c.lockOf k.obj)) .acquire)) h2 s2)
    (hno2 : ∀ e ∈ h2, ¬ Ev.by t e)
    (hpc2 : s2.pc t = .valLo k' hi' lo' acc)
    (hacc : s2.mem (.lo (c.lockOf k'.obj)) = lo')
    (x3 : Exec c.StepB (c.doAct s2 t (.load (.lo (c.lockOf k'.obj)) .acquire)) h3 s3)
    (hno3 : ∀ e ∈ h3, ¬ Ev.by t e)
    (hpc3 : s3.pc t = .valHi k'' hi'' lo'' acc' m)
    (nw : c.NoWrap s1 ∧ c.NoWrap s2 ∧ c.NoWrap s3)
    (hacc3 : s3.mem (.hi (c.lockOf k''.obj)) = hi'') :
    s2.ver (c.lockOf k.obj) = s1.ver (c.lockOf k.obj) := by
  have hst1 : c.StepB s1 none (c.doAct s1 t (.load (.lo (c.lockOf k.obj)) .acquire)) :=
    ⟨.act s1 t _ (by rw [hpc1]; rfl), nw.1⟩
  have hst2 : c.StepB s2 none (c.doAct s2 t (.load (.lo (c.lockOf k'.obj)) .acquire)) :=
    ⟨.act s2 t _ (by rw [hpc2]; simp [Cfg.act, hw]), nw.2.1⟩
  have y2 := (Exec.tau x1 hst1).trans x2
  obtain ⟨a1, owner1, -, R1, cf1⟩ := Cfg.sim_exec ok hc x1
  obtain ⟨a2, owner2, -, R2, -⟩ := Cfg.sim_exec ok hc y2
  obtain ⟨a3, owner3, -, R3, -⟩ := Cfg.sim_exec ok hc ((Exec.tau y2 hst2).trans x3)
  have T1 := R1.th t
  rw [hpc1] at T1
  obtain ⟨-, -, hst, hhv⟩ := T1
  obtain ⟨hv0, ehi, hv1, hv2⟩ := hhv hw
  have hnext : (c.doAct s1 t (.load (.lo (c.lockOf k.obj)) .acquire)).pc t
      = .optChunk k hi (s1.mem (.lo (c.lockOf k.obj))) 0 (fun _ => 0) := by
    simp only [Cfg.doAct, Function.update_self, execSC]
    rw [hpc1]; simp only [Cfg.next]; rw [if_neg hlo]
  obtain ⟨hA, hS, hV⟩ := Cfg.segment
    (Cfg.afterStamp_next k hi (s1.mem (.lo (c.lockOf k.obj)))) x2 hno2
    (by rw [hnext]; exact ⟨rfl, rfl, rfl⟩)
  rw [hpc2] at hA
  obtain ⟨rfl, rfl, rfl⟩ := hA
  have hnext2 : (c.doAct s2 t (.load (.lo (c.lockOf k'.obj)) .acquire)).pc t
      = .valHi k' hi' (s1.mem (.lo (c.lockOf k'.obj))) acc (s2.mem (.lo (c.lockOf k'.obj))) := by
    simp only [Cfg.doAct, Function.update_self, execSC]
    rw [hpc2]; simp only [Cfg.next, hw, if_true]
  obtain ⟨hB, hS2, hV2⟩ := Cfg.segment
    (Cfg.atHi_next k' hi' (s1.mem (.lo (c.lockOf k'.obj))) (s2.mem (.lo (c.lockOf k'.obj)))) x3 hno3
    (by rw [hnext2]; exact ⟨rfl, rfl, rfl, rfl⟩)
  rw [hpc3] at hB
  obtain ⟨rfl, rfl, -, -⟩ := hB
  obtain ⟨f1, e1⟩ := Cfg.owner_none_of_lo ok R1 hlo
  obtain ⟨f2, e2⟩ := Cfg.owner_none_of_lo ok R2 (by rw [hacc]; exact hlo)
  rw [Cfg.H_of_none f1] at hv2
  have nwt := nw.2.2 t k''.obj (by rw [hpc3]; rfl)
  have hS' : s2.start t = s1.start t := hS
  have hS2' : s3.start t = s2.start t := hS2
  have hva : s1.ver (c.lockOf k''.obj) ≤ s2.ver (c.lockOf k''.obj) := by
    simpa [Cfg.doAct, Cfg.bump, hpc1] using hV (c.lockOf k''.obj)
  have hvb : s2.ver (c.lockOf k''.obj) ≤ s3.ver (c.lockOf k''.obj) := by
    simpa [Cfg.doAct, Cfg.bump, hpc2] using hV2 (c.lockOf k''.obj)
  have hb3 := c.H_bounds s3 owner3 (c.lockOf k''.obj)
  have d12 : s1.ver (c.lockOf k''.obj) / c.B ≤ s2.ver (c.lockOf k''.obj) / c.B :=
    Nat.div_le_div_right hva
  have d23 : s2.ver (c.lockOf k''.obj) / c.B ≤ s3.ver (c.lockOf k''.obj) / c.B :=
    Nat.div_le_div_right hvb
  have hmax := Cfg.maxOverlap_wide_eq ok hw
  have hBp := Cfg.B_pos ok
  have hH : hv0 = c.H s3 owner3 (c.lockOf k''.obj) := by
    apply Cfg.ofNat_near ok (by omega)
    · have h5 : (s3.ver (c.lockOf k''.obj) + 1) / c.B
          ≤ (s1.start t + (2 * c.B - 1) * c.B) / c.B := by
        apply Nat.div_le_div_right
        have : (2 * c.B - 1) * c.B = 2 * c.B * c.B - c.B := by
          rw [Nat.sub_mul, Nat.one_mul]
        omega
      rw [Nat.add_mul_div_right _ _ hBp] at h5
      omega
    · rw [← ehi, ← hacc3, R3.hi hw]
  refine (Cfg.eq_of_div_stamp ok ?_ ?_).symm
  · omega
  · rw [← e1, ← e2, hacc]

/-- Non-vacuity of the two theorems above: a load by thread 0, with one store by thread 1 to
another object of the same lock before it, on counters about to wrap (narrow: full counter; wide:
low half), passes validation. -/
def C07.sched : List (Cmd (BitVec 128)) :=
  [.call 1 1 (.store 3 .release), .go 1, .go 1, .go 1, .go 1, .go 1, .ret 1, .call 0 0 (.load .acquire)]

example : let c := u128Narrow false (fun _ => 0)
    let s0 := c.init (fun _ => 5) (fun _ => 2 ^ 63 - 1) (fun _ => 0)
    ((c.run s0 (C07.sched ++ [.go 0, .go 0, .go 0, .go 0, .go 0])).map fun r => retOf (r.2.pc 0))
      = some (some (.val 5)) := by
  decide +kernel

example : let c := u128Wide true (fun _ => 0)
    let s0 := c.init (fun _ => 5) (fun _ => 2 ^ 31 - 1) (fun _ => 0)
    ((c.run s0 ([.call 1 1 (.store 3 .release), .go 1, .go 1, .go 1, .go 1, .go 1, .go 1, .go 1,
        .go 1, .go 1, .ret 1, .call 0 0 (.load .acquire)] ++
        [.go 0, .go 0, .go 0, .go 0, .go 0, .go 0, .go 0, .go 0, .go 0])).map
        fun r => (r.2.mem (.hi 0), r.2.mem (.lo 0), retOf (r.2.pc 0)))
      = some (1, 0, some (.val 5)) := by
  decide +kernel

/-- **C07, the bound is exact** (64-bit version and two words; the same for every word width): there
is an execution in which one load overlaps exactly `2^(W-1)` stores and whose history is *not*
linearizable (the load returns a mixture of the old and the new value). -/
theorem wrap_bound_exact (ok : c.Ok) (hw : c.wide = false) (hn : ∀ o, c.n o = 2)
    (cells : Obj → V) (v0 : Nat → Nat) (ext : Nat → BitVec c.W) (o : Obj) (v mix : V)
    (hmix : mix = c.join o fun i => if i = 0 then c.split o (cells o) 0 else c.split o v i)
    (h1 : mix ≠ cells o) (h2 : mix ≠ v) :
    ∃ h s, Exec c.Step (c.init cells v0 ext) h s ∧ calls h = 2 ^ (c.W - 1) + 1 ∧
      ¬ Atomic.Linearizable cells h := by
  obtain ⟨s, x⟩ := Cfg.torn_load ok hw hn cells v0 ext o v
  refine ⟨_, s, x, ?_, ?_⟩
  · have hs : ∀ m, calls (Cfg.storesHist 1 o v m) = m := by
      intro m
      induction m with
      | zero => rfl
      | succ m ih =>
        unfold calls at ih ⊢
        simp only [Cfg.storesHist, List.filter_append, List.length_append, ih]
        rfl
    have := hs (2 ^ (c.W - 1))
    unfold calls at this ⊢
    simp only [List.filter_append, List.length_append, this]
    simp only [List.filter_cons, List.filter_nil, if_true, List.length_cons, List.length_nil]
    simp; omega
  · intro hlin
    have := Cfg.spec_values (o := o) (v := v) (t := 0) (w := mix) (cells := cells) ?_ hlin ?_
    · rcases this with h | h
      · exact h1 h
      · exact h2 h
    · intro e he
      simp only [List.mem_append, List.mem_singleton] at he
      rcases he with (rfl | he) | rfl
      · exact Or.inl ⟨_, rfl⟩
      · rcases Cfg.storesHist_mem he with rfl | rfl
        · exact Or.inr (Or.inl ⟨_, rfl⟩)
        · exact Or.inr (Or.inr ⟨_, _, rfl⟩)
      · exact Or.inr (Or.inr ⟨_, _, rfl⟩)
    · rw [hmix]; simp

/-- Non-vacuity: 128-bit integers with 64-bit chunks, contents 0, stores of `2^64 + 1`: the mixture
is `2^64`, so `2^63` stores inside one load suffice. -/
example : ∃ h s, Exec (u128Narrow false fun _ => 0).Step
      ((u128Narrow false fun _ => 0).init (fun _ => 0) (fun _ => 0) (fun _ => 0)) h s ∧
      calls h = 2 ^ 63 + 1 ∧ ¬ Atomic.Linearizable (fun _ => (0 : BitVec 128)) h :=
  wrap_bound_exact (c := u128Narrow false fun _ => 0) (u128Narrow_ok _ _) rfl (fun _ => rfl) (fun _ => 0) _ _ 0
    (2 ^ 64 + 1) (2 ^ 64) (by decide +kernel) (by decide +kernel) (by decide +kernel)

/-! ## C08 -/

/-- **C08a.** A step of a thread whose open call is on object `o` leaves every word of every other
object unchanged, whatever locks the objects use. -/
theorem other_objects_untouched {h : List (Ev V)} {s s' : State V c.W} {e : Option (Ev V)}
    {o' : Obj} {i : Nat} (x : Exec c.Step (c.init cells v0 ext) h s) (st : c.Step s e s')
    (hne : s'.mem (.chunk o' i) ≠ s.mem (.chunk o' i)) :
    ∃ t op, openCall h t = some (o', op) ∧ (∀ u, u ≠ t → s'.pc u = s.pc u) := by
  obtain ⟨t, k, p, new, r, hpc, rfl, he, hu⟩ := Cfg.chunk_change st hne
  exact ⟨t, k.op, Cfg.openCall_exec x t k (by rw [hpc]; rfl), hu⟩

/-- **C08b.** The calls on one object, taken alone, form a history that a single cell can produce,
whatever happens on other objects and whatever addresses (hence shared locks) the objects have. -/
theorem per_object_linearizable (ok : c.Sound) (hc : ∀ o, c.fits o (cells o)) {h : List (Ev V)} {s : State V c.W} (o : Obj)
    (x : Exec c.StepB (c.init cells v0 ext) h s) : Atomic.Linearizable cells (restrict o h) :=
  (fallback_linearizable ok hc x).restrict o

/-- Non-vacuity: in the demo run both objects use lock 0 and both are written. -/
example : Demo.cfg.lockOf 0 = Demo.cfg.lockOf 1 ∧
    (restrict 1 (Demo.cfg.hist Demo.s0 Demo.full)).length = 2 ∧
    (restrict 0 (Demo.cfg.hist Demo.s0 Demo.full)).length = 4 := by
  refine ⟨by decide +kernel, by decide +kernel, by decide +kernel⟩

end Fallback
end Verif
