import Verif.Spec.Atomic
/-!
# The global-lock fallback as an automaton

Models `src/imp/fallback/mod.rs` (the `atomic!` macro), `seq_lock.rs`, `seq_lock_wide.rs` and
`seq_lock_common.rs`.  A thread is a program counter `Pc` that carries the local variables of the
Rust functions; `act` is the shared access (or fence) it performs next, with the memory ordering
written in the source, and `next` continues with the value the access returned.  What an access
does to memory is *not* said here: `Fallback/SC.lean` and `Fallback/WM*.lean` run this same
automaton on two different memories.

Simplifications: back-off (`backoff.snooze()`) does not touch shared memory and is left out of the
automaton (modelled in `Fallback/Table.lean`); `interrupt::disable/restore` under
`portable_atomic_unsafe_assume_privileged` is left out (modelled in `Interrupt`); the value is kept
as the list of its words, converted by `split`/`join` (`mem::transmute`).
-/
namespace Verif
namespace Fallback

/-- Build-time parameters of the fallback.
* `W`: width of a lock word and of a `Chunk` (`src/imp/fallback/mod.rs` L58-68: `u64` words with the
  narrow lock when 64-bit atomics are fast, else `u32` words with the wide lock);
* `wide`: `seq_lock_wide.rs` (true) or `seq_lock.rs` (false);
* `n`: `LEN`, number of chunks of each object (`src/imp/fallback/mod.rs` L128; objects of different
  widths share the locks, L83-97);
* `split`/`join`: the transmutes at L166 and L192, for the object's type;
* `fits`: the values of the object's type;
* `addr`: the address of each object. -/
structure Cfg (V : Type) where
  W : Nat
  wide : Bool
  n : Obj → Nat
  split : Obj → V → Nat → BitVec W
  join : Obj → (Nat → BitVec W) → V
  fits : Obj → V → Prop
  addr : Obj → Nat

/-- What the model assumes about the parameters: at least two bits per word, at least one chunk, and
the transmutes are mutually inverse. The real configurations satisfy it (`Fallback/Config.lean`). -/
structure Cfg.Sound {V : Type} (c : Cfg V) : Prop where
  hW : 2 ≤ c.W
  hn : ∀ o, 0 < c.n o
  join_congr : ∀ o (f g : Nat → BitVec c.W), (∀ i, i < c.n o → f i = g i) → c.join o f = c.join o g
  join_split : ∀ o v, c.fits o v → c.join o (c.split o v) = v

/-- All objects have the same type. -/
structure Cfg.Ok {V : Type} (c : Cfg V) : Prop extends Cfg.Sound c where
  full : ∀ o v, c.fits o v

/-- The arguments of the operation are values of the type: Rust's typing rules. (A value to compare with may be any.) -/
def _root_.Verif.Op.Fits {V : Type} (P : V → Prop) : Op V → Prop
  | .load _ => True
  | .store v _ => P v
  | .swap v _ => P v
  | .cas _ new _ _ => P new
  | .rmw f _ => ∀ x, P x → P (f x)

/-- A well-typed operation leaves a value of the type in the cell. -/
theorem _root_.Verif.Op.Fits.onCell {V : Type} [DecidableEq V] {P : V → Prop} {op : Op V}
    (h : op.Fits P) {x : V} (hx : P x) : P (op.onCell x).1 := by
  cases op <;> simp only [Op.onCell] <;> (repeat' split) <;> first | exact hx | exact h | exact h _ hx

theorem Cfg.Ok.fits {V : Type} {c : Cfg V} (ok : c.Ok) (o : Obj) (op : Op V) : op.Fits (c.fits o) := by
  cases op
  case load => trivial
  all_goals first | exact ok.full _ _ | exact fun _ _ => ok.full _ _

/-- Number of global locks, `src/imp/fallback/mod.rs` L86. -/
def LEN : Nat := 67

/-- `src/imp/fallback/mod.rs` L83-97 `lock`: `&LOCKS[addr % LEN]`. -/
def Cfg.lockOf {V : Type} (c : Cfg V) (o : Obj) : Nat := c.addr o % LEN

/-- Shared locations: the words of lock `l` (`state_hi` exists only in `seq_lock_wide.rs` L17,
`state` in `seq_lock.rs` L17 / `seq_lock_wide.rs` L23), the chunks of an object
(`src/imp/fallback/mod.rs` L131-137), and any other location of the client program. -/
inductive Loc where
  | hi (l : Nat)
  | lo (l : Nat)
  | chunk (o : Obj) (i : Nat)
  | ext (a : Nat)
deriving DecidableEq

/-- One shared-memory action with its ordering. `naLoad` is an ordinary, non-atomic read. -/
inductive Act (W : Nat) where
  | load (l : Loc) (o : MemOrd)
  | naLoad (l : Loc)
  | store (l : Loc) (v : BitVec W) (o : MemOrd)
  | swap (l : Loc) (v : BitVec W) (o : MemOrd)
  | fence (o : MemOrd)
deriving DecidableEq

/-- A call in progress. -/
structure Call (V : Type) where
  obj : Obj
  op : Op V

/-- Program points of the fallback operations with their local variables. -/
inductive Pc (V : Type) (W : Nat) where
  /-- not inside an operation -/
  | idle
  /-- `ScFenceGuard::new`, `src/imp/fallback/mod.rs` L104-111 -/
  | scPre (c : Call V)
  /-- `seq_lock_wide.rs` L43: about to load `state_hi` -/
  | optHi (c : Call V)
  /-- `seq_lock.rs` L33 / `seq_lock_wide.rs` L44: about to load `state` -/
  | optLo (c : Call V) (hi : BitVec W)
  /-- `src/imp/fallback/mod.rs` L162-164: about to load chunk `i` into `dst` -/
  | optChunk (c : Call V) (hi lo : BitVec W) (i : Nat) (acc : Nat → BitVec W)
  /-- `seq_lock.rs` L46 / `seq_lock_wide.rs` L57: the acquire fence of `validate_read` -/
  | valFence (c : Call V) (hi lo : BitVec W) (acc : Nat → BitVec W)
  /-- `seq_lock.rs` L47 / `seq_lock_wide.rs` L64: reload `state` -/
  | valLo (c : Call V) (hi lo : BitVec W) (acc : Nat → BitVec W)
  /-- `seq_lock_wide.rs` L68: reload `state_hi` -/
  | valHi (c : Call V) (hi lo : BitVec W) (acc : Nat → BitVec W) (lo' : BitVec W)
  /-- `seq_lock_common.rs` L25: about to swap in `LOCKED` -/
  | swapLock (c : Call V)
  /-- `seq_lock_common.rs` L41: waiting for the lock to look free -/
  | spin (c : Call V)
  /-- `seq_lock_common.rs` L31: lock taken, about to issue the release fence -/
  | relFence (c : Call V) (prev : BitVec W)
  /-- `src/imp/fallback/mod.rs` L178-180: the ordinary read, word `i` -/
  | naRead (c : Call V) (prev : BitVec W) (i : Nat) (acc : Nat → BitVec W)
  /-- `src/imp/fallback/mod.rs` L199-201: about to store chunk `i` -/
  | wrChunk (c : Call V) (prev : BitVec W) (i : Nat) (new : Nat → BitVec W) (r : Res V)
  /-- `seq_lock_wide.rs` L86: low half wrapped, about to load `state_hi` -/
  | hiLoad (c : Call V) (prev : BitVec W) (r : Res V)
  /-- `seq_lock_wide.rs` L87: about to store `state_hi + 1` -/
  | hiStore (c : Call V) (prev hi : BitVec W) (r : Res V)
  /-- `seq_lock_common.rs` L92: guard dropped, about to store the next stamp -/
  | dropStore (c : Call V) (prev : BitVec W) (r : Res V)
  /-- `seq_lock_common.rs` L73: guard aborted, about to store the old stamp -/
  | abortStore (c : Call V) (prev : BitVec W) (r : Res V)
  /-- `Drop for ScFenceGuard`, `src/imp/fallback/mod.rs` L115-117 -/
  | scPost (c : Call V) (r : Res V)
  /-- about to return `r` -/
  | ret (r : Res V)

variable {V : Type} [DecidableEq V]

/-- `emit_sc_fence` of each operation: `src/imp/fallback/mod.rs` L381 (load), L405 (store), L412
(swap), L429-431 (compare_exchange: either ordering), L446 ff. (fetch_*). -/
def wantsSc : Op V → Bool
  | .load o => o == .seqCst
  | .store _ o => o == .seqCst
  | .swap _ o => o == .seqCst
  | .cas _ _ s f => s == .seqCst || f == .seqCst
  | .rmw _ o => o == .seqCst

/-- The ordering assertion at the head of each operation: `src/imp/fallback/mod.rs` L380, L404,
L428; swap and fetch_* have none. -/
def checks : Op V → MemOrd.Check
  | .load o => o.assertLoad
  | .store _ o => o.assertStore
  | .swap _ _ => .ok
  | .cas _ _ s f => MemOrd.assertCas s f
  | .rmw _ _ => .ok

namespace Cfg
variable (c : Cfg V)

/-- First access of the body: load tries `lock.optimistic_read()` (`mod.rs` L385), everything else
starts with `lock.write()` (L406, L413, L432, L447 ...). -/
def enter (k : Call V) : Pc V c.W :=
  match k.op with
  | .load _ => if c.wide then .optHi k else .optLo k 0
  | _ => .swapLock k

/-- A call starts: assertion, then the optional first SC fence, then the body. -/
def start (k : Call V) : Pc V c.W :=
  match checks k.op with
  | .panic => .ret .panic
  | .ok => if wantsSc k.op then .scPre k else c.enter k

/-- Leaving the body: the SC guard (declared first, dropped last) issues its second fence. -/
def finish (k : Call V) (r : Res V) : Pc V c.W :=
  if wantsSc k.op then .scPost k r else .ret r

/-- Dropping the write guard: `Drop` calls `next_stamp` (`seq_lock_common.rs` L87;
`seq_lock.rs` L53-55; `seq_lock_wide.rs` L79-91), which in the wide lock first bumps `state_hi`
when the low half wraps to 0. -/
def dropGuard (k : Call V) (prev : BitVec c.W) (r : Res V) : Pc V c.W :=
  if c.wide ∧ prev + 2 = 0 then .hiLoad k prev r else .dropStore k prev r

/-- `self.write(val, &guard)`: start storing chunks (`mod.rs` L190-202). -/
def startWrite (k : Call V) (prev : BitVec c.W) (v : V) (r : Res V) : Pc V c.W :=
  .wrChunk k prev 0 (c.split k.obj v) r

/-- After the ordinary read returned `old` under the lock: load aborts the guard (`mod.rs` L395-398),
swap writes (L414-416), compare_exchange writes or aborts (L433-441), fetch_* write `f old`
(L448-450 etc.). `store` does not read. -/
def decideOp (k : Call V) (prev : BitVec c.W) (old : V) : Pc V c.W :=
  match k.op with
  | .load _ => .abortStore k prev (.val old)
  | .store v _ => c.startWrite k prev v .unit
  | .swap v _ => c.startWrite k prev v (.val old)
  | .cas cur new _ _ =>
      if old = cur then c.startWrite k prev new (.ok old) else .abortStore k prev (.err old)
  | .rmw f _ => c.startWrite k prev (f old) (.val old)

/-- After the lock is taken: `store` writes at once (`mod.rs` L407), everything else reads first. -/
def locked (k : Call V) (prev : BitVec c.W) : Pc V c.W :=
  match k.op with
  | .store v _ => c.startWrite k prev v .unit
  | _ => .naRead k prev 0 (fun _ => 0)

/-- The shared action at each program point, with the ordering in the source
(cited at the constructors of `Pc`). `none`: no shared action (`idle`, `ret`). -/
def act : Pc V c.W → Option (Act c.W)
  | .idle => none
  | .scPre _ => some (.fence .seqCst)
  | .optHi k => some (.load (.hi (c.lockOf k.obj)) .acquire)
  | .optLo k _ => some (.load (.lo (c.lockOf k.obj)) .acquire)
  | .optChunk k _ _ i _ => some (.load (.chunk k.obj i) .relaxed)
  | .valFence _ _ _ _ => some (.fence .acquire)
  | .valLo k _ _ _ => some (.load (.lo (c.lockOf k.obj)) (if c.wide then .acquire else .relaxed))
  | .valHi k _ _ _ _ => some (.load (.hi (c.lockOf k.obj)) .relaxed)
  | .swapLock k => some (.swap (.lo (c.lockOf k.obj)) 1 .acquire)
  | .spin k => some (.load (.lo (c.lockOf k.obj)) .relaxed)
  | .relFence _ _ => some (.fence .release)
  | .naRead k _ i _ => some (.naLoad (.chunk k.obj i))
  | .wrChunk k _ i new _ => some (.store (.chunk k.obj i) (new i) .relaxed)
  | .hiLoad k _ _ => some (.load (.hi (c.lockOf k.obj)) .relaxed)
  | .hiStore k _ h _ => some (.store (.hi (c.lockOf k.obj)) (h + 1) .release)
  | .dropStore k prev _ => some (.store (.lo (c.lockOf k.obj)) (prev + 2) .release)
  | .abortStore k prev _ => some (.store (.lo (c.lockOf k.obj)) prev .release)
  | .scPost _ _ => some (.fence .seqCst)
  | .ret _ => none

/-- Continue after the action returned `x` (ignored for stores and fences). `LOCKED = 1`
(`seq_lock_common.rs` L12). -/
def next (pc : Pc V c.W) (x : BitVec c.W) : Pc V c.W :=
  match pc with
  | .idle => .idle
  | .scPre k => c.enter k
  | .optHi k => .optLo k x
  | .optLo k h => if x = 1 then .swapLock k else .optChunk k h x 0 (fun _ => 0)
  | .optChunk k h l i acc =>
      if i + 1 < c.n k.obj then .optChunk k h l (i + 1) (Function.update acc i x)
      else .valFence k h l (Function.update acc i x)
  | .valFence k h l acc => .valLo k h l acc
  | .valLo k h l acc =>
      if c.wide then .valHi k h l acc x
      else if x = l then c.finish k (.val (c.join k.obj acc)) else .swapLock k
  | .valHi k h l acc l' =>
      if x = h ∧ l' = l then c.finish k (.val (c.join k.obj acc)) else .swapLock k
  | .swapLock k => if x = 1 then .spin k else .relFence k x
  | .spin k => if x = 1 then .spin k else .swapLock k
  | .relFence k prev => c.locked k prev
  | .naRead k prev i acc =>
      if i + 1 < c.n k.obj then .naRead k prev (i + 1) (Function.update acc i x)
      else c.decideOp k prev (c.join k.obj (Function.update acc i x))
  | .wrChunk k prev i new r =>
      if i + 1 < c.n k.obj then .wrChunk k prev (i + 1) new r else c.dropGuard k prev r
  | .hiLoad k prev r => .hiStore k prev x r
  | .hiStore k prev _ r => .dropStore k prev r
  | .dropStore k _ r => c.finish k r
  | .abortStore k _ r => c.finish k r
  | .scPost _ r => .ret r
  | .ret r => .ret r

end Cfg
end Fallback
end Verif
