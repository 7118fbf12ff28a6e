/-!
# Lock table and back-off

Models `src/imp/fallback/mod.rs` L83-97 (`lock`) with Rust's panicking array indexing, and
`src/imp/fallback/utils.rs` L118-148 (`Backoff`).
-/
namespace Verif
namespace Fallback
namespace Table

/-- `const LEN: usize = 67`, `mod.rs` L86. -/
def LEN : Nat := 67

/-- `static LOCKS: [CachePadded<SeqLock>; LEN]`, `mod.rs` L88-92: an array of `LEN` distinct locks;
a lock is identified by its position. -/
def LOCKS : List Nat := List.range 67

/-- `&LOCKS[addr % LEN]`, `mod.rs` L96: indexing panics (`none`) when out of range. -/
def lock (addr : Nat) : Option Nat := LOCKS[addr % LEN]?

/-- `SPIN_LIMIT`, `utils.rs` L123. -/
def SPIN_LIMIT : Nat := 4

/-- What one `snooze` does: spin a number of times, or yield the processor, or fail because a `u32`
shift or addition overflowed. -/
inductive Snooze where
  | spin (times : Nat)
  | yield
  | overflow
deriving DecidableEq

/-- `1 << self.step` on `i32`/`u32` operands: shifting by 32 or more overflows. -/
def shl1 (step : Nat) : Snooze := if step < 32 then .spin (2 ^ step) else .overflow

/-- `Backoff::snooze`, `utils.rs` L131-147; `std` is the cargo feature.  Returns the new `step` (a
`u32`; `none` would be an overflow of `self.step += 1`) and what was done. -/
def snooze (std : Bool) (step : Nat) : Option Nat × Snooze :=
  if step ≤ SPIN_LIMIT then
    (if step + 1 < 2 ^ 32 then some (step + 1) else none, shl1 step)
  else
    (some step, if std then .yield else shl1 step)

/-- `n` calls of `snooze` after `Backoff::new()` (`step: 0`, L127-129): the last step and the list of
things done, or `none` once something overflowed. -/
def run (std : Bool) : Nat → Option (Nat × List Snooze)
  | 0 => some (0, [])
  | n + 1 =>
    match run std n with
    | none => none
    | some (step, log) =>
      match snooze std step with
      | (some step', a) => some (step', log ++ [a])
      | (none, _) => none

end Table
end Fallback
end Verif
