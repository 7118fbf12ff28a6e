/-!
# Memory orderings and the checks on them

Models `src/utils.rs` L391-444.
-/
namespace Verif

/-- `core::sync::atomic::Ordering` (used throughout; e.g. `src/utils.rs` L394-444). -/
inductive MemOrd where
  | relaxed | release | acquire | acqRel | seqCst
deriving DecidableEq, Repr, Inhabited

namespace MemOrd

/-- Does a call continue or panic? -/
inductive Check where
  | ok | panic
deriving DecidableEq, Repr

/-- `src/utils.rs` L394-401 `assert_load_ordering`. -/
def assertLoad : MemOrd → Check
  | .acquire | .relaxed | .seqCst => .ok
  | .release => .panic
  | .acqRel => .panic

/-- `src/utils.rs` L405-412 `assert_store_ordering`. -/
def assertStore : MemOrd → Check
  | .release | .relaxed | .seqCst => .ok
  | .acquire => .panic
  | .acqRel => .panic

/-- `src/utils.rs` L416-431 `assert_compare_exchange_ordering`: every success ordering is
accepted, the failure ordering is checked like a load. -/
def assertCas (_success failure : MemOrd) : Check :=
  match failure with
  | .relaxed | .acquire | .seqCst => .ok
  | .release => .panic
  | .acqRel => .panic

/-- `src/utils.rs` L437-444 `upgrade_success_ordering`. -/
def upgradeSuccess (success failure : MemOrd) : MemOrd :=
  match success, failure with
  | .relaxed, .acquire => .acquire
  | .release, .acquire => .acqRel
  | _, .seqCst => .seqCst
  | _, _ => success

end MemOrd
end Verif
