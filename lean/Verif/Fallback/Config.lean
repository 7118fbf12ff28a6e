import Batteries.Data.BitVec.Lemmas
import Verif.Fallback.SC
/-!
# The two build configurations of the fallback

`src/imp/fallback/mod.rs` L58-68 selects `u64` chunks with `seq_lock.rs`, or `u32` chunks with
`seq_lock_wide.rs`; the `atomic!` macro is instantiated for 64-bit integers (only in the second
configuration) and for 128-bit integers.  `mem::transmute` between the integer and the array of
chunks (L166, L192) depends on the byte order of the target.
-/
namespace Verif
namespace Fallback

/-- Position (counted from the least significant end) of array element `i` in an integer of `n`
chunks: `be` is a big-endian target. -/
def chunkPos (be : Bool) (n i : Nat) : Nat := if be then n - 1 - i else i

/-- `mem::transmute::<$int_type, [Chunk; LEN]>`, `src/imp/fallback/mod.rs` L192. -/
def splitInt (W n : Nat) (be : Bool) (v : BitVec (W * n)) (i : Nat) : BitVec W :=
  v.extractLsb' (W * chunkPos be n i) W

/-- `mem::transmute::<[Chunk; LEN], $int_type>`, `src/imp/fallback/mod.rs` L166: bit `j` of the
integer is bit `j % W` of the chunk at position `j / W`. -/
def joinInt (W n : Nat) (be : Bool) (f : Nat → BitVec W) : BitVec (W * n) :=
  BitVec.ofFnLE fun j => (f (chunkPos be n (j.val / W))).getLsbD (j.val % W)

theorem chunkPos_lt {be : Bool} {n i : Nat} (h : i < n) : chunkPos be n i < n := by
  unfold chunkPos; split <;> omega

theorem chunkPos_chunkPos {be : Bool} {n i : Nat} (h : i < n) :
    chunkPos be n (chunkPos be n i) = i := by
  unfold chunkPos; split <;> omega

/-- A configuration with `n` chunks of `W` bits. -/
def intCfg (W n : Nat) (wide be : Bool) (addr : Obj → Nat) : Cfg (BitVec (W * n)) :=
  { W := W, wide := wide, n := fun _ => n, split := fun _ => splitInt W n be, join := fun _ => joinInt W n be,
    fits := fun _ _ => True, addr := addr }

theorem intCfg_ok (W n : Nat) (wide be : Bool) (addr : Obj → Nat) (hW : 2 ≤ W) (hn : 0 < n) :
    (intCfg W n wide be addr).Ok where
  hW := hW
  hn := fun _ => hn
  join_congr := by
    intro _ f g h
    apply BitVec.eq_of_getLsbD_eq
    intro j hj
    have hjn : j / W < n := Nat.div_lt_of_lt_mul hj
    have : chunkPos be n (j / W) < n := chunkPos_lt hjn
    simp only [intCfg, joinInt, BitVec.getLsbD_ofFnLE, h _ this]
  join_split := by
    intro _ v _
    apply BitVec.eq_of_getLsbD_eq
    intro j hj
    have hjn : j / W < n := Nat.div_lt_of_lt_mul hj
    have hm : j % W < W := Nat.mod_lt _ (by omega)
    have hp : chunkPos be n (chunkPos be n (j / W)) = j / W := chunkPos_chunkPos hjn
    simp only [intCfg, joinInt, splitInt, BitVec.getLsbD_ofFnLE, BitVec.getLsbD_extractLsb', hp, hm,
      hj, dite_true, decide_true, Bool.true_and, Nat.div_add_mod]
  full := fun _ _ => trivial

/-- 128-bit integers on targets with fast 64-bit atomics (`mod.rs` L58-62, `seq_lock.rs`). -/
abbrev u128Narrow (be : Bool) (addr : Obj → Nat) : Cfg (BitVec 128) := intCfg 64 2 false be addr
/-- 128-bit integers elsewhere (`mod.rs` L63-68, `seq_lock_wide.rs`). -/
abbrev u128Wide (be : Bool) (addr : Obj → Nat) : Cfg (BitVec 128) := intCfg 32 4 true be addr
/-- 64-bit integers elsewhere (`mod.rs` L63-68, `seq_lock_wide.rs`). -/
abbrev u64Wide (be : Bool) (addr : Obj → Nat) : Cfg (BitVec 64) := intCfg 32 2 true be addr

theorem u128Narrow_ok (be addr) : (u128Narrow be addr).Ok := intCfg_ok 64 2 _ _ _ (by omega) (by omega)
theorem u128Wide_ok (be addr) : (u128Wide be addr).Ok := intCfg_ok 32 4 _ _ _ (by omega) (by omega)
theorem u64Wide_ok (be addr) : (u64Wide be addr).Ok := intCfg_ok 32 2 _ _ _ (by omega) (by omega)

theorem maxOverlap_narrow (be addr) : (u128Narrow be addr).maxOverlap = 2 ^ 63 := by simp [Cfg.maxOverlap, intCfg]
theorem maxOverlap_wide (be addr) : (u128Wide be addr).maxOverlap = 2 ^ 63 - 2 ^ 31 := by simp [Cfg.maxOverlap, intCfg]
theorem maxOverlap_wide64 (be addr) : (u64Wide be addr).maxOverlap = 2 ^ 63 - 2 ^ 31 := by simp [Cfg.maxOverlap, intCfg]

/-! ## Objects of different widths

`src/imp/fallback/mod.rs` L58-68 and L564-L574 (the instantiations of `atomic!`): in the second configuration 64-bit and
128-bit integers use the same `LOCKS` table. -/

/-- Integers of any number of chunks of `W` bits. -/
abbrev Words (W : Nat) : Type := Σ n : Nat, BitVec (W * n)

instance (W : Nat) : DecidableEq (Words W) := inferInstance

/-- Object `o` is an integer of `cnt o` chunks of `W` bits. -/
def mixedCfg (W : Nat) (wide be : Bool) (cnt : Obj → Nat) (addr : Obj → Nat) : Cfg (Words W) :=
  { W := W, wide := wide, n := cnt, split := fun _ v => splitInt W v.1 be v.2,
    join := fun o f => ⟨cnt o, joinInt W (cnt o) be f⟩, fits := fun o v => v.1 = cnt o, addr := addr }

theorem mixedCfg_sound (W : Nat) (wide be : Bool) (cnt : Obj → Nat) (addr : Obj → Nat) (hW : 2 ≤ W) (hn : ∀ o, 0 < cnt o) :
    (mixedCfg W wide be cnt addr).Sound where
  hW := hW
  hn := hn
  join_congr := by
    intro o f g h
    have := (intCfg_ok W (cnt o) wide be addr hW (hn o)).join_congr o f g h
    simp only [intCfg] at this
    simp only [mixedCfg, this]
  join_split := by
    rintro o ⟨n, v⟩ h
    obtain rfl : n = cnt o := h
    have := (intCfg_ok W (cnt o) wide be addr hW (hn o)).join_split o v trivial
    simp only [intCfg] at this
    simp only [mixedCfg, this]

/-- 64-bit integers (2 chunks) and 128-bit integers (4 chunks) together, `mod.rs` L63-68, `seq_lock_wide.rs`. -/
abbrev bothWide (be : Bool) (is64 : Obj → Bool) (addr : Obj → Nat) : Cfg (Words 32) :=
  mixedCfg 32 true be (fun o => if is64 o then 2 else 4) addr

theorem bothWide_sound (be is64 addr) : (bothWide be is64 addr).Sound :=
  mixedCfg_sound 32 _ _ _ _ (by omega) (by intro o; split <;> omega)

theorem maxOverlap_both (be is64 addr) : (bothWide be is64 addr).maxOverlap = 2 ^ 63 - 2 ^ 31 := by
  simp [Cfg.maxOverlap, mixedCfg]

end Fallback
end Verif
