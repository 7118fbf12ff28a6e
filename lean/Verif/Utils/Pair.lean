import Mathlib.Data.Nat.Notation
/-!
# The word-pair unions `U128`/`U64` (`src/utils.rs` L485-L535) and `zero_extend64_ptr` (L470-L485)

A `repr(C)` union reinterprets bytes; a `repr(C)` struct lays its fields out in declaration order.
Memory is a list of bytes (lowest address first), an integer is stored in the target's byte order.
-/
namespace Verif.Pair

/-- `target_endian` -/
inductive Endian where
  | little | big
deriving DecidableEq

/-- `n` bytes of a number, least significant first. -/
def toLE : Nat → Nat → List (BitVec 8)
  | 0, _ => []
  | n + 1, v => BitVec.ofNat 8 v :: toLE n (v / 256)

/-- The number of a byte string, least significant first. -/
def fromLE : List (BitVec 8) → Nat
  | [] => 0
  | b :: bs => b.toNat + 256 * fromLE bs

/-- An `n`-byte integer in memory. -/
def toMem (e : Endian) (n v : Nat) : List (BitVec 8) :=
  match e with
  | .little => toLE n v
  | .big => (toLE n v).reverse

/-- The integer stored in these bytes. -/
def fromMem (e : Endian) (bs : List (BitVec 8)) : Nat :=
  match e with
  | .little => fromLE bs
  | .big => fromLE bs.reverse

/-- The `cfg` of `Pair` (`src/utils.rs` L519-L535): is `lo` the first field?  `arm` is
`target_arch = "aarch64" | "arm" | "arm64ec"`. -/
def loFirst (e : Endian) (arm : Bool) : Bool := e = .little || arm

/-- `U128 { pair: Pair { lo, hi } }.whole` for halves of `n` bytes. -/
def whole (e : Endian) (arm : Bool) (n lo hi : Nat) : Nat :=
  fromMem e (if loFirst e arm then toMem e n lo ++ toMem e n hi else toMem e n hi ++ toMem e n lo)

/-- `(x.pair.lo, x.pair.hi)` for `x = U128 { whole }`. -/
def pair (e : Endian) (arm : Bool) (n x : Nat) : Nat × Nat :=
  let bs := toMem e (n + n) x
  let first := fromMem e (bs.take n)
  let second := fromMem e (bs.drop n)
  if loFirst e arm then (first, second) else (second, first)

/-- `zero_extend64_ptr` (L470-L485, 32-bit pointers): `v` first on little-endian targets, the null
padding first on big-endian ones, reinterpreted as a 64-bit integer. -/
def zeroExtend64 (e : Endian) (v : Nat) : Nat :=
  fromMem e (match e with
    | .big => toMem e 4 0 ++ toMem e 4 v
    | .little => toMem e 4 v ++ toMem e 4 0)

/-! ## Lemmas -/

theorem toLE_length (n v : Nat) : (toLE n v).length = n := by
  induction n generalizing v with
  | zero => rfl
  | succ n ih => simp [toLE, ih]

theorem fromLE_toLE (n v : Nat) : fromLE (toLE n v) = v % 2 ^ (8 * n) := by
  induction n generalizing v with
  | zero => simp [toLE, fromLE, Nat.mod_one]
  | succ n ih =>
    simp only [toLE, fromLE, ih, BitVec.toNat_ofNat]
    have e : 2 ^ (8 * (n + 1)) = 256 * 2 ^ (8 * n) := by
      rw [Nat.mul_add, Nat.pow_add, Nat.mul_comm]
    rw [e, Nat.mod_mul]

theorem fromLE_append (a b : List (BitVec 8)) :
    fromLE (a ++ b) = fromLE a + 2 ^ (8 * a.length) * fromLE b := by
  induction a with
  | nil => simp [fromLE]
  | cons x a ih =>
    simp only [List.cons_append, fromLE, ih, List.length_cons]
    have e : 2 ^ (8 * (a.length + 1)) = 256 * 2 ^ (8 * a.length) := by
      rw [Nat.mul_add, Nat.pow_add, Nat.mul_comm]
    rw [e, Nat.mul_assoc, Nat.mul_add, Nat.add_assoc]

theorem toLE_append (m n v : Nat) : toLE (m + n) v = toLE m v ++ toLE n (v / 2 ^ (8 * m)) := by
  induction m generalizing v with
  | zero => simp [toLE]
  | succ m ih =>
    rw [Nat.add_right_comm]
    simp only [toLE, List.cons_append, ih]
    rw [Nat.div_div_eq_div_mul]
    have e : 2 ^ (8 * (m + 1)) = 256 * 2 ^ (8 * m) := by
      rw [Nat.mul_add, Nat.pow_add, Nat.mul_comm]
    rw [e]

theorem fromLE_lt (bs : List (BitVec 8)) : fromLE bs < 2 ^ (8 * bs.length) := by
  induction bs with
  | nil => simp [fromLE]
  | cons b bs ih =>
    have e : 2 ^ (8 * (bs.length + 1)) = 256 * 2 ^ (8 * bs.length) := by
      rw [Nat.mul_add, Nat.pow_add, Nat.mul_comm]
    simp only [fromLE, List.length_cons, e]
    have := b.isLt
    omega

/-! ## C30 -/

/-- **C30a.** The value built from two halves: `hi` is the arithmetic high half, except on big-endian
Arm, where the pair is in memory order and `lo` is the high half. -/
theorem whole_eq (e : Endian) (arm : Bool) (n lo hi : Nat) (hlo : lo < 2 ^ (8 * n))
    (hhi : hi < 2 ^ (8 * n)) :
    whole e arm n lo hi =
      if e = .big ∧ arm = true then hi + 2 ^ (8 * n) * lo else lo + 2 ^ (8 * n) * hi := by
  cases e <;> cases arm <;>
    simp [whole, loFirst, fromMem, toMem, fromLE_append, fromLE_toLE, toLE_length,
      Nat.mod_eq_of_lt hlo, Nat.mod_eq_of_lt hhi]

/-- **C30b.** The halves of a value: quotient and remainder, in the order of C30a. -/
theorem pair_eq (e : Endian) (arm : Bool) (n x : Nat) (hx : x < 2 ^ (8 * (n + n))) :
    pair e arm n x =
      if e = .big ∧ arm = true then (x / 2 ^ (8 * n), x % 2 ^ (8 * n))
      else (x % 2 ^ (8 * n), x / 2 ^ (8 * n)) := by
  have hq : x / 2 ^ (8 * n) < 2 ^ (8 * n) := by
    rw [Nat.div_lt_iff_lt_mul (Nat.two_pow_pos _), ← Nat.pow_add, ← Nat.mul_add]
    exact hx
  have hl := toLE_length n
  have t1 : (toLE (n + n) x).take n = toLE n x := by
    rw [toLE_append, List.take_left' (hl _)]
  have t2 : (toLE (n + n) x).drop n = toLE n (x / 2 ^ (8 * n)) := by
    rw [toLE_append, List.drop_left' (hl _)]
  have t3 : (toLE (n + n) x).reverse.take n = (toLE n (x / 2 ^ (8 * n))).reverse := by
    rw [toLE_append, List.reverse_append, List.take_left' (by rw [List.length_reverse, hl])]
  have t4 : (toLE (n + n) x).reverse.drop n = (toLE n x).reverse := by
    rw [toLE_append, List.reverse_append, List.drop_left' (by rw [List.length_reverse, hl])]
  cases e <;> cases arm <;>
    simp [pair, loFirst, fromMem, toMem, t1, t2, t3, t4, fromLE_toLE, Nat.mod_eq_of_lt hq]

/-- **C30c.** Splitting and joining are inverse, on every target. -/
theorem whole_pair (e : Endian) (arm : Bool) (n x : Nat) (hx : x < 2 ^ (8 * (n + n))) :
    whole e arm n (pair e arm n x).1 (pair e arm n x).2 = x := by
  have hr : x % 2 ^ (8 * n) < 2 ^ (8 * n) := Nat.mod_lt _ (Nat.two_pow_pos _)
  have hq : x / 2 ^ (8 * n) < 2 ^ (8 * n) := by
    rw [Nat.div_lt_iff_lt_mul (Nat.two_pow_pos _), ← Nat.pow_add, ← Nat.mul_add]
    exact hx
  have hdm := Nat.mod_add_div x (2 ^ (8 * n))
  rw [pair_eq e arm n x hx]
  split
  · rename_i h
    simp only
    rw [whole_eq e arm n _ _ hq hr, if_pos h, hdm]
  · rename_i h
    simp only
    rw [whole_eq e arm n _ _ hr hq, if_neg h, hdm]

theorem pair_whole (e : Endian) (arm : Bool) (n lo hi : Nat) (hlo : lo < 2 ^ (8 * n))
    (hhi : hi < 2 ^ (8 * n)) : pair e arm n (whole e arm n lo hi) = (lo, hi) := by
  have hp : 0 < 2 ^ (8 * n) := Nat.two_pow_pos _
  have key : ∀ a b, a < 2 ^ (8 * n) → b < 2 ^ (8 * n) → a + 2 ^ (8 * n) * b < 2 ^ (8 * (n + n)) := by
    intro a b ha hb
    rw [Nat.mul_add, Nat.pow_add]
    calc a + 2 ^ (8 * n) * b < 2 ^ (8 * n) + 2 ^ (8 * n) * b := by omega
      _ = 2 ^ (8 * n) * (b + 1) := by rw [Nat.mul_add, Nat.mul_one, Nat.add_comm]
      _ ≤ 2 ^ (8 * n) * 2 ^ (8 * n) := Nat.mul_le_mul_left _ hb
  have d1 : ∀ a b, a < 2 ^ (8 * n) → (a + 2 ^ (8 * n) * b) / 2 ^ (8 * n) = b := by
    intro a b ha
    rw [Nat.add_mul_div_left _ _ hp, Nat.div_eq_of_lt ha, Nat.zero_add]
  have d2 : ∀ a b, a < 2 ^ (8 * n) → (a + 2 ^ (8 * n) * b) % 2 ^ (8 * n) = a := by
    intro a b ha
    rw [Nat.add_mul_mod_self_left, Nat.mod_eq_of_lt ha]
  rw [whole_eq e arm n lo hi hlo hhi]
  split
  · rename_i h
    rw [pair_eq _ _ _ _ (key _ _ hhi hlo), if_pos h, d1 _ _ hhi, d2 _ _ hhi]
  · rename_i h
    rw [pair_eq _ _ _ _ (key _ _ hlo hhi), if_neg h, d1 _ _ hlo, d2 _ _ hlo]

/-- **C30d.** On Arm of either byte order `lo` is what a load of the first `n` bytes of the object
gives, `hi` what a load of the next `n` bytes gives (so that `ldp lo, hi` and friends agree with the
union). -/
theorem arm_pair_is_memory_order (e : Endian) (n x : Nat) :
    pair e true n x =
      (fromMem e ((toMem e (n + n) x).take n), fromMem e ((toMem e (n + n) x).drop n)) := by
  simp [pair, loFirst]

/-- **C30e.** `zero_extend64_ptr` is zero extension on both byte orders. -/
theorem zero_extend_eq (e : Endian) (v : Nat) (hv : v < 2 ^ 32) : zeroExtend64 e v = v := by
  cases e <;>
    simp only [zeroExtend64, fromMem, toMem, List.reverse_append, List.reverse_reverse,
      fromLE_append, fromLE_toLE, Nat.zero_mod, Nat.mul_zero, Nat.add_zero] <;>
    exact Nat.mod_eq_of_lt hv

/-- Concrete halves: s390x (big-endian, not Arm), x86_64, and big-endian AArch64. -/
example : pair .big false 8 0x0123456789abcdef_fedcba9876543210 =
    (0xfedcba9876543210, 0x0123456789abcdef) := by decide +kernel
example : pair .little false 8 0x0123456789abcdef_fedcba9876543210 =
    (0xfedcba9876543210, 0x0123456789abcdef) := by decide +kernel
example : pair .big true 8 0x0123456789abcdef_fedcba9876543210 =
    (0x0123456789abcdef, 0xfedcba9876543210) := by decide +kernel

end Verif.Pair
