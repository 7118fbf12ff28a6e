import Mathlib.Algebra.Order.Floor.Div
import Mathlib.Data.Nat.ModEq
import Verif.Fallback.SC
import Verif.Spec.Revisable
/-!
# Invariant of the fallback under interleaving semantics (proof internals)
-/
namespace Verif
namespace Fallback
set_option linter.unusedSectionVars false
variable {V : Type} [DecidableEq V]

namespace Cfg
variable (c : Cfg V)

/-- Half the range of a lock word: the number of distinct even stamps. -/
def B : Nat := 2 ^ (c.W - 1)

/-- The stamp of version `v`. -/
def stamp (v : Nat) : BitVec c.W := BitVec.ofNat c.W (2 * v)

/-- The call and saved stamp of a thread inside the write section. -/
def holds : Pc V c.W → Option (Call V × BitVec c.W)
  | .relFence k p => some (k, p)
  | .naRead k p _ _ => some (k, p)
  | .wrChunk k p _ _ _ => some (k, p)
  | .hiLoad k p _ => some (k, p)
  | .hiStore k p _ _ => some (k, p)
  | .dropStore k p _ => some (k, p)
  | .abortStore k p _ => some (k, p)
  | _ => none

/-- The lock owned at a program point. -/
def owns (pc : Pc V c.W) : Option Nat := (c.holds pc).map fun k => c.lockOf k.1.obj

/-- In a write section that will certainly complete. -/
def dirty : Pc V c.W → Prop
  | .wrChunk .. => True
  | .hiLoad .. => True
  | .hiStore .. => True
  | .dropStore .. => True
  | _ => False

/-- High-half counter of a lock owned at this point. -/
def hc (pc : Pc V c.W) (v : Nat) : Nat :=
  match pc with
  | .dropStore .. => (v + 1) / c.B
  | _ => v / c.B

/-- Contents of chunk `i` of `o` while a thread at this point owns the lock and the abstract value
is `v`. -/
def memAt (pc : Pc V c.W) (o : Obj) (i : Nat) (v : V) : BitVec c.W :=
  match pc with
  | .wrChunk k _ j _ _ =>
      if k.obj = o ∧ i < j then c.split o (k.op.onCell v).1 i else c.split o v i
  | .hiLoad k _ _ => if k.obj = o then c.split o (k.op.onCell v).1 i else c.split o v i
  | .hiStore k _ _ _ => if k.obj = o then c.split o (k.op.onCell v).1 i else c.split o v i
  | .dropStore k _ _ => if k.obj = o then c.split o (k.op.onCell v).1 i else c.split o v i
  | _ => c.split o v i

/-- High-half counter of a lock. -/
def H (s : State V c.W) (owner : Nat → Option Tid) (l : Nat) : Nat :=
  match owner l with
  | some t => c.hc (s.pc t) (s.ver l)
  | none => s.ver l / c.B

/-- Some thread is in a write section of `l` that will certainly complete. -/
def D (s : State V c.W) (owner : Nat → Option Tid) (l : Nat) : Prop :=
  ∃ t, owner l = some t ∧ c.dirty (s.pc t)

/-- Pending in the specification. -/
def Pend (k : Call V) (x : Revisable.Th V) : Prop :=
  k.op.ordOk = true ∧ ∃ cand, x = .pending k.obj k.op cand

def isLoad (op : Op V) : Prop := ∃ o, op = .load o
def isStore (op : Op V) : Prop := ∃ v o, op = .store v o

/-- The stamp held by an optimistic load taken at version `rv`. -/
def Taken (st : Nat) (ver : Nat → Nat) (k : Call V) (rv : Nat) (h l : BitVec c.W) : Prop :=
  st ≤ rv ∧ rv ≤ ver (c.lockOf k.obj) ∧ l = c.stamp rv ∧
  (c.wide = true → ∃ hv, h = BitVec.ofNat c.W hv ∧ st / c.B ≤ hv ∧ hv ≤ rv / c.B)

/-- The words collected by an optimistic load are good if nothing was committed since. -/
def Good (ver : Nat → Nat) (cell : Obj → V) (D : Nat → Prop) (k : Call V) (rv m : Nat)
    (acc : Nat → BitVec c.W) : Prop :=
  ver (c.lockOf k.obj) = rv →
    (∀ i, i < m → acc i = c.split k.obj (cell k.obj) i) ∨ D (c.lockOf k.obj)

/-- What holds of one thread. -/
def TR (ver : Nat → Nat) (cell : Obj → V) (H : Nat → Nat) (D : Nat → Prop) (st : Nat)
    (pc : Pc V c.W) (x : Revisable.Th V) : Prop :=
  match pc with
  | .idle => x = .idle
  | .scPre k => Pend k x ∧ st ≤ ver (c.lockOf k.obj)
  | .optHi k => Pend k x ∧ isLoad k.op ∧ st ≤ ver (c.lockOf k.obj) ∧
      st / c.B ≤ H (c.lockOf k.obj)
  | .optLo k h => Pend k x ∧ isLoad k.op ∧ st ≤ ver (c.lockOf k.obj) ∧
      (c.wide = true → ∃ hv, h = BitVec.ofNat c.W hv ∧ st / c.B ≤ hv ∧ hv ≤ H (c.lockOf k.obj))
  | .optChunk k h l i acc => Pend k x ∧ isLoad k.op ∧ i < c.n k.obj ∧
      ∃ rv, c.Taken st ver k rv h l ∧ c.Good ver cell D k rv i acc
  | .valFence k h l acc => Pend k x ∧ isLoad k.op ∧
      ∃ rv, c.Taken st ver k rv h l ∧ c.Good ver cell D k rv (c.n k.obj) acc
  | .valLo k h l acc => Pend k x ∧ isLoad k.op ∧
      ∃ rv, c.Taken st ver k rv h l ∧ c.Good ver cell D k rv (c.n k.obj) acc
  | .valHi k h l acc l' => Pend k x ∧ c.wide = true ∧ ∃ hv, h = BitVec.ofNat c.W hv ∧
      st / c.B ≤ hv ∧
      (l' = l → ∃ v3, v3 / c.B ≤ H (c.lockOf k.obj) ∧ hv ≤ v3 / c.B ∧
        (v3 / c.B = hv → x = .pending k.obj k.op (some (.val (c.join k.obj acc)))))
  | .swapLock k => Pend k x
  | .spin k => Pend k x
  | .relFence k _ => Pend k x
  | .naRead k _ i acc => Pend k x ∧ i < c.n k.obj ∧ ¬ isStore k.op ∧
      ∀ j, j < i → acc j = c.split k.obj (cell k.obj) j
  | .wrChunk k _ i new r => Pend k x ∧ ¬ isLoad k.op ∧ i < c.n k.obj ∧ (k.op.onCell (cell k.obj)).2 = r ∧
      new = c.split k.obj (k.op.onCell (cell k.obj)).1
  | .hiLoad k p r => Pend k x ∧ ¬ isLoad k.op ∧ (k.op.onCell (cell k.obj)).2 = r ∧ c.wide = true ∧ p + 2 = 0
  | .hiStore k p h r => Pend k x ∧ ¬ isLoad k.op ∧ (k.op.onCell (cell k.obj)).2 = r ∧ c.wide = true ∧ p + 2 = 0 ∧
      h = BitVec.ofNat c.W (H (c.lockOf k.obj))
  | .dropStore k _ r => Pend k x ∧ ¬ isLoad k.op ∧ (k.op.onCell (cell k.obj)).2 = r
  | .abortStore k _ r => Pend k x ∧ k.op.onCell (cell k.obj) = (cell k.obj, r)
  | .scPost _ r => x = .done r ∨ ∃ o op, x = .pending o op (some r)
  | .ret r => x = .done r ∨ ∃ o op, x = .pending o op (some r)

/-- The simulation relation. -/
structure Rel (s : State V c.W) (a : Revisable.State V) (owner : Nat → Option Tid) : Prop where
  own : ∀ t l, c.owns (s.pc t) = some l ↔ owner l = some t
  free : ∀ l, owner l = none → s.mem (.lo l) = c.stamp (s.ver l)
  held : ∀ l t, owner l = some t → s.mem (.lo l) = 1
  prev : ∀ t k p, c.holds (s.pc t) = some (k, p) → p = c.stamp (s.ver (c.lockOf k.obj))
  hi : c.wide = true → ∀ l, s.mem (.hi l) = BitVec.ofNat c.W (c.H s owner l)
  mem : ∀ o i, i < c.n o → s.mem (.chunk o i) =
    (match owner (c.lockOf o) with
     | some t => c.memAt (s.pc t) o i (a.cell o)
     | none => c.split o (a.cell o) i)
  th : ∀ t, c.TR s.ver a.cell (c.H s owner) (c.D s owner) (s.start t) (s.pc t) (a.th t)
  fit : ∀ o, c.fits o (a.cell o)

/-! ## Arithmetic of stamps -/

section arith
variable {c}
variable (ok : c.Sound)
include ok

theorem pow_W : 2 ^ c.W = 2 * c.B := by
  have := ok.hW
  unfold B
  rw [← pow_succ']
  congr 1; omega

theorem B_pos : 0 < c.B := Nat.two_pow_pos _

theorem stamp_ne_one (v : Nat) : c.stamp v ≠ 1 := by
  intro h
  have h1 := congrArg BitVec.toNat h
  have hW := ok.hW
  have hp := pow_W ok
  have hB : 2 ≤ c.B := by
    unfold B
    calc 2 = 2 ^ 1 := rfl
      _ ≤ 2 ^ (c.W - 1) := Nat.pow_le_pow_right (by omega) (by omega)
  simp only [stamp, BitVec.toNat_ofNat, hp] at h1
  have h2 : (1 : BitVec c.W).toNat = 1 := by
    show (BitVec.ofNat c.W 1).toNat = 1
    rw [BitVec.toNat_ofNat, hp]; exact Nat.mod_eq_of_lt (by omega)
  rw [h2, Nat.mul_mod_mul_left] at h1
  omega

theorem stamp_inj {v w : Nat} : c.stamp v = c.stamp w ↔ v % c.B = w % c.B := by
  have hp := pow_W ok
  constructor
  · intro h
    have h1 := congrArg BitVec.toNat h
    simp only [stamp, BitVec.toNat_ofNat, hp, Nat.mul_mod_mul_left] at h1
    omega
  · intro h
    apply BitVec.eq_of_toNat_eq
    simp only [stamp, BitVec.toNat_ofNat, hp, Nat.mul_mod_mul_left, h]

omit ok in
theorem stamp_add (v : Nat) : c.stamp v + 2 = c.stamp (v + 1) := by
  unfold stamp
  rw [show (2 : BitVec c.W) = BitVec.ofNat c.W 2 from rfl, ← BitVec.ofNat_add]
  congr 1

theorem stamp_zero {v : Nat} : c.stamp v = 0 ↔ v % c.B = 0 := by
  have : (0 : BitVec c.W) = c.stamp 0 := by simp [stamp]
  rw [this, stamp_inj ok]; simp

theorem succ_div_wrap {v : Nat} (h : c.stamp v + 2 = 0) : (v + 1) / c.B = v / c.B + 1 := by
  rw [stamp_add, stamp_zero ok] at h
  rw [Nat.succ_div, if_pos (Nat.dvd_of_mod_eq_zero h)]

theorem succ_div_nowrap {v : Nat} (h : c.stamp v + 2 ≠ 0) : (v + 1) / c.B = v / c.B := by
  rw [stamp_add, Ne, stamp_zero ok] at h
  rw [Nat.succ_div, if_neg (fun hd => h (Nat.mod_eq_zero_of_dvd hd)), Nat.add_zero]

/-- Narrow lock: equal stamps fewer than `B` apart are equal versions. -/
theorem stamp_near {v w : Nat} (hle : v ≤ w) (hlt : w < v + c.B) (h : c.stamp v = c.stamp w) :
    v = w := by
  rw [stamp_inj ok] at h
  have hB := B_pos ok
  have := Nat.ModEq.eq_of_abs_lt (m := c.B) (a := v) (b := w) h
    (by rw [abs_lt]; constructor <;> omega)
  exact this

theorem ofNat_near {v w : Nat} (hle : v ≤ w) (hlt : w < v + 2 * c.B)
    (h : BitVec.ofNat c.W v = BitVec.ofNat c.W w) : v = w := by
  have h1 := congrArg BitVec.toNat h
  simp only [BitVec.toNat_ofNat, pow_W ok] at h1
  exact Nat.ModEq.eq_of_abs_lt (m := 2 * c.B) (a := v) (b := w) h1
    (by rw [abs_lt]; constructor <;> omega)

/-- Same quotient and same remainder. -/
theorem eq_of_div_stamp {v w : Nat} (hd : v / c.B = w / c.B) (h : c.stamp v = c.stamp w) :
    v = w := by
  rw [stamp_inj ok] at h
  rw [← Nat.div_add_mod v c.B, ← Nat.div_add_mod w c.B, hd, h]

end arith

theorem hc_mono (pc : Pc V c.W) (v : Nat) : v / c.B ≤ c.hc pc v ∧ c.hc pc v ≤ (v + 1) / c.B := by
  have : v / c.B ≤ (v + 1) / c.B := Nat.div_le_div_right (by omega)
  unfold hc; split <;> omega

theorem H_bounds (s : State V c.W) (owner : Nat → Option Tid) (l : Nat) :
    s.ver l / c.B ≤ c.H s owner l ∧ c.H s owner l ≤ (s.ver l + 1) / c.B := by
  have : s.ver l / c.B ≤ (s.ver l + 1) / c.B := Nat.div_le_div_right (by omega)
  unfold H; split
  · exact c.hc_mono _ _
  · omega

/-! ## Frame lemma -/

/-- Steps of other threads preserve what holds of a thread. -/
theorem TR.frame {ver ver' : Nat → Nat} {cell cell' : Obj → V} {H H' : Nat → Nat}
    {D D' : Nat → Prop} {st : Nat} {pc : Pc V c.W} {x : Revisable.Th V}
    (h : c.TR ver cell H D st pc x)
    (f1 : ∀ l, ver l ≤ ver' l) (f2 : ∀ l, H l ≤ H' l)
    (f3 : ∀ l, ver' l = ver l → D l → D' l)
    (f4 : ∀ o, ver' (c.lockOf o) = ver (c.lockOf o) → cell' o = cell o)
    (f5 : ∀ l, c.owns pc = some l → ver' l = ver l ∧ H' l = H l) :
    c.TR ver' cell' H' D' st pc x := by
  have good : ∀ k rv m acc, rv ≤ ver (c.lockOf k.obj) → c.Good ver cell D k rv m acc →
      c.Good ver' cell' D' k rv m acc := by
    intro k rv m acc hle hg hv
    have h1 := f1 (c.lockOf k.obj)
    have h2 : ver' (c.lockOf k.obj) = ver (c.lockOf k.obj) := by omega
    rcases hg (by omega) with h3 | h3
    · left; rw [f4 _ h2]; exact h3
    · right; exact f3 _ h2 h3
  have taken : ∀ k rv h l, c.Taken st ver k rv h l → c.Taken st ver' k rv h l :=
    fun k rv h l ⟨a, b, d⟩ => ⟨a, le_trans b (f1 _), d⟩
  cases pc with
  | idle => exact h
  | scPre => exact ⟨h.1, le_trans h.2 (f1 _)⟩
  | swapLock => exact h
  | spin => exact h
  | relFence => exact h
  | scPost => exact h
  | ret => exact h
  | optHi k => exact ⟨h.1, h.2.1, le_trans h.2.2.1 (f1 _), le_trans h.2.2.2 (f2 _)⟩
  | optLo k x =>
    refine ⟨h.1, h.2.1, le_trans h.2.2.1 (f1 _), fun hw => ?_⟩
    obtain ⟨hv, h1, h2, h3⟩ := h.2.2.2 hw
    exact ⟨hv, h1, h2, le_trans h3 (f2 _)⟩
  | optChunk k x l i acc =>
    obtain ⟨h1, h2, h3, rv, h4, h5⟩ := h
    exact ⟨h1, h2, h3, rv, taken _ _ _ _ h4, good _ _ _ _ h4.2.1 h5⟩
  | valFence k x l acc =>
    obtain ⟨h1, h2, rv, h4, h5⟩ := h
    exact ⟨h1, h2, rv, taken _ _ _ _ h4, good _ _ _ _ h4.2.1 h5⟩
  | valLo k x l acc =>
    obtain ⟨h1, h2, rv, h4, h5⟩ := h
    exact ⟨h1, h2, rv, taken _ _ _ _ h4, good _ _ _ _ h4.2.1 h5⟩
  | valHi k x l acc l' =>
    obtain ⟨h1, h2, hv, h3, h4, h5⟩ := h
    refine ⟨h1, h2, hv, h3, h4, fun e => ?_⟩
    obtain ⟨v3, h6, h7, h8⟩ := h5 e
    exact ⟨v3, le_trans h6 (f2 _), h7, h8⟩
  | naRead k p i acc =>
    have e := f4 k.obj (f5 _ rfl).1
    obtain ⟨h1, h2, h3, h4⟩ := h
    exact ⟨h1, h2, h3, by rw [e]; exact h4⟩
  | wrChunk k p i new r =>
    have e := f4 k.obj (f5 _ rfl).1
    obtain ⟨h0, h1, h2, h3, h4⟩ := h
    exact ⟨h0, h1, h2, by rw [e]; exact h3, by rw [e]; exact h4⟩
  | hiLoad k p r =>
    have e := f4 k.obj (f5 _ rfl).1
    obtain ⟨h0, h1, h2, h3⟩ := h
    exact ⟨h0, h1, by rw [e]; exact h2, h3⟩
  | hiStore k p y r =>
    have e := f4 k.obj (f5 _ rfl).1
    obtain ⟨h0, h1, h2, h3, h4, h5⟩ := h
    exact ⟨h0, h1, by rw [e]; exact h2, h3, h4, by rw [(f5 _ rfl).2]; exact h5⟩
  | dropStore k p r =>
    have e := f4 k.obj (f5 _ rfl).1
    obtain ⟨h0, h1, h2⟩ := h
    exact ⟨h0, h1, by rw [e]; exact h2⟩
  | abortStore k p r =>
    have e := f4 k.obj (f5 _ rfl).1
    obtain ⟨h1, h2⟩ := h
    exact ⟨h1, by rw [e]; exact h2⟩

end Cfg
end Fallback
end Verif
