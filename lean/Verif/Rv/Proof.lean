import Verif.Spec.Bytes
import Verif.Int.Sim
/-!
# Sub-word operations on RISC-V act exactly on their own bytes
-/
namespace Verif.Rv
open Verif.Int

variable {L : Nat}

/-- The byte-addressed view of word memory (little endian). -/
def view (m : Mem L) : Bytes L := fun a => (m (aligned a) >>> (8 * (a.toNat % 4))).setWidth 8

theorem three_bit (hL : 2 ≤ L) (i : Nat) : (3 : BitVec L).getLsbD i = decide (i < 2) := by
  have : (3 : BitVec L) = BitVec.ofNat L 3 := rfl
  rw [this, BitVec.getLsbD_ofNat]
  by_cases h : i < 2
  · have : i = 0 ∨ i = 1 := by omega
    rcases this with rfl | rfl
    · simp; omega
    · simp [Nat.testBit]; omega
  · have : Nat.testBit 3 i = false := Nat.testBit_lt_two_pow (by
      calc 3 < 2 ^ 2 := by decide
        _ ≤ 2 ^ i := Nat.pow_le_pow_right (by decide) (by omega))
    simp [h, this]

theorem aligned_eq (hL : 2 ≤ L) (a : BitVec L) : aligned a = (a >>> 2) <<< 2 := by
  apply BitVec.eq_of_getLsbD_eq
  intro i hi
  simp only [aligned, BitVec.getLsbD_and, BitVec.getLsbD_not, three_bit hL, BitVec.getLsbD_shiftLeft,
    BitVec.getLsbD_ushiftRight, hi, decide_true, Bool.true_and]
  by_cases h : i < 2
  · simp [h]
  · have : 2 + (i - 2) = i := by omega
    simp [h, this]

theorem aligned_toNat (hL : 2 ≤ L) (a : BitVec L) : (aligned a).toNat = a.toNat / 4 * 4 := by
  rw [aligned_eq hL, BitVec.toNat_shiftLeft, BitVec.toNat_ushiftRight, Nat.shiftRight_eq_div_pow,
    Nat.shiftLeft_eq]
  have := a.isLt
  apply Nat.mod_eq_of_lt
  have : a.toNat / 2 ^ 2 * 2 ^ 2 ≤ a.toNat := Nat.div_mul_le_self _ _
  omega

theorem four_dvd (hL : 2 ≤ L) : 4 ∣ 2 ^ L := by
  have : (4 : Nat) = 2 ^ 2 := rfl
  rw [this]; exact Nat.pow_dvd_pow 2 hL

theorem shift_toNat (hL : 32 ≤ L) (a : BitVec L) : (shift a).toNat % 32 = 8 * (a.toNat % 4) := by
  have e8 : (8 : BitVec L).toNat = 8 := by
    have h8 : (8 : BitVec L) = BitVec.ofNat L 8 := rfl
    rw [h8, BitVec.toNat_ofNat]
    apply Nat.mod_eq_of_lt
    calc 8 < 2 ^ 32 := by decide
      _ ≤ 2 ^ L := Nat.pow_le_pow_right (by decide) hL
  have d1 : 32 ∣ 2 ^ 32 := ⟨2 ^ 27, by decide⟩
  have d2 : 32 ∣ 2 ^ L := Nat.dvd_trans d1 (Nat.pow_dvd_pow 2 hL)
  rw [shift, BitVec.toNat_setWidth, BitVec.toNat_mul, e8, Nat.mod_mod_of_dvd _ d1,
    Nat.mod_mod_of_dvd _ d2]
  omega

/-- The object lies inside one aligned word. -/
structure Fits (sz : Nat) (addr : BitVec L) : Prop where
  size : sz = 1 ∨ sz = 2
  align : addr.toNat % sz = 0

theorem Fits.le {sz : Nat} {addr : BitVec L} (h : Fits sz addr) : addr.toNat % 4 + sz ≤ 4 := by
  rcases h with ⟨rfl | rfl, ha⟩ <;> omega

theorem mask_bit {sz : Nat} (h : sz = 1 ∨ sz = 2) (j : Nat) (hj : j < 32) :
    (mask sz).getLsbD j = decide (j < 8 * sz) := by
  have key : ∀ j : Fin 32, (mask 1).getLsbD j = decide (j.1 < 8 * 1) := by decide +kernel
  have key2 : ∀ j : Fin 32, (mask 2).getLsbD j = decide (j.1 < 8 * 2) := by decide +kernel
  rcases h with rfl | rfl
  · exact key ⟨j, hj⟩
  · exact key2 ⟨j, hj⟩

/-- Is bit `j` of the word inside the object? -/
def inside (sz : Nat) (addr : BitVec L) (j : Nat) : Prop :=
  8 * (addr.toNat % 4) ≤ j ∧ j < 8 * (addr.toNat % 4) + 8 * sz

instance (sz : Nat) (addr : BitVec L) (j : Nat) : Decidable (inside sz addr j) := by
  unfold inside; exact inferInstance

def Rmw.bool (k : Rmw) (a b : Bool) : Bool :=
  match k with
  | .and => a && b
  | .or => a || b
  | .xor => a != b

theorem operand_bit (hL : 32 ≤ L) {sz : Nat} {addr : BitVec L} (hf : Fits sz addr) (k : Rmw)
    (val : BitVec (8 * sz)) (w : BitVec 32) (j : Nat) (hj : j < 32) :
    (k.word w (operand sz k addr val)).getLsbD j =
      if inside sz addr j then k.bool (w.getLsbD j) (val.getLsbD (j - 8 * (addr.toNat % 4)))
      else w.getLsbD j := by
  have hle := hf.le
  have hs := shift_toNat hL addr
  have hz : ∀ i, (val.setWidth 32).getLsbD i = (decide (i < 32) && val.getLsbD i) := by
    intro i; simp [BitVec.getLsbD_setWidth]
  have hv : (sllw (val.setWidth 32) (shift addr)).getLsbD j =
      (decide (inside sz addr j) && val.getLsbD (j - 8 * (addr.toNat % 4))) := by
    rw [sllw, hs, BitVec.getLsbD_shiftLeft, hz]
    by_cases h1 : j < 8 * (addr.toNat % 4)
    · have : ¬ inside sz addr j := fun h => by unfold inside at h; omega
      simp [h1, this]
    · by_cases h2 : inside sz addr j
      · simp [hj, h1, h2]
        intro _; omega
      · have : val.getLsbD (j - 8 * (addr.toNat % 4)) = false :=
          BitVec.getLsbD_of_ge _ _ (by unfold inside at h2; omega)
        simp [h2, this]
  have hm : (sllw (mask sz) (shift addr)).getLsbD j = decide (inside sz addr j) := by
    rw [sllw, hs, BitVec.getLsbD_shiftLeft]
    by_cases h1 : j < 8 * (addr.toNat % 4)
    · have : ¬ inside sz addr j := fun h => by unfold inside at h; omega
      simp [h1, this]
    · rw [mask_bit hf.size _ (by omega)]
      simp only [hj, h1, decide_true, decide_false, Bool.not_false, Bool.true_and]
      apply decide_eq_decide.2
      unfold inside
      omega
  cases k <;> simp only [Rmw.word, operand, BitVec.getLsbD_and, BitVec.getLsbD_or, BitVec.getLsbD_xor,
    BitVec.getLsbD_not, hv, hm, hj, Rmw.bool] <;> by_cases h : inside sz addr j <;> simp [h]

/-- Bit `i` of the byte at `a`. -/
theorem view_bit (m : Mem L) (a : BitVec L) (i : Nat) (hi : i < 8) :
    (view m a).getLsbD i = (m (aligned a)).getLsbD (8 * (a.toNat % 4) + i) := by
  simp [view, BitVec.getLsbD_setWidth, hi]

theorem byteAddr_facts (hL : 2 ≤ L) {sz : Nat} {addr : BitVec L} (hf : Fits sz addr) {j : Nat}
    (hj : j < sz) : aligned (byteAddr addr j) = aligned addr ∧
      (byteAddr addr j).toNat % 4 = addr.toNat % 4 + j := by
  have hle := hf.le
  have hlt := addr.isLt
  have hd := four_dvd hL
  have hlt2 : addr.toNat + j < 2 ^ L := by
    obtain ⟨c, hc⟩ := hd
    omega
  have hn : (byteAddr addr j).toNat = addr.toNat + j := by
    rw [byteAddr, BitVec.toNat_ofNat, Nat.mod_eq_of_lt hlt2]
  refine ⟨BitVec.eq_of_toNat_eq ?_, ?_⟩
  · rw [aligned_toNat hL, aligned_toNat hL, hn]; omega
  · rw [hn]; omega

theorem objBit_view (hL : 2 ≤ L) {sz : Nat} {addr : BitVec L} (hf : Fits sz addr) (m : Mem L) {i : Nat}
    (hi : i < 8 * sz) :
    objBit (view m) addr i = (m (aligned addr)).getLsbD (8 * (addr.toNat % 4) + i) := by
  have hj : i / 8 < sz := by omega
  obtain ⟨h1, h2⟩ := byteAddr_facts hL hf hj
  rw [objBit, view_bit _ _ _ (by omega), h1, h2]
  congr 1
  omega

/-- The value found by a byte/halfword access is what the bytes hold. -/
theorem holds_getSub (hL : 2 ≤ L) {sz : Nat} {addr : BitVec L} (hf : Fits sz addr) (m : Mem L) :
    Holds sz (view m) addr (getSub sz addr (m (aligned addr))) := by
  intro i hi
  rw [objBit_view hL hf m hi]
  simp [getSub, BitVec.getLsbD_setWidth, hi]

theorem getSub_bit {sz : Nat} (addr : BitVec L) (w : BitVec 32) {i : Nat} (hi : i < 8 * sz) :
    (getSub sz addr w).getLsbD i = w.getLsbD (8 * (addr.toNat % 4) + i) := by
  simp [getSub, BitVec.getLsbD_setWidth, hi]

/-- The answer of an AMO, shifted back, is that value. -/
theorem srlw_eq (hL : 32 ≤ L) {sz : Nat} (addr : BitVec L) (w : BitVec 32) :
    (srlw w (shift addr)).setWidth (8 * sz) = getSub sz addr w := by
  rw [srlw, shift_toNat hL]; rfl

/-- Changing one word only inside the object leaves the other bytes. -/
theorem others_kept (hL : 2 ≤ L) {sz : Nat} {addr : BitVec L} (hf : Fits sz addr) (m : Mem L)
    (w' : BitVec 32)
    (hw : ∀ j < 32, ¬ inside sz addr j → w'.getLsbD j = (m (aligned addr)).getLsbD j) :
    OthersKept sz (view m) (view (Function.update m (aligned addr) w')) addr := by
  intro a ha
  apply BitVec.eq_of_getLsbD_eq
  intro i hi
  rw [view_bit _ _ _ hi, view_bit _ _ _ hi]
  by_cases h : aligned a = aligned addr
  · rw [h, Function.update_self]
    apply hw
    · omega
    · intro hin
      have e := congrArg BitVec.toNat h
      rw [aligned_toNat hL, aligned_toNat hL] at e
      unfold inside at hin
      have hlt : a.toNat % 4 - addr.toNat % 4 < sz := by omega
      refine ha _ hlt (BitVec.eq_of_toNat_eq ?_)
      have hlt2 := a.isLt
      rw [byteAddr, BitVec.toNat_ofNat, Nat.mod_eq_of_lt] <;> omega
  · rw [Function.update_of_ne h]

/-- The heart of C14: an AMO with the computed operand. -/
theorem fetchRmw_ok (hL : 32 ≤ L) {sz : Nat} {addr : BitVec L} (hf : Fits sz addr) (k : Rmw)
    (val : BitVec (8 * sz)) (m : Mem L) :
    ∃ x y, Holds sz (view m) addr x ∧ Holds sz (view (fetchRmw sz k addr val m).1) addr y ∧
      OthersKept sz (view m) (view (fetchRmw sz k addr val m).1) addr ∧
      (fetchRmw sz k addr val m).2 = x ∧
      ∀ i < 8 * sz, y.getLsbD i = k.bool (x.getLsbD i) (val.getLsbD i) := by
  have hL2 : 2 ≤ L := by omega
  have hle := hf.le
  refine ⟨getSub sz addr (m (aligned addr)),
    getSub sz addr (k.word (m (aligned addr)) (operand sz k addr val)), holds_getSub hL2 hf m, ?_, ?_,
    srlw_eq hL addr _, ?_⟩
  · have := holds_getSub hL2 hf (fetchRmw sz k addr val m).1
    simpa [fetchRmw] using this
  · refine others_kept hL2 hf m _ fun j hj hin => ?_
    rw [operand_bit hL hf k val _ j hj, if_neg hin]
  · intro i hi
    rw [getSub_bit _ _ hi, getSub_bit _ _ hi, operand_bit hL hf k val _ _ (by omega), if_pos (by
      unfold inside; omega)]
    congr 2
    omega

theorem putSub_bit {sz : Nat} (addr : BitVec L) (w : BitVec 32) (v : BitVec (8 * sz)) {j : Nat}
    (hj : j < 32) : (putSub sz addr w v).getLsbD j =
      if inside sz addr j then v.getLsbD (j - 8 * (addr.toNat % 4)) else w.getLsbD j := by
  rw [putSub, BitVec.getLsbD_ofFnLE, dif_pos hj]
  rfl

/-- Every operation acts exactly on its own bytes. -/
theorem exec_ok (hL : 32 ≤ L) {sz : Nat} {addr : BitVec L} (hf : Fits sz addr) (op : SOp sz)
    (m : Mem L) : SemBytes sz addr op (view m) (view (exec sz addr op m).1) (exec sz addr op m).2 := by
  have hL2 : 2 ≤ L := by omega
  have hle := hf.le
  have ones : ∀ i < 8 * sz, (~~~(0 : BitVec (8 * sz))).getLsbD i = true := by
    intro i hi; simp [hi]
  have keep : OthersKept sz (view m) (view m) addr := fun _ _ => rfl
  have hw : ∃ e, 8 * sz = 2 ^ e := by
    rcases hf.size with rfl | rfl
    · exact ⟨3, rfl⟩
    · exact ⟨4, rfl⟩
  obtain ⟨e, he⟩ := hw
  have hpos : 0 < 8 * sz := by rcases hf.size with rfl | rfl <;> decide
  cases op with
  | load o =>
    cases o <;> exact ⟨_, _, holds_getSub hL2 hf m, holds_getSub hL2 hf m, keep, by
      simp [SOp.Post, exec, MemOrd.assertLoad]⟩
  | store v o =>
    have hst : ∃ y, Holds sz (view (Function.update m (aligned addr)
        (putSub sz addr (m (aligned addr)) v))) addr y ∧ y = v := by
      refine ⟨_, holds_getSub hL2 hf _, ?_⟩
      apply BitVec.eq_of_getLsbD_eq
      intro i hi
      rw [getSub_bit _ _ hi, Function.update_self, putSub_bit _ _ _ (by omega), if_pos (by
        unfold inside; omega)]
      congr 1
      omega
    obtain ⟨y, hy, rfl⟩ := hst
    have hk : OthersKept sz (view m) (view (Function.update m (aligned addr)
        (putSub sz addr (m (aligned addr)) y))) addr := by
      refine others_kept hL2 hf m _ fun j hj hin => ?_
      rw [putSub_bit _ _ _ hj, if_neg hin]
    cases o
    · exact ⟨_, y, holds_getSub hL2 hf m, hy, hk, by simp [SOp.Post, exec, MemOrd.assertStore]⟩
    · exact ⟨_, y, holds_getSub hL2 hf m, hy, hk, by simp [SOp.Post, exec, MemOrd.assertStore]⟩
    · exact ⟨_, _, holds_getSub hL2 hf m, holds_getSub hL2 hf m, keep, by
        simp [SOp.Post, exec, MemOrd.assertStore]⟩
    · exact ⟨_, _, holds_getSub hL2 hf m, holds_getSub hL2 hf m, keep, by
        simp [SOp.Post, exec, MemOrd.assertStore]⟩
    · exact ⟨_, y, holds_getSub hL2 hf m, hy, hk, by simp [SOp.Post, exec, MemOrd.assertStore]⟩
  | fetch k v o =>
    obtain ⟨x, y, hx, hy, hk, hr, hb⟩ := fetchRmw_ok hL hf k v m
    refine ⟨x, y, hx, hy, hk, ?_⟩
    cases k <;> exact ⟨hb, by simp only [exec]; rw [hr]⟩
  | plain k v o =>
    obtain ⟨x, y, hx, hy, hk, hr, hb⟩ := fetchRmw_ok hL hf k v m
    refine ⟨x, y, hx, hy, hk, ?_⟩
    cases k <;> exact ⟨hb, rfl⟩
  | fetchNot o =>
    obtain ⟨x, y, hx, hy, hk, hr, hb⟩ := fetchRmw_ok hL hf .xor (~~~0) m
    refine ⟨x, y, hx, hy, hk, fun i hi => ?_, by simp only [exec]; rw [hr]⟩
    rw [hb i hi, ones i hi]; simp [Rmw.bool]
  | not o =>
    obtain ⟨x, y, hx, hy, hk, hr, hb⟩ := fetchRmw_ok hL hf .xor (~~~0) m
    refine ⟨x, y, hx, hy, hk, fun i hi => ?_, rfl⟩
    rw [hb i hi, ones i hi]; simp [Rmw.bool]
  | bit b n o =>
    have hmod : n.toNat &&& (8 * sz - 1) = n.toNat % (8 * sz) := by rw [he]; exact and_pred e _
    have hi : n.toNat % (8 * sz) < 8 * sz := Nat.mod_lt _ hpos
    have hm : (bitMask sz n) = 1#(8 * sz) <<< (n.toNat % (8 * sz)) := by
      unfold bitMask; rw [hmod]
    generalize hi' : n.toNat % (8 * sz) = i at hi hm
    cases b
    · obtain ⟨x, y, hx, hy, hk, hr, hb⟩ := fetchRmw_ok hL hf .or (bitMask sz n) m
      refine ⟨x, y, hx, hy, hk, ?_⟩
      have hyx : y = btFn .set i x := by
        apply BitVec.eq_of_getLsbD_eq
        intro j hj
        rw [hb j hj, hm]; simp only [btFn, BitVec.getLsbD_or, Rmw.bool]
      simp only [SOp.Post, exec, hi']
      rw [hyx, hr, hm, test_bit hi]
      exact ⟨bt_post hi _ x, by trivial⟩
    · obtain ⟨x, y, hx, hy, hk, hr, hb⟩ := fetchRmw_ok hL hf .and (~~~(bitMask sz n)) m
      refine ⟨x, y, hx, hy, hk, ?_⟩
      have hyx : y = btFn .clear i x := by
        apply BitVec.eq_of_getLsbD_eq
        intro j hj
        rw [hb j hj, hm]; simp only [btFn, BitVec.getLsbD_and, Rmw.bool]
      simp only [SOp.Post, exec, hi']
      rw [hyx, hr, hm, test_bit hi]
      exact ⟨bt_post hi _ x, by trivial⟩
    · obtain ⟨x, y, hx, hy, hk, hr, hb⟩ := fetchRmw_ok hL hf .xor (bitMask sz n) m
      refine ⟨x, y, hx, hy, hk, ?_⟩
      have hyx : y = btFn .toggle i x := by
        apply BitVec.eq_of_getLsbD_eq
        intro j hj
        rw [hb j hj, hm]; simp only [btFn, BitVec.getLsbD_xor, Rmw.bool]
      simp only [SOp.Post, exec, hi']
      rw [hyx, hr, hm, test_bit hi]
      exact ⟨bt_post hi _ x, by trivial⟩

end Verif.Rv
