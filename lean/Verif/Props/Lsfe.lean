import Verif.Spec.Lsfe
import Verif.Props.Arm
/-!
# Float operations by FEAT_LSFE instructions (C73)
-/
set_option autoImplicit false
namespace Verif.Lsfe
open Verif.Object Verif.Lf Verif.Asm Verif.Float
open Verif.Arm (IsAcquire IsRelease KeptInOrder Acquiring Releasing)

section

/-! ## Encodings -/

/-- The code of an operation (`o3 opc`), from the manual. -/
def FK.code : FK → BitVec 4
  | .add => 0b0000#4
  | .fmax => 0b0100#4
  | .fmin => 0b0101#4
  | .maxnm => 0b0110#4
  | .minnm => 0b0111#4

/-- The code of a size, from the manual. -/
def Sz.code : Sz → BitVec 2
  | .h => 0b01#2
  | .s => 0b10#2
  | .d => 0b11#2

/-- The manual's encoding: `size 111 1 00 A R 1 Rs o3 opc 00 Rn Rt`. -/
def encode (k : FK) (sz : Sz) (acq rel : Bool) (rs rt rn : BitVec 5) : BitVec 32 :=
  sz.code ++ 0b111100#6 ++ BitVec.ofBool acq ++ BitVec.ofBool rel ++ 1#1 ++ rs ++ k.code ++ 0#2 ++ rn ++ rt

theorem hi_ {m n : Nat} (a : BitVec m) (b : BitVec n) (s l : Nat) (h : n ≤ s) :
    (a ++ b).extractLsb' s l = a.extractLsb' (s - n) l := BitVec.extractLsb'_append_eq_of_le h
theorem lo_ {m n : Nat} (a : BitVec m) (b : BitVec n) (s l : Nat) (h : s + l ≤ n) :
    (a ++ b).extractLsb' s l = b.extractLsb' s l := BitVec.extractLsb'_append_eq_of_add_le h
theorem hib {m n : Nat} (a : BitVec m) (b : BitVec n) (s : Nat) (h : n ≤ s) :
    (a ++ b).getLsbD s = a.getLsbD (s - n) := by
  rw [BitVec.getLsbD_append, if_neg (by omega)]
theorem lob {m n : Nat} (a : BitVec m) (b : BitVec n) (s : Nat) (h : s < n) :
    (a ++ b).getLsbD s = b.getLsbD s := by
  rw [BitVec.getLsbD_append, if_pos h]
theorem all_ {n : Nat} (a : BitVec n) : a.extractLsb' 0 n = a := BitVec.extractLsb'_eq_self

/-- The decoder accepts every instruction of the manual's format, with all sizes, operations, annotations and
registers. -/
theorem decode_encode {w : Nat} (k : FK) (sz : Sz) (acq rel : Bool) (rs rt rn : BitVec 5) :
    decode (w := w) (encode k sz acq rel rs rt rn) = some (.ldf k sz acq rel rs rt rn) := by
  have hk : FK.ofCode k.code = some k := by cases k <;> rfl
  have hs : Sz.ofCode sz.code = some sz := by cases sz <;> rfl
  have hrt : (encode k sz acq rel rs rt rn).extractLsb' 0 5 = rt :=
    (lo_ _ _ _ _ (by decide)).trans <| all_ _
  have hrn : (encode k sz acq rel rs rt rn).extractLsb' 5 5 = rn :=
    (hi_ _ _ _ _ (by decide)).trans <| (lo_ _ _ _ _ (by decide)).trans <| all_ _
  have hz2 : (encode k sz acq rel rs rt rn).extractLsb' 10 2 = 0#2 :=
    (hi_ _ _ _ _ (by decide)).trans <| (hi_ _ _ _ _ (by decide)).trans <| (lo_ _ _ _ _ (by decide)).trans <| all_ _
  have hk' : (encode k sz acq rel rs rt rn).extractLsb' 12 4 = k.code :=
    (hi_ _ _ _ _ (by decide)).trans <| (hi_ _ _ _ _ (by decide)).trans <| (hi_ _ _ _ _ (by decide)).trans <| (lo_ _ _ _ _ (by decide)).trans <| all_ _
  have hrs : (encode k sz acq rel rs rt rn).extractLsb' 16 5 = rs :=
    (hi_ _ _ _ _ (by decide)).trans <| (hi_ _ _ _ _ (by decide)).trans <| (hi_ _ _ _ _ (by decide)).trans <| (hi_ _ _ _ _ (by decide)).trans <| (lo_ _ _ _ _ (by decide)).trans <| all_ _
  have hone : (encode k sz acq rel rs rt rn).extractLsb' 21 1 = 1#1 :=
    (hi_ _ _ _ _ (by decide)).trans <| (hi_ _ _ _ _ (by decide)).trans <| (hi_ _ _ _ _ (by decide)).trans <| (hi_ _ _ _ _ (by decide)).trans <| (hi_ _ _ _ _ (by decide)).trans <| (lo_ _ _ _ _ (by decide)).trans <| all_ _
  have hrel : (encode k sz acq rel rs rt rn).getLsbD 22 = rel :=
    (hib _ _ _ (by decide)).trans <| (hib _ _ _ (by decide)).trans <| (hib _ _ _ (by decide)).trans <| (hib _ _ _ (by decide)).trans <| (hib _ _ _ (by decide)).trans <| (hib _ _ _ (by decide)).trans <| (lob _ _ _ (by decide)).trans <| (by cases rel <;> rfl)
  have hacq : (encode k sz acq rel rs rt rn).getLsbD 23 = acq :=
    (hib _ _ _ (by decide)).trans <| (hib _ _ _ (by decide)).trans <| (hib _ _ _ (by decide)).trans <| (hib _ _ _ (by decide)).trans <| (hib _ _ _ (by decide)).trans <| (hib _ _ _ (by decide)).trans <| (hib _ _ _ (by decide)).trans <| (lob _ _ _ (by decide)).trans <| (by cases acq <;> rfl)
  have htop : (encode k sz acq rel rs rt rn).extractLsb' 24 6 = 0b111100#6 :=
    (hi_ _ _ _ _ (by decide)).trans <| (hi_ _ _ _ _ (by decide)).trans <| (hi_ _ _ _ _ (by decide)).trans <| (hi_ _ _ _ _ (by decide)).trans <| (hi_ _ _ _ _ (by decide)).trans <| (hi_ _ _ _ _ (by decide)).trans <| (hi_ _ _ _ _ (by decide)).trans <| (hi_ _ _ _ _ (by decide)).trans <| (lo_ _ _ _ _ (by decide)).trans <| all_ _
  have hsz : (encode k sz acq rel rs rt rn).extractLsb' 30 2 = sz.code :=
    (hi_ _ _ _ _ (by decide)).trans <| (hi_ _ _ _ _ (by decide)).trans <| (hi_ _ _ _ _ (by decide)).trans <| (hi_ _ _ _ _ (by decide)).trans <| (hi_ _ _ _ _ (by decide)).trans <| (hi_ _ _ _ _ (by decide)).trans <| (hi_ _ _ _ _ (by decide)).trans <| (hi_ _ _ _ _ (by decide)).trans <| (hi_ _ _ _ _ (by decide)).trans <| all_ _
  simp only [decode, hrt, hrn, hz2, hk', hrs, hone, hrel, hacq, htop, hsz, hk, hs, and_self, if_true]

/-- Does an ordering acquire, release? -/
def acqB (o : MemOrd) : Bool := decide (o = .acquire ∨ o = .acqRel ∨ o = .seqCst)
def relB (o : MemOrd) : Bool := decide (o = .release ∨ o = .acqRel ∨ o = .seqCst)

/-- **C73a.** For every type, operation and ordering the number given to assemblers that do not know FEAT_LSFE
is the encoding of the instruction the other version of the block names, of the size of the type, with the
annotations of the ordering, and with the registers the block passes its operands in. -/
theorem lsfe_encodings (g : Cfg) (t : FTy) (m : Mac) (o : MemOrd) :
    instWord t m (atomicRmwInst g.msvc o).1 = encode m.mnemonic t.modifier (acqB o) (relB o) 0 1 2 ∧
    (atomicRmw g.msvc o).1 = acqB o ∧ (atomicRmw g.msvc o).2.1 = relB o ∧ t.modifier.bits = t.bits := by
  obtain ⟨p, ms⟩ := g
  refine ⟨?_, ?_, ?_, ?_⟩
  · dsimp only
    cases t <;> cases m <;> cases o <;> cases ms <;> decide +kernel
  · cases o <;> cases ms <;> rfl
  · cases o <;> cases ms <;> rfl
  · cases t <;> rfl

/-- The block is one instruction, possibly encoded. -/
theorem block_eq {w : Nat} (g : Cfg) (t : FTy) (m : Mac) (o : MemOrd) (al : Alloc) :
    ∃ i : Ins w, blockCode g t m o al = [i] ∧
      (∀ cpu F a s, i.sem cpu F a s = (Ins.ldf m.mnemonic t.modifier (acqB o) (relB o) (al.used g).val
        (al.used g).out (al.used g).dst).eff cpu F a s) ∧
      i.events = [.rd (if acqB o then .full else .plain) true, .wr (relB o) true] := by
  obtain ⟨h1, h2, h3, -⟩ := lsfe_encodings g t m o
  unfold blockCode Alloc.used
  cases hp : g.preLlvm20
  · refine ⟨_, rfl, fun cpu F a s => ?_, ?_⟩
    · rw [h2, h3]; rfl
    · rw [h2, h3]; rfl
  · refine ⟨_, rfl, fun cpu F a s => ?_, ?_⟩
    · simp only [Ins.sem, h1, decode_encode]; rfl
    · simp only [Ins.events, h1, decode_encode]; rfl

/-! ## Values -/

theorem low_bits {w : Nat} (h : w ≤ 128) (j : BitVec (128 - w)) (v : BitVec w) :
    ((j ++ v).setWidth 128).setWidth w = v := by
  refine BitVec.eq_of_getLsbD_eq fun i hi => ?_
  rw [BitVec.getLsbD_setWidth, BitVec.getLsbD_setWidth, BitVec.getLsbD_append, if_pos hi]
  simp [hi, show i < 128 by omega]

theorem back {w : Nat} (h : w ≤ 128) (x : BitVec w) : (x.setWidth 128).setWidth w = x := by
  rw [BitVec.setWidth_setWidth_of_le _ h, BitVec.setWidth_eq]

theorem bits_le (t : FTy) : t.bits ≤ 128 := by cases t <;> decide

variable {E : Env}

theorem base_ok (c : Call E) : (c.al.used E.cfg).dst ≠ 31 := by
  unfold Alloc.used
  split
  · decide
  · exact c.base

theorem outReg_eq (c : Call E) : c.outReg = (c.al.used E.cfg).out := by
  unfold Call.outReg Alloc.used
  split <;> rfl

/-- What the block's instruction does is a possible result of the operation. -/
theorem mac_res {A : Float.Arith E.ty.bits} {F : Fpu E.ty.bits} (h : F.Ok A) (b : FBin)
    (v x : BitVec E.ty.bits) : A.res b x v (F.out (macOf b v).1.mnemonic x (macOf b v).2) := by
  cases b with
  | add => exact h.add x v
  | sub => exact A.sub_of_add _ _ _ (h.add x _)
  | max => exact h.max x v
  | min => exact h.min x v

/-- The access of a float operation. -/
theorem arith_access (hc : E.cpu.lsfe = true) (c : Call E) (b : FBin) (v : BitVec E.ty.bits) (o : MemOrd)
    (hw : c.what = .inl (b, v, o)) : ∃ i k, c.code = [i] ∧
      i.sem E.cpu c.fpu c.addr c.entry =
        .acc (.op (.rmw (fun x => c.fpu.out (macOf b v).1.mnemonic x (macOf b v).2) .relaxed)) k ∧
      ∀ x, k (.val x) = c.entry.setV (c.al.used E.cfg).out (x.setWidth 128) := by
  obtain ⟨i, h1, h2, -⟩ := block_eq (w := E.ty.bits) E.cfg E.ty (macOf b v).1 o c.al
  have hent : c.entry = (c.st.setX (c.al.used E.cfg).dst c.addr).setV (c.al.used E.cfg).val
      ((c.junk ++ (macOf b v).2).setWidth 128) := by unfold Call.entry; rw [hw]
  have hx : c.entry.x (c.al.used E.cfg).dst = c.addr := by rw [hent]; exact if_pos rfl
  have hv : (c.entry.v (c.al.used E.cfg).val).setWidth E.ty.bits = (macOf b v).2 := by
    rw [hent]
    simp only [St.setV, if_true]
    exact low_bits (bits_le _) _ _
  refine ⟨i, fun
        | .val x => c.entry.setV (c.al.used E.cfg).out (x.setWidth 128)
        | _ => c.entry, ?_, ?_, fun x => rfl⟩
  · unfold Call.code; rw [hw]; exact h1
  · rw [h2]
    unfold Ins.eff
    simp only
    rw [if_pos ⟨hc, (lsfe_encodings E.cfg E.ty (macOf b v).1 o).2.2.2, base_ok c, hx⟩]
    simp only [hv]
    congr 1
    funext r; cases r <;> rfl

/-- Every call is one access that does what is specified. -/
theorem one_access (hc : E.cpu.lsfe = true) (c : Call E) :
    ∃ i a k, (blocks E).prog c = [i] ∧ (blocks E).sem c i c.entry = .acc a k ∧
      ∀ x x' r, a.sem x x' r → (spec E).sem c x x' (some ((blocks E).out c (k r))) := by
  have hpr : (blocks E).prog c = c.code := rfl
  have hse : ∀ i, (blocks E).sem c i c.entry = i.sem E.cpu c.fpu c.addr c.entry := fun _ => rfl
  rcases hw : c.what with ⟨b, v, o⟩ | op
  · obtain ⟨i, k, h1, h2, h3⟩ := arith_access hc c b v o hw
    refine ⟨i, _, k, h1, h2, ?_⟩
    · intro x x' r hr
      obtain ⟨rfl, rfl⟩ : x' = c.fpu.out (macOf b v).1.mnemonic x (macOf b v).2 ∧ r = .val x := by
        simpa [Acc.sem, Op.onCell, Op.ordOk] using hr
      refine ⟨_, _, rfl, ?_⟩
      rw [hw, h3]
      refine ⟨mac_res c.fpuOk b v x, ?_, fun q hq => if_neg fun h => hq (h.trans (outReg_eq c).symm), rfl⟩
      unfold Call.result
      rw [hw]
      simp only [St.setV, if_true]
      rw [back (bits_le _)]
  · refine ⟨.core op, .op op, fun r => { c.entry with res := r }, ?_, ?_, ?_⟩
    · rw [hpr]; unfold Call.code; rw [hw]
    · rfl
    · intro x x' r hr
      refine ⟨_, _, rfl, ?_⟩
      rw [hw]
      have : c.result { c.entry with res := r } = r := by unfold Call.result; rw [hw]
      simp only [this]
      exact hr

/-- Every call is correct at its access. -/
theorem correct (hc : E.cpu.lsfe = true) (c : Call E) : Nonempty (Correct (blocks E) (spec E) c) := by
  obtain ⟨i, a, k, hprog, hse, hok⟩ := one_access hc c
  have hp : ((blocks E).prog c)[0]? = some i := by rw [hprog]; rfl
  have hend : ((blocks E).prog c)[1]? = none := by rw [hprog]; rfl
  exact ⟨{
    P := fun pc s e => e = none ∧ pc = 0 ∧ s = c.entry
    G := fun _ _ _ => True
    start := ⟨_, _, .refl _ _, rfl, rfl, rfl⟩
    ok := by
      rintro pc s e ⟨rfl, rfl, rfl⟩
      refine ⟨i, hp, ?_⟩
      rw [hse]
      intro x x' r hr
      exact Or.inr ⟨1, _, .refl _ _, hend, Or.inl (hok x x' r hr)⟩
    ends := by
      intro x
      refine Ends.acc hp hse fun x' r hr => ?_
      exact Ends.done hend (hok x x' r hr)
    once := by
      rintro pc s e ⟨rfl, rfl, rfl⟩
      refine ⟨i, hp, ?_⟩
      rw [hse]
      intro x x' r hr
      exact .inr ⟨1, _, .refl _ _, hend⟩
    stops := by
      rintro pc s e ⟨rfl, rfl, rfl⟩ ρ x
      exact Stops.acc hp hse fun r hr _ => Stops.done hend }⟩

/-- **C73b.** With either version of the blocks, on a processor with FEAT_LSFE, every concurrent history of
`fetch_add`, `fetch_sub`, `fetch_max`, `fetch_min` and integer operations on the same floats is linearizable
with respect to plain bit patterns: each float operation stores a possible result for the bits it replaced and
returns those bits, whatever is in the unused part of the operand's register and whichever registers were
chosen.  No call faults, and no other register changes. -/
theorem lsfe_linearizable (hc : E.cpu.lsfe = true) {K : Type} [DecidableEq K]
    (m : K → LlSc.Cell (BitVec E.ty.bits))
    (h : List (Object.Ev (K × Call E) (Option (Res (BitVec E.ty.bits) × St E.ty.bits)))) (s)
    (hx : Runs ((blocks E).code.sys K) m h s) :
    LinearizableTo ((spec E).many (K := K)) (fun k => (m k).val) h (fun k => (s.mem k).val) :=
  Asm.linearizable (fun c => (Classical.choice (correct hc c)).toPoints) hx

/-- **C73c.** Every call finishes, in one access (there is no loop), having done what is specified. -/
theorem lsfe_finishes (hc : E.cpu.lsfe = true) (c : Call E) (x : BitVec E.ty.bits) :
    (blocks E).code.Ends (fun r y => (spec E).sem c x y r) ((blocks E).code.start c) false x ∧
      c.code.length = 1 := by
  refine ⟨Asm.finishes (Classical.choice (correct hc c)) x, ?_⟩
  obtain ⟨i, -, -, h, -⟩ := one_access hc c
  have : c.code = [i] := h
  rw [this]; rfl

/-- The link to `Verif.Float.Code`: the access of the block is the access that its program for FEAT_LSFE has,
when the float unit makes the same choice. -/
theorem lsfe_is_float_prog (hc : E.cpu.lsfe = true) (c : Call E) (b : FBin) (v : BitVec E.ty.bits) (o : MemOrd)
    (hw : c.what = .inl (b, v, o)) (signed : Bool) (k : Int.Backend)
    (ch : Oracle E.arith (evald (.lsfe k) b v).1 (evald (.lsfe k) b v).2)
    (hch : ∀ x, ch.out [] x = c.fpu.out (macOf b v).1.mnemonic x (macOf b v).2)
    (x x' : BitVec E.ty.bits) (r : Res (BitVec E.ty.bits)) :
    ∃ i a kk, c.code = [i] ∧ i.sem E.cpu c.fpu c.addr c.entry = .acc a kk ∧
      (a.sem x x' r ↔ x' = ch.out [] x ∧ r = .val x) ∧
      Float.prog signed (.arith b v o ch) = some (Int.rmw (ch.out []) o) := by
  obtain ⟨i, kk, h1, h2, -⟩ := arith_access hc c b v o hw
  refine ⟨i, _, kk, h1, h2, ?_, rfl⟩
  rw [hch]
  simp [Acc.sem, Op.onCell, Op.ordOk]

/-! ## Orderings -/

/-- The events of a call of one of the operations. -/
theorem events_eq {c : Call E} {o : MemOrd} (h : c.HasOrd o) :
    c.events = [.rd (if acqB o then .full else .plain) true, .wr (relB o) true] := by
  obtain ⟨b, v, hw⟩ := h
  obtain ⟨i, h1, -, h3⟩ := block_eq (w := E.ty.bits) E.cfg E.ty (macOf b v).1 o c.al
  have : c.code = [i] := by unfold Call.code; rw [hw]; exact h1
  unfold Call.events
  rw [this]
  simpa using h3

/-- **C73d.** An operation with an acquiring ordering is an acquire operation, in both versions. -/
theorem lsfe_acquire {c : Call E} {o : MemOrd} (h : c.HasOrd o) (ha : Acquiring o) : IsAcquire c.events := by
  have e : acqB o = true := by rcases ha with rfl | rfl | rfl <;> rfl
  rw [events_eq h, e]
  obtain ⟨h1, h2⟩ := (Arm.pair_tries (a := .full) (l := relB o)).acqL (by simp)
  exact Arm.isAcquire h1 h2

/-- **C73e.** With a releasing ordering it is a release operation. -/
theorem lsfe_release {c : Call E} {o : MemOrd} (h : c.HasOrd o) (ha : Releasing o) : IsRelease c.events := by
  have e : relB o = true := by rcases ha with rfl | rfl | rfl <;> rfl
  rw [events_eq h, e]
  exact Arm.isRelease ((Arm.pair_tries (l := true)).relL (by simp))

theorem sc_of {c : Call E} (h : c.HasOrd .seqCst) : Arm.ScL c.events := by
  rw [events_eq h]
  exact (Arm.pair_tries (a := .full) (l := true)).scL (by simp)

/-- **C73f.** Two sequentially consistent operations of a thread are kept in order, also on floats of different
types and in different versions of the blocks, without any barrier (also for MSVC, where the barrier the
macro passes is dropped). -/
theorem lsfe_seqCst {E' : Env} {c : Call E} {d : Call E'} (hc : c.HasOrd .seqCst) (hd : d.HasOrd .seqCst) :
    KeptInOrder c.events d.events := Arm.keptInOrder (sc_of hc).1 (sc_of hd).2

/-- **C73g.** So are a sequentially consistent float operation and a sequentially consistent 128-bit operation
(C38), in either order. -/
theorem lsfe_arm_seqCst {E' : Arm.Env} (hE : E'.Ok) {c : Call E} (hc : c.HasOrd .seqCst) (d : Arm.Call)
    (hd : Arm.AsksSeqCst d.op d.ord d.fail) (u : List Arm.Ev) (hu : d.Events E' u) :
    KeptInOrder c.events u ∧ KeptInOrder u c.events := by
  have h := Arm.shape_sc (Arm.events_shape hE hu) (Arm.select_sc hd)
  exact ⟨Arm.keptInOrder (sc_of hc).1 h.2, Arm.keptInOrder h.1 (sc_of hc).2⟩

end

/-! ## A concrete arithmetic, calls and runs

A 16-bit sign-magnitude number format whose magnitude `0x7fff` is NaN. -/

namespace Demo

def mag (x : BitVec 16) : Nat := x.toNat % 0x8000
def isNan (x : BitVec 16) : Bool := mag x = 0x7fff
def sval (x : BitVec 16) : Int := if x.getLsbD 15 then - (mag x : Int) else mag x
def ofInt (i : Int) : BitVec 16 :=
  if i < 0 then BitVec.ofNat 16 (0x8000 + min 0x7ffe i.natAbs) else BitVec.ofNat 16 (min 0x7ffe i.natAbs)
def addv (x v : BitVec 16) : BitVec 16 := if isNan x || isNan v then 0x7fff else ofInt (sval x + sval v)
def maxv (x v : BitVec 16) : BitVec 16 :=
  if isNan x then v else if isNan v then x else if sval x ≤ sval v then v else x
def minv (x v : BitVec 16) : BitVec 16 :=
  if isNan x then v else if isNan v then x else if sval x ≤ sval v then x else v

/-- The arithmetic: a NaN result may have either sign. -/
def arith : Float.Arith 16 where
  res b x v y := match b with
    | .add => y = addv x v ∨ (isNan (addv x v) = true ∧ isNan y = true)
    | .sub => y = addv x (v ^^^ negMask 16) ∨ (isNan (addv x (v ^^^ negMask 16)) = true ∧ isNan y = true)
    | .max => y = maxv x v ∨ (isNan (maxv x v) = true ∧ isNan y = true)
    | .min => y = minv x v ∨ (isNan (minv x v) = true ∧ isNan y = true)
  sub_of_add _ _ _ h := h

/-- A float unit; its `LDFMAX` and `LDFMIN` return NaN when an operand is NaN. -/
def fpu : Fpu 16 where
  out k x v := match k with
    | .add => addv x v
    | .maxnm => maxv x v
    | .minnm => minv x v
    | .fmax => if isNan x || isNan v then 0x7fff else maxv x v
    | .fmin => if isNan x || isNan v then 0x7fff else minv x v

theorem fpu_ok : fpu.Ok arith := ⟨fun _ _ => Or.inl rfl, fun _ _ => Or.inl rfl, fun _ _ => Or.inl rfl⟩

/-- `AtomicF16`, old or new LLVM. -/
def env (old : Bool) : Env := ⟨⟨old, false⟩, .f16, ⟨true⟩, arith⟩

/-- A call, with `out` in the register of `val` where the compiler chooses, and junk in the registers. -/
def mk (old : Bool) (b : FBin) (v : BitVec 16) (o : MemOrd) : Call (env old) :=
  ⟨.inl (b, v, o), 0x1000, ⟨7, 9, 9⟩, by decide, ⟨fun _ => 5, fun _ => 77, .unit⟩, 0xabcdef#112, fpu, fpu_ok⟩

/-- A load, through the integer atomic. -/
def ld (old : Bool) : Call (env old) :=
  ⟨.inr (.load .seqCst), 0x1000, ⟨7, 9, 9⟩, by decide, ⟨fun _ => 5, fun _ => 77, .unit⟩, 0, fpu, fpu_ok⟩

/-- Thread 0 subtracts 3 while thread 1 takes the maximum with NaN and then with 20; thread 1 loads. -/
def demo (old : Bool) : List (Cmd Unit (Call (env old))) :=
  [.call 0 () (mk old .sub 3 .acqRel), .call 1 () (mk old .max 0x7fff .seqCst), .go 1, .ret 1, .go 0, .ret 0,
   .call 1 () (mk old .max 20 .relaxed), .go 1, .ret 1, .call 1 () (ld old), .go 1, .ret 1]

example : ((((blocks (env true)).code).outcome (demo true) (fun _ => (10 : BitVec 16)) ()).map
    (fun p => (p.1.map fun q => (q.1, q.2.map fun r => r.1), p.2)) :
      Option (List (Tid × Option (Res (BitVec 16))) × BitVec 16)) =
    some ([(1, some (.val 10)), (0, some (.val 10)), (1, some (.val 7)), (1, some (.val 20))], 20) := by
  decide +kernel

example : ((((blocks (env false)).code).outcome (demo false) (fun _ => (10 : BitVec 16)) ()).map
    (fun p => (p.1.map fun q => (q.1, q.2.map fun r => r.1), p.2)) :
      Option (List (Tid × Option (Res (BitVec 16))) × BitVec 16)) =
    some ([(1, some (.val 10)), (0, some (.val 10)), (1, some (.val 7)), (1, some (.val 20))], 20) := by
  decide +kernel

/-- The numbers matter: one digit away are instructions of another size, with another operation (which loses
a number to a NaN), with other registers, or none at all. -/
example : decode (w := 32) 0xbc206041#32 = some (.ldf .maxnm .s false false 0 1 2) ∧
    decode (w := 32) 0xfc206041#32 = some (.ldf .maxnm .d false false 0 1 2) ∧
    decode (w := 32) 0xbc204041#32 = some (.ldf .fmax .s false false 0 1 2) ∧
    decode (w := 32) 0xbc206040#32 = some (.ldf .maxnm .s false false 0 0 2) ∧
    decode (w := 32) 0x3c206041#32 = none := ⟨rfl, rfl, rfl, rfl, rfl⟩

example : fpu.out .fmax 10 0x7fff = 0x7fff ∧ ¬ arith.res .max 10 0x7fff (fpu.out .fmax 10 0x7fff) := by
  refine ⟨rfl, ?_⟩
  rintro (h | ⟨h, -⟩)
  · exact absurd h (by decide)
  · exact absurd h (by decide)

example : (mk true .add 3 .acqRel).HasOrd .acqRel ∧
    (mk true .add 3 .acqRel).events = [.rd .full true, .wr true true] := ⟨⟨_, _, rfl⟩, rfl⟩

end Demo
end Verif.Lsfe
