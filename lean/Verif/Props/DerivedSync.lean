import Verif.Props.Derived
import Verif.WM.DerivedLitmus
import Verif.WM.DerivedSc
/-!
# C58: what the orderings of the operations promise, for every operation of every type

C40 and C56 say what the orderings of the primitive operations promise.  Here the same for all operations of the
integer, pointer, float and boolean atomics, whatever loops they are made of.
-/
set_option autoImplicit false

namespace Verif.WM.Derived
open Verif.WM
variable {W O R X : Type}

theorem promises [DecidableEq W] {S : Spec W O R} (L : Legal S) {w0 : Obj → W} {x0 : Nat → X} {h : List (Ev O R X)}
    (hb : Behaviour S w0 x0 h) : S.Promises w0 h where
  messagePassing h0 hw hc _ _ _ _ _ _ C ha hf hj _ _ hz := message_passing L hb h0 hw hc C ha hf hj hz
  recency hk _ _ _ _ _ _ _ _ _ _ C C' hlt hs hl hf := Derived.recency L hb hk C C' hlt hs hl hf
  fences hw _ _ _ _ _ _ _ _ _ _ _ _ hm hmf F hg F' hj hz := sc_fences L hb hw hm hmf F hg F' hj hz
  seqCst _ hq := sc_linearizable L hb hq

theorem Legal.sub {S : Spec W O R} (L : Legal S) (P : O → Prop) : Legal (S.sub P) where
  read op := L.read op.1
  store op := L.store op.1
  nothing op := L.nothing op.1

end Verif.WM.Derived

namespace Verif.Int
open Verif.Lf Verif.WM Verif.WM.Derived
open Verif.Fallback (Cfg)

theorem legal (w : Nat) (signed : Bool) : Legal (wspec w signed) where
  read op x r hk hs := by
    cases op <;> simp only [wspec, Sem] at hs <;> simp only [wspec, IOp.fail] <;>
      first
      | (rename_i o; cases o <;> simp_all [Op.ordOk, wspec, IOp.kind]; done)
      | (rename_i o _; cases o <;> simp_all [Op.ordOk, wspec, IOp.kind]; done)
      | (obtain ⟨-, rfl⟩ := hs; simp [wspec, IOp.kind] at hk)
  store op y r hk hs := by
    have hs0 := hs 0
    cases op with
    | store v o => cases o <;> simp_all [Op.ordOk, wspec, IOp.kind, Sem, IOp.succ]
    | _ => rcases r with (_ | _ | _ | _ | _) | _ <;> simp [wspec, IOp.kind] at hk
  nothing op r hk hs := by
    have hs0 := hs 0
    rintro ⟨h1, h2⟩
    rcases r with (_ | _ | _ | _ | _) | _ <;> cases op <;> simp_all [wspec, IOp.kind, Sem, IOp.succ, IOp.fail]

end Verif.Int

namespace Verif.Int
open Verif.Lf Verif.WM Verif.WM.Derived
open Verif.Fallback (Cfg)

/-- **C58 (integers).**  The orderings given to the operations of an integer atomic of any width, over native
atomics. -/
theorem int_promises {X : Type} (e : Nat) (signed : Bool) (k : Backend) (v0 : Obj → BitVec (2 ^ e)) (x0 : Nat → X)
    {ho : List (WM.Derived.Ev (Avail (2 ^ e) signed k) (IRes (2 ^ e)) X)}
    (h : Over (codeOf (2 ^ e) signed k) (Native.Behaviour v0 x0) ho) :
    ((wspec (2 ^ e) signed).sub fun op => (prog signed k op).isSome).Promises v0 ho :=
  promises ((legal _ _).sub _) (int_weak_memory e signed k v0 x0 h)

/-- **C58 (integers, lock).**  The same over the lock-based atomics. -/
theorem int_promises_lock {X : Type} (e : Nat) (signed : Bool) (k : Backend) {cfg : Cfg (BitVec (2 ^ e))} (ok : cfg.Ok)
    (v0 : Obj → BitVec (2 ^ e)) (x0 : Nat → X)
    {ho : List (WM.Derived.Ev (Avail (2 ^ e) signed k) (IRes (2 ^ e)) X)}
    (h : Over (codeOf (2 ^ e) signed k) (fun hi => Lock.Behaviour cfg v0 x0 hi ∧ Lock.calls hi < cfg.maxOverlap) ho) :
    ((wspec (2 ^ e) signed).sub fun op => (prog signed k op).isSome).Promises v0 ho :=
  promises ((legal _ _).sub _) (int_weak_memory_lock e signed k ok v0 x0 h)

end Verif.Int

namespace Verif.Ptr
open Verif.Lf Verif.Int Verif.WM Verif.WM.Derived
open Verif.Fallback (Cfg)

theorem legal (w size : Nat) : Legal (Ptr.wspec w size) where
  read op x r hk hs := by
    cases op <;> simp only [Ptr.wspec, Ptr.Sem] at hs <;> simp only [Ptr.wspec, POp.fail] <;>
      first
      | (rename_i o; cases o <;> simp_all [Op.ordOk, Ptr.wspec, POp.kind]; done)
      | (rename_i o _; cases o <;> simp_all [Op.ordOk, Ptr.wspec, POp.kind]; done)
      | (obtain ⟨-, rfl⟩ := hs; simp [Ptr.wspec, POp.kind] at hk)
  store op y r hk hs := by
    have hs0 := hs 0
    cases op with
    | store v o => cases o <;> simp_all [Op.ordOk, Ptr.wspec, POp.kind, Ptr.Sem, POp.succ]
    | _ => rcases r with (_ | _ | _ | _ | _) | _ <;> simp [Ptr.wspec, POp.kind] at hk
  nothing op r hk hs := by
    have hs0 := hs 0
    rintro ⟨h1, h2⟩
    rcases r with (_ | _ | _ | _ | _) | _ <;> cases op <;> simp_all [Ptr.wspec, POp.kind, Ptr.Sem, POp.succ, POp.fail]

/-- **C58 (pointers).** -/
theorem ptr_promises {X : Type} (e size : Nat) (k : Backend) (v0 : Obj → BitVec (2 ^ e)) (x0 : Nat → X)
    {ho : List (WM.Derived.Ev (Ptr.Avail (2 ^ e) size k) (IRes (2 ^ e)) X)}
    (h : Over (Ptr.codeOf (2 ^ e) size k) (Native.Behaviour v0 x0) ho) :
    ((Ptr.wspec (2 ^ e) size).sub fun op => (Ptr.prog size k op).isSome).Promises v0 ho :=
  promises ((legal _ _).sub _) (ptr_weak_memory e size k v0 x0 h)

end Verif.Ptr

namespace Verif.Float
open Verif.Lf Verif.Int Verif.WM Verif.WM.Derived
open Verif.Fallback (Cfg)

theorem legal {w : Nat} (signed : Bool) (A : Arith w) (f : FBackend) : Legal (Float.wspec signed A f) where
  read op x r hk hs := by
    cases op with
    | bits op => exact (Int.legal w signed).read op x r hk hs
    | _ =>
      simp only [Float.wspec, Float.Sem] at hs
      simp only [Float.wspec, FOp.fail]
      first
      | (rename_i o; cases o <;> simp_all [Op.ordOk, Float.wspec, FOp.kind]; done)
      | (rename_i o _; cases o <;> simp_all [Op.ordOk, Float.wspec, FOp.kind]; done)
      | (obtain ⟨-, rfl⟩ := hs; simp [Float.wspec, FOp.kind] at hk)
  store op y r hk hs := by
    have hs0 := hs 0
    cases op with
    | bits op => exact (Int.legal w signed).store op y r hk hs
    | store v o => cases o <;> simp_all [Op.ordOk, Float.wspec, FOp.kind, Float.Sem, FOp.succ]
    | _ => rcases r with (_ | _ | _ | _ | _) | _ <;> simp [Float.wspec, FOp.kind] at hk
  nothing op r hk hs := by
    cases op with
    | bits op => exact (Int.legal w signed).nothing op r hk hs
    | _ =>
      have hs0 := hs 0
      rintro ⟨h1, h2⟩
      rcases r with (_ | _ | _ | _ | _) | _ <;> simp_all [Float.wspec, FOp.kind, Float.Sem, FOp.succ, FOp.fail]

/-- **C58 (floats).** -/
theorem float_promises {X : Type} (e : Nat) (signed : Bool) (A : Arith (2 ^ e)) (f : FBackend)
    (v0 : Obj → BitVec (2 ^ e)) (x0 : Nat → X) {ho : List (WM.Derived.Ev (Float.Avail signed A f) (IRes (2 ^ e)) X)}
    (h : Over (Float.codeOf signed A f) (Native.Behaviour v0 x0) ho) :
    ((Float.wspec signed A f).sub fun op => (Float.prog signed op).isSome).Promises v0 ho :=
  promises ((legal _ _ _).sub _) (float_weak_memory e signed A f v0 x0 h)

/-- **C58 (floats, lock).** -/
theorem float_promises_lock {X : Type} (e : Nat) (signed : Bool) (A : Arith (2 ^ e)) (f : FBackend)
    {cfg : Cfg (BitVec (2 ^ e))} (ok : cfg.Ok) (v0 : Obj → BitVec (2 ^ e)) (x0 : Nat → X)
    {ho : List (WM.Derived.Ev (Float.Avail signed A f) (IRes (2 ^ e)) X)}
    (h : Over (Float.codeOf signed A f) (fun hi => Lock.Behaviour cfg v0 x0 hi ∧ Lock.calls hi < cfg.maxOverlap) ho) :
    ((Float.wspec signed A f).sub fun op => (Float.prog signed op).isSome).Promises v0 ho :=
  promises ((legal _ _ _).sub _) (float_weak_memory_lock e signed A f ok v0 x0 h)

end Verif.Float

namespace Verif.Bool
open Verif.Lf Verif.WM Verif.WM.Derived

theorem legal : Legal wspec where
  read op x r hk hs := by
    have hs : ∃ y, Sem op x y r := ⟨x, hs⟩
    obtain ⟨y, hs⟩ := hs
    cases hs <;> simp [wspec, BOp.kind] at hk <;> simp only [wspec, BOp.fail]
    case load o h1 h2 => cases o <;> simp_all [Op.ordOk]
    case casErr o _ _ _ h1 h2 => cases o <;> simp_all [Op.ordOk]
    case casWeakErr o _ _ h1 h2 => cases o <;> simp_all [Op.ordOk]
    case updateErr o _ _ h1 h2 _ => cases o <;> simp_all [Op.ordOk]
  store op y r hk hs := by
    have hs0 : ∃ x, Sem op x y r := ⟨y, hs y⟩
    obtain ⟨x, hs0⟩ := hs0
    cases hs0 <;> simp [wspec, BOp.kind] at hk
    rename_i o h1 h2
    cases o <;> simp_all [Op.ordOk, wspec, BOp.succ]
  nothing op r hk hs := by
    have hs0 : ∃ x y, Sem op x y r := ⟨true, true, hs true⟩
    obtain ⟨x, y, hs0⟩ := hs0
    cases hs0 <;> simp [wspec, BOp.kind] at hk <;> simp [wspec, BOp.succ, BOp.fail] <;> rename_i h <;>
      rcases h with h | h <;> simp [h]

/-- **C58 (booleans).** -/
theorem bool_promises {X : Type} (amo : Bool) (v0 : Obj → BitVec 8) (h0 : ∀ o, v0 o = 0 ∨ v0 o = 1) (x0 : Nat → X)
    {ho : List (WM.Derived.Ev BOp (Res Bool) X)} (h : Over (code amo) (Native.Behaviour v0 x0) ho) :
    wspec.Promises (fun o => v0 o != 0) ho :=
  promises legal (bool_weak_memory amo v0 h0 x0 h)

end Verif.Bool

/-! ## The hypotheses are met -/

namespace Verif.WM.DerivedDemo
open Verif.WM Verif.WM.Derived Verif.Int Verif.WM.WmDemo

/-- Thread 1 of `hist` found 9 with a failing `fetch_update`, whose `Acquire` failure ordering it is that counts; 9
was put there by a loop with `Release`.  The promise applies, with the object made of a lock: what thread 1 reads
in the variable is 7. -/
example (z : Option Nat) (hz : hist[7]? = some (.client 1 (.load 0 .relaxed) z)) : z = some 7 := by
  refine (int_promises_lock 7 true K ok _ _ over_lock).messagePassing (a := 0) (x1 := 7) (o := 0) (Q := (· = 9))
    (i := 5) (k := 6) (j := 7) (op := op (.fetchUpdate .relaxed .acquire clo)) (r := .res (.err 9)) (by decide) ?_ ?_
    ⟨by decide, rfl, rfl, ?_⟩ rfl ⟨.inl rfl, ?_⟩ (by decide) hz
  · intro n t act r hn hw
    match n with
    | 0 => simp [hist] at hn; obtain ⟨-, rfl, -⟩ := hn; exact ⟨_, rfl⟩
    | 1 | 2 | 3 | 4 | 5 | 6 => simp [hist] at hn
    | 7 => simp [hist] at hn; obtain ⟨-, rfl, -⟩ := hn; cases hw
    | n + 8 => simp [hist] at hn
  · intro j t q hj
    match j with
    | 1 =>
      simp [hist] at hj; obtain ⟨rfl, rfl⟩ := hj
      exact .inr ⟨rfl, 0, by decide, .relaxed, none, rfl⟩
    | 2 =>
      simp [hist] at hj; obtain ⟨rfl, rfl⟩ := hj
      refine .inl fun x y r h => ⟨?_, ?_⟩
      · rintro hk; obtain ⟨rfl, rfl⟩ := h; cases hk
      · rintro -; obtain ⟨rfl, rfl⟩ := h; decide
    | 5 =>
      simp [hist] at hj; obtain ⟨rfl, rfl⟩ := hj
      refine .inl fun x y r h => ⟨?_, ?_⟩
      · rintro hk - rfl
        obtain ⟨_, ⟨h1, rfl⟩ | ⟨-, -, rfl⟩⟩ := h
        · simp only [clo] at h1
          split at h1
          · cases h1
          · simp only [Option.some.injEq] at h1
            have := congrArg (·.getLsbD 0) h1
            simp at this
        · cases hk
      · rintro hk
        obtain ⟨_, ⟨-, rfl⟩ | ⟨-, -, rfl⟩⟩ := h <;> cases hk
    | 0 | 3 | 4 | 6 | 7 => simp [hist] at hj
    | j + 8 => simp [hist] at hj
  · intro j h1 h2; omega
  · intro x y h
    obtain ⟨_, ⟨-, h⟩ | ⟨-, -, h⟩⟩ := h
    · cases h
    · simpa using h.symm

/-- Store buffering: each of two threads raises its object, by a loop, and then reads the other's. -/
def scOuter : List (WCmd (BitVec 128) A Nat) :=
  [.call 0 0 (op (.fetchBinF .max 9 .seqCst)), .acc 0 false, .res 0 (.val 5),
   .call 1 1 (op (.fetchBinF .max 8 .seqCst)), .acc 1 false, .res 1 (.val 5), .acc 1 false, .res 1 (.ok 5), .ret 1,
   .call 1 0 (op (.load .seqCst)), .acc 1 false, .res 1 (.val 5), .ret 1,
   .acc 0 false, .res 0 (.ok 5), .ret 0, .call 0 1 (op (.load .seqCst)), .acc 0 false, .res 0 (.val 8), .ret 0]

def scInner : List (Lock.Cmd (BitVec 128) Nat) :=
  [.call 0 0 (.load .relaxed), .go 0 0, .ret 0 (.val 5),
   .call 1 1 (.load .relaxed), .go 1 0, .ret 1 (.val 5), .call 1 1 (.cas 5 8 .seqCst .relaxed)] ++ List.replicate 3 (.go 1 0) ++
  [.ret 1 (.ok 5), .call 1 0 (.load .seqCst)] ++ List.replicate 3 (.go 1 0) ++ [.ret 1 (.val 5),
   .call 0 0 (.cas 5 9 .seqCst .relaxed)] ++ List.replicate 3 (.go 0 0) ++ [.ret 0 (.ok 5),
   .call 0 1 (.load .seqCst)] ++ List.replicate 3 (.go 0 0) ++ [.ret 0 (.val 8)]

def scHist : List (Derived.Ev A (IRes 128) Nat) :=
  [.inv 0 0 (op (.fetchBinF .max 9 .seqCst)), .inv 1 1 (op (.fetchBinF .max 8 .seqCst)), .ret 1 (.res (.val 5)),
   .inv 1 0 (op (.load .seqCst)), .ret 1 (.res (.val 5)), .ret 0 (.res (.val 5)), .inv 0 1 (op (.load .seqCst)),
   .ret 0 (.res (.val 8))]

theorem sc_over : Over (codeOf 128 true K) (Native.Behaviour (fun _ => 5) (fun _ => (0 : Nat))) scHist := by
  have hr : ∃ w, wrun (codeOf 128 true K) (X := Nat) ⟨[], [], fun _ => .idle⟩ scOuter = some w ∧
    w.hi = scInner.filterMap Lock.Cmd.ev ∧ w.ho = scHist := ⟨_, rfl, rfl, rfl⟩
  obtain ⟨w, h1, h2, h3⟩ := hr
  have := over_of_run (B := Native.Behaviour (fun _ => 5) (fun _ => (0 : Nat))) h1
    (by rw [h2]; exact Native.behaviour_of_run (by decide +kernel))
  rwa [h3] at this

example : Object.Linearizable ((wspec 128 true).sub fun op => (prog true K op).isSome).cells (fun _ => 5)
    [.inv 0 (0, op (.fetchBinF .max 9 .seqCst)), .inv 1 (1, op (.fetchBinF .max 8 .seqCst)), .ret 1 (.res (.val 5)),
     .inv 1 (0, op (.load .seqCst)), .ret 1 (.res (.val 5)), .ret 0 (.res (.val 5)), .inv 0 (1, op (.load .seqCst)),
     .ret 0 (.res (.val 8))] := by
  refine (int_promises 7 true K _ _ sc_over).seqCst (fun _ => true) ?_
  intro t o q h _
  simp [scHist] at h
  rcases h with ⟨-, -, rfl⟩ | ⟨-, -, rfl⟩ | ⟨-, -, rfl⟩ | ⟨-, -, rfl⟩ <;> exact ⟨rfl, rfl⟩

end Verif.WM.DerivedDemo
