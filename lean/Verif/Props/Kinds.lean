import Verif.Props.Mixed
import Verif.Props.Bool
import Verif.Props.Ptr
import Verif.Props.Float
import Verif.Props.Compose
import Verif.Props.Cs
/-!
# All types of atomics in one program, in textbook form (C62, C63)
-/
set_option autoImplicit false
namespace Verif.Mixed
open Verif.Object Verif.Lf Verif.Compose
open Verif.Object.HW (WellFormed)

/-- The atomics of one type on one implementation: the contents `C` of all of them, their operations and results, and
the histories of them that some execution of the code has. -/
structure Kind where
  C : Type
  O : Type
  R : Type
  spec : Spec C O R
  history : C → List (Object.Ev O R) → Prop
  right : ∀ c h, history c h → Linearizable spec c h

/-- Integers. -/
def Kind.int (e : Nat) (signed : Bool) (k : Int.Backend) : Kind where
  C := Obj → BitVec (2 ^ e)
  O := Obj × Int.Avail (2 ^ e) signed k
  R := Int.IRes (2 ^ e)
  spec := (Int.specOf (2 ^ e) signed k).many
  history m h := ∃ s, Runs ((Int.codeOf (2 ^ e) signed k).sys Obj) m h s
  right m h := fun ⟨s, hx⟩ => ⟨_, Int.int_linearizable e signed k m h s hx⟩

/-- Pointers to objects of `size` bytes. -/
def Kind.ptr (e size : Nat) (k : Ptr.Backend) : Kind where
  C := Obj → BitVec (2 ^ e)
  O := Obj × Ptr.Avail (2 ^ e) size k
  R := Int.IRes (2 ^ e)
  spec := (Ptr.specOf (2 ^ e) size k).many
  history m h := ∃ s, Runs ((Ptr.codeOf (2 ^ e) size k).sys Obj) m h s
  right m h := fun ⟨s, hx⟩ => ⟨_, Ptr.ptr_linearizable e size k m h s hx⟩

/-- Booleans; contents are those of memory before the program starts. -/
def Kind.bool (amo : Bool) : Kind where
  C := Obj → Bool
  O := Obj × Bool.BOp
  R := Res Bool
  spec := Bool.spec.many
  history b h := ∃ m s, (∀ o, m o = 0 ∨ m o = 1) ∧ (fun o => m o != 0) = b ∧ Runs ((Bool.code amo).sys Obj) m h s
  right b h := by
    rintro ⟨m, s, hm, rfl, hx⟩
    exact ⟨_, Bool.bool_linearizable amo m hm h s hx⟩

/-- Floats. -/
def Kind.float (e : Nat) (signed : Bool) (A : Float.Arith (2 ^ e)) (f : Float.FBackend) : Kind where
  C := Obj → BitVec (2 ^ e)
  O := Obj × Float.Avail signed A f
  R := Int.IRes (2 ^ e)
  spec := (Float.specOf signed A f).many
  history m h := ∃ s, Runs ((Float.codeOf signed A f).sys Obj) m h s
  right m h := fun ⟨s, hx⟩ => ⟨_, Float.float_linearizable e signed A f m h s hx⟩

/-- Double-width integers on AArch64, PowerPC64, s390x, RISC-V with Zacas, Arm Linux before v6. -/
def Kind.arm {E : Arm.Env} (hE : E.Ok) (order : Arm.Call → Nat → Bool) (signed : Bool) : Kind where
  C := Obj → BitVec 128
  O := Obj × Int.IOp 128
  R := Int.IRes 128
  spec := (Int.spec signed).many
  history m h := ∃ m', (Wide.armFns E order).History signed m h m'
  right m h := fun ⟨m', hx⟩ => ⟨_, Wide.arm_api_linearizable hE order signed m m' h hx⟩

def Kind.ppc {E : Ppc.Env} (hE : E.Ok) (hq : E.Quad) (signed : Bool) : Kind where
  C := Obj → BitVec 128
  O := Obj × Int.IOp 128
  R := Int.IRes 128
  spec := (Int.spec signed).many
  history m h := ∃ m', (Wide.ppcFns E).History signed m h m'
  right m h := fun ⟨m', hx⟩ => ⟨_, Wide.ppc_api_linearizable hE hq signed m m' h hx⟩

def Kind.s390x {E : S390x.Env} (hE : E.Ok) (signed : Bool) : Kind where
  C := Obj → BitVec 128
  O := Obj × Int.IOp 128
  R := Int.IRes 128
  spec := (Int.spec signed).many
  history m h := ∃ m', (Wide.s390xFns E).History signed m h m'
  right m h := fun ⟨m', hx⟩ => ⟨_, Wide.s390x_api_linearizable hE signed m m' h hx⟩

def Kind.rv64 {E : Rv64.Env} (hE : E.Ok) (hq : E.Zacas) (signed : Bool) : Kind where
  C := Obj → BitVec 128
  O := Obj × Int.IOp 128
  R := Int.IRes 128
  spec := (Int.spec signed).many
  history m h := ∃ m', (Wide.rv64Fns E).History signed m h m'
  right m h := fun ⟨m', hx⟩ => ⟨_, Wide.rv64_api_linearizable hE hq signed m m' h hx⟩

def Kind.rv32 {E : Rv32.Env} (hE : E.Ok) (hq : E.Zacas) (signed : Bool) : Kind where
  C := Obj → BitVec 64
  O := Obj × Int.IOp 64
  R := Int.IRes 64
  spec := (Int.spec signed).many
  history m h := ∃ m', (Wide.rv32Fns E).History signed m h m'
  right m h := fun ⟨m', hx⟩ => ⟨_, Wide.rv32_api_linearizable hE hq signed m m' h hx⟩

def Kind.kuser {E : Kuser.Env} (hE : E.Ok) (hk : E.hasKuser = true) (signed : Bool) : Kind where
  C := Obj → BitVec 64
  O := Obj × Int.IOp 64
  R := Int.IRes 64
  spec := (Int.spec signed).many
  history m h := ∃ m', (Wide.kuserFns E).History signed m h m'
  right m h := fun ⟨m', hx⟩ => ⟨_, Wide.kuser_api_linearizable hE hk signed m m' h hx⟩

/-- Accesses of the lock-based fallback. -/
def Kind.lock {V : Type} [DecidableEq V] {cfg : Fallback.Cfg V} (ok : cfg.Ok) : Kind where
  C := Obj → V
  O := Obj × Op V
  R := Res V
  spec := (opSpec V).many
  history m h := ∃ v0 ext hi s, Exec cfg.StepB (cfg.init m v0 ext) hi s ∧ h = hi.map toObj
  right m h := by
    rintro ⟨v0, ext, hi, s, hx, rfl⟩
    exact atomic_object (Fallback.fallback_linearizable ok.toSound (fun o => ok.full o _) hx)

/-- Integers over it. -/
def Kind.lockInt {e : Nat} {cfg : Fallback.Cfg (BitVec (2 ^ e))} (ok : cfg.Ok) (signed : Bool) : Kind where
  C := Obj → BitVec (2 ^ e)
  O := Obj × Int.Avail (2 ^ e) signed .fallback
  R := Int.IRes (2 ^ e)
  spec := (Int.specOf (2 ^ e) signed .fallback).many
  history m h := ∃ v0 ext hi s w, Exec cfg.StepB (cfg.init m v0 ext) hi s ∧
    Run ((ofCode (Int.codeOf (2 ^ e) signed .fallback)).many Obj) CellCalls (hi.map toObj) h w
  right m h := by
    rintro ⟨v0, ext, hi, s, w, hx, hw⟩
    exact int_over_lock ok signed hx hw

/-- Values guarded by `critical_section`. -/
def Kind.cs {n : Nat} {C : Type} [DecidableEq C] (K : Cs.Cfg n C) : Kind where
  C := _
  O := _
  R := _
  spec := Cs.spec K
  history m h := ∃ s, Exec (Cs.Step K) (Cs.init m) h s
  right m h := fun ⟨s, hx⟩ => let ⟨c, hl, _⟩ := Cs.cs_linearizable K m h s hx; ⟨c, hl⟩

/-- **C62b.** In Herlihy and Wing's words, for each kind: every history can be extended by returns to one whose completed
calls and answers are those of a sequential history that the type's plain description allows and that keeps the order
of calls that do not overlap. -/
theorem textbook (A : Kind) (c : A.C) (h : List (Object.Ev A.O A.R)) (hh : A.history c h) :
    ∃ c', HW.LinearizableTo A.spec c h c' := by
  obtain ⟨c', hl⟩ := A.right c h hh
  exact ⟨c', (HW.linearizable_iff _ _ _ _).1 hl⟩

variable {K : Type} [DecidableEq K]

/-- **C63b.** A program that uses atomics of any number of kinds together, each thread making one call at a time: if the
events of each kind are a history of it, the whole history is linearizable, in one sequential order of all calls. -/
theorem mixed (A : K → Kind) (c : ∀ k, (A k).C)
    (h : List (Object.Ev (Σ k, (A k).O) (Σ k, (A k).R))) (hw : WellFormed h)
    (hh : ∀ k, (A k).history (c k) (part k h)) :
    ∃ c', HW.LinearizableTo (Spec.mix fun k => (A k).spec) c h c' := by
  have hl : ∀ k, ∃ x, LinearizableTo (A k).spec (c k) (part k h) x := fun k => (A k).right _ _ (hh k)
  exact ⟨fun k => (hl k).choose, (HW.linearizable_iff _ _ _ _).1
    ((locality (fun k => (A k).spec) c _ h hw).2 fun k => (hl k).choose_spec)⟩

/-- **C63c.** The same for executions: several systems side by side, each step being one of one of them. -/
theorem mixed_steps {C O R T : K → Type} (S : ∀ k, Spec (C k) (O k) (R k))
    (step : ∀ k, T k → Option (Object.Ev (O k) (R k)) → T k → Prop) (c : ∀ k, C k) (s : ∀ k, T k)
    (right : ∀ k h s', Exec (step k) (s k) h s' → Linearizable (S k) (c k) h)
    (h : List (Object.Ev (Σ k, O k) (Σ k, R k))) (s' : ∀ k, T k) (hx : Exec (MixStep step) s h s') (hw : WellFormed h) :
    ∃ c', HW.LinearizableTo (Spec.mix S) c h c' := by
  have hl : ∀ k, ∃ x, LinearizableTo (S k) (c k) (part k h) x := fun k => right k _ _ (mix_part hx k)
  exact ⟨fun k => (hl k).choose, (HW.linearizable_iff _ _ _ _).1
    ((locality S c _ h hw).2 fun k => (hl k).choose_spec)⟩

/-! Non-trivial case: a flag and a counter. -/

/-- `false`: an `AtomicBool`, `true`: an `AtomicU8`. -/
def two : Bool → Kind
  | false => .bool false
  | true => .int 3 false (.core true false false)

def twoStart : ∀ k, (two k).C
  | false => fun _ => false
  | true => fun _ => (250 : BitVec 8)

/-- While thread 0 sets the flag, thread 1 counts; then it reads the flag. -/
def twoHistory : List (Object.Ev (Σ k, (two k).O) (Σ k, (two k).R)) :=
  [.inv 0 ⟨false, ((7 : Obj), Bool.BOp.store true .release)⟩,
   .inv 1 ⟨true, ((7 : Obj), ⟨Int.IOp.fetchBin .add (10 : BitVec 8) .relaxed, rfl⟩)⟩,
   .ret 0 ⟨false, (Res.unit : Res Bool)⟩,
   .ret 1 ⟨true, (Int.IRes.res (.val (250 : BitVec 8)) : Int.IRes (2 ^ 3))⟩,
   .inv 1 ⟨false, ((7 : Obj), Bool.BOp.load .acquire)⟩,
   .ret 1 ⟨false, (Res.val true : Res Bool)⟩]


theorem two_runs (k : Bool) : (two k).history (twoStart k) (part k twoHistory) := by
  cases k with
  | false =>
    have e : ∃ s, (Bool.code false).run
        [.call 0 (7 : Obj) (.store true .release), .go 0, .ret 0, .call 1 7 (.load .acquire), .go 1, .ret 1] (idle fun _ => 0) =
        some (part false twoHistory, s) := ⟨_, rfl⟩
    obtain ⟨s, e⟩ := e
    exact ⟨fun _ => 0, s, fun _ => .inl rfl, rfl, Code.run_runs e⟩
  | true =>
    have e : ∃ s, (Int.codeOf (2 ^ 3) false (.core true false false)).run
        [.call 1 (7 : Obj) ⟨Int.IOp.fetchBin .add (10 : BitVec 8) .relaxed, rfl⟩, .go 1, .ret 1] (idle fun _ => (250 : BitVec 8)) =
        some (part true twoHistory, s) := ⟨_, rfl⟩
    obtain ⟨s, e⟩ := e
    exact ⟨s, Code.run_runs e⟩

example : ∃ c', HW.LinearizableTo (Spec.mix fun k => (two k).spec) twoStart twoHistory c' := by
  refine mixed two twoStart twoHistory (fun t => ?_) two_runs
  by_cases h0 : t = 0
  · subst h0; trivial
  · by_cases h1 : t = 1
    · subst h1; trivial
    · have : HW.proj t twoHistory = [] := by
        simp [HW.proj, twoHistory, HW.tid, Ne.symm h0, Ne.symm h1]
      rw [this]; trivial

end Verif.Mixed
