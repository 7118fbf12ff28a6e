import Verif.Compose.Typed
import Verif.Props.Kinds
import Verif.Props.WeakMemory
/-!
# 64-bit and 128-bit atomics sharing the table of locks (C64)

On targets without fast 64-bit atomics, 64-bit and 128-bit integers both use the `LOCKS` table of
`src/imp/fallback/mod.rs` L83-97: writers of one width block and overtake readers of the other.
-/
set_option autoImplicit false
set_option linter.unusedSectionVars false
namespace Verif.MixedLock
open Verif.Object Verif.Lf Verif.Compose Verif.Fallback Verif.Mixed
open Verif.Object.HW (WellFormed)

variable {be : Bool} {is64 : Obj → Bool} {addr : Obj → Nat} {cells : Obj → Words 32} {v0 : Nat → Nat}
  {ext : Nat → BitVec 32} {h : List (Verif.Ev (Words 32))} {s : Fallback.State (Words 32) 32}

/-- The initial values are of the objects' widths. -/
def Typed (is64 : Obj → Bool) (cells : Obj → Words 32) : Prop := ∀ o, (cells o).1 = if is64 o then 2 else 4

/-- The objects of `n` words are those numbered `name 0, name 1, ...` -/
structure Names (is64 : Obj → Bool) (n : Nat) (name : Obj → Obj) : Prop where
  inj : Function.Injective name
  width : ∀ i, (if is64 (name i) then 2 else 4) = n

/-- **C64a.** Whatever widths the objects have, every history is linearizable. -/
theorem shared_linearizable (hc : Typed is64 cells) (hx : Exec (bothWide be is64 addr).Step ((bothWide be is64 addr).init cells v0 ext) h s)
    (hb : calls h < 2 ^ 63 - 2 ^ 31) : Atomic.Linearizable cells h :=
  fallback_linearizable_of_calls (bothWide_sound be is64 addr) hc hx (by rw [maxOverlap_both]; exact hb)

/-- **C64b.** Under weak memory they do nothing native atomics could not do. -/
theorem shared_refines_native {X : Type} {x0 : Nat → X} {h : List (WM.Ev (Words 32) X)} (hc : Typed is64 cells)
    (hx : WM.Lock.Behaviour (bothWide be is64 addr) cells x0 h) (hb : WM.Lock.calls h < 2 ^ 63 - 2 ^ 31) :
    WM.Native.Behaviour cells x0 h :=
  WM.fallback_refines_native (bothWide_sound be is64 addr) hc hx (by rw [maxOverlap_both]; exact hb)

/-! ## Each type by itself -/

/-- A call on the `i`th object of a type, or a return, as the machine has it. -/
inductive Seen (n : Nat) (name : Obj → Obj) : Verif.Ev (Words 32) → Verif.Ev (BitVec (32 * n)) → Prop where
  | inv (t i op) : Seen n name (.inv t (name i) (upOp n op)) (.inv t i op)
  | ret (t r) : Seen n name (.ret t r) (.ret t (downRes n r))

/-- A thread of the machine's description and of the type's. -/
def ThRel (n : Nat) (name : Obj → Obj) : Atomic.Th (Words 32) → Atomic.Th (BitVec (32 * n)) → Prop
  | .idle, b => b = .idle
  | .pending o op, b => ∃ i op', o = name i ∧ op = upOp n op' ∧ b = .pending i op'
  | .done r, b => b = .done (downRes n r)

theorem forall2_snoc {A B : Type} {R : A → B → Prop} {a : A} : ∀ {l : List A} {l' : List B},
    List.Forall₂ R (l ++ [a]) l' → ∃ m b, List.Forall₂ R l m ∧ R a b ∧ l' = m ++ [b]
  | [], _, .cons h h' => by cases h'; exact ⟨[], _, .nil, h, rfl⟩
  | _ :: _, _, .cons h h' => by
    obtain ⟨m, b, h1, h2, rfl⟩ := forall2_snoc h'
    exact ⟨_ :: m, b, .cons h h1, h2, rfl⟩

/-- Cells that hold values of the type behave, for calls of the type, as cells of that type. -/
theorem seen_linearizable {n : Nat} {name : Obj → Obj} (hinj : Function.Injective name)
    {h : List (Verif.Ev (Words 32))} {h' : List (Verif.Ev (BitVec (32 * n)))} (hs : List.Forall₂ (Seen n name) h h')
    (c : Obj → BitVec (32 * n)) (hcell : ∀ i, cells (name i) = ⟨n, c i⟩) (hl : Atomic.Linearizable cells h) :
    Atomic.Linearizable c h' := by
  obtain ⟨a, hx⟩ := hl
  suffices key : ∃ b, Exec Atomic.Step (Atomic.init c) h' b ∧ (∀ i, a.cell (name i) = ⟨n, b.cell i⟩) ∧
      ∀ t, ThRel n name (a.th t) (b.th t) from ⟨_, key.choose_spec.1⟩
  generalize hi : Atomic.init cells = i at hx
  induction hx generalizing h' with
  | refl =>
    subst hi
    cases hs
    exact ⟨_, .refl _, hcell, fun _ => rfl⟩
  | @tau h a a' _ st ih =>
    obtain ⟨b, hb, h1, h2⟩ := ih hs
    cases st with
    | commit t o op hp =>
      have := h2 t
      rw [hp] at this
      obtain ⟨i, op', rfl, rfl, hb2⟩ := this
      obtain ⟨e1, e2⟩ := up_onCell n op' (b.cell i)
      refine ⟨_, .tau hb (.commit b t i op' hb2), fun j => ?_, fun u => ?_⟩
      · by_cases e : j = i
        · subst e; simp only [Function.update_self]; rw [h1, e1]
        · simp only [Function.update_of_ne e, Function.update_of_ne (fun x => e (hinj x))]; exact h1 j
      · by_cases e : u = t
        · subst e; simp only [Function.update_self]; rw [h1]; simp [ThRel, e2]
        · simp only [Function.update_of_ne e]; exact h2 u
  | @ev h a e a' _ st ih =>
    obtain ⟨l1, e', g1, g2, rfl⟩ := forall2_snoc hs
    obtain ⟨b, hb, h1, h2⟩ := ih g1
    cases st with
    | inv t o op hp =>
      have := h2 t
      rw [hp] at this
      cases g2 with
      | inv _ i op' =>
        refine ⟨_, .ev hb (.inv b t i op' this), h1, fun u => ?_⟩
        by_cases e : u = t
        · subst e; simp only [Function.update_self]; exact ⟨i, op', rfl, rfl, rfl⟩
        · simp only [Function.update_of_ne e]; exact h2 u
    | ret t r hp =>
      have := h2 t
      rw [hp] at this
      cases g2 with
      | ret _ _ =>
        refine ⟨_, .ev hb (.ret b t _ this), h1, fun u => ?_⟩
        by_cases e : u = t
        · subst e; simp only [Function.update_self]; rfl
        · simp only [Function.update_of_ne e]; exact h2 u

/-- **C64c.** Take the calls on some objects, all of one width, and read them as calls of that type: the history is
linearizable as one of atomics of that type only, whatever is done with objects of the other width. -/
theorem shared_each_width {n : Nat} {name : Obj → Obj} (hn : Names is64 n name)
    (hc : Typed is64 cells) (hx : Exec (bothWide be is64 addr).Step ((bothWide be is64 addr).init cells v0 ext) h s)
    (hb : calls h < 2 ^ 63 - 2 ^ 31) (P : Obj → Prop) [DecidablePred P] {h' : List (Verif.Ev (BitVec (32 * n)))}
    (hs : List.Forall₂ (Seen n name) (restrictBy P h) h') :
    Atomic.Linearizable (fun i => downVal n (cells (name i))) h' := by
  refine seen_linearizable hn.inj hs _ (fun i => ?_) ((shared_linearizable hc hx hb).restrictBy P)
  have h1 : (cells (name i)).1 = n := (hc _).trans (hn.width i)
  rcases hxk : cells (name i) with ⟨m, v⟩
  rw [hxk] at h1
  simp only at h1
  subst h1
  simp

/-! ## The public operations of all types together -/

/-- Operations made of accesses, of one of the types. -/
theorem over_shared {n : Nat} {name : Obj → Obj} (hn : Names is64 n name)
    {O R L V' : Type} {c : Code (BitVec (32 * n)) O R L} {S : Spec V' O R} (X : CodeSim c S) (hinv : ∀ v, X.inv v)
    (hc : Typed is64 cells) (hx : Exec (bothWide be is64 addr).StepB ((bothWide be is64 addr).init cells v0 ext) h s)
    (P : Obj → Prop) [DecidablePred P] {ho w}
    (hw : Run ((ofCode c).many Obj) (UpCalls n name) ((restrictBy P h).map toObj) ho w) :
    Linearizable (S.many (K := Obj)) (fun i => X.abs (downVal n (cells (name i)))) ho := by
  have hl := (fallback_linearizable (bothWide_sound be is64 addr) hc hx).restrictBy P
  have hf : ∀ t o op, Verif.Ev.inv t o op ∈ restrictBy P h → op.Fits ((bothWide be is64 addr).fits o) :=
    fun t o op hm => calls_fit (hx.mono fun _ _ _ st => st.1) t o op (mem_restrictBy hm)
  obtain ⟨m', hl⟩ := fit_linearizable (P := (bothWide be is64 addr).fits) hl hc hf
  exact ⟨_, (ofSim X).over (upBridge n name hn.inj _ fun i v (hv : v.1 = _) => hv.trans (hn.width i))
    (fun _ => hinv _) hl hw⟩

/-- A type: its width in words, its objects, the code of its operations, and that they are right on a cell. -/
structure Ty (is64 : Obj → Bool) where
  n : Nat
  name : Obj → Obj
  names : Names is64 n name
  mine : Obj → Bool
  O : Type
  R : Type
  L : Type
  V : Type
  code : Code (BitVec (32 * n)) O R L
  spec : Spec V O R
  sim : CodeSim code spec
  inv : ∀ v, sim.inv v

/-- **C64d.** A program with atomics of any number of types, 64 bits and 128 bits wide, on one table of locks.  The
accesses of all of them are one run of the fallback's code; each operation of a type is the code of that type, making
accesses to objects of it.  Then the whole history of all operations is linearizable in Herlihy and Wing's sense, as
one of independent atomics of those types. -/
theorem shared_program {K : Type} [DecidableEq K] (A : K → Ty is64)
    (hc : Typed is64 cells) (hx : Exec (bothWide be is64 addr).StepB ((bothWide be is64 addr).init cells v0 ext) h s)
    (ho : List (Object.Ev (Σ k, Obj × (A k).O) (Σ k, (A k).R))) (hwf : WellFormed ho)
    (hr : ∀ k, ∃ w, Run ((ofCode (A k).code).many Obj) (UpCalls (A k).n (A k).name)
      ((restrictBy (fun o => (A k).mine o = true) h).map toObj) (part k ho) w) :
    ∃ c', HW.LinearizableTo (Spec.mix fun k => (A k).spec.many (K := Obj))
      (fun k i => (A k).sim.abs (downVal (A k).n (cells ((A k).name i)))) ho c' := by
  have hl : ∀ k, Linearizable ((A k).spec.many (K := Obj))
      (fun i => (A k).sim.abs (downVal (A k).n (cells ((A k).name i)))) (part k ho) := fun k =>
    let ⟨_, hw⟩ := hr k
    over_shared (A k).names (A k).sim (A k).inv hc hx _ hw
  exact ⟨fun k => (hl k).choose, (HW.linearizable_iff _ _ _ _).1
    ((locality (fun k => (A k).spec.many (K := Obj)) _ _ ho hwf).2 fun k => (hl k).choose_spec)⟩

/-- `AtomicU64`, `AtomicI64`. -/
def Ty.int64 (signed : Bool) {name : Obj → Obj} (names : Names is64 2 name) (mine : Obj → Bool) : Ty is64 where
  n := 2
  name := name
  names := names
  mine := mine
  O := Int.Avail (2 ^ 6) signed .fallback
  R := Int.IRes (2 ^ 6)
  L := _
  V := BitVec (2 ^ 6)
  code := Int.codeOf (2 ^ 6) signed .fallback
  spec := Int.specOf (2 ^ 6) signed .fallback
  sim := intSim 6 signed .fallback
  inv _ := trivial

/-- `AtomicU128`, `AtomicI128`. -/
def Ty.int128 (signed : Bool) {name : Obj → Obj} (names : Names is64 4 name) (mine : Obj → Bool) : Ty is64 where
  n := 4
  name := name
  names := names
  mine := mine
  O := Int.Avail (2 ^ 7) signed .fallback
  R := Int.IRes (2 ^ 7)
  L := _
  V := BitVec (2 ^ 7)
  code := Int.codeOf (2 ^ 7) signed .fallback
  spec := Int.specOf (2 ^ 7) signed .fallback
  sim := intSim 7 signed .fallback
  inv _ := trivial

/-- `AtomicF64`. -/
def Ty.float64 (A : Float.Arith (2 ^ 6)) {name : Obj → Obj} (names : Names is64 2 name) (mine : Obj → Bool) : Ty is64 where
  n := 2
  name := name
  names := names
  mine := mine
  O := Float.Avail false A (.int .fallback)
  R := Int.IRes (2 ^ 6)
  L := _
  V := BitVec (2 ^ 6)
  code := Float.codeOf false A (.int .fallback)
  spec := Float.specOf false A (.int .fallback)
  sim := floatSim 6 false A (.int .fallback)
  inv _ := trivial

/-! ## A concrete program: an `AtomicU64` and an `AtomicU128` at addresses with the same lock

Thread 0's 128-bit load is overtaken by thread 1's 64-bit `fetch_add`, fails to validate and takes the lock. -/

namespace Ex

def even (o : Obj) : Bool := o % 2 == 0
def cfg : Cfg (Words 32) := bothWide false even fun o => 67 * 16 * o
def mem0 : Obj → Words 32 := fun o => if even o then ⟨2, 7⟩ else ⟨4, 2 ^ 100 + 5⟩
def s0 : Fallback.State (Words 32) cfg.W := cfg.init mem0 (fun _ => 2 ^ 31 - 1) (fun _ => 0)

theorem typed : Typed even mem0 := by
  intro o
  simp only [mem0]
  split <;> rfl

def load128 : Op (BitVec (32 * 4)) := .load .acquire
def add64 : Op (BitVec (32 * 2)) := .rmw (Int.Bin.fn .add (3 : BitVec 64)) .seqCst

def sched : List (Cmd (Words 32)) :=
  [.call 0 1 (upOp 4 load128), .go 0, .go 0, .go 0, .call 1 0 (upOp 2 add64)] ++ List.replicate 11 (.go 1) ++
    [.ret 1] ++ List.replicate 13 (.go 0) ++ [.ret 0]

/-- The history of `sched`. -/
def hist : List (Verif.Ev (Words 32)) :=
  [.inv 0 1 (upOp 4 load128), .inv 1 0 (upOp 2 add64), .ret 1 (.val ⟨2, 7⟩), .ret 0 (.val ⟨4, 2 ^ 100 + 5⟩)]

theorem fits : ∀ d ∈ sched, d.Fits cfg := by
  intro d hd
  simp only [sched, List.mem_append, List.mem_cons, List.not_mem_nil, or_false, List.mem_replicate] at hd
  rcases hd with ((((rfl | rfl | rfl | rfl | rfl) | ⟨-, rfl⟩) | rfl) | ⟨-, rfl⟩) | rfl
  · exact upOp_fits 4 load128
  · trivial
  · trivial
  · trivial
  · exact upOp_fits 2 add64
  all_goals trivial

theorem runs : (cfg.run s0 sched).isSome = true := by decide +kernel

/-- Both objects have lock 0. -/
example : cfg.lockOf 0 = cfg.lockOf 1 := by decide

theorem execB : Exec cfg.StepB s0 (cfg.hist s0 sched) (cfg.final! s0 sched) :=
  cfg.run_execB (cells := mem0) (v0 := fun _ => 2 ^ 31 - 1) (ext := fun _ => 0) sched fits (.refl _) runs
    (by decide +kernel)

set_option maxRecDepth 100000 in
theorem hist_eq : cfg.hist s0 sched = hist := rfl

/-- `false`: `AtomicU128`, objects 1, 3, ...; `true`: `AtomicU64`, objects 0, 2, ... -/
theorem names64 : Names even 2 fun i => 2 * i where
  inj := by intro a b h; have h : 2 * a = 2 * b := h; exact Nat.eq_of_mul_eq_mul_left (by decide) h
  width i := by simp [even]

theorem names128 : Names even 4 fun i => 2 * i + 1 where
  inj := by intro a b h; have h : 2 * a + 1 = 2 * b + 1 := h; exact Nat.eq_of_mul_eq_mul_left (by decide) (Nat.succ.inj h)
  width i := by simp [even]

def types : Bool → Ty even
  | true => .int64 false names64 even
  | false => .int128 false names128 fun o => !even o

/-- What the program sees. -/
def prog : List (Object.Ev (Σ k, Obj × (types k).O) (Σ k, (types k).R)) :=
  [.inv 0 ⟨false, ((0 : Obj), ⟨Int.IOp.load .acquire, rfl⟩)⟩,
   .inv 1 ⟨true, ((0 : Obj), ⟨Int.IOp.fetchBin .add (3 : BitVec 64) .seqCst, rfl⟩)⟩,
   .ret 1 ⟨true, (Int.IRes.res (.val (7 : BitVec 64)) : Int.IRes (2 ^ 6))⟩,
   .ret 0 ⟨false, (Int.IRes.res (.val (2 ^ 100 + 5 : BitVec 128)) : Int.IRes (2 ^ 7))⟩]

/-- An operation of one access, by itself. -/
theorem one_call {A Q O R L I P : Type} {c : Client A Q O R L} {calls : A → I → (P → Q) → Prop} (t : Tid) (op : O) {a k}
    (h1 : c.next (c.start op) = .call a k) {i d} (hc : calls a i d) {p : P} {r : R} (h2 : c.next (k (d p)) = .ret r) :
    ∃ w, Run c calls [.inv t i, .ret t p] [.inv t op, .ret t r] w := by
  have r1 := Run.inv (c := c) (calls := calls) .nil t op rfl
  have r2 := Run.call r1 t _ a k i d (Function.update_self ..) h1 hc
  have r3 := Run.answer r2 t _ p (Function.update_self ..)
  exact ⟨_, Run.ret r3 t _ r (Function.update_self ..) h2⟩

/-- The hypotheses of `shared_program` hold of it. -/
theorem prog_runs (k : Bool) : ∃ w, Run ((ofCode (types k).code).many Obj) (UpCalls (types k).n (types k).name)
    ((restrictBy (fun o => (types k).mine o = true) (cfg.hist s0 sched)).map toObj) (part k prog) w := by
  rw [hist_eq]
  cases k with
  | true =>
    exact one_call (c := (ofCode (Int.codeOf (2 ^ 6) false .fallback)).many Obj) (calls := UpCalls (W := 32) 2 fun i => 2 * i) 1
      ((0 : Obj), ⟨Int.IOp.fetchBin .add (3 : BitVec 64) .seqCst, rfl⟩)
      (a := (0, .op add64)) (k := fun q => (0, .fin (.res q))) rfl (i := (0, upOp 2 add64)) (d := downRes (W := 32) 2)
      ⟨rfl, ⟨_, .op _, rfl⟩, rfl⟩ (p := (Res.val ⟨2, 7⟩ : Res (Words 32))) rfl
  | false =>
    exact one_call (c := (ofCode (Int.codeOf (2 ^ 7) false .fallback)).many Obj) (calls := UpCalls (W := 32) 4 fun i => 2 * i + 1) 0
      ((0 : Obj), ⟨Int.IOp.load .acquire, rfl⟩)
      (a := (0, .op load128)) (k := fun q => (0, .fin (.res q))) rfl (i := (1, upOp 4 load128)) (d := downRes (W := 32) 4)
      ⟨rfl, ⟨_, .op _, rfl⟩, rfl⟩ (p := (Res.val ⟨4, 2 ^ 100 + 5⟩ : Res (Words 32))) rfl

example : ∃ c', HW.LinearizableTo (Spec.mix fun k => (types k).spec.many (K := Obj))
    (fun k i => (types k).sim.abs (downVal (types k).n (mem0 ((types k).name i)))) prog c' := by
  refine shared_program types typed execB prog (fun t => ?_) prog_runs
  by_cases h0 : t = 0
  · subst h0; trivial
  · by_cases h1 : t = 1
    · subst h1; trivial
    · have : HW.proj t prog = [] := by
        simp [HW.proj, prog, HW.tid, Ne.symm h0, Ne.symm h1]
      rw [this]; trivial

/-- ... and those of `shared_each_width`. -/
example : Atomic.Linearizable (fun i => downVal 4 (mem0 (2 * i + 1)))
    [.inv 0 0 load128, .ret 0 (downRes 4 (.val ⟨4, 2 ^ 100 + 5⟩))] :=
  shared_each_width names128 typed (execB.mono fun _ _ _ st => st.1) (by decide +kernel) (fun o => even o = false)
    (h' := [.inv 0 0 load128, .ret 0 (downRes 4 (.val ⟨4, 2 ^ 100 + 5⟩))])
    (by rw [hist_eq]; exact .cons (.inv 0 0 load128) (.cons (.ret 0 _) .nil))

end Ex

end Verif.MixedLock
