import Verif.Spec.DerivedOps
import Verif.WM.WrapProg
import Verif.WM.WrapRun
import Verif.WM.NativeRun
import Verif.Props.WeakMemory
/-!
# Properties of the crate's operations in weak memory (C57)

`Over c B ho`: threads running the code `c` over underlying atomics with the behaviours `B` can produce the
history `ho` of calls, returns and accesses of the client to its own variables.
-/
set_option autoImplicit false
set_option linter.unusedSectionVars false

namespace Verif.WM.Derived
open Verif.Fallback (Cfg)
variable {V W O R L X : Type} [DecidableEq V]

/-- The same over the lock-based atomics. -/
theorem lock_refines {c : Lf.Code V O R L} {S : Spec W O R} (Y : WSim c S) {cfg : Cfg V} (ok : cfg.Ok)
    (v0 : Obj → V) (x0 : Nat → X) (h0 : ∀ o, Y.inv (v0 o)) {ho : List (Ev O R X)}
    (h : Over c (fun hi => Lock.Behaviour cfg v0 x0 hi ∧ Lock.calls hi < cfg.maxOverlap) ho) :
    Behaviour S (fun o => Y.abs (v0 o)) x0 ho :=
  wrap_refines Y v0 x0 h0 (h.mono fun _ k => fallback_refines_native ok.toSound (fun o => ok.full o _) k.1 k.2)

end Verif.WM.Derived

namespace Verif.Int
open Verif.Lf Verif.WM Verif.WM.Derived
open Verif.Fallback (Cfg)
variable {w : Nat}

/-- A single read-modify-write, or a compare-exchange loop. -/
def Rmwish (p : P w) : Prop :=
  (∃ f o dec, p = .one (.op (.rmw f o)) dec) ∨ ∃ f o dec, p = .loop (.op (.load .relaxed)) f o dec

theorem Rmwish.map {p : P w} (h : Rmwish p) (g : IRes w → IRes w) : Rmwish (mapRes g p) := by
  rcases h with ⟨f, o, dec, rfl⟩ | ⟨f, o, dec, rfl⟩
  · exact .inl ⟨_, _, _, rfl⟩
  · exact .inr ⟨_, _, _, rfl⟩

/-- Does the program use the orderings asked for at the access at which it takes effect? -/
def Kept (s f : MemOrd) : P w → Prop
  | .stop _ => True
  | .one a _ => a.succ.AtLeast s ∧ a.fail.AtLeast f
  | .loop _ _ o _ => o.AtLeast s
  | .update a b _ _ => a.AtLeast s ∧ b.AtLeast f

variable {O : Type} {S : WM.Derived.Spec (BitVec w) O (IRes w)} {op : O}

theorem wok_rmwish {p : P w} (hI : p.Implements (S.sem op)) (hr : Rmwish p)
    (hk : ∀ x y r, S.sem op x y r → S.kind op r = .write) (ho : Kept (S.succ op) (S.fail op) p) : WOk S op p := by
  rcases hr with ⟨f, o, dec, rfl⟩ | ⟨f, o, dec, rfl⟩
  · exact wok_one hI (fun x => hk x (f x) _ (hI _ _ _ (by simp [Acc.sem, Op.onCell, Op.ordOk]))) ho.1 ho.2
  · exact ⟨.inr ⟨_, rfl, by simp, by simp⟩, fun x => ⟨hk _ _ _ (hI.2 x), hI.2 x⟩, ho⟩

theorem wok_update {s g : MemOrd} {f : Closure (BitVec w)} (hI : (Prog.update s g f .res : P w).Implements (S.sem op))
    (hp : S.kind op (.res .panic) = .nothing) (h1 : ∀ x, S.kind op (.res (.ok x)) = .write)
    (h2 : ∀ x, S.kind op (.res (.err x)) = .read) (hs : s.AtLeast (S.succ op)) (hg : g.AtLeast (S.fail op)) :
    WOk S op (.update s g f .res) := by
  rcases hI with ⟨hq, hI⟩ | ⟨a, b, k1, k2⟩
  · exact .inl ⟨hq, hp, hI⟩
  · exact .inr ⟨⟨a, b⟩, hs, fun hist x y e => ⟨h1 x, k1 hist x y e⟩, fun hist x e => ⟨h2 x, k2 hist x e, hg⟩⟩

theorem fetchBin_rmwish {k : Backend} {b : Bin} {v : BitVec w} {o : MemOrd} {p : P w} (h : fetchBin k b v o = some p) :
    Rmwish p := by
  cases k <;> cases b <;> simp only [fetchBin, lac, Option.some.injEq, reduceCtorEq] at h <;>
    subst h <;> exact .inl ⟨_, _, _, rfl⟩

theorem fetchBinF_rmwish {signed : Bool} {k : Backend} {b : BinF} {v : BitVec w} {o : MemOrd} {p : P w}
    (h : fetchBinF signed k b v o = some p) : Rmwish p := by
  cases k with
  | core mm x ba =>
    cases mm <;> cases b <;> simp only [fetchBinF, Option.some.injEq] at h <;> subst h <;>
      first | exact .inl ⟨_, _, _, rfl⟩ | exact .inr ⟨_, _, _, rfl⟩
  | fallback => simp only [fetchBinF, Option.some.injEq] at h; subst h; exact .inl ⟨_, _, _, rfl⟩
  | riscvAmo =>
    cases b <;> simp only [fetchBinF, Option.some.injEq, reduceCtorEq] at h <;> subst h <;> exact .inl ⟨_, _, _, rfl⟩
  | avrRmw => simp [fetchBinF] at h

theorem fetchUn_rmwish {k : Backend} {u : Un} {o : MemOrd} {p : P w} (h : fetchUn k u o = some p) : Rmwish p := by
  cases k <;> cases u <;> simp only [fetchUn, Option.some.injEq, reduceCtorEq] at h <;>
    first
    | exact fetchBin_rmwish h
    | (subst h; first | exact .inl ⟨_, _, _, rfl⟩ | exact .inr ⟨_, _, _, rfl⟩)

theorem un_rmwish {k : Backend} {u : Un} {o : MemOrd} {p : P w} (h : un k u o = some p) : Rmwish p := by
  have key : (fetchUn k u o).map drop = some p → Rmwish p := by
    intro h
    simp only [Option.map_eq_some_iff] at h
    obtain ⟨q, hq, rfl⟩ := h
    rw [drop_eq]
    exact (fetchUn_rmwish hq).map _
  cases k with
  | core mm x ba =>
    cases x with
    | false => exact key h
    | true => cases u <;> simp only [un, Option.some.injEq] at h <;> subst h <;> exact .inl ⟨_, _, _, rfl⟩
  | fallback => exact key h
  | riscvAmo => exact key h
  | avrRmw => exact key h

theorem bit_rmwish {k : Backend} {b : BitOp} {n : BitVec 32} {o : MemOrd} {p : P w} (h : bit k b n o = some p) :
    Rmwish p := by
  have key : bitDefault k b n o = some p → Rmwish p := by
    intro h
    cases b <;> simp only [bitDefault, Option.map_eq_some_iff] at h <;> obtain ⟨q, hq, rfl⟩ := h <;>
      exact (fetchBin_rmwish hq).map _
  cases k with
  | core mm x ba =>
    cases ba with
    | false => exact key h
    | true => simp only [bit, Option.some.injEq] at h; subst h; exact .inl ⟨_, _, _, rfl⟩
  | fallback => exact key h
  | riscvAmo => exact key h
  | avrRmw => exact key h

theorem kept_of {op : IOp w} {p : P w} (h : OrderKept op p) : Kept op.succ op.fail p := by cases p <;> exact h

/-- The programs of the integer operations, in any specification that means by `op` what `iop` means. -/
theorem prog_wok_of {e : Nat} (hw : w = 2 ^ e) (signed : Bool) (k : Backend) (iop : IOp w) (p : P w)
    (hp : prog signed k iop = some p) (h1 : ∀ x y r, Sem signed iop x y r → S.sem op x y r)
    (h2 : ∀ r, S.kind op r = iop.kind r) (h3 : S.succ op = iop.succ) (h4 : S.fail op = iop.fail) : WOk S op p := by
  have hI := prog_impl hw signed k iop p hp
  have hO := kept_of (int_ordering_kept signed k iop p hp)
  have key : WOk (S := wspec w signed) (op := iop) p := by
    cases iop with
    | load o =>
      simp only [prog, Option.some.injEq] at hp; subst hp
      exact wok_one hI ⟨rfl, fun _ => rfl⟩ hO.1 hO.2
    | store v o =>
      simp only [prog, Option.some.injEq] at hp; subst hp
      exact wok_one hI ⟨rfl, rfl⟩ hO.1 hO.2
    | swap v o =>
      simp only [prog, Option.some.injEq] at hp; subst hp
      exact wok_one hI (fun _ => rfl) hO.1 hO.2
    | compareExchange c n s f =>
      simp only [prog] at hp
      split at hp
      · simp only [Option.some.injEq] at hp; subst hp
        exact wok_one hI ⟨rfl, fun _ => rfl, fun _ => rfl⟩ hO.1 hO.2
      · simp at hp
    | compareExchangeWeak c n s f =>
      simp only [prog] at hp
      split at hp
      · simp only [Option.some.injEq] at hp; subst hp
        exact wok_one hI ⟨rfl, fun _ => rfl, fun _ => rfl⟩ hO.1 hO.2
      · simp at hp
    | fetchBin b v o => exact wok_rmwish hI (fetchBin_rmwish hp) (by rintro x y r ⟨-, rfl⟩; rfl) hO
    | bin b v o =>
      refine wok_rmwish hI ?_ (by rintro x y r ⟨-, rfl⟩; rfl) hO
      simp only [prog, bin, Option.map_eq_some_iff] at hp
      obtain ⟨q, hq, rfl⟩ := hp
      rw [drop_eq]
      exact (fetchBin_rmwish hq).map _
    | fetchBinF b v o => exact wok_rmwish hI (fetchBinF_rmwish hp) (by rintro x y r ⟨-, rfl⟩; rfl) hO
    | fetchUn u o => exact wok_rmwish hI (fetchUn_rmwish hp) (by rintro x y r ⟨-, rfl⟩; rfl) hO
    | un u o => exact wok_rmwish hI (un_rmwish hp) (by rintro x y r ⟨-, rfl⟩; rfl) hO
    | bit b n o => exact wok_rmwish hI (bit_rmwish hp) (by rintro x y r ⟨-, rfl⟩; rfl) hO
    | fetchUpdate s g f =>
      simp only [prog] at hp
      split at hp
      · simp only [Option.some.injEq] at hp; subst hp
        exact wok_update hI rfl (fun _ => rfl) (fun _ => rfl) hO.1 hO.2
      · simp at hp
  exact key.conv h1 h2 h3 h4

/-- The integer operations, one by one. -/
def wsim {e : Nat} (signed : Bool) (k : Backend) :
    WSim (codeOf (2 ^ e) signed k) ((wspec (2 ^ e) signed).sub fun op => (prog signed k op).isSome) :=
  Derived.Prog.wsim fun op => prog_wok_of rfl signed k op.1 _ (Option.some_get op.2).symm
    (fun _ _ _ h => h) (fun _ => rfl) rfl rfl

/-- **C57 (integers).**  Over native atomics in weak memory, every operation of an integer atomic, on every
implementation, is one access with the orderings asked for, whatever loop it is made of. -/
theorem int_weak_memory {X : Type} (e : Nat) (signed : Bool) (k : Backend) (v0 : Obj → BitVec (2 ^ e)) (x0 : Nat → X)
    {ho : List (WM.Derived.Ev (Avail (2 ^ e) signed k) (IRes (2 ^ e)) X)}
    (h : Over (codeOf (2 ^ e) signed k) (Native.Behaviour v0 x0) ho) :
    WM.Derived.Behaviour ((wspec (2 ^ e) signed).sub _) v0 x0 ho :=
  wrap_refines (wsim signed k) v0 x0 (fun _ => trivial) h

/-- **C57 (integers, lock).**  The same over the lock-based atomics. -/
theorem int_weak_memory_lock {X : Type} (e : Nat) (signed : Bool) (k : Backend) {cfg : Cfg (BitVec (2 ^ e))} (ok : cfg.Ok)
    (v0 : Obj → BitVec (2 ^ e)) (x0 : Nat → X)
    {ho : List (WM.Derived.Ev (Avail (2 ^ e) signed k) (IRes (2 ^ e)) X)}
    (h : Over (codeOf (2 ^ e) signed k) (fun hi => Lock.Behaviour cfg v0 x0 hi ∧ Lock.calls hi < cfg.maxOverlap) ho) :
    WM.Derived.Behaviour ((wspec (2 ^ e) signed).sub _) v0 x0 ho :=
  lock_refines (wsim signed k) ok v0 x0 (fun _ => trivial) h

end Verif.Int

namespace Verif.Ptr
open Verif.Lf Verif.Int Verif.WM Verif.WM.Derived
open Verif.Fallback (Cfg)
variable {w : Nat}

theorem arith_rmwish (k : Backend) (b : Bin) (v : BitVec w) (o : MemOrd) : Rmwish (arith k b v o) := by
  cases k <;> cases b <;> first | exact .inl ⟨_, _, _, rfl⟩ | exact .inr ⟨_, _, _, rfl⟩

theorem bit_rmwish (k : Backend) (b : BitOp) (n : BitVec 32) (o : MemOrd) : Rmwish (bit k b n o : P w) := by
  have key : Rmwish (bitDefault k b n o : P w) := by cases b <;> exact (arith_rmwish k _ _ o).map _
  cases k with
  | viaUsize asm => cases asm <;> first | exact key | exact .inl ⟨_, _, _, rfl⟩
  | strictLoop => exact key
  | riscvAmo => exact key
  | interrupt => exact key

theorem kept_of {op : POp w} {p : P w} (h : OrderKept op p) : Kept op.succ op.fail p := by cases p <;> exact h

theorem prog_wok {e : Nat} (hw : w = 2 ^ e) (size : Nat) (k : Backend) (op : POp w) (p : P w)
    (hp : prog size k op = some p) : WOk (wspec w size) op p := by
  have hI := prog_impl hw size k op p hp
  have hO := kept_of (ptr_ordering_kept size k op p hp)
  have core : ∀ iop : IOp w, Int.prog false .fallback iop = some p → (∀ x y r, Int.Sem false iop x y r → Sem size op x y r) →
      (∀ r, op.kind r = iop.kind r) → op.succ = iop.succ → op.fail = iop.fail → WOk (wspec w size) op p :=
    fun iop hq h1 h2 h3 h4 => prog_wok_of hw false .fallback iop p hq h1 h2 h3 h4
  have rest : Rmwish p → (∀ x y r, Sem size op x y r → op.kind r = .write) → WOk (wspec w size) op p :=
    fun hr hk => wok_rmwish hI hr hk hO
  cases op with
  | load o => exact core (.load o) hp (fun _ _ _ h => h) (by rintro (r | _) <;> [cases r <;> rfl; rfl]) rfl rfl
  | store v o => exact core (.store v o) hp (fun _ _ _ h => h) (by rintro (r | _) <;> [cases r <;> rfl; rfl]) rfl rfl
  | swap v o => exact core (.swap v o) hp (fun _ _ _ h => h) (by rintro (r | _) <;> [cases r <;> rfl; rfl]) rfl rfl
  | compareExchange c n s f =>
    simp only [prog] at hp
    split at hp
    · exact core (.compareExchange c n s f) hp (fun _ _ _ h => h) (by rintro (r | _) <;> [cases r <;> rfl; rfl]) rfl rfl
    · simp at hp
  | compareExchangeWeak c n s f =>
    simp only [prog] at hp
    split at hp
    · exact core (.compareExchangeWeak c n s f) hp (fun _ _ _ h => h) (by rintro (r | _) <;> [cases r <;> rfl; rfl]) rfl rfl
    · simp at hp
  | fetchUpdate s g f =>
    simp only [prog] at hp
    split at hp
    · exact core (.fetchUpdate s g f) hp (fun _ _ _ h => h) (by rintro (r | _) <;> [cases r <;> rfl; rfl]) rfl rfl
    · simp at hp
  | fetchPtrAdd n o =>
    simp only [prog, Option.some.injEq] at hp; subst hp
    exact rest (arith_rmwish _ _ _ _) (by rintro x y r ⟨-, rfl⟩; rfl)
  | fetchPtrSub n o =>
    simp only [prog, Option.some.injEq] at hp; subst hp
    exact rest (arith_rmwish _ _ _ _) (by rintro x y r ⟨-, rfl⟩; rfl)
  | fetchByteAdd n o =>
    simp only [prog, Option.some.injEq] at hp; subst hp
    exact rest (arith_rmwish _ _ _ _) (by rintro x y r ⟨-, rfl⟩; rfl)
  | fetchByteSub n o =>
    simp only [prog, Option.some.injEq] at hp; subst hp
    exact rest (arith_rmwish _ _ _ _) (by rintro x y r ⟨-, rfl⟩; rfl)
  | fetchOr v o =>
    simp only [prog, Option.some.injEq] at hp; subst hp
    exact rest (arith_rmwish _ _ _ _) (by rintro x y r ⟨-, rfl⟩; rfl)
  | fetchAnd v o =>
    simp only [prog, Option.some.injEq] at hp; subst hp
    exact rest (arith_rmwish _ _ _ _) (by rintro x y r ⟨-, rfl⟩; rfl)
  | fetchXor v o =>
    simp only [prog, Option.some.injEq] at hp; subst hp
    exact rest (arith_rmwish _ _ _ _) (by rintro x y r ⟨-, rfl⟩; rfl)
  | bit b n o =>
    simp only [prog, Option.some.injEq] at hp; subst hp
    exact rest (bit_rmwish _ _ _ _) (by rintro x y r ⟨-, rfl⟩; rfl)

/-- The pointer operations, one by one. -/
def wsim {e : Nat} (size : Nat) (k : Backend) :
    WSim (codeOf (2 ^ e) size k) ((wspec (2 ^ e) size).sub fun op => (prog size k op).isSome) :=
  Derived.Prog.wsim fun op => (prog_wok rfl size k op.1 _ (Option.some_get op.2).symm).conv
    (fun _ _ _ h => h) (fun _ => rfl) rfl rfl

/-- **C57 (pointers).** -/
theorem ptr_weak_memory {X : Type} (e size : Nat) (k : Backend) (v0 : Obj → BitVec (2 ^ e)) (x0 : Nat → X)
    {ho : List (WM.Derived.Ev (Avail (2 ^ e) size k) (IRes (2 ^ e)) X)}
    (h : Over (codeOf (2 ^ e) size k) (Native.Behaviour v0 x0) ho) :
    WM.Derived.Behaviour ((wspec (2 ^ e) size).sub _) v0 x0 ho :=
  wrap_refines (wsim size k) v0 x0 (fun _ => trivial) h

end Verif.Ptr

namespace Verif.Float
open Verif.Lf Verif.Int Verif.WM Verif.WM.Derived
open Verif.Fallback (Cfg)
variable {w : Nat}

theorem prog_wok {e : Nat} (hw : w = 2 ^ e) (signed : Bool) {A : Arith w} {f : FBackend} (op : FOp A f) (p : P w)
    (hp : prog signed op = some p) : WOk (wspec signed A f) op p := by
  have hI := prog_impl hw signed op p hp
  have core : ∀ iop : IOp w, Int.prog signed f.base iop = some p →
      (∀ x y r, Int.Sem signed iop x y r → Sem signed op x y r) →
      (∀ r, op.kind r = iop.kind r) → op.succ = iop.succ → op.fail = iop.fail → WOk (wspec signed A f) op p :=
    fun iop hq h1 h2 h3 h4 => prog_wok_of hw signed f.base iop p hq h1 h2 h3 h4
  cases op with
  | load o => exact core (.load o) hp (fun _ _ _ h => h) (by rintro (r | _) <;> [cases r <;> rfl; rfl]) rfl rfl
  | store v o => exact core (.store v o) hp (fun _ _ _ h => h) (by rintro (r | _) <;> [cases r <;> rfl; rfl]) rfl rfl
  | swap v o => exact core (.swap v o) hp (fun _ _ _ h => h) (by rintro (r | _) <;> [cases r <;> rfl; rfl]) rfl rfl
  | compareExchange c n s g =>
    exact core (.compareExchange c n s g) hp (fun _ _ _ h => h) (by rintro (r | _) <;> [cases r <;> rfl; rfl]) rfl rfl
  | compareExchangeWeak c n s g =>
    exact core (.compareExchangeWeak c n s g) hp (fun _ _ _ h => h) (by rintro (r | _) <;> [cases r <;> rfl; rfl]) rfl rfl
  | fetchUpdate s g c =>
    exact core (.fetchUpdate s g c) hp (fun _ _ _ h => h) (by rintro (r | _) <;> [cases r <;> rfl; rfl]) rfl rfl
  | fetchNeg o =>
    exact wok_rmwish hI (fetchBin_rmwish hp) (by rintro x y r ⟨-, rfl⟩; rfl)
      (Int.kept_of (int_ordering_kept signed f.base (.fetchBin .xor (negMask w) o) p hp))
  | fetchAbs o =>
    exact wok_rmwish hI (fetchBin_rmwish hp) (by rintro x y r ⟨-, rfl⟩; rfl)
      (Int.kept_of (int_ordering_kept signed f.base (.fetchBin .and (absMask w) o) p hp))
  | arith b v o ch =>
    cases f with
    | int k =>
      simp only [prog] at hp
      split at hp
      · simp only [Option.some.injEq] at hp; subst hp
        refine .inr ⟨by simp, AtLeast.refl o, ?_, ?_⟩
        · intro hist x y h
          simp only [Option.some.injEq] at h
          subst h
          exact ⟨rfl, ch.ok hist x, rfl⟩
        · intro hist x h; simp at h
      · simp at hp
    | lsfe k =>
      have hp' := hp
      simp only [prog, Option.some.injEq] at hp; subst hp
      exact wok_rmwish hI (.inl ⟨_, _, _, rfl⟩) (by rintro x y r ⟨-, rfl⟩; rfl) ⟨AtLeast.refl o, AtLeast.refl o⟩
  | bits iop => exact core iop hp (fun _ _ _ h => h) (fun _ => rfl) rfl rfl

/-- The float operations, one by one. -/
def wsim {e : Nat} (signed : Bool) (A : Arith (2 ^ e)) (f : FBackend) :
    WSim (codeOf signed A f) ((wspec signed A f).sub fun op => (prog signed op).isSome) :=
  Derived.Prog.wsim fun op => (prog_wok rfl signed op.1 _ (Option.some_get op.2).symm).conv
    (fun _ _ _ h => h) (fun _ => rfl) rfl rfl

/-- **C57 (floats).** -/
theorem float_weak_memory {X : Type} (e : Nat) (signed : Bool) (A : Arith (2 ^ e)) (f : FBackend)
    (v0 : Obj → BitVec (2 ^ e)) (x0 : Nat → X) {ho : List (WM.Derived.Ev (Avail signed A f) (IRes (2 ^ e)) X)}
    (h : Over (codeOf signed A f) (Native.Behaviour v0 x0) ho) :
    WM.Derived.Behaviour ((wspec signed A f).sub _) v0 x0 ho :=
  wrap_refines (wsim signed A f) v0 x0 (fun _ => trivial) h

/-- **C57 (floats, lock).** -/
theorem float_weak_memory_lock {X : Type} (e : Nat) (signed : Bool) (A : Arith (2 ^ e)) (f : FBackend)
    {cfg : Cfg (BitVec (2 ^ e))} (ok : cfg.Ok) (v0 : Obj → BitVec (2 ^ e)) (x0 : Nat → X)
    {ho : List (WM.Derived.Ev (Avail signed A f) (IRes (2 ^ e)) X)}
    (h : Over (codeOf signed A f) (fun hi => Lock.Behaviour cfg v0 x0 hi ∧ Lock.calls hi < cfg.maxOverlap) ho) :
    WM.Derived.Behaviour ((wspec signed A f).sub _) v0 x0 ho :=
  lock_refines (wsim signed A f) ok v0 x0 (fun _ => trivial) h

end Verif.Float

namespace Verif.Bool
open Verif.Lf Verif.WM Verif.WM.Derived
open Verif.Fallback (Cfg)

/-- The access of a single-access operation does what `op` is to do. -/
def WOne (op : BOp) : One → Prop
  | .panic => BOp.kind op .panic = .nothing ∧ ∀ x, Sem op x x .panic
  | .acc a dec => a ≠ .peek ∧ ∀ i g rd wr ord r, Calls a dec i g → Out i rd wr ord r → (∀ x, rd = some x → Valid x) →
      (∀ y, wr = some y → Valid y) ∧ Fits wspec ofByte op rd wr ord (g r)

/-- The answers of the access, by kind. -/
def KOne (op : BOp) (dec : Res (BitVec 8) → Res Bool) : Acc (BitVec 8) → Prop
  | .op (.load _) => ∀ x, op.kind (dec (.val x)) = .read
  | .op (.store _ _) => op.kind (dec .unit) = .store
  | .op (.swap _ _) | .op (.rmw _ _) =>
    ∀ x y, Sem op x y (dec (.val (byte x))) →
      op.kind (dec (.val (byte x))) = .write ∨ (op.kind (dec (.val (byte x))) = .read ∧ y = x)
  | .op (.cas _ _ _ _) | .casWeak _ _ _ _ =>
    (∀ x, op.kind (dec (.ok x)) = .write) ∧ ∀ x, op.kind (dec (.err x)) = .read
  | .peek => False

theorem wone_acc {op : BOp} {a : Acc (BitVec 8)} {dec : Res (BitVec 8) → Res Bool} (hO : OneOk (.acc a dec) op)
    (hp : dec .panic = .panic) (hK : KOne op dec a) (hs : a.succ.AtLeast op.succ) (hf : a.fail.AtLeast op.fail) :
    WOne op (.acc a dec) := by
  refine ⟨by rintro rfl; exact hK, fun i g rd wr ord r hc ho hv => ?_⟩
  obtain ⟨r0, e, h0⟩ := out_sem hc ho
  have hsem : ∀ x, (∀ y, rd = some y → y = byte x) → Valid (wr.getD (byte x)) ∧ Sem op x (ofByte (wr.getD (byte x))) (dec r0) :=
    fun x hx => hO x _ r0 (h0 _ hx)
  have hself : ∀ x, rd = some x → x = byte (ofByte x) := fun x hx => (hv x hx).eq_byte
  rw [← e] at hsem
  clear h0 e hO
  have hpk : op.kind (dec .panic) = .nothing := by rw [hp]; rfl
  have hrd : ∀ x, rd = some x → wr = none → Sem op (ofByte x) (ofByte x) (g r) := by
    intro x hx hw
    have := (hsem (ofByte x) (by intro y hy; rw [hx] at hy; cases hy; exact hself x hx)).2
    rwa [hw, Option.getD_none, ofByte_byte] at this
  have hwr : ∀ y, wr = some y → Valid y := by
    intro y hy
    cases rd with
    | none => have := (hsem true (by simp)).1; rwa [hy] at this
    | some x => have := (hsem (ofByte x) (by intro z hz; cases hz; exact hself x rfl)).1; rwa [hy] at this
  have hrw : ∀ x y, rd = some x → wr = some y → Sem op (ofByte x) (ofByte y) (g r) := by
    intro x y hx hy
    have := (hsem (ofByte x) (by intro z hz; rw [hx] at hz; cases hz; exact hself x hx)).2
    rwa [hy] at this
  refine ⟨hwr, ?_⟩
  cases hc with
  | op =>
    cases ho with
    | panic i h => exact ⟨hpk, fun x => by simpa [wspec] using (hsem x (by simp)).2⟩
    | load o y h => exact ⟨hK y, hrd y rfl rfl, hf⟩
    | store y o h => exact ⟨hK, fun z => by simpa [wspec] using (hsem z (by simp)).2, hs⟩
    | swap y o z =>
      have hz := hself z rfl
      have h := hrw z y rfl rfl
      rcases hK (ofByte z) (ofByte y) (by rw [← hz]; exact h) with k | ⟨k, e⟩ <;> rw [← hz] at k
      · exact .inl ⟨k, h, hs⟩
      · rw [e] at h; exact .inr (.inr ⟨k, e, h, hf⟩)
    | rmw u o z =>
      have hz := hself z rfl
      have h := hrw z (u z) rfl rfl
      rcases hK (ofByte z) (ofByte (u z)) (by rw [← hz]; exact h) with k | ⟨k, e⟩ <;> rw [← hz] at k
      · exact .inl ⟨k, h, hs⟩
      · rw [e] at h; exact .inr (.inr ⟨k, e, h, hf⟩)
    | casOk c n s f h => exact .inl ⟨hK.1 c, hrw c n rfl rfl, hs⟩
    | casErr c n s f y h hy => exact ⟨hK.2 y, hrd y rfl rfl, hf⟩
  | cas c n s q =>
    cases ho with
    | panic i h => exact ⟨hpk, fun x => by simpa [wspec] using (hsem x (by simp)).2⟩
    | casOk _ _ _ _ h => exact .inl ⟨hK.1 c, hrw c n rfl rfl, hs⟩
    | casErr _ _ _ _ y h hy => exact ⟨hK.2 y, hrd y rfl rfl, hf⟩
  | spur c n s q =>
    cases ho with
    | panic i h => exact ⟨hpk, fun x => by simpa [spurious, wspec] using (hsem x (by simp)).2⟩
    | load _ y h => exact ⟨hK.2 y, hrd y rfl rfl, hf⟩

theorem kone_rmw {op : BOp} {dec : Res (BitVec 8) → Res Bool} {g : BitVec 8 → BitVec 8} {o : MemOrd}
    (h : ∀ x y r, Sem op x y r → op.kind r = .write ∨ (op.kind r = .read ∧ y = x)) :
    KOne op dec (.op (.rmw g o)) := fun x y hs => h x y _ hs

/-- The access of a compare-exchange. -/
theorem wone_cas {amo c n s f} {op : BOp} {p : One} (hO : OneOk p op)
    (hp : p = compareExchange amo c n s f ∨ p = compareExchangeWeak amo c n s f)
    (hop : op = .compareExchange c n s f ∨ op = .compareExchangeWeak c n s f) : WOne op p := by
  have h1 : op.succ = s ∧ op.fail = f := by rcases hop with rfl | rfl <;> exact ⟨rfl, rfl⟩
  have hK : ∀ x y r, Sem op x y r → r ≠ .panic → op.kind r = .write ∨ (op.kind r = .read ∧ y = x) := by
    intro x y r h hr
    rcases hop with rfl | rfl <;> cases h <;> simp_all [BOp.kind]
  have hk2 : ∀ x, op.kind (.ok x) = .write := by rcases hop with rfl | rfl <;> exact fun _ => rfl
  have hk3 : ∀ x, op.kind (.err x) = .read := by rcases hop with rfl | rfl <;> exact fun _ => rfl
  cases hpp : p with
  | panic =>
    rw [hpp] at hO
    exact ⟨rfl, hO⟩
  | acc a dec =>
    rw [hpp] at hO
    have ho := cas_order amo c n s f a dec (by rcases hp with e | e <;> [left; right] <;> rw [← e, hpp])
    rw [← h1.1, ← h1.2] at ho
    rw [h1.1, h1.2] at ho
    have hpp' : compareExchange amo c n s f = .acc a dec ∨ compareExchangeWeak amo c n s f = .acc a dec := by
      rcases hp with e | e
      · exact .inl (by rw [← e, hpp])
      · exact .inr (by rw [← e, hpp])
    have ho' : a.succ.AtLeast op.succ ∧ a.fail.AtLeast op.fail := by rw [h1.1, h1.2]; exact ho
    cases amo with
    | false =>
      rcases hpp' with e | e
      · simp only [compareExchange, Bool.false_eq_true, if_false, One.acc.injEq] at e
        obtain ⟨rfl, rfl⟩ := e
        exact wone_acc hO rfl ⟨fun x => hk2 _, fun x => hk3 _⟩ ho'.1 ho'.2
      · simp only [compareExchangeWeak, Bool.false_eq_true, if_false, One.acc.injEq] at e
        obtain ⟨rfl, rfl⟩ := e
        exact wone_acc hO rfl ⟨fun x => hk2 _, fun x => hk3 _⟩ ho'.1 ho'.2
    | true =>
      have e : compareExchange true c n s f = .acc a dec := hpp'.elim id id
      cases hf : MemOrd.assertCas s f with
      | panic => simp [compareExchange, hf] at e
      | ok =>
        simp only [compareExchange, hf, if_true, swap] at e
        have fin : ∀ g o, a = .op (.rmw g o) → dec = (fun r => okErr c (decVal r)) → WOne op (.acc a dec) := by
          rintro g o rfl rfl
          refine wone_acc hO rfl (fun x y h => hK x y _ h ?_) ho'.1 ho'.2
          simp only [decVal, okErr]
          split <;> simp
        split at e
        · simp only [fetchOr, One.map, One.acc.injEq] at e
          exact fin _ _ e.1.symm e.2.symm
        · cases n <;> simp only [fetchOr, fetchAnd, One.map, if_true, Bool.false_eq_true, if_false, One.acc.injEq] at e <;>
            exact fin _ _ e.1.symm e.2.symm

theorem wone_ok (amo : Bool) (op : BOp) (p : One) (h : start amo op = .one p) : WOne op p := by
  have hO := one_ok amo op p h
  have hord : ∀ a dec, op.simple → p = .acc a dec → a.succ.AtLeast op.succ ∧ a.fail.AtLeast op.fail := by
    rintro a dec hs rfl
    exact bool_ordering_kept amo op hs a _ (by show next amo (start amo op) = _; rw [h]; rfl)
  have fin : ∀ a dec, op.simple → p = .acc a dec → dec .panic = .panic → KOne op dec a → WOne op p := by
    rintro a dec hs rfl h1 h2
    exact wone_acc hO h1 h2 (hord a dec hs rfl).1 (hord a dec hs rfl).2
  cases op <;> simp only [start, Pc.one.injEq, reduceCtorEq] at h
  case load o => exact fin _ _ trivial h.symm rfl fun x => rfl
  case store v o => exact fin _ _ trivial h.symm rfl rfl
  case swap v o =>
    cases amo <;> cases v <;> exact fin _ _ trivial h.symm rfl fun x y hs => .inl rfl
  case compareExchange c n s f => exact wone_cas hO (.inl h.symm) (.inl rfl)
  case compareExchangeWeak c n s f => exact wone_cas hO (.inr h.symm) (.inr rfl)
  case fetchNand v o =>
    cases amo <;> cases v <;> exact fin _ _ trivial h.symm rfl fun x y hs => .inl rfl
  all_goals exact fin _ _ trivial h.symm rfl fun x y hs => .inl rfl

/-- `op` is still to take effect. -/
def WAt : Pc → BOp → Prop
  | .one p, op => WOne op p
  | .fin _, _ => False
  | .updStart s g f, op => op = .fetchUpdate s g f
  | .updLoop s g f hist prev, op => op = .fetchUpdate s g f ∧ (g ≠ .release ∧ g ≠ .acqRel) ∧ f hist prev ≠ none

/-- It has, and `r` is its result. -/
def WDn : Pc → Res Bool → Prop
  | .fin r', r => r' = r
  | .updLoop _ _ f hist prev, r => f hist prev = none ∧ r = .err prev
  | _, _ => False

/-- A read, in `fetch_update`, of a byte meaning `x`. -/
theorem wat_read {s g : MemOrd} {f : Closure Bool} (hist : List Bool) (x : Bool) (hg : g ≠ .release ∧ g ≠ .acqRel)
    {rd wr : Option (BitVec 8)} {ord : MemOrd} (hs : Skips ofByte rd wr)
    (hf : Sem (.fetchUpdate s g f) x x (.err x) → Fits wspec ofByte (.fetchUpdate s g f) rd wr ord (.err x)) :
    (Skips ofByte rd wr ∧ WAt (.updLoop s g f hist x) (.fetchUpdate s g f)) ∨
      ∃ r', Fits wspec ofByte (.fetchUpdate s g f) rd wr ord r' ∧ WDn (.updLoop s g f hist x) r' := by
  by_cases h : f hist x = none
  · exact .inr ⟨.err x, hf (.updateErr hist hg.1 hg.2 h), h, rfl⟩
  · exact .inl ⟨hs, rfl, hg, h⟩

def wsim (amo : Bool) : WSim (code amo) wspec where
  abs := ofByte
  inv := Valid
  at_ := WAt
  dn := WDn
  start op := by
    show WAt (start amo op) op
    cases h : start amo op with
    | one p => exact wone_ok amo op p h
    | fin r => cases op <;> simp [start] at h
    | updStart s g f => cases op <;> simp [start] at h; obtain ⟨rfl, rfl, rfl⟩ := h; rfl
    | updLoop => cases op <;> simp [start] at h
  tau := by
    intro l op k ha hn
    cases l with
    | one p =>
      cases p with
      | panic =>
        simp only [code, next, One.next, Next.tau.injEq] at hn
        subst hn
        exact .inr ⟨.panic, ha.1, ha.2, rfl⟩
      | acc => simp [code, next, One.next] at hn
    | fin => simp [code, next] at hn
    | updStart => simp [code, next, load, One.next] at hn
    | updLoop s g f hist prev =>
      obtain ⟨rfl, hg, hne⟩ := ha
      cases hf : f hist prev with
      | none => exact absurd hf hne
      | some nx =>
        simp only [code, next, hf] at hn
        cases hc : compareExchangeWeak amo prev nx s g with
        | acc => simp [hc, One.next] at hn
        | panic =>
          exfalso
          cases amo with
          | false => simp [compareExchangeWeak] at hc
          | true =>
            have h1 : MemOrd.assertCas s g = .ok := by cases g <;> simp_all [MemOrd.assertCas]
            simp only [compareExchangeWeak, compareExchange, h1, if_true, swap] at hc
            split at hc
            · simp [fetchOr, One.map] at hc
            · cases nx <;> simp [fetchOr, fetchAnd, One.map] at hc
  peek := by
    intro l op f y ha hn
    cases l with
    | one p =>
      cases p with
      | panic => simp [code, next, One.next] at hn
      | acc a dec =>
        simp only [code, next, One.next, Next.acc.injEq] at hn
        exact absurd hn.1 ha.1
    | fin => simp [code, next] at hn
    | updStart => simp [code, next, load, One.next] at hn
    | updLoop s g f hist prev =>
      obtain ⟨rfl, hg, hne⟩ := ha
      cases hf : f hist prev with
      | none => exact absurd hf hne
      | some nx =>
        simp only [code, next, hf] at hn
        have hw := wone_ok amo (.compareExchangeWeak prev nx s g) _ rfl
        cases hc : compareExchangeWeak amo prev nx s g with
        | acc a dec =>
          rw [hc] at hn hw
          simp only [One.next, Next.acc.injEq] at hn
          exact absurd hn.1 hw.1
        | panic => simp [hc, One.next] at hn
  acc := by
    intro l op a k i g rd wr ord r ha hn hc ho hv
    cases l with
    | one p =>
      cases p with
      | panic => simp [code, next, One.next] at hn
      | acc a dec =>
        simp only [code, next, One.next, Next.acc.injEq] at hn
        obtain ⟨rfl, rfl⟩ := hn
        obtain ⟨g', hc', e⟩ := calls_comp (k := Pc.fin) hc
        obtain ⟨h1, h2⟩ := ha.2 _ _ _ _ _ _ hc' ho hv
        exact ⟨h1, .inr ⟨g' r, h2, by rw [e]; rfl⟩⟩
    | fin => simp [code, next] at hn
    | updStart s q f =>
      obtain rfl := ha
      simp only [code, next, load, One.next, Next.acc.injEq] at hn
      obtain ⟨rfl, rfl⟩ := hn
      cases hc
      cases ho with
      | panic _ h =>
        have hq : q = .release ∨ q = .acqRel := by cases q <;> simp_all [Op.ordOk]
        exact ⟨by simp, .inr ⟨.panic, ⟨rfl, fun x => .updatePanic hq⟩, rfl⟩⟩
      | load _ x h =>
        have hq : ord ≠ .release ∧ ord ≠ .acqRel := by cases ord <;> simp_all [Op.ordOk]
        exact ⟨by simp, wat_read [] (ofByte x) hq (.inl rfl) fun hs => ⟨rfl, hs, atLeast_refl _⟩⟩
    | updLoop s q f hist prev =>
      obtain ⟨rfl, hq, hne⟩ := ha
      cases hf : f hist prev with
      | none => exact absurd hf hne
      | some nx =>
        simp only [code, next, hf] at hn
        have hw := wone_ok amo (.compareExchangeWeak prev nx s q) _ rfl
        cases hcc : compareExchangeWeak amo prev nx s q with
        | panic => simp [hcc, One.next] at hn
        | acc a dec =>
          rw [hcc] at hn hw
          simp only [One.next, Next.acc.injEq] at hn
          obtain ⟨rfl, rfl⟩ := hn
          obtain ⟨g', hc', e⟩ := calls_comp (k := afterCas s q f (hist ++ [prev])) hc
          obtain ⟨h1, h2⟩ := hw.2 _ _ _ _ _ _ hc' ho hv
          refine ⟨h1, ?_⟩
          rw [e]
          generalize g' r = r' at h2
          have herr : ∀ x, r' = .err x → ord.AtLeast q → (∃ z, rd = some z ∧ ofByte z = x) → Skips ofByte rd wr →
              (Skips ofByte rd wr ∧ WAt (afterCas s q f (hist ++ [prev]) r') (.fetchUpdate s q f)) ∨
              ∃ r'', Fits wspec ofByte (.fetchUpdate s q f) rd wr ord r'' ∧ WDn (afterCas s q f (hist ++ [prev]) r') r'' := by
            rintro x rfl hord ⟨z, rfl, rfl⟩ hsk
            refine wat_read _ _ hq hsk fun hs => ?_
            rcases hsk with rfl | ⟨x', y', e1, rfl, e2⟩
            · exact ⟨rfl, hs, hord⟩
            · cases e1; exact .inr (.inr ⟨rfl, e2, hs, hord⟩)
          cases rd with
          | none =>
            cases wr with
            | none =>
              obtain ⟨-, h2⟩ := h2
              cases h2 true with
              | casWeakPanic hb => rcases hb with hb | hb <;> simp [hb] at hq
              | casWeakErr => cases h2 false
              | casWeakOk => cases h2 false
            | some y => cases r' <;> simp [Fits, wspec, BOp.kind] at h2
          | some x =>
            cases wr with
            | none =>
              obtain ⟨k1, k2, k3⟩ := h2
              generalize hx : ofByte x = bx at k2
              cases k2 with
              | casWeakErr => exact herr _ rfl k3 ⟨x, rfl, hx⟩ (.inl rfl)
              | casWeakOk => simp [wspec, BOp.kind] at k1
              | casWeakPanic => simp [wspec, BOp.kind] at k1
            | some y =>
              rcases h2 with ⟨k1, k2, k3⟩ | ⟨k1, -, -⟩ | ⟨k1, k2, k3, k4⟩
              · generalize hx : ofByte x = bx at k2
                generalize hy : ofByte y = bY at k2
                cases k2 with
                | casWeakErr => simp [wspec, BOp.kind] at k1
                | casWeakOk =>
                  refine .inr ⟨.ok prev, .inl ⟨rfl, ?_, k3⟩, rfl⟩
                  rw [hx, hy]
                  exact .updateOk hist hq.1 hq.2 hf
                | casWeakPanic => simp [wspec, BOp.kind] at k1
              · cases r' <;> simp [wspec, BOp.kind] at k1
              · generalize hx : ofByte x = bx at k3
                cases k3 with
                | casWeakErr => exact herr _ rfl k4 ⟨x, rfl, hx⟩ (.inr ⟨x, y, rfl, rfl, k2⟩)
                | casWeakOk => simp [wspec, BOp.kind] at k1
                | casWeakPanic => simp [wspec, BOp.kind] at k1
  ret := by
    intro l op r ha hn
    cases l with
    | one p => cases p <;> simp [code, next, One.next] at hn
    | fin => exact ha
    | updStart => simp [code, next, load, One.next] at hn
    | updLoop s g f hist prev =>
      cases hf : f hist prev with
      | none => exact ha.2.2 hf
      | some nx =>
        simp only [code, next, hf] at hn
        cases hc : compareExchangeWeak amo prev nx s g <;> simp [hc, One.next] at hn
  tau_dn := by
    intro l r k hd hn
    cases l with
    | one p => exact hd.elim
    | fin => simp [code, next] at hn
    | updStart => exact hd.elim
    | updLoop s g f hist prev => simp [code, next, hd.1] at hn
  acc_dn := by
    intro l r a f hd hn
    cases l with
    | one p => exact hd.elim
    | fin => simp [code, next] at hn
    | updStart => exact hd.elim
    | updLoop s g f hist prev => simp [code, next, hd.1] at hn
  ret_dn := by
    intro l r r' hd hn
    cases l with
    | one p => exact hd.elim
    | fin q =>
      simp only [code, next, Next.ret.injEq] at hn
      exact hn.symm.trans hd
    | updStart => exact hd.elim
    | updLoop s g f hist prev =>
      simp only [code, next, hd.1, Next.ret.injEq] at hn
      exact hn.symm.trans hd.2.symm

/-- **C57 (booleans).**  Also where a compare-exchange of a boolean is made with one AND or OR. -/
theorem bool_weak_memory {X : Type} (amo : Bool) (v0 : Obj → BitVec 8) (h0 : ∀ o, v0 o = 0 ∨ v0 o = 1) (x0 : Nat → X)
    {ho : List (WM.Derived.Ev BOp (Res Bool) X)} (h : Over (code amo) (Native.Behaviour v0 x0) ho) :
    WM.Derived.Behaviour wspec (fun o => v0 o != 0) x0 ho :=
  wrap_refines (wsim amo) v0 x0 h0 h

end Verif.Bool

/-! ## The hypotheses are met -/

namespace Verif.WM.DerivedDemo
open Verif.WM Verif.WM.Derived Verif.Int Verif.WM.WmDemo
open Verif.Lf (Closure)

abbrev K : Backend := .core true false false
abbrev A := Avail 128 true K

def op (x : IOp 128) (h : (prog true K x).isSome := by rfl) : A := ⟨x, h⟩

/-- `None` on 9. -/
def clo : Closure (BitVec 128) := fun _ x => if x = 9 then none else some (x &&& 4)

/-- Thread 0 sets its variable to 7 and then makes `fetch_max(9, Release)` (a loop on this implementation);
thread 2's store makes its first compare-exchange fail, the second fails for no reason.  Thread 1 makes
`fetch_update(Relaxed, Acquire, ..)`, whose closure says `None`, and then reads the variable. -/
def outer : List (WCmd (BitVec 128) A Nat) :=
  [.client 0 (.store 0 7 .relaxed) none, .call 0 0 (op (.fetchBinF .max 9 .release)), .acc 0 false, .res 0 (.val 5),
   .call 2 0 (op (.store 3 .relaxed)), .acc 2 false, .res 2 .unit, .ret 2,
   .acc 0 false, .res 0 (.err 3), .acc 0 true, .res 0 (.val 3), .acc 0 false, .res 0 (.ok 3), .ret 0,
   .call 1 0 (op (.fetchUpdate .relaxed .acquire clo)), .acc 1 false, .res 1 (.val 9), .ret 1,
   .client 1 (.load 0 .relaxed) (some 7)]

/-- What the 128-bit atomics under it do. -/
def inner : List (Lock.Cmd (BitVec 128) Nat) :=
  [.store 0 0 7 .relaxed, .call 0 0 (.load .relaxed)] ++ List.replicate 5 (.go 0 0) ++ [.ret 0 (.val 5),
   .call 2 0 (.store 3 .relaxed)] ++ List.replicate 5 (.go 2 0) ++ [.ret 2 .unit,
   .call 0 0 (.cas 5 9 .release .relaxed)] ++ List.replicate 5 (.go 0 0) ++ [.ret 0 (.err 3),
   .call 0 0 (.load .relaxed)] ++ List.replicate 5 (.go 0 0) ++ [.ret 0 (.val 3),
   .call 0 0 (.cas 3 9 .release .relaxed)] ++ List.replicate 7 (.go 0 0) ++ [.ret 0 (.ok 3),
   .call 1 0 (.load .acquire)] ++ List.replicate 5 (.go 1 0) ++ [.ret 1 (.val 9),
   .load 1 0 .relaxed 0 7]

theorem inner_runs : (Lock.run s0 inner).isSome = true := by decide +kernel

/-- The history. -/
def hist : List (Derived.Ev A (IRes 128) Nat) :=
  [.client 0 (.store 0 7 .relaxed) none, .inv 0 0 (op (.fetchBinF .max 9 .release)), .inv 2 0 (op (.store 3 .relaxed)),
   .ret 2 (.res .unit), .ret 0 (.res (.val 3)), .inv 1 0 (op (.fetchUpdate .relaxed .acquire clo)),
   .ret 1 (.res (.err 9)), .client 1 (.load 0 .relaxed) (some 7)]

theorem runs : ∃ w, wrun (codeOf 128 true K) (X := Nat) ⟨[], [], fun _ => .idle⟩ outer = some w ∧
    w.hi = inner.filterMap Lock.Cmd.ev ∧ w.ho = hist := ⟨_, rfl, rfl, rfl⟩

theorem small' : Lock.calls (inner.filterMap (Lock.Cmd.ev (V := BitVec 128) (X := Nat))) < cfg.maxOverlap :=
  small (by decide)

theorem over_lock : Over (codeOf 128 true K)
    (fun hi => Lock.Behaviour cfg (fun _ => 5) (fun _ => (0 : Nat)) hi ∧ Lock.calls hi < cfg.maxOverlap) hist := by
  obtain ⟨w, h1, h2, h3⟩ := runs
  have := over_of_run (B := fun hi => Lock.Behaviour cfg (fun _ => 5) (fun _ => (0 : Nat)) hi ∧ Lock.calls hi < cfg.maxOverlap)
    h1 (by rw [h2]; exact ⟨behaviour inner_runs, small'⟩)
  rwa [h3] at this

/-- The hypothesis of `int_weak_memory_lock`. -/
example : WM.Derived.Behaviour ((wspec 128 true).sub _) (fun _ => 5) (fun _ => (0 : Nat)) hist :=
  int_weak_memory_lock 7 true K ok _ _ over_lock

/-- The hypothesis of `int_weak_memory`. -/
example : WM.Derived.Behaviour ((wspec 128 true).sub _) (fun _ => 5) (fun _ => (0 : Nat)) hist :=
  int_weak_memory 7 true K _ _ (over_lock.mono fun _ k => fallback_refines_native ok.toSound (fun o => ok.full o _) k.1 k.2)

end Verif.WM.DerivedDemo

namespace Verif.WM.DerivedDemo
open Verif.WM Verif.WM.Derived
open Verif.WM.Lock (Cmd)

/-- A boolean compare-exchange that fails, made with an OR of `false`: it writes, but what it writes is what was
there.  Thread 1 still gets the variable of thread 0. -/
def bOuter : List (WCmd (BitVec 8) Verif.Bool.BOp Nat) :=
  [.client 0 (.store 0 7 .relaxed) none, .call 0 0 (.store true .release), .acc 0 false, .res 0 .unit, .ret 0,
   .call 1 0 (.compareExchange false false .relaxed .acquire), .acc 1 false, .res 1 (.val 1), .ret 1,
   .client 1 (.load 0 .relaxed) (some 7)]

def bInner : List (Cmd (BitVec 8) Nat) :=
  [.store 0 0 7 .relaxed, .call 0 0 (.store 1 .release), .go 0 0, .ret 0 .unit,
   .call 1 0 (.rmw (· ||| 0) .acquire), .go 1 0, .ret 1 (.val 1), .load 1 0 .relaxed 0 7]

example : WM.Derived.Behaviour Verif.Bool.wspec (fun _ => false) (fun _ => (0 : Nat))
    [.client 0 (.store 0 7 .relaxed) none, .inv 0 0 (.store true .release), .ret 0 .unit,
     .inv 1 0 (.compareExchange false false .relaxed .acquire), .ret 1 (.err true),
     .client 1 (.load 0 .relaxed) (some 7)] := by
  have hb : Native.Behaviour (fun _ => (0 : BitVec 8)) (fun _ => (0 : Nat)) (bInner.filterMap Cmd.ev) :=
    Native.behaviour_of_run (by decide +kernel)
  have hr : ∃ w, wrun (Verif.Bool.code true) (X := Nat) ⟨[], [], fun _ => .idle⟩ bOuter = some w ∧
      w.hi = bInner.filterMap Cmd.ev ∧ w.ho =
    [.client 0 (.store 0 7 .relaxed) none, .inv 0 0 (.store true .release), .ret 0 .unit,
     .inv 1 0 (.compareExchange false false .relaxed .acquire), .ret 1 (.err true),
     .client 1 (.load 0 .relaxed) (some 7)] := ⟨_, rfl, rfl, rfl⟩
  obtain ⟨w, h1, h2, h3⟩ := hr
  have := Verif.Bool.bool_weak_memory true (fun _ => 0) (fun _ => .inl rfl) (fun _ => (0 : Nat))
    (over_of_run h1 (by rw [h2]; exact hb))
  rwa [h3] at this

/-- A pointer to 12-byte elements, `fetch_ptr_sub(3, AcqRel)` by a loop that fails once for no reason. -/
example : WM.Derived.Behaviour ((Verif.Ptr.wspec 16 12).sub fun op => (Verif.Ptr.prog 12 .strictLoop op).isSome)
    (fun _ => 16) (fun _ => (0 : Nat))
    [.inv 0 1 (Verif.Ptr.demoOp (.fetchPtrSub 3 .acqRel)), .ret 0 (.res (.val 16)),
     .inv 0 1 (Verif.Ptr.demoOp (.load .relaxed)), .ret 0 (.res (.val 65516))] := by
  have hb : Native.Behaviour (fun _ => (16 : BitVec 16)) (fun _ => (0 : Nat))
      (([.call 0 1 (.load .relaxed), .go 0 0, .ret 0 (.val 16), .call 0 1 (.load .relaxed), .go 0 0, .ret 0 (.val 16),
        .call 0 1 (.cas 16 (16 - 3 * 12) .acqRel .relaxed), .go 0 0, .ret 0 (.ok 16),
        .call 0 1 (.load .relaxed), .go 0 0, .ret 0 (.val 65516)] : List (Cmd (BitVec 16) Nat)).filterMap Cmd.ev) :=
    Native.behaviour_of_run (by decide +kernel)
  have hr : ∃ w, wrun (Verif.Ptr.codeOf (2 ^ 4) 12 .strictLoop) (X := Nat) ⟨[], [], fun _ => .idle⟩
      [.call 0 1 (Verif.Ptr.demoOp (.fetchPtrSub 3 .acqRel)), .acc 0 false, .res 0 (.val 16), .acc 0 true, .res 0 (.val 16),
       .acc 0 false, .res 0 (.ok 16), .ret 0, .call 0 1 (Verif.Ptr.demoOp (.load .relaxed)), .acc 0 false,
       .res 0 (.val 65516), .ret 0] = some w ∧
      w.hi = (([.call 0 1 (.load .relaxed), .go 0 0, .ret 0 (.val 16), .call 0 1 (.load .relaxed), .go 0 0, .ret 0 (.val 16),
        .call 0 1 (.cas 16 (16 - 3 * 12) .acqRel .relaxed), .go 0 0, .ret 0 (.ok 16),
        .call 0 1 (.load .relaxed), .go 0 0, .ret 0 (.val 65516)] : List (Cmd (BitVec 16) Nat)).filterMap Cmd.ev) ∧ w.ho =
      [.inv 0 1 (Verif.Ptr.demoOp (.fetchPtrSub 3 .acqRel)), .ret 0 (.res (.val 16)),
       .inv 0 1 (Verif.Ptr.demoOp (.load .relaxed)), .ret 0 (.res (.val 65516))] := ⟨_, rfl, rfl, rfl⟩
  obtain ⟨w, h1, h2, h3⟩ := hr
  have := Verif.Ptr.ptr_weak_memory 4 12 .strictLoop (fun _ => 16) (fun _ => (0 : Nat))
    (over_of_run h1 (by rw [h2]; exact hb))
  rwa [h3] at this

open Verif.Float in
def fInner : List (Cmd (BitVec 8) Nat) :=
  [.call 0 1 (.load .relaxed), .go 0 0, .ret 0 (.val 127), .call 1 1 (.rmw (· ^^^ negMask 8) .relaxed), .go 1 0,
   .ret 1 (.val 127), .call 0 1 (.cas 127 ((toyAdd 3).out [] 127) .acqRel .relaxed), .go 0 0, .ret 0 (.err 255),
   .call 0 1 (.cas 255 ((toyAdd 3).out [127] 255) .acqRel .relaxed), .go 0 0, .ret 0 (.ok 255)]

open Verif.Float in
/-- A float addition by a loop, whose first compare-exchange fails because the sign was changed. -/
example : WM.Derived.Behaviour ((Verif.Float.wspec false toy demoB).sub fun op => (Verif.Float.prog false op).isSome)
    (fun _ => 127) (fun _ => (0 : Nat))
    [.inv 0 1 (demoOp (.arith .add 3 .acqRel (toyAdd 3))), .inv 1 1 (demoOp (.fetchNeg .relaxed)),
     .ret 1 (.res (.val 127)), .ret 0 (.res (.val 255))] := by
  have hb : Native.Behaviour (fun _ => (127 : BitVec 8)) (fun _ => (0 : Nat)) (fInner.filterMap Cmd.ev) :=
    Native.behaviour_of_run (by decide +kernel)
  have hr : ∃ w, wrun (Verif.Float.codeOf (w := 2 ^ 3) false toy demoB) (X := Nat) ⟨[], [], fun _ => .idle⟩
      [.call 0 1 (demoOp (.arith .add 3 .acqRel (toyAdd 3))), .acc 0 false, .res 0 (.val 127),
       .call 1 1 (demoOp (.fetchNeg .relaxed)), .acc 1 false, .res 1 (.val 127), .ret 1,
       .acc 0 false, .res 0 (.err 255), .acc 0 false, .res 0 (.ok 255), .ret 0] = some w ∧
      w.hi = fInner.filterMap Cmd.ev ∧ w.ho =
      [.inv 0 1 (demoOp (.arith .add 3 .acqRel (toyAdd 3))), .inv 1 1 (demoOp (.fetchNeg .relaxed)),
       .ret 1 (.res (.val 127)), .ret 0 (.res (.val 255))] := ⟨_, rfl, rfl, rfl⟩
  obtain ⟨w, h1, h2, h3⟩ := hr
  have := Verif.Float.float_weak_memory 3 false toy demoB (fun _ => 127) (fun _ => (0 : Nat))
    (over_of_run h1 (by rw [h2]; exact hb))
  rwa [h3] at this

end Verif.WM.DerivedDemo
