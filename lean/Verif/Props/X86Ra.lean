import Verif.Props.X86Tso
import Verif.Tso.RaRun
/-!
# 128-bit atomics on x86_64: release, acquire and sequentially consistent orderings (C52)

`RaConsistent` (`Spec.Ra`) is the usual axiomatic definition: reads-from, modification order, happens-before, and an order of the
sequentially consistent operations. It is stated for any number of threads and of 16-byte objects, all stores being at least
`Release` and all loads at least `Acquire` whatever was asked for.
-/
set_option autoImplicit false
namespace Verif.X86.Fn
open Verif.Lf Verif.Object Verif.Wide Verif.Tso

variable {K : Type} [DecidableEq K]

/-- **C52a.** Histories of the back end on x86's memory have the release/acquire guarantees and those of `SeqCst` operations
and fences. -/
theorem x86_ra (E : Env) (ok : E.Ok) (hc : E.Cx16) (m : K → BitVec 128)
    (h : List (Object.Ev (K × Call) (Option (Res (BitVec 128))))) (s)
    (hx : Runs (tso K (code E) locked) (Mem.flat m) h s) : RaConsistent spec cls m h := by
  obtain ⟨s', hr, -⟩ := x86_native_tso E ok hc _ h s hx
  exact native_ra hr

/-- **C52b.** Publication: when a thread stores to an object and then stores a flag, a thread that has read that flag and then reads
the object sees that store or a newer one. -/
theorem ra_publication {m : K → BitVec 128} {D : Tid → List (Act (K × Call) (Option (Res (BitVec 128))))} {rf mo val sc}
    (R : RaOrder spec cls m D rf mo val sc) {data flag r e : Event} {k : K} (h1 : Po D data flag) (h2 : rf r = some flag)
    (hr : Is cls D Cls.reads r) (h3 : Po D r e) (hw : IsOn cls D Cls.writes data k) (he : IsOn cls D Cls.reads e k) :
    ∃ w, rf e = some w ∧ mo data ≤ mo w := by
  have a : Hb cls D rf data flag := .single (Or.inl h1)
  have b : Hb cls D rf data r := .tail a (Or.inr ⟨h2, hr⟩)
  exact R.cowr data e k hw he (.tail b (Or.inl h3))

/-! ## Concrete cases -/

/-- Message passing: the second thread sees the flag but not the data. -/
def mp : List (Object.Ev (Bool × Call) (Option (Res (BitVec 128)))) :=
  [.inv 0 (false, st 1 .release ⟨by decide, by decide⟩), .ret 0 (some .unit),
   .inv 0 (true, st 1 .release ⟨by decide, by decide⟩), .ret 0 (some .unit),
   .inv 1 (true, ld), .ret 1 (some (.val 1)), .inv 1 (false, ld), .ret 1 (some (.val 0))]

theorem ld_sem {x y v : BitVec 128} (h : spec.sem ld x y (some (.val v))) : x = v := by
  obtain ⟨w, hw, -, hr⟩ := h
  rw [show w = .val x from hr] at hw
  simp at hw
  exact hw.symm

/-- The definition excludes it, … -/
theorem mp_not_ra : ¬ RaConsistent spec cls (fun _ => 0) mp := by
  rintro ⟨D, rf, mo, val, sc, R, h⟩
  have hD : ∀ t, t ≠ 0 → t ≠ 1 → D t = [] := by
    intro t e0 e1
    have := (h t).1
    have e : calls t mp = [] := by simp [calls, mp, Ne.symm e0, Ne.symm e1]
    rw [e] at this
    simpa using this
  obtain ⟨a, b, f0, ha, hb, -⟩ := two (of_prefixes (h 0).1 (h 0).2 rfl)
  have h1 := of_prefixes (h 1).1 (h 1).2 rfl
  obtain ⟨c, d, f1, hcc, hd, hdr⟩ := two h1
  have hcr : c.r = some (.val 1) := by
    have := h1.2
    rw [f1] at this
    simp [results, mp] at this
    exact this.1
  have hla : (D ((0, 0) : Event).1)[((0, 0) : Event).2]? = some a := by simp [f0]
  have hlb : (D ((0, 1) : Event).1)[((0, 1) : Event).2]? = some b := by simp [f0]
  have hlc : (D ((1, 0) : Event).1)[((1, 0) : Event).2]? = some c := by simp [f1]
  have hld : (D ((1, 1) : Event).1)[((1, 1) : Event).2]? = some d := by simp [f1]
  have wr : ∀ w k, IsOn cls D Cls.writes w k → w = if k then (0, 1) else (0, 0) := by
    rintro ⟨t, i⟩ k ⟨x, hx, hw, hk⟩
    by_cases e0 : t = 0
    · subst e0
      rw [f0] at hx
      match i with
      | 0 => simp at hx; subst hx; rw [ha] at hk; subst hk; rfl
      | 1 => simp at hx; subst hx; rw [hb] at hk; subst hk; rfl
      | i + 2 => simp at hx
    by_cases e1 : t = 1
    · subst e1
      rw [f1] at hx
      match i with
      | 0 => simp at hx; subst hx; rw [hcc] at hw; cases hw
      | 1 => simp at hx; subst hx; rw [hd] at hw; cases hw
      | i + 2 => simp at hx
    rw [hD t e0 e1] at hx; simp at hx
  have rc : IsOn cls D Cls.reads (1, 0) true := ⟨c, hlc, by rw [hcc]; rfl, by rw [hcc]⟩
  have rd : IsOn cls D Cls.reads (1, 1) false := ⟨d, hld, by rw [hd]; rfl, by rw [hd]⟩
  have wa : IsOn cls D Cls.writes (0, 0) false := ⟨a, hla, by rw [ha]; rfl, by rw [ha]⟩
  have ca := R.load (1, 0) c hlc (by rw [hcc]; rfl)
  have cd := R.load (1, 1) d hld (by rw [hd]; rfl)
  rw [hcc, hcr] at ca
  rw [hd, hdr] at cd
  have ca := ld_sem ca
  have cd := ld_sem cd
  cases hrc : rf (1, 0) with
  | none => simp [source, hrc] at ca
  | some w =>
    have hw : w = (0, 1) := wr w true (R.rf_write _ _ _ rc hrc)
    obtain ⟨w', h4, -⟩ := ra_publication R (data := (0, 0)) (flag := (0, 1)) (r := (1, 0)) (e := (1, 1))
      ⟨rfl, by decide, by simp [f0]⟩ (by rw [hrc, hw]) rc.is ⟨rfl, by decide, by simp [f1]⟩ wa rd
    have hw' : w' = (0, 0) := wr w' false (R.rf_write _ _ _ rd h4)
    have := (R.store (0, 0) a 1 false hla (by rw [ha]; rfl)).1
    simp [source, h4, hw', this] at cd

/-- … so the back end never does that, … -/
theorem mp_never (E : Env) (ok : E.Ok) (hc : E.Cx16) (s) : ¬ Runs (tso Bool (code E) locked) (Mem.flat fun _ => 0) mp s :=
  fun hx => mp_not_ra (x86_ra E ok hc _ _ _ hx)

/-- … while store buffering, which happens, is consistent. -/
theorem sb_ra : RaConsistent spec cls (fun _ => 0) sb := by
  obtain ⟨s, h⟩ := sb_runs
  exact x86_ra ex (by constructor <;> first | decide | exact ⟨by decide, by decide⟩) (Or.inr (by decide)) _ _ _ h

end Verif.X86.Fn
