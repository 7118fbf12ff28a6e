import Verif.Spec.Script
import Verif.Build.FlagsProof
import Verif.Build.VersionProof
/-!
# The loops of the build script over `-C target-feature`, and the names of Arm targets
-/
set_option autoImplicit false
namespace Verif.Build.Script
open Spec (Reaches applyFlag enabled)

/-! ## Tracking one feature -/

/-- Set by the names in `U` with a plus, cleared by the names in `D` with a minus. -/
def track (U D : List Str) (s : Bool) (x : Bool × Str) : Bool :=
  if x.1 then (if x.2 ∈ U then true else s) else (if x.2 ∈ D then false else s)

theorem track_sound {imp : Str → Str → Prop} {U D : List Str} {t : Str} (hU : ∀ n ∈ U, Reaches imp n t)
    (hD : ∀ g, Reaches imp t g → g ∈ D) (flags : List (Bool × Str)) (b : Bool) (S : Str → Prop)
    (h0 : b = true → S t) (h : flags.foldl (track U D) b = true) : enabled imp S flags t := by
  induction flags generalizing b S with
  | nil => exact h0 h
  | cons x flags ih =>
    refine ih (track U D b x) (applyFlag imp S x) ?_ h
    obtain ⟨e, n⟩ := x
    intro ht
    cases e with
    | true =>
      simp only [track, if_true] at ht
      split at ht
      · exact .inr (hU n ‹_›)
      · exact .inl (h0 ht)
    | false =>
      simp only [track, Bool.false_eq_true, if_false] at ht
      split at ht
      · exact absurd ht (by simp)
      · exact ⟨h0 ht, fun hr => ‹¬ n ∈ D› (hD n hr)⟩

theorem track_complete {imp : Str → Str → Prop} {U D : List Str} {t : Str} (flags : List (Bool × Str))
    (hU : ∀ n, (true, n) ∈ flags → Reaches imp n t → n ∈ U) (hD : ∀ g ∈ D, Reaches imp t g) (b : Bool)
    (S : Str → Prop) (h0 : S t → b = true) (h : enabled imp S flags t) : flags.foldl (track U D) b = true := by
  induction flags generalizing b S with
  | nil => exact h0 h
  | cons x flags ih =>
    refine ih (fun n hn => hU n (List.mem_cons_of_mem _ hn)) (track U D b x) (applyFlag imp S x) ?_ h
    obtain ⟨e, n⟩ := x
    intro ht
    cases e with
    | true =>
      simp only [track, if_true]
      split
      · rfl
      · rcases ht with ht | ht
        · exact h0 ht
        · exact absurd (hU n (by simp) ht) ‹_›
    | false =>
      simp only [track, Bool.false_eq_true, if_false]
      split
      · exact absurd (hD n ‹_›) ht.2
      · exact h0 ht.1

theorem foldl_field {σ : Type} (step : σ → Bool × Str → σ) (π : σ → Bool) (U D : List Str)
    (h : ∀ s x, π (step s x) = track U D (π s) x) (flags : List (Bool × Str)) (s : σ) :
    π (flags.foldl step s) = flags.foldl (track U D) (π s) := by
  induction flags generalizing s with
  | nil => rfl
  | cons x flags ih => rw [List.foldl_cons, List.foldl_cons, ih, h]

/-- Either the name is in a list of literals, or it is different from each. -/
theorem by_name (ns : List Str) {P : Bool × Str → Prop} (h1 : ∀ n ∈ ns, ∀ e, P (e, n))
    (h2 : ∀ n, n ∉ ns → ∀ e, P (e, n)) (x : Bool × Str) : P x := by
  obtain ⟨e, n⟩ := x
  by_cases h : n ∈ ns
  · exact h1 n h e
  · exact h2 n h e

macro "steps" ns:term : tactic => `(tactic| (
  intro s
  refine by_name $ns ?_ ?_
  · simp only [List.forall_mem_cons, List.not_mem_nil, false_implies, implies_true, and_true]
    repeat' apply And.intro
    all_goals (intro e; cases e <;> rfl)
  · intro n h e
    simp only [List.mem_cons, List.not_mem_nil, or_false, not_or] at h
    simp only [x86Step, a64Step, armStep, rvStep, ppcStep, zStep, avrStep, track, List.mem_cons,
      List.not_mem_nil, or_false, h, if_false, if_true, ite_self, false_and, Bool.not_true, Bool.not_false,
      Bool.false_eq_true, List.append_nil, List.cons_append, List.nil_append]))

theorem x86_field : ∀ s x, x86Step s x = track [bs!"cmpxchg16b"] [bs!"cmpxchg16b"] s x := by
  steps [bs!"cmpxchg16b"]
theorem ppc_field : ∀ s x, ppcStep s x = track [bs!"quadword-atomics"] [bs!"quadword-atomics"] s x := by
  steps [bs!"quadword-atomics"]
theorem avr_field : ∀ s x, avrStep s x = track [bs!"rmw"] [bs!"rmw"] s x := by steps [bs!"rmw"]

local macro "zsteps" : tactic => `(tactic| steps [bs!"fast-serialization", bs!"load-store-on-cond",
  bs!"distinct-ops", bs!"miscellaneous-extensions-3"])
theorem z_fs : ∀ s x, (zStep s x).fastSerialization =
    track [bs!"fast-serialization"] [bs!"fast-serialization"] s.fastSerialization x := by zsteps
theorem z_ls : ∀ s x, (zStep s x).loadStoreOnCond =
    track [bs!"load-store-on-cond"] [bs!"load-store-on-cond"] s.loadStoreOnCond x := by zsteps
theorem z_do : ∀ s x, (zStep s x).distinctOps =
    track [bs!"distinct-ops"] [bs!"distinct-ops"] s.distinctOps x := by zsteps
theorem z_m3 : ∀ s x, (zStep s x).miscExt3 =
    track [bs!"miscellaneous-extensions-3"] [bs!"miscellaneous-extensions-3"] s.miscExt3 x := by zsteps

local macro "asteps" : tactic => `(tactic| steps [bs!"lsfe", bs!"lse2", bs!"lse128", bs!"lse", bs!"rcpc3",
  bs!"rcpc", bs!"rcpc2"])
theorem a_lse : ∀ s x, (a64Step true s x).lse = track [bs!"lse", bs!"lse128"] [bs!"lse"] s.lse x := by asteps
theorem a_lse2 : ∀ s x, (a64Step true s x).lse2 = track [bs!"lse2"] [bs!"lse2"] s.lse2 x := by asteps
theorem a_lse128 : ∀ s x, (a64Step true s x).lse128 =
    track [bs!"lse128"] [bs!"lse128", bs!"lse"] s.lse128 x := by asteps
theorem a_rcpc3 : ∀ s x, (a64Step true s x).rcpc3 =
    track [bs!"rcpc3"] [bs!"rcpc3", bs!"rcpc2", bs!"rcpc"] s.rcpc3 x := by asteps
theorem a_lsfe (u : Bool) : ∀ s x, (a64Step u s x).lsfe = track [bs!"lsfe"] [bs!"lsfe"] s.lsfe x := by
  cases u <;> asteps

local macro "msteps" : tactic => `(tactic| steps [bs!"v8", bs!"v8m.main", bs!"v8.1m.main", bs!"mve", bs!"mve.fp",
  bs!"v7", bs!"v6t2", bs!"v6k", bs!"v8m", bs!"v6m", bs!"thumb2", bs!"v6", bs!"v5te", bs!"mclass"])
theorem m_v7 : ∀ s x, (armStep s x).v7 =
    track [bs!"v7", bs!"v8", bs!"v8m.main", bs!"v8.1m.main", bs!"mve", bs!"mve.fp"]
      [bs!"v7", bs!"v6t2", bs!"v6k", bs!"v8m", bs!"v6m", bs!"thumb2", bs!"v6", bs!"v5te"] s.v7 x := by msteps
theorem m_v6 : ∀ s x, (armStep s x).v6 =
    track [bs!"v6", bs!"v8", bs!"v8m.main", bs!"v8.1m.main", bs!"mve", bs!"mve.fp", bs!"v7", bs!"v6t2",
      bs!"v6k", bs!"v8m", bs!"v6m"] [bs!"v6", bs!"v5te"] s.v6 x := by msteps
theorem m_mclass : ∀ s x, (armStep s x).mclass = track [bs!"mclass"] [bs!"mclass"] s.mclass x := by msteps

local macro "rsteps" : tactic => `(tactic| steps [bs!"zacas", bs!"zaamo", bs!"a", bs!"rva23u64", bs!"zabha"])
theorem r_zacas (a b : Bool) : ∀ s x, (rvStep a b s x).zacas =
    track [bs!"zacas"] [bs!"zacas", bs!"zaamo"] s.zacas x := by cases a <;> cases b <;> rsteps
theorem r_zabha : ∀ s x, (rvStep true true s x).zabha =
    track [bs!"zabha"] [bs!"zabha", bs!"zaamo"] s.zabha x := by rsteps
theorem r_zaamo (b : Bool) : ∀ s x, (rvStep true b s x).zaamo =
    track ([bs!"zaamo", bs!"zacas", bs!"a", bs!"rva23u64"] ++ if b then [bs!"zabha"] else []) [bs!"zaamo"]
      s.zaamo x := by
  cases b <;> rsteps

/-! ## Names of Arm targets -/

/-- The pieces of the name after `arm` and `eb`, L419-423. -/
def pieces (sub : Str) : Str × Str :=
  let i := splitn isDot 2 ((split isDash sub)[0]?.getD [])
  (i[0]?.getD [], i[1]?.getD [])

theorem pieces_eq {base suffix rest : Str} (h1 : (45 : Byte) ∉ base ++ suffix) (h2 : (46 : Byte) ∉ base)
    (h3 : suffix = [] ∨ ∃ s, suffix = 46 :: s) (h4 : rest = [] ∨ ∃ r, rest = 45 :: r) :
    pieces ((base ++ suffix) ++ rest) = (base, suffix.drop 1) := by
  have hd : ∀ b ∈ base ++ suffix, isDash b = false := by
    intro b hb
    simp only [isDash, beq_eq_false_iff_ne, ne_eq]
    rintro rfl; exact h1 hb
  have hdot : ∀ b ∈ base, isDot b = false := by
    intro b hb
    simp only [isDot, beq_eq_false_iff_ne, ne_eq]
    rintro rfl; exact h2 hb
  have e1 : (split isDash ((base ++ suffix) ++ rest))[0]?.getD [] = base ++ suffix := by
    unfold split
    rw [splitFrom_plain [] (base ++ suffix) rest hd, List.nil_append]
    rcases h4 with rfl | ⟨r, rfl⟩
    · rfl
    · simp [splitFrom, isDash]
  unfold pieces
  rw [e1]
  rcases h3 with rfl | ⟨s, rfl⟩
  · simp only [splitn, List.append_nil, cut_plain hdot]; rfl
  · simp only [splitn, cut_at hdot (show isDot 46 = true from rfl)]; rfl

theorem pieces_exist (sub : Str) : ∃ base suffix rest, sub = (base ++ suffix) ++ rest ∧
    (45 : Byte) ∉ base ++ suffix ∧ (46 : Byte) ∉ base ∧ (suffix = [] ∨ ∃ s, suffix = 46 :: s) ∧
    (rest = [] ∨ ∃ r, rest = 45 :: r) := by
  have cutAt : ∀ (c : Byte) (s : Str), ∃ a b, s = a ++ b ∧ c ∉ a ∧ (b = [] ∨ ∃ r, b = c :: r) := by
    intro c s
    induction s with
    | nil => exact ⟨[], [], rfl, by simp, .inl rfl⟩
    | cons x s ih =>
      by_cases h : x = c
      · subst h; exact ⟨[], x :: s, rfl, by simp, .inr ⟨s, rfl⟩⟩
      · obtain ⟨a, b, e, h1, h2⟩ := ih
        exact ⟨x :: a, b, by rw [e]; rfl, by simp only [List.mem_cons, not_or]; exact ⟨fun e => h e.symm, h1⟩, h2⟩
  obtain ⟨a, rest, e, h1, h2⟩ := cutAt 45 sub
  obtain ⟨base, suffix, e', h3, h4⟩ := cutAt 46 a
  exact ⟨base, suffix, rest, by rw [e, e'], by rw [← e']; exact h1, h3, h4, h2⟩

/-- What is left of the name after `arm` or `thumb`, and `eb`. -/
def armRest (t : Str) : Option Str :=
  (Spec.setting (bs!"arm") (bs!"thumb") t).map fun s => if bs!"eb" <+: s then s.drop 2 else s

theorem setting_arm (p s : Str) (h : p = bs!"arm" ∨ p = bs!"thumb") :
    Spec.setting (bs!"arm") (bs!"thumb") (p ++ s) = some s := by
  unfold Spec.setting
  rcases h with rfl | rfl
  · rw [if_pos (List.prefix_append _ _), List.drop_left]
  · rw [if_neg, if_pos (List.prefix_append _ _), List.drop_left]
    rintro ⟨r, e⟩
    have : (bs!"arm" ++ r)[0]? = (bs!"thumb" ++ s)[0]? := by rw [e]
    simp only [List.getElem?_append_left (show 0 < (bs!"arm").length by decide),
      List.getElem?_append_left (show 0 < (bs!"thumb").length by decide)] at this
    exact absurd this (by decide)

theorem armRest_name {t base suffix : Str} (h : Spec.ArmName t base suffix) :
    ∃ rest, armRest t = some ((base ++ suffix) ++ rest) ∧ pieces ((base ++ suffix) ++ rest) = (base, suffix.drop 1) ∧
      (suffix = [] ∨ ∃ s, suffix = 46 :: s) := by
  obtain ⟨p, e, rest, rfl, hp, he, h1, h2, h3, h4⟩ := h
  refine ⟨rest, ?_, pieces_eq h1 h2 h3 h4, h3⟩
  unfold armRest
  rw [setting_arm _ _ hp, Option.map_some]
  rcases he with ⟨rfl, hn⟩ | rfl
  · rw [List.nil_append, if_neg hn]
  · rw [if_pos (List.prefix_append _ _)]; rfl

theorem armRest_some {t sub : Str} (h : armRest t = some sub) : ∃ base suffix, Spec.ArmName t base suffix := by
  unfold armRest at h
  rw [Option.map_eq_some_iff] at h
  obtain ⟨s, hs, hsub⟩ := h
  have ht : ∃ p, t = p ++ s ∧ (p = bs!"arm" ∨ p = bs!"thumb") := by
    unfold Spec.setting at hs
    split at hs
    · obtain ⟨r, rfl⟩ := ‹bs!"arm" <+: t›
      rw [List.drop_left, Option.some.injEq] at hs
      exact ⟨_, by rw [hs], .inl rfl⟩
    · split at hs
      · obtain ⟨r, rfl⟩ := ‹bs!"thumb" <+: t›
        rw [List.drop_left, Option.some.injEq] at hs
        exact ⟨_, by rw [hs], .inr rfl⟩
      · exact absurd hs (by simp)
  obtain ⟨p, rfl, hp⟩ := ht
  obtain ⟨base, suffix, rest, e, h1, h2, h3, h4⟩ := pieces_exist sub
  refine ⟨base, suffix, p, if bs!"eb" <+: s then bs!"eb" else [], rest, ?_, hp, ?_, h1, h2, h3, h4⟩
  · rw [← e, ← hsub]
    split
    · obtain ⟨r, rfl⟩ := ‹bs!"eb" <+: s›; rfl
    · rfl
  · split
    · exact .inr rfl
    · refine .inl ⟨rfl, ?_⟩
      rw [if_neg ‹_›] at hsub
      rw [← e, ← hsub]; assumption

theorem ascii_arm : Ascii (bs!"arm") ∧ Ascii (bs!"thumb") ∧ Ascii (bs!"eb") ∧ Ascii (bs!"pwr") ∧ Ascii (bs!"x") ∧
    Ascii (bs!"arch") := by decide

/-- `armTarget` through the pieces of the name. -/
theorem armTarget_eq (E : Env) (w : Wv E.target) : armTarget E =
    match armRest E.target with
    | none => some ⟨false, false, false⟩
    | some sub =>
      let k := subarchOf E.target (pieces sub).1
      if !k.1 && E.deny then none else some (versionsOf k.1 k.2.1 k.2.2 (pieces sub).2) := by
  unfold armTarget armRest
  rw [stripFlag_eq w ascii_arm.1 ascii_arm.2.1]
  cases hs : Spec.setting (bs!"arm") (bs!"thumb") E.target with
  | none => rfl
  | some sub =>
    have ws : Wv sub := by
      unfold Spec.setting at hs
      split at hs
      · rw [Option.some.injEq] at hs; rw [← hs]; exact w.drop_prefix ascii_arm.1 ‹_›
      · split at hs
        · rw [Option.some.injEq] at hs; rw [← hs]; exact w.drop_prefix ascii_arm.2.1 ‹_›
        · exact absurd hs (by simp)
    have e : (if bs!"eb" <+: sub then some (sub.drop (bs!"eb").length) else none : Option Str).getD sub =
        if bs!"eb" <+: sub then sub.drop 2 else sub := by split <;> rfl
    simp only [Option.bind_eq_bind, Option.bind_some, Option.map_some, stripPrefix_eq ws ascii_arm.2.2.1, e]
    rfl

/-- `versionsOf` with the test of the suffix as an argument. -/
def versionsOf' (known mclass : Bool) (subarch : Str) (main : Bool) : A32 :=
  let ge8 := known && (startsWith subarch (bs!"v8") || startsWith subarch (bs!"v9"))
  let v7 := (if ge8 then (if mclass then main else true) else false) || (known && startsWith subarch (bs!"v7"))
  ⟨mclass, ge8 && mclass || (v7 || known && startsWith subarch (bs!"v6")), v7⟩

theorem versionsOf_eq (known mclass : Bool) (subarch suffix : Str) :
    versionsOf known mclass subarch suffix = versionsOf' known mclass subarch (suffix == bs!"main") := rfl

/-- `subarchOf` for a target that is not one of the two exceptions. -/
def subarchOf' (b : Str) : Bool × Bool :=
  if b ∈ Spec.profileAR then (true, false) else if b ∈ Spec.profileM then (true, true)
  else if b ∈ [[], bs!"v4t", bs!"v5te", bs!"v6", bs!"v6k"] then (true, false) else (false, false)

theorem subarchOf_eq (target b : Str) (h1 : target ≠ bs!"arm-linux-androideabi")
    (h2 : target ≠ bs!"armeb-unknown-linux-gnueabi") :
    subarchOf target b = ((subarchOf' b).1, (subarchOf' b).2, if b = [] then bs!"v6" else b) := by
  have key : ∀ x ∈ Spec.profileAR ++ Spec.profileM ++ [[], bs!"v4t", bs!"v5te", bs!"v6", bs!"v6k"],
      subarchOf target x = ((subarchOf' x).1, (subarchOf' x).2, if x = [] then bs!"v6" else x) := by
    simp only [Spec.profileAR, Spec.profileM, List.cons_append, List.nil_append, List.forall_mem_cons,
      List.not_mem_nil, false_implies, implies_true, and_true]
    simp only [subarchOf, h1, h2, if_false]
    refine ⟨rfl, rfl, rfl, rfl, rfl, rfl, rfl, rfl, rfl, rfl, rfl, rfl, rfl, rfl, rfl, rfl, rfl, rfl, rfl, rfl, rfl⟩
  by_cases h : b ∈ Spec.profileAR ++ Spec.profileM ++ [[], bs!"v4t", bs!"v5te", bs!"v6", bs!"v6k"]
  · exact key b h
  · have hb : b ≠ [] := by rintro rfl; exact h (by decide)
    simp only [List.mem_append, not_or] at h
    simp only [Spec.profileAR, Spec.profileM, List.mem_cons, List.not_mem_nil, or_false, not_or] at h
    simp [subarchOf, subarchOf', Spec.profileAR, Spec.profileM, h1, h2, h, hb]

/-- The architecture of a name. -/
theorem versions_name (target b suffix : Str)
    (h1 : target ≠ bs!"arm-linux-androideabi") (h2 : target ≠ bs!"armeb-unknown-linux-gnueabi")
    (hs : suffix = [] ∨ ∃ s, suffix = 46 :: s) :
    let r := subarchOf target b
    (r.1 = true ↔ Spec.ArmKnown b) ∧
    ((versionsOf r.1 r.2.1 r.2.2 (suffix.drop 1)).v7 = true ↔ Spec.ArmV7 b suffix) ∧
    ((versionsOf r.1 r.2.1 r.2.2 (suffix.drop 1)).v6 = true ↔ Spec.ArmV6 b suffix) ∧
    ((versionsOf r.1 r.2.1 r.2.2 (suffix.drop 1)).mclass = true ↔ b ∈ Spec.profileM) := by
  have hmain : suffix = bs!".main" ↔ (suffix.drop 1 == bs!"main") = true := by
    rw [beq_iff_eq]
    rcases hs with rfl | ⟨s, rfl⟩
    · decide
    · constructor
      · intro h; rw [h]; rfl
      · intro h; simp only [List.drop_succ_cons, List.drop_zero] at h; rw [h]; rfl
  simp only [subarchOf_eq target b h1 h2, versionsOf_eq]
  unfold Spec.ArmV6 Spec.ArmV7 Spec.ArmKnown
  rw [hmain]
  generalize (suffix.drop 1 == bs!"main") = m
  by_cases h : b ∈ Spec.profileAR ++ Spec.profileM ++ [[], bs!"v4t", bs!"v5te", bs!"v6", bs!"v6k"]
  · cases m <;> (revert b; decide +kernel)
  · have hb : b ≠ [] := by rintro rfl; exact h (by decide)
    simp only [List.mem_append, not_or] at h
    simp only [Spec.profileAR, Spec.profileM, List.mem_cons, List.not_mem_nil, or_false, not_or] at h
    simp [subarchOf', versionsOf', Spec.profileAR, Spec.profileM, h]

/-- The target of an environment. -/
def tgt (E : Env) : Spec.Target := ⟨E.target, E.arch, E.os, E.vendor, E.endian, E.flags.targetCpu⟩

theorem android_rest : armRest (bs!"arm-linux-androideabi") = some (bs!"-linux-androideabi") ∧
    armRest (bs!"armeb-unknown-linux-gnueabi") = some (bs!"-unknown-linux-gnueabi") := by decide

/-- What the name of an Arm target says, exactly. -/
theorem armTarget_iff (E : Env) (w : Wv E.target) {s : A32} (h : armTarget E = some s) :
    (s.v7 = true ↔ ∃ b x, Spec.ArmArch E.target b x ∧ Spec.ArmV7 b x) ∧
    (s.v6 = true ↔ ∃ b x, Spec.ArmArch E.target b x ∧ Spec.ArmV6 b x) ∧
    (s.mclass = true ↔ ∃ b x, Spec.ArmArch E.target b x ∧ b ∈ Spec.profileM) := by
  rw [armTarget_eq E w] at h
  have one : ∀ (P : Str → Str → Prop) (b0 x0 : Str), (∃ b x, (b = b0 ∧ x = x0) ∧ P b x) ↔ P b0 x0 := by
    intro P b0 x0
    constructor
    · rintro ⟨_, _, ⟨rfl, rfl⟩, h⟩; exact h
    · intro h; exact ⟨_, _, ⟨rfl, rfl⟩, h⟩
  by_cases h1 : E.target = bs!"arm-linux-androideabi"
  · unfold Spec.ArmArch
    simp only [h1, if_true, one]
    rw [h1, android_rest.1] at h
    have e : subarchOf (bs!"arm-linux-androideabi") (pieces (bs!"-linux-androideabi")).1 = (true, false, bs!"v5te") := by decide
    simp only [e, Bool.not_true, Bool.false_and, Bool.false_eq_true, if_false, Option.some.injEq] at h
    subst h
    unfold Spec.ArmV6 Spec.ArmV7
    decide
  by_cases h2 : E.target = bs!"armeb-unknown-linux-gnueabi"
  · unfold Spec.ArmArch
    simp only [h2, show bs!"armeb-unknown-linux-gnueabi" ≠ bs!"arm-linux-androideabi" by decide, if_true, if_false, one]
    rw [h2, android_rest.2] at h
    have e : subarchOf (bs!"armeb-unknown-linux-gnueabi") (pieces (bs!"-unknown-linux-gnueabi")).1 = (true, false, bs!"v8") := by decide
    simp only [e, Bool.not_true, Bool.false_and, Bool.false_eq_true, if_false, Option.some.injEq] at h
    subst h
    unfold Spec.ArmV6 Spec.ArmV7
    decide
  unfold Spec.ArmArch
  simp only [h1, h2, if_false]
  cases hr : armRest E.target with
  | none =>
    rw [hr, Option.some.injEq] at h
    subst h
    have no : ∀ b x, ¬ Spec.ArmName E.target b x := by
      intro b x hn
      obtain ⟨rest, e, -⟩ := armRest_name hn
      rw [hr] at e; exact absurd e (by simp)
    simp [no]
  | some sub =>
    obtain ⟨b0, x0, hn⟩ := armRest_some hr
    have all : ∀ b x, Spec.ArmName E.target b x → (pieces sub = (b, x.drop 1) ∧ (x = [] ∨ ∃ s, x = 46 :: s)) := by
      intro b x hn
      obtain ⟨rest, e, p, c⟩ := armRest_name hn
      rw [hr, Option.some.injEq] at e
      rw [e]; exact ⟨p, c⟩
    rw [hr] at h
    simp only at h
    split at h
    · exact absurd h (by simp)
    rw [Option.some.injEq] at h
    subst h
    refine ⟨⟨fun h => ?_, ?_⟩, ⟨fun h => ?_, ?_⟩, ⟨fun h => ?_, ?_⟩⟩
    · obtain ⟨e, c⟩ := all _ _ hn
      rw [e] at h
      exact ⟨_, _, hn, (versions_name E.target b0 x0 h1 h2 c).2.1.mp h⟩
    · rintro ⟨b, x, hb, hv⟩
      obtain ⟨e, c⟩ := all _ _ hb
      rw [e]; exact (versions_name E.target b x h1 h2 c).2.1.mpr hv
    · obtain ⟨e, c⟩ := all _ _ hn
      rw [e] at h
      exact ⟨_, _, hn, (versions_name E.target b0 x0 h1 h2 c).2.2.1.mp h⟩
    · rintro ⟨b, x, hb, hv⟩
      obtain ⟨e, c⟩ := all _ _ hb
      rw [e]; exact (versions_name E.target b x h1 h2 c).2.2.1.mpr hv
    · obtain ⟨e, c⟩ := all _ _ hn
      rw [e] at h
      exact ⟨_, _, hn, (versions_name E.target b0 x0 h1 h2 c).2.2.2.mp h⟩
    · rintro ⟨b, x, hb, hv⟩
      obtain ⟨e, c⟩ := all _ _ hb
      rw [e]; exact (versions_name E.target b x h1 h2 c).2.2.2.mpr hv

/-- The name is refused, with warnings denied, exactly when it has the form of an Arm name with an
architecture the table does not cover. -/
theorem armTarget_none (E : Env) (w : Wv E.target) :
    armTarget E = none ↔ E.deny = true ∧ ∃ b x, Spec.ArmArch E.target b x ∧ ¬ Spec.ArmKnown b := by
  rw [armTarget_eq E w]
  by_cases h1 : E.target = bs!"arm-linux-androideabi"
  · rw [h1, android_rest.1]
    have e : subarchOf (bs!"arm-linux-androideabi") (pieces (bs!"-linux-androideabi")).1 = (true, false, bs!"v5te") := by decide
    simp only [e, Bool.not_true, Bool.false_and, Bool.false_eq_true, if_false, reduceCtorEq, false_iff, not_and]
    rintro - ⟨b, x, h, hk⟩
    simp only [Spec.ArmArch, if_true] at h
    exact hk (by rw [h.1]; unfold Spec.ArmKnown; decide)
  by_cases h2 : E.target = bs!"armeb-unknown-linux-gnueabi"
  · rw [h2, android_rest.2]
    have e : subarchOf (bs!"armeb-unknown-linux-gnueabi") (pieces (bs!"-unknown-linux-gnueabi")).1 = (true, false, bs!"v8") := by decide
    simp only [e, Bool.not_true, Bool.false_and, Bool.false_eq_true, if_false, reduceCtorEq, false_iff, not_and]
    rintro - ⟨b, x, h, hk⟩
    simp only [Spec.ArmArch, show bs!"armeb-unknown-linux-gnueabi" ≠ bs!"arm-linux-androideabi" by decide, if_false, if_true] at h
    exact hk (by rw [h.1]; unfold Spec.ArmKnown; decide)
  unfold Spec.ArmArch
  simp only [h1, h2, if_false]
  cases hr : armRest E.target with
  | none =>
    have no : ∀ b x, ¬ Spec.ArmName E.target b x := by
      intro b x hn
      obtain ⟨rest, e, -⟩ := armRest_name hn
      rw [hr] at e; exact absurd e (by simp)
    simp [no]
  | some sub =>
    obtain ⟨b0, x0, hn⟩ := armRest_some hr
    have all : ∀ b x, Spec.ArmName E.target b x → (pieces sub = (b, x.drop 1) ∧ (x = [] ∨ ∃ s, x = 46 :: s)) := by
      intro b x hn
      obtain ⟨rest, e, p, c⟩ := armRest_name hn
      rw [hr, Option.some.injEq] at e
      rw [e]; exact ⟨p, c⟩
    have fact : ∀ b x, Spec.ArmName E.target b x →
        ((subarchOf E.target (pieces sub).1).1 = true ↔ Spec.ArmKnown b) := by
      intro b x hb
      obtain ⟨e, c⟩ := all _ _ hb
      rw [e]; exact (versions_name E.target b x h1 h2 c).1
    simp only [ite_eq_left_iff, reduceCtorEq, imp_false, Decidable.not_not, Bool.and_eq_true, Bool.not_eq_true']
    constructor
    · rintro ⟨hk, hd⟩
      exact ⟨hd, b0, x0, hn, fun hc => by rw [(fact _ _ hn).mpr hc] at hk; exact absurd hk (by simp)⟩
    · rintro ⟨hd, b, x, hb, hk⟩
      refine ⟨?_, hd⟩
      cases hc : (subarchOf E.target (pieces sub).1).1 with
      | false => rfl
      | true => exact absurd ((fact _ _ hb).mp hc) hk

end Verif.Build.Script

namespace Verif.Build.Script

/-! ## Processors -/

theorem numeral_last {t : Str} {n : Nat} (h : Spec.Number (2 ^ 32 - 1) t n) (s : Str) : t ≠ s ++ bs!"x" := by
  rintro rfl
  have hx : (120 : Byte) ∈ s ++ bs!"x" := List.mem_append_right _ (by decide)
  rcases h.2 with h | ⟨t, e, h⟩
  · have := h.2.1 120 hx; exact absurd this.2 (by decide)
  · rw [e] at hx
    rcases List.mem_cons.mp hx with h' | h'
    · exact absurd h' (by decide)
    · have := h.2.1 120 h'; exact absurd this.2 (by decide)

/-- Removing the suffix `x`. -/
theorem strip_x (s : Str) : ∃ t, (stripSuffix s (bs!"x")).map (·.getD s) = some t ∧
    (s = t ++ bs!"x" ∨ (s = t ∧ ∀ r, s ≠ r ++ bs!"x")) := by
  unfold stripSuffix endsWith
  by_cases h : (bs!"x").isSuffixOf s = true
  · rw [if_pos h]
    rw [List.isSuffixOf_iff_suffix] at h
    obtain ⟨t, rfl⟩ := h
    refine ⟨t, ?_, .inl rfl⟩
    have e : (t ++ bs!"x").length - (bs!"x").length = t.length := by simp
    rw [e]
    have hb : boundary (t ++ bs!"x") t.length = true := by
      unfold boundary
      have : (t ++ bs!"x")[t.length]? = some 120 := by
        rw [List.getElem?_append_right (Nat.le_refl _), Nat.sub_self]; rfl
      rw [this]
      simp [cont]
    simp [sliceTo, hb]
  · rw [if_neg h]
    refine ⟨s, rfl, .inr ⟨rfl, ?_⟩⟩
    rintro r rfl
    exact h (by rw [List.isSuffixOf_iff_suffix]; exact List.suffix_append _ _)

theorem quadwordCpu_iff (cpu : Str) (w : Wv cpu) :
    ∃ b, quadwordCpu cpu = some b ∧ (b = true ↔ Spec.Power8 cpu) := by
  unfold quadwordCpu
  rw [stripPrefix_eq w ascii_arm.2.2.2.1]
  by_cases h : bs!"pwr" <+: cpu
  · obtain ⟨ver, rfl⟩ := h
    rw [if_pos (List.prefix_append _ _), List.drop_left]
    obtain ⟨t, e, ht⟩ := strip_x ver
    cases hs : stripSuffix ver (bs!"x") with
    | none => rw [hs] at e; exact absurd e (by simp)
    | some o =>
      rw [hs, Option.map_some, Option.some.injEq] at e
      simp only [Option.bind_eq_bind, Option.bind_some, hs, e]
      refine ⟨_, rfl, ?_⟩
      have nofut : bs!"pwr" ++ ver ≠ bs!"future" ∧ bs!"pwr" ++ ver ≠ bs!"ppc64le" := by
        constructor
        · intro e
          have : bs!"pwr" <+: bs!"future" := ⟨ver, e⟩
          exact absurd this (by decide)
        · intro e
          have : bs!"pwr" <+: bs!"ppc64le" := ⟨ver, e⟩
          exact absurd this (by decide)
      have spec : Spec.Power8 (bs!"pwr" ++ ver) ↔ ∃ n, Spec.Number (2 ^ 32 - 1) t n ∧ 8 ≤ n := by
        constructor
        · rintro (h | h | ⟨t', n, ht', hn, h8⟩)
          · exact absurd h nofut.1
          · exact absurd h nofut.2
          · refine ⟨n, ?_, h8⟩
            rw [List.append_right_inj, List.append_right_inj] at ht'
            rcases ht' with rfl | rfl
            · rcases ht with e | ⟨rfl, -⟩
              · exact absurd e (numeral_last hn _)
              · exact hn
            · rcases ht with e | ⟨-, h⟩
              · rw [List.append_left_inj] at e; rw [← e]; exact hn
              · exact absurd rfl (h t')
        · rintro ⟨n, hn, h8⟩
          refine .inr (.inr ⟨t, n, ?_, hn, h8⟩)
          rcases ht with e | ⟨e, -⟩
          · exact .inr (by rw [e])
          · exact .inl (by rw [e])
      rw [spec]
      cases hp : parseUInt u32Max t with
      | none =>
        simp only [Bool.false_eq_true, false_iff, not_exists, not_and]
        intro n hn
        have := parseUInt_iff.mpr hn
        rw [show u32Max = 2 ^ 32 - 1 from rfl] at hp
        rw [hp] at this; exact absurd this (by simp)
      | some n =>
        have hn := parseUInt_iff.mp hp
        simp only [ge_iff_le, decide_eq_true_eq]
        constructor
        · intro h8; exact ⟨n, hn, h8⟩
        · rintro ⟨m, hm, h8⟩
          have := parseUInt_iff.mpr hm
          rw [show u32Max = 2 ^ 32 - 1 from rfl, this, Option.some.injEq] at hp
          omega
  · rw [if_neg h]
    refine ⟨_, rfl, ?_⟩
    rw [List.contains_iff_mem]
    constructor
    · intro hm
      have key : ∀ c ∈ quadwordCpus, c = bs!"future" ∨ c = bs!"ppc64le" ∨ bs!"pwr" <+: c := by decide
      rcases key _ hm with e | e | e
      · exact .inl e
      · exact .inr (.inl e)
      · exact absurd e h
    · rintro (e | e | ⟨t, n, e | e, -⟩)
      · rw [e]; decide
      · rw [e]; decide
      · exact absurd (by rw [e]; exact List.prefix_append _ _) h
      · exact absurd (by rw [e]; exact List.prefix_append _ _) h

theorem s390xCpu_iff (cpu : Str) (w : Wv cpu) :
    ∃ a b, s390xCpu cpu = some (a, b) ∧ (a = true ↔ Spec.Arch9 cpu) ∧ (b = true ↔ Spec.Arch13 cpu) := by
  unfold s390xCpu
  rw [stripPrefix_eq w ascii_arm.2.2.2.2.2]
  by_cases h : bs!"arch" <+: cpu
  · obtain ⟨ver, rfl⟩ := h
    rw [if_pos (List.prefix_append _ _), List.drop_left]
    simp only [Option.bind_eq_bind, Option.bind_some]
    have no : ∀ c ∈ [bs!"z196", bs!"zEC12", bs!"z13", bs!"z14", bs!"z15", bs!"z16", bs!"z17"],
        bs!"arch" ++ ver ≠ c := by
      intro c hc e
      have : bs!"arch" <+: c := ⟨ver, e⟩
      revert hc this; revert c
      intro c _ hc h
      exact absurd h ((by decide : ∀ c ∈ [bs!"z196", bs!"zEC12", bs!"z13", bs!"z14", bs!"z15", bs!"z16", bs!"z17"],
        ¬ bs!"arch" <+: c) c hc)
    have spec : ∀ k, (∃ t n, bs!"arch" ++ ver = bs!"arch" ++ t ∧ Spec.Number (2 ^ 32 - 1) t n ∧ k ≤ n) ↔
        ∃ n, parseUInt u32Max ver = some n ∧ k ≤ n := by
      intro k
      constructor
      · rintro ⟨t, n, e, hn, hk⟩
        rw [List.append_right_inj] at e
        subst e
        exact ⟨n, parseUInt_iff.mpr hn, hk⟩
      · rintro ⟨n, hn, hk⟩
        exact ⟨ver, n, rfl, parseUInt_iff.mp hn, hk⟩
    have h9 : Spec.Arch9 (bs!"arch" ++ ver) ↔ ∃ n, parseUInt u32Max ver = some n ∧ 9 ≤ n := by
      unfold Spec.Arch9
      rw [spec 9]
      constructor
      · rintro (h | h)
        · exact absurd rfl (no _ h)
        · exact h
      · exact .inr
    have h13 : Spec.Arch13 (bs!"arch" ++ ver) ↔ ∃ n, parseUInt u32Max ver = some n ∧ 13 ≤ n := by
      unfold Spec.Arch13
      rw [spec 13]
      constructor
      · rintro (h | h)
        · exact absurd rfl (no _ (by simp only [List.mem_cons] at h ⊢; simp only [h, or_true]))
        · exact h
      · exact .inr
    rw [h9, h13]
    cases hp : parseUInt u32Max ver with
    | none => exact ⟨false, false, rfl, by simp, by simp⟩
    | some n => exact ⟨_, _, rfl, by simp, by simp⟩
  · rw [if_neg h]
    simp only [Option.bind_eq_bind, Option.bind_some]
    have h9 : Spec.Arch9 cpu ↔ cpu ∈ [bs!"z196", bs!"zEC12", bs!"z13", bs!"z14", bs!"z15", bs!"z16", bs!"z17"] := by
      unfold Spec.Arch9
      constructor
      · rintro (h' | ⟨t, n, e, -⟩)
        · exact h'
        · exact absurd (by rw [e]; exact List.prefix_append _ _) h
      · exact .inl
    have h13 : Spec.Arch13 cpu ↔ cpu ∈ [bs!"z15", bs!"z16", bs!"z17"] := by
      unfold Spec.Arch13
      constructor
      · rintro (h' | ⟨t, n, e, -⟩)
        · exact h'
        · exact absurd (by rw [e]; exact List.prefix_append _ _) h
      · exact .inl
    rw [h9, h13]
    simp only [List.contains_iff_mem]
    split
    · refine ⟨_, _, rfl, ?_, ?_⟩
      · have := (by decide : ∀ c ∈ [bs!"z196", bs!"zEC12", bs!"z13", bs!"z14"],
          c ∈ [bs!"z196", bs!"zEC12", bs!"z13", bs!"z14", bs!"z15", bs!"z16", bs!"z17"]) cpu ‹_›
        simp only [this, true_iff]
      · have := (by decide : ∀ c ∈ [bs!"z196", bs!"zEC12", bs!"z13", bs!"z14"],
          c ∉ [bs!"z15", bs!"z16", bs!"z17"]) cpu ‹_›
        simp only [this, Bool.false_eq_true]
    · split
      · refine ⟨_, _, rfl, ?_, ?_⟩
        · have := (by decide : ∀ c ∈ [bs!"z15", bs!"z16", bs!"z17"],
            c ∈ [bs!"z196", bs!"zEC12", bs!"z13", bs!"z14", bs!"z15", bs!"z16", bs!"z17"]) cpu ‹_›
          simp only [this, true_iff]
        · rename_i h2; simp only [h2, true_iff]
      · rename_i h1 h2
        refine ⟨_, _, rfl, ?_, ?_⟩
        · simp only [Bool.false_eq_true, false_iff]
          intro hc
          simp only [List.mem_cons, List.not_mem_nil, or_false] at h1 h2 hc
          rcases hc with hc | hc | hc | hc | hc | hc | hc <;> simp [hc] at h1 h2
        · simp only [Bool.false_eq_true, false_iff]; exact h2

end Verif.Build.Script
