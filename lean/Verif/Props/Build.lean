import Verif.Build.FlagsProof
import Verif.Build.VersionProof
import Mathlib.Data.Prod.Lex
/-!
# Properties of the build script (C34, C35)
-/
set_option autoImplicit false
namespace Verif.Build
open Spec (Arg)

/-! ## C35: compiler flags -/

/-- Reading the flags never panics, whatever text the environment variables hold. -/
theorem rustflags_no_panic (flags : Str) (u : Spec.Utf8 flags) (cargo : Option Str) :
    ∃ r, Rustflags.new flags cargo = some r :=
  loop_total _ (splitFrom_wv (by intro b h; simp only [isSep, beq_iff_eq] at h; subst h; decide) [] flags (Wv.of_utf8 u)) _

theorem encode_join (ws : List Str) : Spec.encode ws = joinWith 31 ws := by
  induction ws with
  | nil => rfl
  | cons w ws ih =>
    cases ws with
    | nil => rfl
    | cons v ws => simp only [Spec.encode, joinWith, ih]

theorem commas_join (ws : List Str) : Spec.commas ws = joinWith 44 ws := by
  induction ws with
  | nil => rfl
  | cons w ws ih =>
    cases ws with
    | nil => rfl
    | cons v ws => simp only [Spec.commas, joinWith, ih]

theorem setting_disjoint (v f : Str) (h : Spec.setting Spec.targetFeature Spec.targetFeature' v = some f) :
    Spec.setting Spec.targetCpu Spec.targetCpu' v = none := by
  have hp : Spec.targetFeature <+: v ∨ Spec.targetFeature' <+: v := by
    unfold Spec.setting at h
    by_cases h1 : Spec.targetFeature <+: v
    · exact .inl h1
    · by_cases h2 : Spec.targetFeature' <+: v
      · exact .inr h2
      · simp [h1, h2] at h
  have key : ∀ a ∈ [Spec.targetFeature, Spec.targetFeature'], ∀ b ∈ [Spec.targetCpu, Spec.targetCpu'],
      b.length ≤ a.length ∧ ¬ b <+: a := by decide
  have no : ∀ b ∈ [Spec.targetCpu, Spec.targetCpu'], ¬ b <+: v := by
    intro b hb hbv
    rcases hp with h | h
    · obtain ⟨h1, h2⟩ := key Spec.targetFeature (by simp) b hb
      exact h2 (List.prefix_of_prefix_length_le hbv h h1)
    · obtain ⟨h1, h2⟩ := key Spec.targetFeature' (by simp) b hb
      exact h2 (List.prefix_of_prefix_length_le hbv h h1)
  unfold Spec.setting
  rw [if_neg (no _ (by simp)), if_neg (no _ (by simp))]

theorem unstable_or_codegen (a : Arg) : a.codegenValue = none ∨ a.unstableValue = none := by
  cases a with
  | opt z _ _ v => cases z <;> simp [Arg.codegenValue, Arg.unstableValue]
  | _ => simp [Arg.codegenValue, Arg.unstableValue]

theorem getLast?_getD_cons {α : Type} (x : α) (l : List α) (d : Option α) :
    ((x :: l).getLast?.or d) = (l.getLast?.or (some x)) := by
  cases l with
  | nil => rfl
  | cons y l => rw [List.getLast?_cons_cons]; cases h : (y :: l).getLast? with
    | none => simp at h
    | some _ => rfl

theorem effects (args : List Arg) (st : Rustflags) :
    args.foldl effect st =
      { targetFeature := st.targetFeature ++
          ((Spec.codegenValues args).filterMap (Spec.setting Spec.targetFeature Spec.targetFeature')).flatMap Spec.features
        targetCpu := ((Spec.codegenValues args).filterMap (Spec.setting Spec.targetCpu Spec.targetCpu')).getLast?.or st.targetCpu
        allowFeatures := (((Spec.unstableValues args).filterMap
          (Spec.setting Spec.allowFeatures Spec.allowFeatures')).getLast?.map fun f => (true, f)).or st.allowFeatures } := by
  induction args generalizing st with
  | nil => simp [Spec.codegenValues, Spec.unstableValues]
  | cons a args ih =>
    rw [List.foldl_cons, ih]
    unfold effect
    cases hc : a.codegenValue with
    | some v =>
      have hu : a.unstableValue = none := by
        rcases unstable_or_codegen a with h | h
        · rw [hc] at h; cases h
        · exact h
      have e1 : Spec.codegenValues (a :: args) = v :: Spec.codegenValues args := by
        simp [Spec.codegenValues, hc]
      have e2 : Spec.unstableValues (a :: args) = Spec.unstableValues args := by
        simp [Spec.unstableValues, hu]
      rw [e1, e2]
      simp only [applySpec, Bool.false_eq_true, if_false]
      cases hf : Spec.setting Spec.targetFeature Spec.targetFeature' v with
      | some f =>
        have hn := setting_disjoint v f hf
        simp [hf, hn]
      | none =>
        cases hp : Spec.setting Spec.targetCpu Spec.targetCpu' v with
        | none => simp [hf, hp]
        | some f =>
          simp only [List.filterMap_cons, hf, hp, Rustflags.mk.injEq, true_and, and_true]
          exact (getLast?_getD_cons _ _ _).symm
    | none =>
      have e1 : Spec.codegenValues (a :: args) = Spec.codegenValues args := by
        simp [Spec.codegenValues, hc]
      rw [e1]
      cases hu : a.unstableValue with
      | none =>
        have e2 : Spec.unstableValues (a :: args) = Spec.unstableValues args := by
          simp [Spec.unstableValues, hu]
        rw [e2]
      | some v =>
        have e2 : Spec.unstableValues (a :: args) = v :: Spec.unstableValues args := by
          simp [Spec.unstableValues, hu]
        rw [e2]
        simp only [applySpec, if_true]
        cases hf : Spec.setting Spec.allowFeatures Spec.allowFeatures' v with
        | none => simp [hf]
        | some f =>
          simp only [List.filterMap_cons, hf, Rustflags.mk.injEq, true_and]
          rw [← List.getLast?_map, ← List.getLast?_map, List.map_cons]
          exact (getLast?_getD_cons _ _ _).symm

/-- What the flags say is what is read: for every command line (each argument in any of the spellings rustc accepts,
values of other options and free arguments being arbitrary text), the features are those of all
`-C target-feature=` options in order, the CPU is that of the last `-C target-cpu=`, and the allowed features are those of
the last `-Z allow-features=`, else Cargo's. -/
theorem rustflags_reads_command_line (args : List Arg) (ok : ∀ a ∈ args, a.Ok)
    (text : ∀ w ∈ args.flatMap Arg.words, Spec.Utf8 w ∧ (31 : Byte) ∉ w) (cargo : Option Str) :
    Rustflags.new (Spec.encode (args.flatMap Arg.words)) cargo = some
      { targetFeature :=
          ((Spec.codegenValues args).filterMap (Spec.setting Spec.targetFeature Spec.targetFeature')).flatMap Spec.features
        targetCpu := ((Spec.codegenValues args).filterMap (Spec.setting Spec.targetCpu Spec.targetCpu')).getLast?
        allowFeatures := match ((Spec.unstableValues args).filterMap
            (Spec.setting Spec.allowFeatures Spec.allowFeatures')).getLast? with
          | some f => some (true, f)
          | none => cargo.map fun f => (false, f) } := by
  unfold Rustflags.new
  have fin : loop ⟨[], none, cargo.map fun f => (false, f)⟩ (args.flatMap Arg.words) = some _ :=
    loop_args args ok (fun x hx => Wv.of_utf8 (text x hx).1) _
  rw [effects] at fin
  have e : loop ⟨[], none, cargo.map fun f => (false, f)⟩ (split isSep (Spec.encode (args.flatMap Arg.words)))
      = loop ⟨[], none, cargo.map fun f => (false, f)⟩ (args.flatMap Arg.words) := by
    rw [encode_join]
    by_cases hn : args.flatMap Arg.words = []
    · rw [hn]; rfl
    · rw [split_join (p := isSep) rfl _ hn]
      intro w hw b hb
      have := (text w hw).2
      unfold isSep
      simp only [beq_eq_false_iff_ne, ne_eq]
      rintro rfl; exact this hb
  rw [e, fin]
  simp only [List.nil_append, Option.or_none, Option.some.injEq, Rustflags.mk.injEq, true_and]
  cases ((Spec.unstableValues args).filterMap (Spec.setting Spec.allowFeatures Spec.allowFeatures')).getLast? <;> rfl

/-- A list of features written with their signs reads back as that list. -/
theorem features_of_list (fs : List (Bool × Str)) (hne : fs ≠ []) (h : ∀ f ∈ fs, (44 : Byte) ∉ f.2) :
    Spec.features (Spec.commas (fs.map Spec.signed)) = fs := by
  rw [← featureOf_eq, commas_join, split_join (p := isComma) rfl]
  · rw [List.filterMap_map]
    have : ∀ f ∈ fs, (featureOf ∘ Spec.signed) f = some f := by
      rintro ⟨_ | _, f⟩ _ <;> rfl
    clear h hne
    induction fs with
    | nil => rfl
    | cons f fs ih =>
      rw [List.filterMap_cons, this f List.mem_cons_self, ih (fun x hx => this x (List.mem_cons_of_mem _ hx))]
  · simpa using hne
  · intro w hw b hb
    obtain ⟨⟨s, f⟩, hf, rfl⟩ := List.mem_map.mp hw
    unfold isComma
    simp only [beq_eq_false_iff_ne, ne_eq]
    rintro rfl
    have := h _ hf
    cases s
    · cases List.mem_cons.mp hb with
      | inl e => exact absurd e (by decide)
      | inr e => exact this e
    · cases List.mem_cons.mp hb with
      | inl e => exact absurd e (by decide)
      | inr e => exact this e

/-- A feature is allowed exactly if it is one of the listed names; everything is allowed if there is no list;
nothing during a bootstrap build. -/
theorem allowed_iff (st : Rustflags) (stage : Bool) (name : Str) :
    st.isAllowed stage name = true ↔ stage = false ∧
      match st.allowFeatures with
      | none => True
      | some (true, f) => name ∈ f.splitOn 44
      | some (false, f) => name ∈ f.splitOnP (fun b => b = 44 ∨ b ∈ [32, 9, 10, 11, 12, 13]) := by
  have hsp : isCommaOrSpace = fun b => decide (b = 44 ∨ b ∈ ([32, 9, 10, 11, 12, 13] : List Byte)) := by
    funext b
    rw [Bool.eq_iff_iff]
    simp only [isCommaOrSpace, Bool.or_eq_true, beq_iff_eq, Bool.and_eq_true, decide_eq_true_eq, List.mem_cons,
      List.not_mem_nil, or_false, UInt8.le_iff_toNat_le, ← UInt8.toNat_inj, or_assoc]
    have : UInt8.toNat 44 = 44 ∧ UInt8.toNat 32 = 32 ∧ UInt8.toNat 9 = 9 ∧ UInt8.toNat 10 = 10 ∧ UInt8.toNat 11 = 11 ∧
      UInt8.toNat 12 = 12 ∧ UInt8.toNat 13 = 13 := by decide
    omega
  unfold Rustflags.isAllowed
  cases stage with
  | true => simp
  | false =>
    simp only [Bool.false_eq_true, if_false, true_and]
    rcases st.allowFeatures with _ | ⟨_ | _, f⟩
    · simp
    · simp only [List.any_eq_true, beq_iff_eq, exists_eq_right, split_eq, hsp]
    · simp only [List.any_eq_true, beq_iff_eq, exists_eq_right, split_eq]
      exact Iff.rfl

/-- `strip_prefix` removes exactly the prefix; no panic. -/
theorem strip_prefix_exact (k r s : Str) (us : Spec.Utf8 s) (hk : ∀ b ∈ k, b < 128) :
    (s = k ++ r → stripPrefix s k = some (some r)) ∧ ((∀ r, s ≠ k ++ r) → stripPrefix s k = some none) := by
  rw [stripPrefix_eq (Wv.of_utf8 us) hk]
  constructor
  · rintro rfl; rw [if_pos (List.prefix_append _ _), List.drop_left]
  · intro h; rw [if_neg]
    rintro ⟨r, e⟩; exact h r e.symm

/-- `strip_suffix` removes exactly the suffix; no panic. -/
theorem strip_suffix_exact (k r s : Str) (uk : Spec.Utf8 k) :
    (s = r ++ k → stripSuffix s k = some (some r)) ∧ ((∀ r, s ≠ r ++ k) → stripSuffix s k = some none) := by
  unfold stripSuffix endsWith
  constructor
  · rintro rfl
    rw [if_pos (by rw [List.isSuffixOf_iff_suffix]; exact List.suffix_append _ _)]
    unfold sliceTo
    have hl : (r ++ k).length - k.length = r.length := by simp
    rw [hl, List.take_left]
    have : boundary (r ++ k) r.length = true := by
      unfold boundary
      cases k with
      | nil => simp
      | cons b k =>
        have w := Wv.of_utf8 uk
        have hb : cont b = false := by
          cases q : cont b with
          | false => rfl
          | true => exact absurd (w.1 q) (by decide)
        simp [hb]
    rw [this]; rfl
  · intro h
    rw [if_neg]
    rw [List.isSuffixOf_iff_suffix]
    rintro ⟨r, e⟩; exact h r e.symm

/-! ## C34: the compiler version -/

theorem parse_eq {text : Str} {boot : Option Str} {rel llvm date : Option Str} (h1 : field text kRelease = some rel)
    (h2 : field text kLlvm = some llvm) (h3 : field text kDate = some date) :
    Version.parse text boot = some (match rel.bind releaseOf with
      | none => none
      | some (minor, channel) =>
        some (if channel = cNightly ∨ channel = cDev then
          ⟨minor, if boot = some (asc ['-', '1']) then false else true,
            some ((date.bind dateOf).getD Date.unknown), (llvm.bind llvmOf).getD 0⟩
          else ⟨minor, false, none, (llvm.bind llvmOf).getD 0⟩)) := by
  unfold Version.parse
  rw [h1, h2, h3]
  cases rel with
  | none => rfl
  | some rel =>
    simp only [Option.bind_eq_bind, Option.bind_some]
    cases releaseOf rel with
    | none => rfl
    | some r =>
      obtain ⟨minor, channel⟩ := r
      simp only
      by_cases h : channel = cNightly ∨ channel = cDev
      · simp only [h, if_true, Option.pure_def, decide_true]
      · simp only [h, if_false, Option.pure_def]
        rfl

/-- Reading the compiler version never panics, whatever text the compiler prints. -/
theorem version_no_panic (text : Str) (u : Spec.Utf8 text) (boot : Option Str) :
    ∃ r, Version.parse text boot = some r := by
  obtain ⟨a1, a2, a3⟩ := ascii_fields
  obtain ⟨r1, h1⟩ := field_total (Wv.of_utf8 u) a1
  obtain ⟨r2, h2⟩ := field_total (Wv.of_utf8 u) a2
  obtain ⟨r3, h3⟩ := field_total (Wv.of_utf8 u) a3
  exact ⟨_, parse_eq h1 h2 h3⟩

theorem llvm_field {ls : List Str} (hl : ∀ l ∈ ls, Spec.Line l) (u : Spec.Utf8 (Spec.unlines ls)) {r : Option Str}
    (h : field (Spec.unlines ls) kLlvm = some r) (n : Nat) : (r.bind llvmOf).getD 0 = n ↔ Spec.Llvm ls n := by
  have a := ascii_fields.2.1
  unfold Spec.Llvm
  change _ ↔ (∃ t, Spec.Field ls kLlvm t ∧ _) ∨ (n = 0 ∧ ∀ t n, Spec.Field ls kLlvm t → _)
  cases r with
  | none =>
    have hf := (field_iff hl u a none).mp h
    simp only [Option.bind_none, Option.getD_none]
    constructor
    · rintro rfl; exact .inr ⟨rfl, fun t n ht => absurd ht (hf t)⟩
    · rintro (⟨t, ht, _⟩ | ⟨rfl, _⟩)
      · exact absurd ht (hf t)
      · rfl
  | some t =>
    have hf := (field_iff hl u a (some t)).mp h
    simp only [Option.bind_some]
    cases hq : llvmOf t with
    | none =>
      have hno : ∀ t' n, Spec.Field ls kLlvm t' → ¬ Spec.LlvmText t' n := by
        intro t' n ht' hx
        cases Field_uniq hl u a hf ht'
        rw [llvmOf_iff.mpr hx] at hq; cases hq
      simp only [Option.getD_none]
      constructor
      · rintro rfl; exact .inr ⟨rfl, hno⟩
      · rintro (⟨t', ht', hx⟩ | ⟨rfl, _⟩)
        · exact absurd hx (hno t' n ht')
        · rfl
    | some m =>
      simp only [Option.getD_some]
      constructor
      · rintro rfl; exact .inl ⟨t, hf, llvmOf_iff.mp hq⟩
      · rintro (⟨t', ht', hx⟩ | ⟨_, hno⟩)
        · cases Field_uniq hl u a hf ht'
          rw [llvmOf_iff.mpr hx] at hq; cases hq; rfl
        · exact absurd (llvmOf_iff.mp hq) (hno t m hf)

theorem date_field {ls : List Str} (hl : ∀ l ∈ ls, Spec.Line l) (u : Spec.Utf8 (Spec.unlines ls)) {r : Option Str}
    (h : field (Spec.unlines ls) kDate = some r) (d : Date) :
    (r.bind dateOf).getD Date.unknown = d ↔ Spec.CommitDate ls d.year d.month d.day := by
  have a := ascii_fields.2.2
  unfold Spec.CommitDate
  change _ ↔ (∃ t, Spec.Field ls kDate t ∧ _) ∨ (_ ∧ _ ∧ _ ∧ ∀ t y m d, Spec.Field ls kDate t → _)
  have hz : d = Date.unknown ↔ d.year = 0 ∧ d.month = 0 ∧ d.day = 0 := by
    cases d; simp [Date.unknown]
  cases r with
  | none =>
    have hf := (field_iff hl u a none).mp h
    simp only [Option.bind_none, Option.getD_none]
    constructor
    · intro e
      have := hz.mp e.symm
      exact .inr ⟨this.1, this.2.1, this.2.2, fun t _ _ _ ht => absurd ht (hf t)⟩
    · rintro (⟨t, ht, _⟩ | ⟨e1, e2, e3, _⟩)
      · exact absurd ht (hf t)
      · exact (hz.mpr ⟨e1, e2, e3⟩).symm
  | some t =>
    have hf := (field_iff hl u a (some t)).mp h
    simp only [Option.bind_some]
    cases hq : dateOf t with
    | none =>
      have hno : ∀ t' y m d, Spec.Field ls kDate t' → ¬ Spec.DateText t' y m d := by
        intro t' y m d ht' hx
        cases Field_uniq hl u a hf ht'
        rw [dateOf_iff (d := ⟨y, m, d⟩) |>.mpr hx] at hq; cases hq
      simp only [Option.getD_none]
      constructor
      · intro e
        have := hz.mp e.symm
        exact .inr ⟨this.1, this.2.1, this.2.2, hno⟩
      · rintro (⟨t', ht', hx⟩ | ⟨e1, e2, e3, _⟩)
        · exact absurd hx (hno t' _ _ _ ht')
        · exact (hz.mpr ⟨e1, e2, e3⟩).symm
    | some m =>
      simp only [Option.getD_some]
      constructor
      · rintro rfl; exact .inl ⟨t, hf, dateOf_iff.mp hq⟩
      · rintro (⟨t', ht', hx⟩ | ⟨_, _, _, hno⟩)
        · cases Field_uniq hl u a hf ht'
          rw [dateOf_iff.mpr hx] at hq; cases hq; rfl
        · exact absurd (dateOf_iff.mp hq) (hno t _ _ _ hf)

/-- The version read from the compiler's output: exactly when the first `release: ` line is `1.M…` (a version of Rust 1),
and then the minor version is `M`; the compiler counts as nightly on the channels `nightly` and `dev` unless
`RUSTC_BOOTSTRAP=-1`; the commit date is used on these channels only; the LLVM version is the major version of the
`LLVM version: ` line, 0 without one. -/
theorem version_reads_output (ls : List Str) (hl : ∀ l ∈ ls, Spec.Line l) (u : Spec.Utf8 (Spec.unlines ls))
    (boot : Option Str) (v : Version) :
    Version.parse (Spec.unlines ls) boot = some (some v) ↔
      ∃ rel channel, Spec.Field ls Spec.releaseKey rel ∧ Spec.ReleaseText rel v.minor channel ∧
        (v.nightly = true ↔ channel ∈ Spec.unstable ∧ boot ≠ some (asc ['-', '1'])) ∧
        (channel ∉ Spec.unstable → v.commitDate = none) ∧
        (channel ∈ Spec.unstable → ∃ d, v.commitDate = some d ∧ Spec.CommitDate ls d.year d.month d.day) ∧
        Spec.Llvm ls v.llvm := by
  obtain ⟨a1, a2, a3⟩ := ascii_fields
  obtain ⟨r1, h1⟩ := field_total (Wv.of_utf8 u) a1
  obtain ⟨r2, h2⟩ := field_total (Wv.of_utf8 u) a2
  obtain ⟨r3, h3⟩ := field_total (Wv.of_utf8 u) a3
  rw [parse_eq h1 h2 h3, Option.some.injEq]
  have hu : ∀ c, c ∈ Spec.unstable ↔ (c = cNightly ∨ c = cDev) := by
    intro c; simp [Spec.unstable, cNightly, cDev]
  have hd := date_field hl u h3
  have hL := llvm_field hl u h2
  have hR := (field_iff hl u a1 r1).mp h1
  constructor
  · intro h
    cases r1 with
    | none => simp at h
    | some rel =>
      simp only [Option.bind_some] at h
      cases hr : releaseOf rel with
      | none => rw [hr] at h; simp at h
      | some q =>
        obtain ⟨minor, channel⟩ := q
        rw [hr] at h
        simp only [Option.some.injEq] at h
        refine ⟨rel, channel, hR, ?_⟩
        rw [hu]
        by_cases hc : channel = cNightly ∨ channel = cDev
        · rw [if_pos hc] at h
          subst h
          refine ⟨releaseOf_iff.mp hr, ?_, fun hn => absurd hc hn, fun _ => ⟨_, rfl, (hd _).mp rfl⟩, (hL _).mp rfl⟩
          by_cases hb : boot = some (asc ['-', '1'])
          · simp [hb]
          · simp [hb, hc]
        · rw [if_neg hc] at h
          subst h
          exact ⟨releaseOf_iff.mp hr, by simp [hc], fun _ => rfl, fun hn => absurd hn hc, (hL _).mp rfl⟩
  · rintro ⟨rel, channel, g1, g2, g3, g4, g5, g6⟩
    cases r1 with
    | none => exact absurd g1 (hR rel)
    | some rel' =>
      cases Field_uniq hl u a1 hR g1
      simp only [Option.bind_some, releaseOf_iff.mpr g2, Option.some.injEq]
      rw [hu] at g3 g4 g5
      cases v with
      | mk minor nightly date llvm =>
        simp only at *
        by_cases hc : channel = cNightly ∨ channel = cDev
        · obtain ⟨d, rfl, hd'⟩ := g5 hc
          rw [if_pos hc, (hL _).mpr g6, (hd _).mpr hd']
          by_cases hb : boot = some (asc ['-', '1'])
          · simp [hb] at g3; simp [hb, g3]
          · simp [hb, hc] at g3; simp [hb, g3]
        · rw [if_neg hc, (hL _).mpr g6, g4 hc]
          simp [hc] at g3
          simp [g3]

/-- Numbers: a text is read as `n` exactly if it is a decimal numeral for `n`, possibly with a plus sign, and `n` fits. -/
theorem number_read_exact (max : Nat) (s : Str) (n : Nat) : parseUInt max s = some n ↔ Spec.Number max s n := parseUInt_iff

/-- `probe` compares versions: a later minor version has the feature, an earlier one has not, and on an unstable compiler of
the same minor version the commit date decides. -/
theorem probe_iff (v : Version) (minor y m d : Nat) :
    v.probe minor y m d = true ↔ minor < v.minor ∨ (v.minor = minor ∧ ∀ dt, v.commitDate = some dt →
      toLex (y, toLex (m, d)) ≤ toLex (dt.year, toLex (dt.month, dt.day))) := by
  have hge : ∀ dt : Date, dt.ge ⟨y, m, d⟩ = true ↔ toLex (y, toLex (m, d)) ≤ toLex (dt.year, toLex (dt.month, dt.day)) := by
    intro dt
    rw [Prod.Lex.toLex_le_toLex]
    simp only [Prod.Lex.toLex_le_toLex]
    unfold Date.ge
    simp only
    split
    · split
      · simp only [decide_eq_true_eq]; omega
      · simp only [decide_eq_true_eq]; omega
    · simp only [decide_eq_true_eq]; omega
  unfold Version.probe
  by_cases h : v.minor = minor
  · simp only [h, ne_eq, not_true_eq_false, if_false, Nat.lt_irrefl, true_and, false_or]
    cases v.commitDate with
    | none => simp
    | some dt => simp [hge]
  · simp only [ne_eq, h, not_false_eq_true, if_true, decide_eq_true_eq, false_and, or_false]

/-! ## The hypotheses are met -/

theorem utf8_of_ascii (cs : List Char) (h : ∀ c ∈ cs, c.toNat < 128) : Spec.Utf8 (asc cs) := by
  refine ⟨cs, ?_⟩
  induction cs with
  | nil => rfl
  | cons c cs ih =>
    have hc := h c List.mem_cons_self
    have e : String.utf8EncodeChar c = [UInt8.ofNat c.toNat] := by
      unfold String.utf8EncodeChar
      have : c.val.toNat ≤ 127 := Nat.le_of_lt_succ hc
      simp only [this, if_true]; rfl
    rw [List.flatMap_cons, e, ← ih (fun x hx => h x (List.mem_cons_of_mem _ hx))]
    rfl

namespace BuildDemo

/-- `-gCtarget-feature=+lse,-rcpc --cfg -Ctarget-cpu=x --codegen target_cpu=a64fx -Z allow-features=asm,abi -Lfoo`:
the value of `--cfg` is not mistaken for an option. -/
def args : List Arg :=
  [.opt false (asc ['g']) true (asc ['t', 'a', 'r', 'g', 'e', 't', '-', 'f', 'e', 'a', 't', 'u', 'r', 'e', '=', '+', 'l', 's', 'e', ',', '-', 'r', 'c', 'p', 'c']),
   .longVal (asc ['c', 'f', 'g']) (asc ['-', 'C', 't', 'a', 'r', 'g', 'e', 't', '-', 'c', 'p', 'u', '=', 'x']),
   .codegen false (asc ['t', 'a', 'r', 'g', 'e', 't', '_', 'c', 'p', 'u', '=', 'a', '6', '4', 'f', 'x']),
   .opt true [] false (asc ['a', 'l', 'l', 'o', 'w', '-', 'f', 'e', 'a', 't', 'u', 'r', 'e', 's', '=', 'a', 's', 'm', ',', 'a', 'b', 'i']),
   .short [] (asc ['L', 'f', 'o', 'o'])]

theorem args_ok : (∀ a ∈ args, a.Ok) := by
  simp only [args, List.mem_cons, List.not_mem_nil, or_false, forall_eq_or_imp, forall_eq]
  refine ⟨⟨by decide, by decide⟩, (by decide : _ ∈ Spec.valuedLong), trivial, ⟨by decide, by decide⟩, ⟨by decide, ?_⟩⟩
  intro b r e
  cases e
  decide

theorem args_text : ∀ w ∈ args.flatMap Arg.words, Spec.Utf8 w ∧ (31 : Byte) ∉ w := by
  have h : ∀ w ∈ args.flatMap Arg.words, w = asc (w.map fun b => Char.ofNat b.toNat) ∧
      (∀ c ∈ w.map (fun b => Char.ofNat b.toNat), c.toNat < 128) ∧ (31 : Byte) ∉ w := by decide +kernel
  intro w hw
  obtain ⟨h1, h2, h3⟩ := h w hw
  exact ⟨h1 ▸ utf8_of_ascii _ h2, h3⟩

example : Rustflags.new (Spec.encode (args.flatMap Arg.words)) none = some
    ⟨[(true, asc ['l', 's', 'e']), (false, asc ['r', 'c', 'p', 'c'])], some (asc ['a', '6', '4', 'f', 'x']), some (true, asc ['a', 's', 'm', ',', 'a', 'b', 'i'])⟩ := by
  decide +kernel

/-- The text of `rustc -vV` of a nightly compiler. -/
def out : List Str :=
  [asc ['r', 'u', 's', 't', 'c', ' ', '1', '.', '9', '7', '.', '0', '-', 'n', 'i', 'g', 'h', 't', 'l', 'y', ' ', '(', 'c', '0', 'f', 'f', 'e', 'e', ' ', '2', '0', '2', '6', '-', '0', '4', '-', '0', '2', ')'],
   asc ['b', 'i', 'n', 'a', 'r', 'y', ':', ' ', 'r', 'u', 's', 't', 'c'],
   asc ['c', 'o', 'm', 'm', 'i', 't', '-', 'd', 'a', 't', 'e', ':', ' ', '2', '0', '2', '6', '-', '0', '4', '-', '0', '2'],
   asc ['r', 'e', 'l', 'e', 'a', 's', 'e', ':', ' ', '1', '.', '9', '7', '.', '0', '-', 'n', 'i', 'g', 'h', 't', 'l', 'y'],
   asc ['L', 'L', 'V', 'M', ' ', 'v', 'e', 'r', 's', 'i', 'o', 'n', ':', ' ', '2', '2', '.', '1', '.', '2']]

theorem out_lines : (∀ l ∈ out, Spec.Line l) ∧ Spec.Utf8 (Spec.unlines out) := by
  refine ⟨by unfold Spec.Line; decide +kernel, ?_⟩
  have : Spec.unlines out = asc ((Spec.unlines out).map fun b => Char.ofNat b.toNat) := by decide +kernel
  rw [this]
  exact utf8_of_ascii _ (by decide +kernel)

example : Version.parse (Spec.unlines out) none = some (some ⟨97, true, some ⟨2026, 4, 2⟩, 22⟩) := by decide +kernel
example : Version.parse (Spec.unlines out) (some (asc ['-', '1'])) = some (some ⟨97, false, some ⟨2026, 4, 2⟩, 22⟩) := by
  decide +kernel
example : Version.parse (Spec.unlines [asc ['r', 'e', 'l', 'e', 'a', 's', 'e', ':', ' ', '2', '.', '0', '.', '0']]) none = some none := by decide +kernel
example : Version.parse (Spec.unlines [asc ['r', 'e', 'l', 'e', 'a', 's', 'e', ':', ' ', '1', '.', '8', '5', '.', '1']]) none = some (some (.stable 85 0)) := by decide +kernel

/-- A slice that is not at a character boundary does panic in the model: the no-panic theorems are not vacuous. -/
example : sliceFrom [0xC3, 0xA9] 1 = none := by decide

end BuildDemo

end Verif.Build
