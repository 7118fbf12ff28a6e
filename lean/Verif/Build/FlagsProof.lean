import Verif.Build.Facts
/-!
# The rustflags parser reads a command line
-/
set_option autoImplicit false
namespace Verif.Build
open Spec (Arg)

theorem ascii_keys : Ascii kAllow ∧ Ascii kAllow' ∧ Ascii kFeature ∧ Ascii kFeature' ∧ Ascii kCpu ∧ Ascii kCpu' ∧
    Ascii kCodegen ∧ Ascii kEq := by decide

theorem stripFlag_eq {v a b : Str} (w : Wv v) (ha : Ascii a) (hb : Ascii b) :
    stripFlag v a b = some (Spec.setting a b v) := by
  unfold stripFlag Spec.setting
  rw [stripPrefix_eq w ha, stripPrefix_eq w hb]
  by_cases h : a <+: v
  · simp [h]
  · simp [h]

theorem featureOf_eq (f : Str) : (split isComma f).filterMap featureOf = Spec.features f := by
  unfold Spec.features
  rw [split_eq, List.splitOn]
  have : isComma = (· == (44 : Byte)) := rfl
  rw [this]
  congr 1
  funext x
  unfold featureOf
  rcases x with _ | ⟨b, f⟩
  · rfl
  · by_cases h : b = 43
    · subst h; rfl
    · by_cases h' : b = 45
      · subst h'; rfl
      · simp only [if_neg h, if_neg h']
        split
        · rename_i e; simp only [List.cons.injEq] at e; exact absurd e.1 h
        · rename_i e; simp only [List.cons.injEq] at e; exact absurd e.1 h'
        · rfl

/-- The effect of a value. -/
def applySpec (st : Rustflags) (z : Bool) (v : Str) : Rustflags :=
  if z then
    match Spec.setting Spec.allowFeatures Spec.allowFeatures' v with
    | some f => { st with allowFeatures := some (true, f) }
    | none => st
  else
    match Spec.setting Spec.targetFeature Spec.targetFeature' v with
    | some f => { st with targetFeature := st.targetFeature ++ Spec.features f }
    | none =>
      match Spec.setting Spec.targetCpu Spec.targetCpu' v with
      | some f => { st with targetCpu := some f }
      | none => st

theorem apply_eq (st : Rustflags) (z : Bool) {v : Str} (w : Wv v) : apply st z v = some (applySpec st z v) := by
  obtain ⟨a1, a2, a3, a4, a5, a6, _, _⟩ := ascii_keys
  unfold apply applySpec
  cases z with
  | true =>
    simp only [if_true, stripFlag_eq w a1 a2]
    change _ = some (match Spec.setting kAllow kAllow' v with | some f => _ | none => _)
    cases Spec.setting kAllow kAllow' v <;> rfl
  | false =>
    simp only [Bool.false_eq_true, if_false, stripFlag_eq w a3 a4, stripFlag_eq w a5 a6]
    change _ = some (match Spec.setting kFeature kFeature' v with
      | some f => _ | none => match Spec.setting kCpu kCpu' v with | some f => _ | none => _)
    cases Spec.setting kFeature kFeature' v with
    | some f => simp [featureOf_eq]
    | none => cases Spec.setting kCpu kCpu' v <;> rfl

/-! ## No panic -/

/-- `inspect` does not panic, and a value it finds is text again. -/
def Next.Ok : Next → Prop
  | .value _ v => Wv v
  | _ => True

theorem getElem?_split {s : Str} {i : Nat} {a : Byte} (h : s[i]? = some a) :
    s = s.take i ++ a :: s.drop (i + 1) ∧ (s.take i).length = i := by
  obtain ⟨hi, e⟩ := List.getElem?_eq_some_iff.mp h
  refine ⟨?_, by simp; omega⟩
  rw [← e, List.getElem_cons_drop, List.take_append_drop]

theorem slice_after {s : Str} {i : Nat} {a : Byte} (w : Wv s) (h : s[i]? = some a) (ha : a < 128) :
    sliceFrom s (i + 1) = some (s.drop (i + 1)) ∧ Wv (s.drop (i + 1)) := by
  obtain ⟨e, l⟩ := getElem?_split h
  have := w.slice e ha
  rw [l] at this
  exact this

theorem longFlag_ok {f : Str} (w : Wv f) : ∃ n, longFlag f = some n ∧ n.Ok := by
  obtain ⟨_, _, _, _, _, _, a7, a8⟩ := ascii_keys
  unfold longFlag
  rw [stripPrefix_eq w a7]
  by_cases h : kCodegen <+: f
  · have w' := w.drop_prefix a7 h
    simp only [h, if_true, Option.bind_eq_bind, Option.bind_some]
    rw [stripPrefix_eq w' a8]
    by_cases h2 : kEq <+: f.drop kCodegen.length
    · simp only [h2, if_true, Option.bind_some]
      exact ⟨_, rfl, w'.drop_prefix a8 h2⟩
    · simp only [h2, if_false, Option.bind_some]
      split
      · exact ⟨_, rfl, trivial⟩
      · exact ⟨_, rfl, trivial⟩
  · simp only [h, if_false, Option.bind_eq_bind, Option.bind_some]
    split
    · exact ⟨_, rfl, trivial⟩
    split
    · exact ⟨_, rfl, trivial⟩
    · exact ⟨_, rfl, trivial⟩

theorem afterCZ_ok {flag : Str} {start : Nat} {b : Byte} (w : Wv flag) (h : flag[start]? = some b) (hb : b < 128)
    (long z : Bool) : ∃ n, afterCZ flag (start + 1) long z = some n ∧ n.Ok := by
  unfold afterCZ
  split
  · exact ⟨_, rfl, trivial⟩
  cases long with
  | true =>
    simp only [if_true]
    split
    · exact ⟨_, rfl, trivial⟩
    · rename_i h'
      have := slice_after w (Classical.not_not.mp h') (by decide)
      exact ⟨.value z _, by rw [this.1]; rfl, this.2⟩
  | false =>
    have := slice_after w h hb
    exact ⟨.value z _, by simp only [Bool.false_eq_true, if_false]; rw [this.1]; rfl, this.2⟩

theorem inspect_ok {flag : Str} (w : Wv flag) : ∃ n, inspect flag = some n ∧ n.Ok := by
  unfold inspect
  split
  · exact ⟨_, rfl, trivial⟩
  rename_i h0
  have h0 := Classical.not_not.mp h0
  simp only
  generalize hs : (if (flag[1]? == some 45) = true then 2 else skipShort flag 1) = start
  cases hb : flag[start]? with
  | none => exact ⟨_, rfl, trivial⟩
  | some b =>
    simp only
    split
    · exact afterCZ_ok w hb (by rename_i e; subst e; decide) _ _
    split
    · exact afterCZ_ok w hb (by rename_i e; subst e; decide) _ _
    split
    · exact ⟨_, rfl, trivial⟩
    split
    · exact ⟨_, rfl, trivial⟩
    · rename_i hl
      have hl : (flag[1]? == some 45) = true := by
        simp only [Bool.or_eq_true, not_or, Bool.not_eq_true', Bool.not_eq_false] at hl
        exact hl.2
      rw [if_pos hl] at hs
      subst hs
      have := slice_after w (i := 1) (beq_iff_eq.mp hl) (by decide)
      rw [this.1]
      exact longFlag_ok this.2

theorem loop_total (l : List Str) (hl : ∀ x ∈ l, Wv x) (st : Rustflags) : ∃ st', loop st l = some st' := by
  induction hn : l.length using Nat.strongRecOn generalizing l st with
  | ind n ih =>
    cases l with
    | nil => exact ⟨st, rfl⟩
    | cons flag rest =>
      obtain ⟨nx, e, ok⟩ := inspect_ok (hl flag List.mem_cons_self)
      have hr : ∀ x ∈ rest, Wv x := fun x hx => hl x (List.mem_cons_of_mem _ hx)
      simp only [List.length_cons] at hn
      unfold loop
      rw [e]
      cases nx with
      | skip => exact ih rest.length (by omega) rest hr st rfl
      | value z v =>
        simp only [apply_eq st z ok]
        exact ih rest.length (by omega) rest hr _ rfl
      | skipNext =>
        cases rest with
        | nil => exact ⟨st, rfl⟩
        | cons v rest =>
          simp only [List.length_cons] at hn
          exact ih rest.length (by omega) rest (fun x hx => hr x (List.mem_cons_of_mem _ hx)) st rfl
      | valueNext z =>
        cases rest with
        | nil => exact ⟨st, rfl⟩
        | cons v rest =>
          simp only [List.length_cons] at hn
          simp only [apply_eq st z (hr v List.mem_cons_self)]
          exact ih rest.length (by omega) rest (fun x hx => hr x (List.mem_cons_of_mem _ hx)) _ rfl

/-! ## Well-formed arguments -/

theorem skipShort_bundle (bundle rest : Str) (hb : ∀ b ∈ bundle, b ∈ Spec.bare)
    (hr : ∀ b r, rest = b :: r → b ∉ Spec.bare) : skipShort (45 :: (bundle ++ rest)) 1 = bundle.length + 1 := by
  unfold skipShort
  simp only [List.drop_succ_cons, List.drop_zero]
  rw [List.takeWhile_append_of_pos]
  · have : List.takeWhile (fun b => b == 103 || b == 79 || b == 118) rest = [] := by
      cases rest with
      | nil => rfl
      | cons b r =>
        rw [List.takeWhile_cons_of_neg]
        have := hr b r rfl
        simpa [Spec.bare, not_or, and_assoc] using this
    rw [this]; simp; omega
  · intro b h
    have := hb b h
    simpa [Spec.bare, or_assoc] using this

theorem second_bundle (bundle rest : Str) (hb : ∀ b ∈ bundle, b ∈ Spec.bare)
    (hr : ∀ b r, rest = b :: r → b = 45 → bundle ≠ []) : ((45 :: (bundle ++ rest))[1]? == some 45) = false := by
  cases bundle with
  | nil =>
    cases rest with
    | nil => rfl
    | cons b r =>
      have := hr b r rfl
      simp only [List.nil_append, List.getElem?_cons_succ,
        List.getElem?_cons_zero]
      by_cases h : b = 45
      · exact absurd rfl (this h)
      · simp [h]
  | cons b r =>
    have := hb b List.mem_cons_self
    simp only [List.cons_append, List.getElem?_cons_succ, List.getElem?_cons_zero]
    simp only [Spec.bare, List.mem_cons, List.not_mem_nil, or_false] at this
    rcases this with rfl | rfl | rfl <;> rfl

/-- `inspect` on a short flag whose bundle of `g`, `O`, `v` ends before `b`. -/
theorem inspect_short (bundle r : Str) (b : Byte) (hb : ∀ b ∈ bundle, b ∈ Spec.bare) (h1 : b ∉ Spec.bare)
    (h2 : b = 45 → bundle ≠ []) :
    inspect (45 :: (bundle ++ b :: r)) =
      if b = 67 then afterCZ (45 :: (bundle ++ b :: r)) (bundle.length + 2) false false
      else if b = 90 then afterCZ (45 :: (bundle ++ b :: r)) (bundle.length + 2) false true
      else if shortWithValue b && r.length == 0 then some .skipNext else some .skip := by
  have hr : ∀ b' r', b :: r = b' :: r' → b' ∉ Spec.bare := by rintro _ _ ⟨⟩; exact h1
  have hr2 : ∀ b' r', b :: r = b' :: r' → b' = 45 → bundle ≠ [] := by rintro _ _ ⟨⟩; exact h2
  unfold inspect
  simp only [List.getElem?_cons_zero, ne_eq, not_true_eq_false, if_false, second_bundle bundle _ hb hr2,
    Bool.false_eq_true, skipShort_bundle bundle _ hb hr]
  have e : (45 :: (bundle ++ b :: r))[bundle.length + 1]? = some b := by simp
  rw [e]
  simp only [Bool.not_false, Bool.or_true, if_true, List.length_cons, List.length_append]
  have : (bundle.length + (r.length + 1) + 1 == bundle.length + 1 + 1) = (r.length == 0) := by
    rw [Bool.eq_iff_iff]; simp only [beq_iff_eq]; omega
  rw [this]

theorem afterCZ_short (bundle v : Str) (b : Byte) (z : Bool) (w : Wv (45 :: (bundle ++ b :: v))) (hb : b < 128) :
    afterCZ (45 :: (bundle ++ b :: v)) (bundle.length + 2) false z
      = some (if v = [] then .valueNext z else .value z v) := by
  unfold afterCZ
  have e : (45 :: (bundle ++ b :: v)).length = bundle.length + 2 ↔ v = [] := by
    simp only [List.length_cons, List.length_append]
    rw [← List.length_eq_zero_iff]; omega
  by_cases h : v = []
  · rw [if_pos (e.mpr h), if_pos h]
  · rw [if_neg (fun q => h (e.mp q)), if_neg h]
    simp only [Bool.false_eq_true, if_false]
    have := (w.slice (p := 45 :: bundle) (a := b) (r := v) (by simp) hb).1
    simp only [List.length_cons] at this
    rw [this]; rfl

theorem inspect_long {n : Str} {b : Byte} {r : Str} (w : Wv (45 :: 45 :: n)) (e : n = b :: r) (h1 : b < 128)
    (h2 : b ≠ 67) (h3 : b ≠ 90) (h4 : r = [] → b ∉ Spec.valued) : inspect (45 :: 45 :: n) = longFlag n := by
  subst e
  have h5 : (shortWithValue b && (45 :: 45 :: b :: r).length == 2 + 1) = false := by
    cases r with
    | nil =>
      have := h4 rfl
      have : shortWithValue b = false := by
        cases h : shortWithValue b with
        | false => rfl
        | true =>
          exfalso; apply this
          simpa [shortWithValue, Spec.valued, or_assoc] using h
      rw [this]; rfl
    | cons c r => simp
  unfold inspect
  have h6 : ((45 :: 45 :: b :: r)[1]? == some 45) = true := rfl
  have h7 : (45 :: 45 :: b :: r)[2]? = some b := rfl
  simp only [List.getElem?_cons_zero, ne_eq, not_true_eq_false, if_false, h6, if_true, h7, if_neg h2, if_neg h3, h5,
    Bool.false_eq_true, h1, decide_true, Bool.not_true, Bool.or_self]
  have := (w.slice (p := [45]) (a := 45) (r := b :: r) rfl (by decide)).1
  simp only [List.length_cons, List.length_nil] at this
  rw [this]
  rfl

theorem drop_left' {a b : Str} {n : Nat} (h : n = a.length) : (a ++ b).drop n = b := by subst h; simp

theorem longFlag_eq {f : Str} (w : Wv f) : longFlag f = some (
    if kCodegen <+: f then
      if kEq <+: f.drop kCodegen.length then .value false ((f.drop kCodegen.length).drop 1)
      else if f.drop kCodegen.length = [] then .valueNext false else .skip
    else if f.contains 61 then .skip
    else if longWithValue.contains f then .skipNext
    else .skip) := by
  obtain ⟨_, _, _, _, _, _, a7, a8⟩ := ascii_keys
  unfold longFlag
  rw [stripPrefix_eq w a7]
  by_cases h : kCodegen <+: f
  · have w' := w.drop_prefix a7 h
    simp only [h, if_true, Option.bind_eq_bind, Option.bind_some]
    rw [stripPrefix_eq w' a8]
    by_cases h2 : kEq <+: f.drop kCodegen.length
    · simp only [h2, if_true, Option.bind_some]; rfl
    · simp only [h2, if_false, Option.bind_some]
      split <;> rfl
  · simp only [h, if_false, Option.bind_eq_bind, Option.bind_some]
    split
    · rfl
    split <;> rfl

theorem valuedLong_facts : ∀ n ∈ Spec.valuedLong,
    ((∃ b r, n = b :: r ∧ b < 128 ∧ b ≠ 67 ∧ b ≠ 90 ∧ (r = [] → b ∉ Spec.valued)) ∧ n.contains 61 = false ∧
      ¬ kCodegen <+: n ∧ longWithValue.contains n = true) := by
  have key : ∀ n ∈ Spec.valuedLong,
    ((n ≠ [] ∧ n.headD 0 < 128 ∧ n.headD 0 ≠ 67 ∧ n.headD 0 ≠ 90 ∧ (n.tail = [] → n.headD 0 ∉ Spec.valued)) ∧ n.contains 61 = false ∧
      ¬ kCodegen <+: n ∧ longWithValue.contains n = true) := by decide +kernel
  intro n hn
  obtain ⟨h1, h2⟩ := key n hn
  refine ⟨?_, h2⟩
  cases n with
  | nil => exact absurd rfl h1.1
  | cons b r => exact ⟨b, r, rfl, h1.2⟩

/-- The effect of an argument. -/
def effect (st : Rustflags) (a : Arg) : Rustflags :=
  match a.codegenValue, a.unstableValue with
  | some v, _ => applySpec st false v
  | none, some v => applySpec st true v
  | none, none => st

theorem loop_arg (a : Arg) (ok : a.Ok) (hw : ∀ x ∈ a.words, Wv x) (st : Rustflags) (rest : List Str) :
    loop st (a.words ++ rest) = loop (effect st a) rest := by
  cases a with
  | opt z bundle joined v =>
    obtain ⟨hb, hj⟩ := ok
    have hz : (if z = true then 90 else 67 : Byte) ∉ Spec.bare := by cases z <;> decide
    have hz2 : (if z = true then 90 else 67 : Byte) = 45 → bundle ≠ [] := by
      intro h; cases z <;> exact absurd h (by decide)
    have eff : effect st (.opt z bundle joined v) = applySpec st z v := by cases z <;> rfl
    have ins : ∀ v', Wv (45 :: (bundle ++ (if z = true then 90 else 67) :: v')) →
        inspect (45 :: (bundle ++ (if z = true then 90 else 67) :: v'))
          = some (if v' = [] then .valueNext z else .value z v') := by
      intro v' w
      rw [inspect_short bundle v' _ hb hz hz2]
      cases z with
      | true => simpa using afterCZ_short bundle v' 90 true w (by decide)
      | false => simpa using afterCZ_short bundle v' 67 false w (by decide)
    rw [eff]
    cases joined with
    | true =>
      have w := hw _ (List.mem_singleton.mpr rfl)
      have wv : Wv v := okFrom_after (p := 45 :: bundle) w (by cases z <;> decide)
      simp only [Arg.words, List.singleton_append]
      have := ins v w
      rw [List.cons_append]
      conv_lhs => unfold loop
      rw [this, if_neg (hj rfl)]
      simp only [apply_eq st z wv]
    | false =>
      have w := hw _ List.mem_cons_self
      have wv := hw v (by simp [Arg.words])
      simp only [Arg.words, List.cons_append, List.nil_append]
      have := ins [] w
      conv_lhs => unfold loop
      rw [this, if_pos rfl]
      simp only [apply_eq st z wv]
  | codegen joined v =>
    have key : ∀ v', Wv (45 :: 45 :: (Spec.codegenWord ++ v')) →
        inspect (45 :: 45 :: (Spec.codegenWord ++ v')) = longFlag (kCodegen ++ v') := by
      intro v' w
      exact inspect_long w (b := 99) rfl (by decide) (by decide) (by decide) (by simp)
    cases joined with
    | true =>
      have w := hw _ (List.mem_singleton.mpr rfl)
      have w1 : Wv (kCodegen ++ 61 :: v) := okFrom_after (p := [45]) w (by decide)
      have wv : Wv v := okFrom_after (p := 45 :: 45 :: kCodegen) w (by decide)
      simp only [Arg.words, List.singleton_append]
      conv_lhs => unfold loop
      have := key _ w
      rw [List.cons_append, List.cons_append, this, longFlag_eq w1, if_pos (List.prefix_append _ _), List.drop_left, if_pos (by exact ⟨v, rfl⟩)]
      simp only [List.drop_succ_cons, List.drop_zero, apply_eq st false wv]
      rfl
    | false =>
      have w := hw _ List.mem_cons_self
      have w1 : Wv (kCodegen ++ []) := okFrom_after (p := [45]) (a := 45) (by rw [List.append_nil]; exact w) (by decide)
      have wv := hw v (by simp [Arg.words])
      simp only [Arg.words, List.cons_append, List.nil_append]
      conv_lhs => unfold loop
      have := key [] (by simpa using w)
      rw [List.append_nil] at this
      rw [this, longFlag_eq w1]
      rw [if_pos (List.prefix_append _ _), List.drop_left, if_neg (by decide), if_pos rfl]
      simp only [apply_eq st false wv]
      rfl
  | shortVal bundle b v =>
    obtain ⟨hb, hv⟩ := ok
    have w := hw _ List.mem_cons_self
    have hv' : b ∉ Spec.bare ∧ b ≠ 67 ∧ b ≠ 90 ∧ b ≠ 45 ∧ shortWithValue b = true := by
      clear hw w
      change b ∈ Spec.valued at hv
      have : ∀ b ∈ Spec.valued, b ∉ Spec.bare ∧ b ≠ 67 ∧ b ≠ 90 ∧ b ≠ 45 ∧ shortWithValue b = true := by decide
      exact this b hv
    simp only [Arg.words, List.cons_append, List.nil_append]
    conv_lhs => unfold loop
    rw [inspect_short bundle [] b hb hv'.1 (fun h => absurd h hv'.2.2.2.1), if_neg hv'.2.1, if_neg hv'.2.2.1, hv'.2.2.2.2]
    rfl
  | short bundle rest' =>
    obtain ⟨hb, hr⟩ := ok
    have : inspect (45 :: (bundle ++ rest')) = some .skip := by
      cases rest' with
      | nil =>
        unfold inspect
        have h2 := second_bundle bundle [] hb (by rintro _ _ ⟨⟩)
        have h3 := skipShort_bundle bundle [] hb (by rintro _ _ ⟨⟩)
        simp only [List.getElem?_cons_zero, ne_eq, not_true_eq_false, if_false, h2, Bool.false_eq_true, h3]
        have : (45 :: (bundle ++ []))[bundle.length + 1]? = none := by simp
        rw [this]
      | cons b r =>
        obtain ⟨h1, h2, h3, h4, h5⟩ := hr b r rfl
        rw [inspect_short bundle r b hb h1 h4, if_neg h2, if_neg h3]
        have : (shortWithValue b && r.length == 0) = false := by
          cases hs : shortWithValue b with
          | false => rfl
          | true =>
            have : b ∈ Spec.valued := by simpa [shortWithValue, Spec.valued, or_assoc] using hs
            have := h5 this
            cases r with
            | nil => exact absurd rfl this
            | cons _ _ => rfl
        rw [this]; rfl
    simp only [Arg.words, List.cons_append, List.nil_append]
    conv_lhs => unfold loop
    rw [this]
    rfl
  | longVal n v =>
    have w := hw _ List.mem_cons_self
    have w1 : Wv n := okFrom_after (p := [45]) w (by decide)
    obtain ⟨⟨b, r, e, h1, h2, h3, h4⟩, h5, h6, h7⟩ := valuedLong_facts n ok
    simp only [Arg.words, List.cons_append, List.nil_append]
    conv_lhs => unfold loop
    rw [inspect_long w e h1 h2 h3 h4, longFlag_eq w1, if_neg h6, h5, h7]
    rfl
  | longEq n v =>
    obtain ⟨⟨⟨b, r, e, h1, h2, h3, h4⟩, h5⟩, h6⟩ := ok
    have w := hw _ (List.mem_singleton.mpr rfl)
    have w1 : Wv (n ++ 61 :: v) := okFrom_after (p := [45]) w (by decide)
    simp only [Arg.words, List.cons_append, List.nil_append]
    conv_lhs => unfold loop
    have hnp : ¬ kCodegen <+: n ++ 61 :: v := by
      intro h
      by_cases hl : kCodegen.length ≤ n.length
      · exact h6 (List.prefix_of_prefix_length_le h (List.prefix_append _ _) hl)
      · obtain ⟨t, ht⟩ := h
        have h8 : (n ++ 61 :: v)[n.length]? = some 61 := by simp
        rw [← ht, List.getElem?_append_left (by omega)] at h8
        have : (61 : Byte) ∈ kCodegen := List.mem_of_getElem? h8
        exact absurd this (by decide)
    have hi : inspect (45 :: 45 :: (n ++ 61 :: v)) = longFlag (n ++ 61 :: v) :=
      inspect_long w (b := b) (r := r ++ 61 :: v) (by rw [e]; rfl) h1 h2 h3 (by simp)
    rw [hi, longFlag_eq w1, if_neg hnp,
      if_pos (by simp)]
    rfl
  | long n =>
    obtain ⟨⟨⟨b, r, e, h1, h2, h3, h4⟩, h5⟩, h6, h7⟩ := ok
    have w := hw _ (List.mem_singleton.mpr rfl)
    have w1 : Wv n := okFrom_after (p := [45]) w (by decide)
    simp only [Arg.words, List.cons_append, List.nil_append]
    conv_lhs => unfold loop
    rw [inspect_long w e h1 h2 h3 h4, longFlag_eq w1]
    have hc : longWithValue.contains n = false := by
      rw [Bool.eq_false_iff]; intro h; exact h6 (List.contains_iff_mem.mp h)
    have h8 : n.contains 61 = false := by
      rw [Bool.eq_false_iff]; intro h; exact h5 (List.contains_iff_mem.mp h)
    rw [hc, h8]
    by_cases hp : kCodegen <+: n
    · obtain ⟨q, rfl⟩ := hp
      rw [if_pos (List.prefix_append _ _), List.drop_left, if_neg, if_neg]
      · rfl
      · rintro rfl; exact h7 (by simp; rfl)
      · rintro ⟨t, rfl⟩; exact h5 (by simp [kEq, asc])
    · rw [if_neg hp]; rfl
  | free s =>
    simp only [Arg.words, List.cons_append, List.nil_append]
    conv_lhs => unfold loop
    have : inspect s = some .skip := by
      change s[0]? ≠ some 45 at ok
      unfold inspect; rw [if_pos ok]
    rw [this]; rfl

theorem loop_args (args : List Arg) (ok : ∀ a ∈ args, a.Ok) (hw : ∀ x ∈ args.flatMap Arg.words, Wv x) (st : Rustflags) :
    loop st (args.flatMap Arg.words) = some (args.foldl effect st) := by
  induction args generalizing st with
  | nil => rfl
  | cons a args ih =>
    rw [List.flatMap_cons, loop_arg a (ok a List.mem_cons_self) (fun x hx => hw x (by simp [hx])) st,
      ih (fun x hx => ok x (List.mem_cons_of_mem _ hx)) (fun x hx => hw x (by
        rw [List.flatMap_cons]; exact List.mem_append_right _ hx))]
    rfl

end Verif.Build
