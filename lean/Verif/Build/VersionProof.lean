import Verif.Build.Facts
/-!
# The version parser
-/
set_option autoImplicit false
namespace Verif.Build

/-! ## Numerals -/

theorem digit_some {b : Byte} : 48 ≤ b ∧ b ≤ 57 → digit b = some (b.toNat - 48) := fun h => by
  unfold digit; rw [if_pos h]

/-- The value of a digit string after `acc`. -/
def valFrom (acc : Nat) (s : Str) : Nat := s.foldl (fun a b => a * 10 + (b.toNat - 48)) acc

theorem valFrom_ge (acc : Nat) (s : Str) : acc ≤ valFrom acc s := by
  induction s generalizing acc with
  | nil => exact Nat.le_refl _
  | cons b s ih =>
    have := ih (acc * 10 + (b.toNat - 48))
    unfold valFrom at *
    simp only [List.foldl_cons]; omega

theorem parseDigits_iff {max acc : Nat} {s : Str} {n : Nat} (ha : acc ≤ max) :
    parseDigits max acc s = some n ↔ n ≤ max ∧ (∀ b ∈ s, 48 ≤ b ∧ b ≤ 57) ∧ valFrom acc s = n := by
  induction s generalizing acc with
  | nil =>
    simp only [parseDigits, Option.some.injEq, List.not_mem_nil, false_implies, implies_true, true_and, valFrom,
      List.foldl_nil]
    constructor
    · rintro rfl; exact ⟨ha, rfl⟩
    · exact fun h => h.2
  | cons b r ih =>
    unfold parseDigits
    by_cases hb : 48 ≤ b ∧ b ≤ 57
    · rw [digit_some hb]
      simp only
      have hv : valFrom acc (b :: r) = valFrom (acc * 10 + (b.toNat - 48)) r := rfl
      have hg := valFrom_ge (acc * 10 + (b.toNat - 48)) r
      rw [hv]
      by_cases h1 : acc * 10 + (b.toNat - 48) ≤ max
      · rw [if_pos (by omega), if_pos h1, ih h1]
        constructor
        · rintro ⟨h2, h3, h4⟩
          refine ⟨h2, ?_, h4⟩
          intro x hx
          cases List.mem_cons.mp hx with
          | inl e => subst e; exact hb
          | inr e => exact h3 x e
        · rintro ⟨h2, h3, h4⟩
          exact ⟨h2, fun x hx => h3 x (List.mem_cons_of_mem _ hx), h4⟩
      · constructor
        · intro h
          split at h
          · simp at h
          · simp at h
        · rintro ⟨h2, h3, h4⟩; omega
    · have : digit b = none := by unfold digit; rw [if_neg hb]
      rw [this]
      constructor
      · intro h; exact absurd h (by simp)
      · rintro ⟨_, h3, _⟩; exact absurd (h3 b List.mem_cons_self) hb

theorem not_digit_sign : ¬ ((48 : Byte) ≤ 43 ∧ (43 : Byte) ≤ 57) ∧ ¬ ((48 : Byte) ≤ 45 ∧ (45 : Byte) ≤ 57) := by decide

theorem parseUInt_iff {max : Nat} {s : Str} {n : Nat} : parseUInt max s = some n ↔ Spec.Number max s n := by
  unfold Spec.Number Spec.Numeral
  rcases s with _ | ⟨b, _ | ⟨c, r⟩⟩
  · simp [parseUInt]
  · by_cases h : b = 43
    · subst h; simp [parseUInt]
    · by_cases h' : b = 45
      · subst h'; simp [parseUInt]
      · simp only [parseUInt, h, h', or_self, if_false]
        rw [parseDigits_iff (Nat.zero_le _)]
        simp [valFrom, h]
  · by_cases h : b = 43
    · subst h
      simp only [parseUInt, if_true]
      rw [parseDigits_iff (Nat.zero_le _)]
      constructor
      · rintro ⟨h1, h2, h3⟩; exact ⟨h1, .inr ⟨_, rfl, by simp, h2, h3⟩⟩
      · rintro ⟨h1, h2 | ⟨t, e, _, h2, h3⟩⟩
        · exact absurd (h2.2.1 43 List.mem_cons_self) not_digit_sign.1
        · cases e; exact ⟨h1, h2, h3⟩
    · simp only [parseUInt, h, if_false]
      rw [parseDigits_iff (Nat.zero_le _)]
      constructor
      · rintro ⟨h1, h2, h3⟩; exact ⟨h1, .inl ⟨by simp, h2, h3⟩⟩
      · rintro ⟨h1, h2 | ⟨t, e, _⟩⟩
        · exact ⟨h1, h2.2⟩
        · cases e; exact absurd rfl h

theorem Number_plain {max : Nat} {s : Str} {n : Nat} (h : Spec.Number max s n) :
    (∀ b ∈ s, isDot b = false) ∧ (∀ b ∈ s, isDash b = false) := by
  have key : ∀ b : Byte, 48 ≤ b ∧ b ≤ 57 ∨ b = 43 → isDot b = false ∧ isDash b = false := by
    intro b hb
    unfold isDot isDash
    simp only [beq_eq_false_iff_ne, ne_eq]
    constructor
    · rintro rfl; exact absurd hb (by decide)
    · rintro rfl; exact absurd hb (by decide)
  have : ∀ b ∈ s, 48 ≤ b ∧ b ≤ 57 ∨ b = 43 := by
    rcases h.2 with h | ⟨t, rfl, h'⟩
    · exact fun b hb => .inl (h.2.1 b hb)
    · intro b hb
      cases List.mem_cons.mp hb with
      | inl e => exact .inr e
      | inr e => exact .inl (h'.2.1 b e)
  exact ⟨fun b hb => (key b (this b hb)).1, fun b hb => (key b (this b hb)).2⟩

/-! ## Cutting -/

theorem cut_plain {p : Byte → Bool} {s : Str} (h : ∀ b ∈ s, p b = false) : cut p s = (s, none) := by
  induction s with
  | nil => rfl
  | cons b r ih =>
    unfold cut
    rw [h b List.mem_cons_self, ih (fun x hx => h x (List.mem_cons_of_mem _ hx))]
    rfl

theorem cut_at {p : Byte → Bool} {a r : Str} {c : Byte} (h : ∀ b ∈ a, p b = false) (hc : p c = true) :
    cut p (a ++ c :: r) = (a, some r) := by
  induction a with
  | nil => simp [cut, hc]
  | cons b a ih =>
    rw [List.cons_append]
    unfold cut
    rw [h b List.mem_cons_self, ih (fun x hx => h x (List.mem_cons_of_mem _ hx))]
    rfl

theorem cut_cases (p : Byte → Bool) (s : Str) : (cut p s = (s, none) ∧ ∀ b ∈ s, p b = false) ∨
    ∃ a c r, s = a ++ c :: r ∧ (∀ b ∈ a, p b = false) ∧ p c = true ∧ cut p s = (a, some r) := by
  induction s with
  | nil => exact .inl ⟨rfl, by simp⟩
  | cons b s ih =>
    cases hb : p b with
    | true => exact .inr ⟨[], b, s, rfl, by simp, hb, by simp [cut, hb]⟩
    | false =>
      rcases ih with ⟨h1, h2⟩ | ⟨a, c, r, rfl, h1, h2, h3⟩
      · left
        have : ∀ x ∈ b :: s, p x = false := by
          intro x hx
          cases List.mem_cons.mp hx with
          | inl e => subst e; exact hb
          | inr e => exact h2 x e
        exact ⟨cut_plain this, this⟩
      · right
        have : ∀ x ∈ b :: a, p x = false := by
          intro x hx
          cases List.mem_cons.mp hx with
          | inl e => subst e; exact hb
          | inr e => exact h1 x e
        exact ⟨b :: a, c, r, rfl, this, h2, cut_at this h2⟩

theorem dot_eq {c : Byte} (h : isDot c = true) : c = 46 := by simpa [isDot] using h
theorem dash_eq {c : Byte} (h : isDash c = true) : c = 45 := by simpa [isDash] using h

/-- The text splits into one, two or three pieces at the first two occurrences of a separator. -/
theorem splitn3_cases (p : Byte → Bool) (s : Str) :
    (splitn p 3 s = [s] ∧ ∀ b ∈ s, p b = false) ∨
    (∃ a c r, s = a ++ c :: r ∧ (∀ b ∈ a, p b = false) ∧ p c = true ∧ (∀ b ∈ r, p b = false) ∧ splitn p 3 s = [a, r]) ∨
    ∃ a c x c' r, s = a ++ c :: x ++ c' :: r ∧ (∀ b ∈ a, p b = false) ∧ p c = true ∧ (∀ b ∈ x, p b = false) ∧
      p c' = true ∧ splitn p 3 s = [a, x, r] := by
  rcases cut_cases p s with ⟨h1, h2⟩ | ⟨a, c, r, e, h1, h2, h3⟩
  · left; exact ⟨by simp [splitn, h1], h2⟩
  · right
    rcases cut_cases p r with ⟨g1, g2⟩ | ⟨x, c', r', e', g1, g2, g3⟩
    · left; exact ⟨a, c, r, e, h1, h2, g2, by simp [splitn, h3, g1]⟩
    · right; exact ⟨a, c, x, c', r', by rw [e, e']; simp, h1, h2, g1, g2, by simp [splitn, h3, g3]⟩

theorem splitn3_two {p : Byte → Bool} {a r : Str} {c : Byte} (h1 : ∀ b ∈ a, p b = false) (hc : p c = true)
    (h2 : ∀ b ∈ r, p b = false) : splitn p 3 (a ++ c :: r) = [a, r] := by
  simp [splitn, cut_at h1 hc, cut_plain h2]

theorem splitn3_three {p : Byte → Bool} {a x r : Str} {c c' : Byte} (h1 : ∀ b ∈ a, p b = false) (hc : p c = true)
    (h2 : ∀ b ∈ x, p b = false) (hc' : p c' = true) : splitn p 3 (a ++ c :: (x ++ c' :: r)) = [a, x, r] := by
  simp [splitn, cut_at h1 hc, cut_at h2 hc']

theorem zero_number : parseUInt u32Max (asc ['0']) = some 0 := by decide

/-! ## The three texts -/

theorem llvmOf_iff {v : Str} {n : Nat} : llvmOf v = some n ↔ Spec.LlvmText v n := by
  unfold llvmOf Spec.LlvmText
  constructor
  · intro h
    rcases splitn3_cases isDot v with ⟨e, _⟩ | ⟨a, c, r, rfl, h1, hc, h2, e⟩ | ⟨a, c, x, c', r, rfl, h1, hc, h2, hc', e⟩
    · rw [e] at h; simp at h
    · rw [e] at h
      cases dot_eq hc
      simp only [List.getElem?_cons_zero, List.getElem?_cons_succ, Option.bind_eq_bind, Option.bind_some] at h
      cases hl : parseUInt u32Max a with
      | none => rw [hl] at h; simp at h
      | some l =>
        cases hm : parseUInt u32Max r with
        | none => rw [hl, hm] at h; simp at h
        | some m =>
          rw [hl, hm] at h
          simp [zero_number] at h
          subst h
          exact ⟨a, r, [], m, by simp, parseUInt_iff.mp hl, parseUInt_iff.mp hm, .inl rfl⟩
    · rw [e] at h
      cases dot_eq hc; cases dot_eq hc'
      simp only [List.getElem?_cons_zero, List.getElem?_cons_succ, Option.bind_eq_bind, Option.bind_some] at h
      cases hl : parseUInt u32Max a with
      | none => rw [hl] at h; simp at h
      | some l =>
        cases hm : parseUInt u32Max x with
        | none => rw [hl, hm] at h; simp at h
        | some m =>
          cases hp : parseUInt u32Max r with
          | none => rw [hl, hm] at h; simp [hp] at h
          | some q =>
            rw [hl, hm] at h
            simp [hp] at h
            subst h
            exact ⟨a, x, 46 :: r, m, by simp, parseUInt_iff.mp hl, parseUInt_iff.mp hm,
              .inr ⟨r, q, rfl, parseUInt_iff.mp hp⟩⟩
  · rintro ⟨l, m, patch, k, rfl, hl, hm, rfl | ⟨p, q, rfl, hp⟩⟩
    · have := splitn3_two (Number_plain hl).1 (rfl : isDot 46 = true) (Number_plain hm).1
      rw [List.append_nil, this]
      simp [zero_number, show parseUInt u32Max l = some n from parseUInt_iff.mpr hl,
        show parseUInt u32Max m = some k from parseUInt_iff.mpr hm]
    · have := splitn3_three (r := p) (Number_plain hl).1 (rfl : isDot 46 = true) (Number_plain hm).1 (rfl : isDot 46 = true)
      rw [show l ++ 46 :: m ++ 46 :: p = l ++ 46 :: (m ++ 46 :: p) by simp, this]
      simp [show parseUInt u32Max l = some n from parseUInt_iff.mpr hl,
        show parseUInt u32Max m = some k from parseUInt_iff.mpr hm, show parseUInt u32Max p = some q from parseUInt_iff.mpr hp]

theorem dateOf_iff {v : Str} {d : Date} : dateOf v = some d ↔ Spec.DateText v d.year d.month d.day := by
  unfold dateOf Spec.DateText
  constructor
  · intro h
    rcases splitn3_cases isDash v with ⟨e, _⟩ | ⟨a, c, r, rfl, h1, hc, h2, e⟩ | ⟨a, c, x, c', r, rfl, h1, hc, h2, hc', e⟩
    · rw [e] at h; simp at h
    · rw [e] at h; simp at h
    · rw [e] at h
      cases dash_eq hc; cases dash_eq hc'
      simp only [List.getElem?_cons_zero, List.getElem?_cons_succ, Option.bind_eq_bind, Option.bind_some] at h
      cases hl : parseUInt u16Max a with
      | none => rw [hl] at h; simp at h
      | some l =>
        cases hm : parseUInt u8Max x with
        | none => rw [hl, hm] at h; simp at h
        | some m =>
          cases hp : parseUInt u8Max r with
          | none => rw [hl, hm, hp] at h; simp at h
          | some q =>
            rw [hl, hm, hp] at h
            simp only [Option.bind_some] at h
            split at h
            · simp at h
            · rename_i hr
              simp only [Option.pure_def, Option.some.injEq] at h
              subst h
              exact ⟨a, x, r, by simp, parseUInt_iff.mp hl, parseUInt_iff.mp hm, parseUInt_iff.mp hp,
                by simp only; omega, by simp only; omega⟩
  · rintro ⟨l, m, p, rfl, hl, hm, hp, h1, h2⟩
    have := splitn3_three (r := p) (Number_plain hl).2 (rfl : isDash 45 = true) (Number_plain hm).2 (rfl : isDash 45 = true)
    rw [show l ++ 45 :: m ++ 45 :: p = l ++ 45 :: (m ++ 45 :: p) by simp, this]
    simp only [List.getElem?_cons_zero, List.getElem?_cons_succ, Option.bind_eq_bind, Option.bind_some,
      show parseUInt u16Max l = some d.year from parseUInt_iff.mpr hl,
      show parseUInt u8Max m = some d.month from parseUInt_iff.mpr hm, show parseUInt u8Max p = some d.day from parseUInt_iff.mpr hp]
    rw [if_neg (by omega)]
    rfl

/-- The part of `releaseOf` after the channel is cut off. -/
def minorOf (version : Str) : Option Nat := do
  let digits := splitn isDot 3 version
  let major ← digits[0]?
  if major ≠ asc ['1'] then none
  else
    let minor ← parseUInt u32Max (← digits[1]?)
    let _patch ← parseUInt u32Max (digits[2]?.getD (asc ['0']))
    return minor

theorem minorOf_iff {v : Str} {n : Nat} : minorOf v = some n ↔ ∃ m patch, v = 49 :: 46 :: m ++ patch ∧
    Spec.Number (2 ^ 32 - 1) m n ∧ (patch = [] ∨ ∃ p n, patch = 46 :: p ∧ Spec.Number (2 ^ 32 - 1) p n) := by
  unfold minorOf
  constructor
  · intro h
    rcases splitn3_cases isDot v with ⟨e, _⟩ | ⟨a, c, r, rfl, h1, hc, h2, e⟩ | ⟨a, c, x, c', r, rfl, h1, hc, h2, hc', e⟩
    · rw [e] at h; simp at h
    · rw [e] at h
      cases dot_eq hc
      simp only [List.getElem?_cons_zero, List.getElem?_cons_succ, Option.bind_eq_bind, Option.bind_some] at h
      split at h
      · simp at h
      rename_i ha
      have ha : a = asc ['1'] := Classical.not_not.mp ha
      subst ha
      cases hm : parseUInt u32Max r with
      | none => rw [hm] at h; simp at h
      | some m =>
        rw [hm] at h
        simp [zero_number] at h
        subst h
        exact ⟨r, [], by simp [asc], parseUInt_iff.mp hm, .inl rfl⟩
    · rw [e] at h
      cases dot_eq hc; cases dot_eq hc'
      simp only [List.getElem?_cons_zero, List.getElem?_cons_succ, Option.bind_eq_bind, Option.bind_some] at h
      split at h
      · simp at h
      rename_i ha
      have ha : a = asc ['1'] := Classical.not_not.mp ha
      subst ha
      cases hm : parseUInt u32Max x with
      | none => rw [hm] at h; simp at h
      | some m =>
        cases hp : parseUInt u32Max r with
        | none => rw [hm] at h; simp [hp] at h
        | some q =>
          rw [hm] at h
          simp [hp] at h
          subst h
          exact ⟨x, 46 :: r, by simp [asc], parseUInt_iff.mp hm, .inr ⟨r, q, rfl, parseUInt_iff.mp hp⟩⟩
  · have hd : ∀ b ∈ asc ['1'], isDot b = false := by decide
    rintro ⟨m, patch, rfl, hm, rfl | ⟨p, q, rfl, hp⟩⟩
    · have := splitn3_two hd (rfl : isDot 46 = true) (Number_plain hm).1
      rw [List.append_nil, show (49 :: 46 :: m : Str) = asc ['1'] ++ 46 :: m from rfl, this]
      simp [zero_number, show parseUInt u32Max m = some n from parseUInt_iff.mpr hm]
    · have := splitn3_three (r := p) hd (rfl : isDot 46 = true) (Number_plain hm).1 (rfl : isDot 46 = true)
      rw [show (49 :: 46 :: m ++ 46 :: p : Str) = asc ['1'] ++ 46 :: (m ++ 46 :: p) from rfl, this]
      simp [show parseUInt u32Max m = some n from parseUInt_iff.mpr hm, show parseUInt u32Max p = some q from parseUInt_iff.mpr hp]

theorem releaseOf_eq (v : Str) : releaseOf v =
    (minorOf ((splitn isDash 2 v)[0]?.getD [])).map fun m => (m, (splitn isDash 2 v)[1]?.getD []) := by
  unfold releaseOf minorOf
  simp only
  generalize (splitn isDash 2 v)[0]?.getD [] = x
  generalize (splitn isDash 2 v)[1]?.getD [] = ch
  cases (splitn isDot 3 x)[0]? with
  | none => rfl
  | some a =>
    simp only [Option.bind_eq_bind, Option.bind_some]
    split
    · rfl
    cases (splitn isDot 3 x)[1]? with
    | none => rfl
    | some b =>
      simp only [Option.bind_some]
      cases parseUInt u32Max b with
      | none => rfl
      | some m =>
        simp only [Option.bind_some]
        cases parseUInt u32Max ((splitn isDot 3 x)[2]?.getD (asc ['0'])) <;> rfl

theorem releaseOf_iff {v : Str} {n : Nat} {ch : Str} : releaseOf v = some (n, ch) ↔ Spec.ReleaseText v n ch := by
  rw [releaseOf_eq]
  unfold Spec.ReleaseText
  constructor
  · intro h
    obtain ⟨m, hm, e⟩ := Option.map_eq_some_iff.mp h
    cases e
    rcases cut_cases isDash v with ⟨h1, h2⟩ | ⟨a, c, r, rfl, h1, hc, h3⟩
    · have e : splitn isDash 2 v = [v] := by simp [splitn, h1]
      rw [e] at hm ⊢
      obtain ⟨m, patch, e, g1, g2⟩ := minorOf_iff.mp hm
      exact ⟨m, patch, [], by simpa using e, g1, g2, .inl ⟨rfl, rfl⟩⟩
    · have e : splitn isDash 2 (a ++ c :: r) = [a, r] := by simp [splitn, h3]
      rw [e] at hm ⊢
      cases dash_eq hc
      obtain ⟨m, patch, e, g1, g2⟩ := minorOf_iff.mp hm
      simp only [List.getElem?_cons_zero, Option.getD_some] at e
      exact ⟨m, patch, 45 :: r, by rw [e], g1, g2, .inr rfl⟩
  · rintro ⟨m, patch, c, rfl, g1, g2, g3⟩
    have hp : ∀ b ∈ (49 :: 46 :: m ++ patch : Str), isDash b = false := by
      intro b hb
      have hb : b = 49 ∨ b = 46 ∨ b ∈ m ∨ b ∈ patch := by simpa [or_assoc] using hb
      rcases hb with rfl | rfl | hb | hb
      · rfl
      · rfl
      · exact (Number_plain g1).2 b hb
      · rcases g2 with rfl | ⟨p, q, rfl, hq⟩
        · simp at hb
        · cases List.mem_cons.mp hb with
          | inl e => subst e; rfl
          | inr e => exact (Number_plain hq).2 b e
    rcases g3 with ⟨rfl, rfl⟩ | rfl
    · have e : splitn isDash 2 (49 :: 46 :: m ++ patch ++ []) = [49 :: 46 :: m ++ patch] := by
        rw [List.append_nil]; simp only [splitn, cut_plain hp]
      rw [e]
      simp only [List.getElem?_cons_zero, Option.getD_some]
      rw [minorOf_iff.mpr ⟨m, patch, rfl, g1, g2⟩]; rfl
    · have e : splitn isDash 2 (49 :: 46 :: m ++ patch ++ 45 :: ch) = [49 :: 46 :: m ++ patch, ch] := by
        simp only [splitn, cut_at hp (rfl : isDash 45 = true)]
      rw [e]
      simp only [List.getElem?_cons_zero, Option.getD_some]
      rw [minorOf_iff.mpr ⟨m, patch, rfl, g1, g2⟩]; rfl

/-! ## Fields -/

theorem field_total {text k : Str} (w : Wv text) (hk : Ascii k) : ∃ r, field text k = some r := by
  unfold field
  cases h : (lines text).find? (fun l => startsWith l k) with
  | none => exact ⟨_, rfl⟩
  | some l =>
    have hm := List.mem_of_find?_eq_some h
    have hs := List.find?_some h
    obtain ⟨r, rfl⟩ := startsWith_iff.mp hs
    have wl := linesFrom_wv [] text w _ hm
    exact ⟨some r, by simp only [(Wv.slice_prefix wl hk).1]; rfl⟩

theorem field_iff {ls : List Str} {k : Str} (hl : ∀ l ∈ ls, Spec.Line l) (u : Spec.Utf8 (Spec.unlines ls)) (hk : Ascii k)
    (r : Option Str) : field (Spec.unlines ls) k = some r ↔
      match r with
      | some v => Spec.Field ls k v
      | none => ∀ v, ¬ Spec.Field ls k v := by
  have wl : ∀ l ∈ ls, Wv l := by
    intro l h
    have : l ∈ linesFrom [] (Spec.unlines ls) → Wv l := linesFrom_wv [] (Spec.unlines ls) (Wv.of_utf8 u) l
    have e : linesFrom [] (Spec.unlines ls) = ls := lines_unlines hl
    rw [e] at this
    exact this h
  unfold field
  rw [lines_unlines hl]
  cases h : ls.find? (fun l => startsWith l k) with
  | none =>
    rw [List.find?_eq_none] at h
    have : ∀ v, ¬ Spec.Field ls k v := by
      rintro v ⟨pre, post, rfl, _⟩
      exact h (k ++ v) (by simp) (startsWith_iff.mpr ⟨v, rfl⟩)
    cases r with
    | none => simpa using this
    | some v => simpa using this v
  | some l =>
    have hs := List.find?_some h
    have hm := List.mem_of_find?_eq_some h
    obtain ⟨t, rfl⟩ := startsWith_iff.mp hs
    rw [List.find?_eq_some_iff_append] at h
    obtain ⟨_, pre, post, e, hpre⟩ := h
    have hF : Spec.Field ls k t := ⟨pre, post, e, fun l hl => by
      have := hpre l hl
      intro hh
      obtain ⟨q, hq⟩ := hh
      have := startsWith_iff.mpr ⟨q, hq.symm⟩
      simp_all⟩
    have huniq : ∀ v, Spec.Field ls k v → v = t := by
      rintro v ⟨pre', post', e', hpre'⟩
      have key : ∀ (p1 p2 q1 q2 : List Str) (x y : Str), p1 ++ (k ++ x) :: q1 = p2 ++ (k ++ y) :: q2 →
          (∀ l ∈ p1, ¬ k <+: l) → (∀ l ∈ p2, ¬ k <+: l) → x = y := by
        intro p1
        induction p1 with
        | nil =>
          intro p2 q1 q2 x y e h1 h2
          cases p2 with
          | nil => simp only [List.nil_append, List.cons.injEq] at e; exact List.append_cancel_left e.1
          | cons z p2 =>
            simp only [List.nil_append, List.cons_append, List.cons.injEq] at e
            exact absurd ⟨x, e.1⟩ (h2 z List.mem_cons_self)
        | cons w p1 ih =>
          intro p2 q1 q2 x y e h1 h2
          cases p2 with
          | nil =>
            simp only [List.nil_append, List.cons_append, List.cons.injEq] at e
            exact absurd ⟨y, e.1.symm⟩ (h1 w List.mem_cons_self)
          | cons z p2 =>
            simp only [List.cons_append, List.cons.injEq] at e
            exact ih p2 q1 q2 x y e.2 (fun l h => h1 l (List.mem_cons_of_mem _ h)) (fun l h => h2 l (List.mem_cons_of_mem _ h))
      refine key pre' pre post' post v t (e'.symm.trans e) hpre' ?_
      intro l hl hh
      obtain ⟨q, hq⟩ := hh
      have h1 := startsWith_iff.mpr ⟨q, hq.symm⟩
      have h2 := hpre l hl
      simp_all
    simp only [(Wv.slice_prefix (wl _ hm) hk).1, Option.map_some, Option.some.injEq]
    cases r with
    | none => simp only [reduceCtorEq, false_iff]; exact fun h => h t hF
    | some v =>
      simp only [Option.some.injEq]
      constructor
      · rintro rfl; exact hF
      · exact fun h => (huniq v h).symm

theorem Field_uniq {ls : List Str} {k a b : Str} (hl : ∀ l ∈ ls, Spec.Line l) (u : Spec.Utf8 (Spec.unlines ls)) (hk : Ascii k)
    (ha : Spec.Field ls k a) (hb : Spec.Field ls k b) : a = b := by
  have h1 := (field_iff hl u hk (some a)).mpr ha
  have h2 := (field_iff hl u hk (some b)).mpr hb
  rw [h1] at h2
  simpa using h2

theorem ascii_fields : Ascii kRelease ∧ Ascii kLlvm ∧ Ascii kDate := by decide

end Verif.Build
