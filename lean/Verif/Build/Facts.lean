import Verif.Build.Version
import Verif.Build.Rustflags
import Verif.Spec.Build
/-!
# Slices of UTF-8 text

What the panic-freedom proofs need of UTF-8: a continuation byte follows a byte that is not ASCII.
-/
set_option autoImplicit false
namespace Verif.Build

/-- Every continuation byte follows a byte that is not ASCII; `h`: the byte before is not ASCII. -/
def okFrom : Bool → Str → Prop
  | _, [] => True
  | h, b :: r => (cont b = true → h = true) ∧ okFrom (128 ≤ b) r

abbrev Wv (s : Str) : Prop := okFrom false s

theorem okFrom_weaken {s : Str} (h : Bool) (w : Wv s) : okFrom h s := by
  cases s with
  | nil => trivial
  | cons b r => exact ⟨fun c => absurd (w.1 c) (by decide), w.2⟩

theorem okFrom_take {h : Bool} {p r : Str} (w : okFrom h (p ++ r)) : okFrom h p := by
  induction p generalizing h with
  | nil => trivial
  | cons b p ih => exact ⟨w.1, ih w.2⟩

theorem okFrom_after {h : Bool} {p r : Str} {a : Byte} (w : okFrom h (p ++ a :: r)) (ha : a < 128) : Wv r := by
  induction p generalizing h with
  | nil =>
    have h2 : okFrom (decide (128 ≤ a)) r := w.2
    have : decide (128 ≤ a) = false := by
      rw [decide_eq_false_iff_not]; exact UInt8.not_le.mpr ha
    rw [this] at h2; exact h2
  | cons b p ih => exact ih w.2

theorem enc_first (c : Char) : ∃ b r, String.utf8EncodeChar c = b :: r ∧ cont b = false := by
  unfold String.utf8EncodeChar
  simp only
  generalize c.val.toNat = v
  split
  · rename_i h
    refine ⟨_, _, rfl, ?_⟩
    simp only [cont, Bool.and_eq_false_iff, decide_eq_false_iff_not, UInt8.le_iff_toNat_le, UInt8.lt_iff_toNat_lt]
    left
    simp [UInt8.toNat_ofNat']; omega
  split
  · refine ⟨_, _, rfl, ?_⟩
    simp only [cont, Bool.and_eq_false_iff, decide_eq_false_iff_not, UInt8.le_iff_toNat_le, UInt8.lt_iff_toNat_lt]
    right
    simp [UInt8.toNat_ofNat']; omega
  split
  · refine ⟨_, _, rfl, ?_⟩
    simp only [cont, Bool.and_eq_false_iff, decide_eq_false_iff_not, UInt8.le_iff_toNat_le, UInt8.lt_iff_toNat_lt]
    right
    simp [UInt8.toNat_ofNat']; omega
  · refine ⟨_, _, rfl, ?_⟩
    simp only [cont, Bool.and_eq_false_iff, decide_eq_false_iff_not, UInt8.le_iff_toNat_le, UInt8.lt_iff_toNat_lt]
    right
    simp [UInt8.toNat_ofNat']; omega

theorem enc_high (n : Nat) (h : 128 ≤ n) (h2 : n < 256) : decide ((128 : Byte) ≤ UInt8.ofNat n) = true := by
  rw [decide_eq_true_eq, UInt8.le_iff_toNat_le, UInt8.toNat_ofNat']
  simp; omega

theorem enc_ok (c : Char) (h : Bool) {r : Str} (w : Wv r) : okFrom h (String.utf8EncodeChar c ++ r) := by
  obtain ⟨b, t, e, hb⟩ := enc_first c
  revert e
  unfold String.utf8EncodeChar
  simp only
  generalize c.val.toNat = v
  have W := fun x => okFrom_weaken x w
  split
  · intro e; cases e
    exact ⟨fun q => absurd q (by rw [hb]; decide), W _⟩
  split
  · intro e; cases e
    exact ⟨fun q => absurd q (by rw [hb]; decide), fun _ => enc_high _ (by omega) (by omega), W _⟩
  split
  · intro e; cases e
    exact ⟨fun q => absurd q (by rw [hb]; decide), fun _ => enc_high _ (by omega) (by omega),
      fun _ => enc_high _ (by omega) (by omega), W _⟩
  · intro e; cases e
    exact ⟨fun q => absurd q (by rw [hb]; decide), fun _ => enc_high _ (by omega) (by omega),
      fun _ => enc_high _ (by omega) (by omega), fun _ => enc_high _ (by omega) (by omega), W _⟩

theorem Wv.of_utf8 {s : Str} (u : Spec.Utf8 s) : Wv s := by
  obtain ⟨cs, rfl⟩ := u
  induction cs with
  | nil => trivial
  | cons c cs ih => exact enc_ok c false ih

/-! ## Slices -/

theorem Wv.boundary {s : Str} {p r : Str} {a : Byte} (w : Wv s) (e : s = p ++ a :: r) (ha : a < 128) :
    boundary s (p.length + 1) = true := by
  subst e
  have := okFrom_after w ha
  unfold Verif.Build.boundary
  cases r with
  | nil => simp
  | cons b r =>
    have hb : cont b = false := by
      cases q : cont b with
      | false => rfl
      | true => exact absurd (this.1 q) (by decide)
    have : (p ++ a :: b :: r)[p.length + 1]? = some b := by
      rw [List.getElem?_append_right (by omega)]; simp
    rw [this]; simp [hb]

/-- A slice that starts just after an ASCII byte does not panic. -/
theorem Wv.slice {s p r : Str} {a : Byte} (w : Wv s) (e : s = p ++ a :: r) (ha : a < 128) :
    sliceFrom s (p.length + 1) = some r ∧ Wv r := by
  refine ⟨?_, by subst e; exact okFrom_after w ha⟩
  unfold sliceFrom
  rw [w.boundary e ha]
  subst e
  simp [List.drop_append]

/-- ASCII text. -/
def Ascii (k : Str) : Prop := ∀ b ∈ k, b < 128

instance (k : Str) : Decidable (Ascii k) := inferInstanceAs (Decidable (∀ b ∈ k, b < 128))

theorem Wv.slice_prefix {k r : Str} (w : Wv (k ++ r)) (hk : Ascii k) :
    sliceFrom (k ++ r) k.length = some r ∧ Wv r := by
  cases List.eq_nil_or_concat k with
  | inl e => subst e; exact ⟨by simp [sliceFrom, Verif.Build.boundary], w⟩
  | inr e =>
    obtain ⟨p, a, rfl⟩ := e
    have := w.slice (p := p) (r := r) (a := a) (by simp) (hk a (by simp))
    simpa using this

theorem startsWith_iff {s k : Str} : startsWith s k = true ↔ ∃ r, s = k ++ r := by
  unfold startsWith
  rw [List.isPrefixOf_iff_prefix]
  constructor
  · rintro ⟨r, e⟩; exact ⟨r, e.symm⟩
  · rintro ⟨r, e⟩; exact ⟨r, e.symm⟩

theorem stripPrefix_eq {s k : Str} (w : Wv s) (hk : Ascii k) :
    stripPrefix s k = some (if k <+: s then some (s.drop k.length) else none) := by
  unfold stripPrefix
  by_cases h : startsWith s k = true
  · obtain ⟨r, rfl⟩ := startsWith_iff.mp h
    rw [if_pos h, (w.slice_prefix hk).1, if_pos (List.prefix_append _ _)]; simp
  · rw [if_neg h, if_neg]
    rintro ⟨r, e⟩; exact h (startsWith_iff.mpr ⟨r, e.symm⟩)

theorem Wv.drop_prefix {s k : Str} (w : Wv s) (hk : Ascii k) (h : k <+: s) : Wv (s.drop k.length) := by
  obtain ⟨r, rfl⟩ := h
  rw [List.drop_left]; exact (w.slice_prefix hk).2

/-! ## Pieces -/

theorem splitFrom_wv {p : Byte → Bool} (hp : ∀ b, p b = true → b < 128) (cur s : Str) (w : Wv (cur ++ s)) :
    ∀ x ∈ splitFrom p cur s, Wv x := by
  induction s generalizing cur with
  | nil => intro x hx; simp only [splitFrom, List.mem_singleton] at hx; subst hx; simpa using w
  | cons b r ih =>
    unfold splitFrom
    by_cases h : p b = true
    · rw [if_pos h]
      intro x hx
      cases List.mem_cons.mp hx with
      | inl e => subst e; exact okFrom_take w
      | inr e => exact ih [] (okFrom_after w (hp b h)) x e
    · rw [if_neg h]; exact ih (cur ++ [b]) (by simpa using w)

theorem Wv.chomp {s : Str} (w : Wv s) : Wv (chomp s) := by
  unfold Verif.Build.chomp
  split
  · rename_i h
    have hs : s ≠ [] := by rintro rfl; simp at h
    have e := List.dropLast_concat_getLast hs
    rw [← e] at w
    exact okFrom_take w
  · exact w

theorem linesFrom_wv (cur s : Str) (w : Wv (cur ++ s)) : ∀ x ∈ linesFrom cur s, Wv x := by
  induction s generalizing cur with
  | nil =>
    intro x hx; unfold linesFrom at hx
    split at hx
    · simp at hx
    · simp only [List.mem_singleton] at hx; subst hx; simpa using w
  | cons b r ih =>
    unfold linesFrom
    by_cases h : b = 10
    · rw [if_pos h]
      intro x hx
      cases List.mem_cons.mp hx with
      | inl e => subst e; exact Wv.chomp (okFrom_take w)
      | inr e => exact ih [] (okFrom_after w (by subst h; decide)) x e
    · rw [if_neg h]; exact ih (cur ++ [b]) (by simpa using w)

/-! ## Splitting and joining -/

theorem splitFrom_eq (p : Byte → Bool) (cur s : Str) :
    splitFrom p cur s = (cur ++ (s.splitOnP p).head?.getD []) :: (s.splitOnP p).tail := by
  induction s generalizing cur with
  | nil => simp [splitFrom]
  | cons b r ih =>
    unfold splitFrom
    rw [List.splitOnP_cons_eq_if_modifyHead]
    cases hp : p b with
    | true =>
      simp only [if_true, ih, List.nil_append, List.head?_cons, Option.getD_some, List.append_nil, List.tail_cons]
      have := List.splitOnP_ne_nil p r
      generalize List.splitOnP p r = q at *
      cases q with
      | nil => exact absurd rfl this
      | cons x y => simp
    | false =>
      simp only [Bool.false_eq_true, if_false, ih]
      have := List.splitOnP_ne_nil p r
      generalize List.splitOnP p r = q at *
      cases q with
      | nil => exact absurd rfl this
      | cons x y => simp

theorem split_eq (p : Byte → Bool) (s : Str) : split p s = s.splitOnP p := by
  unfold split; rw [splitFrom_eq]
  have := List.splitOnP_ne_nil p s
  generalize List.splitOnP p s = q at *
  cases q with
  | nil => exact absurd rfl this
  | cons x y => simp

theorem splitFrom_plain {p : Byte → Bool} (cur s r : Str) (h : ∀ b ∈ s, p b = false) :
    splitFrom p cur (s ++ r) = splitFrom p (cur ++ s) r := by
  induction s generalizing cur with
  | nil => simp
  | cons b s ih =>
    have hb : p b = false := h b List.mem_cons_self
    have hs : ∀ b ∈ s, p b = false := fun x hx => h x (List.mem_cons_of_mem _ hx)
    rw [List.cons_append]
    conv_lhs => unfold splitFrom
    rw [hb]
    simp only [Bool.false_eq_true, if_false]
    rw [ih (cur ++ [b]) hs]; simp

/-- Join with a separator. -/
def joinWith (c : Byte) : List Str → Str
  | [] => []
  | [w] => w
  | w :: v :: ws => w ++ c :: joinWith c (v :: ws)

theorem split_join {p : Byte → Bool} {c : Byte} (hc : p c = true) (ws : List Str) (hne : ws ≠ [])
    (h : ∀ w ∈ ws, ∀ b ∈ w, p b = false) : split p (joinWith c ws) = ws := by
  induction ws with
  | nil => exact absurd rfl hne
  | cons w ws ih =>
    cases ws with
    | nil =>
      have := splitFrom_plain (p := p) [] w [] (h w (by simp))
      rw [List.append_nil, List.nil_append] at this
      simp only [joinWith, split, this]; rfl
    | cons v ws =>
      have := splitFrom_plain (p := p) [] w (c :: joinWith c (v :: ws)) (h w (by simp))
      simp only [joinWith, split]
      rw [this]
      conv_lhs => unfold splitFrom
      rw [hc]
      simp only [if_true, List.nil_append]
      have := ih (by simp) (fun x hx => h x (List.mem_cons_of_mem _ hx))
      unfold split at this
      rw [this]

theorem linesFrom_line (cur s r : Str) (h : (10 : Byte) ∉ s) :
    linesFrom cur (s ++ 10 :: r) = chomp (cur ++ s) :: linesFrom [] r := by
  induction s generalizing cur with
  | nil => simp [linesFrom]
  | cons b s ih =>
    have hb : b ≠ 10 := fun e => h (by simp [e])
    have hs : (10 : Byte) ∉ s := fun e => h (by simp [e])
    rw [List.cons_append]
    conv_lhs => unfold linesFrom
    rw [if_neg hb, ih _ hs]; simp

theorem lines_unlines {ls : List Str} (h : ∀ l ∈ ls, Spec.Line l) : lines (Spec.unlines ls) = ls := by
  unfold lines Spec.unlines
  induction ls with
  | nil => rfl
  | cons l ls ih =>
    obtain ⟨h1, h2⟩ := h l List.mem_cons_self
    simp only [List.flatMap_cons, List.append_assoc, List.singleton_append]
    rw [linesFrom_line [] l _ h1, ih (fun x hx => h x (List.mem_cons_of_mem _ hx))]
    simp only [List.nil_append, chomp, if_neg h2]

end Verif.Build
