import Verif.WM.DerivedImage
import Verif.Spec.DerivedSync
import Verif.WM.NativeProps
/-!
# What the orderings promise, for operations of any kind

From the same for native atomics (`WM/NativeProps.lean`), through the image of the history.
-/
set_option autoImplicit false
set_option linter.unusedSectionVars false
namespace Verif.WM.Derived
variable {W X O R : Type} [DecidableEq W] {S : Spec W O R} {h : List (Ev O R X)} {n : List (WM.Ev W X)}
  {p : Tid → Option (O × Op W)}

/-! ## Event by event -/

/-- Two events that belong together. -/
inductive Same (S : Spec W O R) : Ev O R X → WM.Ev W X → Prop where
  | inv (t o op i) (hi : MayStand S op i) : Same S (.inv t o op) (.inv t o i)
  | ret (t r m) : Same S (.ret t r) (.ret t m)
  | client (t a r) : Same S (.client t a r) (.client t a r)

theorem snoc_cases {E : Type} {l : List E} {a e : E} {j : Nat} (h : (l ++ [a])[j]? = some e) :
    (j < l.length ∧ l[j]? = some e) ∨ (j = l.length ∧ a = e) := by
  rcases Nat.lt_or_ge j l.length with hj | hj
  · rw [List.getElem?_append_left hj] at h; exact .inl ⟨hj, h⟩
  · rw [List.getElem?_append_right hj] at h
    rcases Nat.eq_or_lt_of_le hj with e | e
    · subst e; simp at h; exact .inr ⟨rfl, h⟩
    · rw [List.getElem?_eq_none (by simp only [List.length_singleton]; omega)] at h; cases h

theorem snoc_left {E : Type} {l : List E} {a e : E} {j : Nat} (h : l[j]? = some e) : (l ++ [a])[j]? = some e := by
  rw [List.getElem?_append_left (List.getElem?_eq_some_iff.1 h).1, h]

theorem snoc_last {E : Type} (l : List E) (a : E) : (l ++ [a])[l.length]? = some a := by simp

theorem Image.length (x : Image S h n p) : h.length = n.length := by
  induction x <;> simp_all

theorem same_snoc {e : Ev O R X} {f : WM.Ev W X} (hl : h.length = n.length)
    (ih : (∀ (j : Nat) e, h[j]? = some e → ∃ f, n[j]? = some f ∧ Same S e f) ∧ ∀ (j : Nat) f, n[j]? = some f → ∃ e, h[j]? = some e ∧ Same S e f)
    (hs : Same S e f) : (∀ (j : Nat) e', (h ++ [e])[j]? = some e' → ∃ f', (n ++ [f])[j]? = some f' ∧ Same S e' f') ∧
      ∀ (j : Nat) f', (n ++ [f])[j]? = some f' → ∃ e', (h ++ [e])[j]? = some e' ∧ Same S e' f' := by
  constructor
  · intro j e' he
    rcases snoc_cases he with ⟨-, he⟩ | ⟨rfl, rfl⟩
    · obtain ⟨f', h1, h2⟩ := ih.1 j e' he
      exact ⟨f', snoc_left h1, h2⟩
    · exact ⟨f, by rw [hl]; exact snoc_last _ _, hs⟩
  · intro j f' he
    rcases snoc_cases he with ⟨-, he⟩ | ⟨rfl, rfl⟩
    · obtain ⟨e', h1, h2⟩ := ih.2 j f' he
      exact ⟨e', snoc_left h1, h2⟩
    · exact ⟨e, by rw [← hl]; exact snoc_last _ _, hs⟩

theorem Image.same (x : Image S h n p) : (∀ (j : Nat) e, h[j]? = some e → ∃ f, n[j]? = some f ∧ Same S e f) ∧
    ∀ (j : Nat) f, n[j]? = some f → ∃ e, h[j]? = some e ∧ Same S e f := by
  induction x with
  | nil => exact ⟨fun j e h => by simp at h, fun j e h => by simp at h⟩
  | inv x t o op i hp hi ih => exact same_snoc x.length ih (.inv t o op i hi)
  | ret x t r op i m hp hs ih => exact same_snoc x.length ih (.ret t r m)
  | client x t a r ih => exact same_snoc x.length ih (.client t a r)

theorem Image.client_iff (x : Image S h n p) {j : Nat} {t : Tid} {a : CAct X} {r : Option X} :
    h[j]? = some (.client t a r) ↔ n[j]? = some (.client t a r) := by
  constructor
  · intro e
    obtain ⟨f, h1, h2⟩ := x.same.1 j _ e
    cases h2; exact h1
  · intro e
    obtain ⟨f, h1, h2⟩ := x.same.2 j _ e
    cases h2; exact h1

theorem Image.inv_of (x : Image S h n p) {j : Nat} {t : Tid} {o : Obj} {i : Op W} (e : n[j]? = some (.inv t o i)) :
    ∃ op, h[j]? = some (.inv t o op) ∧ MayStand S op i := by
  obtain ⟨f, h1, h2⟩ := x.same.2 j _ e
  cases h2 with | inv _ _ op _ hi => exact ⟨op, h1, hi⟩

theorem Image.ret_of (x : Image S h n p) {j : Nat} {t : Tid} {m : Res W} (e : n[j]? = some (.ret t m)) :
    ∃ r, h[j]? = some (.ret t r) := by
  obtain ⟨f, h1, h2⟩ := x.same.2 j _ e
  cases h2 with | ret _ r _ => exact ⟨r, h1⟩

/-- A call that has not returned is the one its thread is engaged in. -/
theorem Image.open_ (x : Image S h n p) : ∀ {i : Nat} {t : Tid} {o : Obj} {op : O}, h[i]? = some (.inv t o op) →
    (∀ j, i < j → ∀ r, h[j]? ≠ some (.ret t r)) → ∃ i', p t = some (op, i') ∧ n[i]? = some (.inv t o i') := by
  induction x with
  | nil => intro i t o op h; simp at h
  | @inv h n p x t o op i hp hi ih =>
    intro j u o' op' hj hr
    rcases snoc_cases hj with ⟨-, hj⟩ | ⟨rfl, e⟩
    · have hr' : ∀ k, j < k → ∀ r, h[k]? ≠ some (.ret u r) := fun k hk r e => hr k hk r (snoc_left e)
      obtain ⟨i', h1, h2⟩ := ih hj hr'
      have e : u ≠ t := by rintro rfl; rw [hp] at h1; cases h1
      exact ⟨i', by rw [Function.update_of_ne e]; exact h1, snoc_left h2⟩
    · simp only [Ev.inv.injEq] at e
      obtain ⟨rfl, rfl, rfl⟩ := e
      exact ⟨i, by rw [Function.update_self], by rw [x.length]; exact snoc_last _ _⟩
  | @ret h n p x t r op i m hp hs ih =>
    intro j u o' op' hj hr
    rcases snoc_cases hj with ⟨hlt, hj⟩ | ⟨rfl, e⟩
    · have hr' : ∀ k, j < k → ∀ r, h[k]? ≠ some (.ret u r) := fun k hk r e => hr k hk r (snoc_left e)
      obtain ⟨i', h1, h2⟩ := ih hj hr'
      have e : u ≠ t := by rintro rfl; exact hr _ hlt r (snoc_last _ _)
      exact ⟨i', by rw [Function.update_of_ne e]; exact h1, snoc_left h2⟩
    · cases e
  | @client h n p x t a r ih =>
    intro j u o' op' hj hr
    rcases snoc_cases hj with ⟨-, hj⟩ | ⟨rfl, e⟩
    · have hr' : ∀ k, j < k → ∀ r, h[k]? ≠ some (.ret u r) := fun k hk r e => hr k hk r (snoc_left e)
      obtain ⟨i', h1, h2⟩ := ih hj hr'
      exact ⟨i', h1, snoc_left h2⟩
    · cases e

theorem called_left {e : Ev O R X} {i k : Nat} {t : Tid} {o : Obj} {op : O} {r : R} (C : Called (h ++ [e]) i k t o op r)
    (hk : k < h.length) : Called h i k t o op r := by
  obtain ⟨h1, h2, h3, h4⟩ := C
  refine ⟨h1, ?_, ?_, fun j hj hj' r' e => h4 j hj hj' r' (snoc_left e)⟩
  · rwa [List.getElem?_append_left (by omega)] at h2
  · rwa [List.getElem?_append_left hk] at h3

/-- A call and what stands for it. -/
theorem Image.called_aux (x : Image S h n p) : ∀ {i k : Nat} {t : Tid} {o : Obj} {op : O} {r : R}, Called h i k t o op r →
    ∃ i' m, n[i]? = some (.inv t o i') ∧ n[k]? = some (.ret t m) ∧ Stands S op r i' m := by
  induction x with
  | nil => intro i k t o op r C; simp [Called] at C
  | @inv h n p x t o op i hp hi ih =>
    intro j k u o' op' r C
    rcases snoc_cases C.2.2.1 with ⟨hk, -⟩ | ⟨-, e⟩
    · obtain ⟨i', m, h1, h2, h3⟩ := ih (called_left C hk)
      exact ⟨i', m, snoc_left h1, snoc_left h2, h3⟩
    · cases e
  | @ret h n p x t r op i m hp hs ih =>
    intro j k u o' op' r' C
    rcases snoc_cases C.2.2.1 with ⟨hk, -⟩ | ⟨rfl, e⟩
    · obtain ⟨i', m, h1, h2, h3⟩ := ih (called_left C hk)
      exact ⟨i', m, snoc_left h1, snoc_left h2, h3⟩
    · simp only [Ev.ret.injEq] at e
      obtain ⟨rfl, rfl⟩ := e
      obtain ⟨h1, h2, -, h4⟩ := C
      rw [List.getElem?_append_left h1] at h2
      obtain ⟨i', h5, h6⟩ := x.open_ h2 (fun j' hj' r' e => h4 j' hj' (List.getElem?_eq_some_iff.1 e).1 r' (snoc_left e))
      rw [hp] at h5; cases h5
      exact ⟨i, m, snoc_left h6, by rw [x.length]; exact snoc_last _ _, hs⟩
  | @client h n p x t a r ih =>
    intro j k u o' op' r' C
    rcases snoc_cases C.2.2.1 with ⟨hk, -⟩ | ⟨-, e⟩
    · obtain ⟨i', m, h1, h2, h3⟩ := ih (called_left C hk)
      exact ⟨i', m, snoc_left h1, snoc_left h2, h3⟩
    · cases e

theorem Image.called (x : Image S h n p) {i k : Nat} {t : Tid} {o : Obj} {op : O} {r : R} (C : Called h i k t o op r) :
    ∃ i' m, WM.Called n i k t o i' m ∧ Stands S op r i' m := by
  obtain ⟨i', m, h1, h2, h3⟩ := x.called_aux C
  refine ⟨i', m, ⟨C.1, h1, h2, fun j hj hj' r' e => ?_⟩, h3⟩
  obtain ⟨r'', e⟩ := x.ret_of e
  exact C.2.2.2 j hj hj' r'' e

theorem Image.onlyStores (x : Image S h n p) {a : Nat} {x1 : X} (hw : OnlyStores h a x1) : WM.OnlyStores n a x1 :=
  fun j t act r hj => hw j t act r (x.client_iff.2 hj)

/-! ## What an operation and what stands for it have in common -/

theorem Stands.keeps {op : O} {r : R} {i : Op W} {m : Res W} (hs : Stands S op r i m) {Q : W → Prop}
    (hk : S.Keeps Q op) : WM.Keeps Q i := by
  cases hs with
  | nothing => trivial
  | read => trivial
  | write x y _ hk' hs =>
    intro z hz
    by_cases e : z = x
    · subst e; rw [Function.update_self]; exact (hk z y r hs).1 hk' hz
    · rw [Function.update_of_ne e]; exact hz
  | store y _ hk' hs ok => exact (hk y y r (hs y)).2 hk'

theorem MayStand.keeps {op : O} {i : Op W} (hs : MayStand S op i) {Q : W → Prop} (hk : S.Keeps Q op) : WM.Keeps Q i := by
  rcases hs with rfl | ⟨r, m, hs⟩
  · trivial
  · exact hs.keeps hk

theorem Image.allKeep (x : Image S h n p) {o : Obj} {Q : W → Prop} (hk : S.AllKeep h o Q) : WM.AllKeep n o Q := by
  intro j t i hj
  obtain ⟨op, h1, h2⟩ := x.inv_of hj
  exact h2.keeps (hk j t op h1)

theorem Stands.effOrd {op : O} {r : R} {i : Op W} {m : Res W} (hs : Stands S op r i m) (hn : S.kind op r ≠ .nothing) :
    WM.effOrd i m = S.effOrd op r := by
  cases hs with
  | nothing _ hk => exact absurd hk hn
  | read x _ hk => simp [WM.effOrd, Spec.effOrd, hk]
  | write x y _ hk => simp [WM.effOrd, Spec.effOrd, hk]
  | store y _ hk => simp [WM.effOrd, Spec.effOrd, hk]

theorem Stands.found {op : O} {r : R} {i : Op W} {m : Res W} (hs : Stands S op r i m) {Q : W → Prop}
    (hf : S.Found op r Q) : ∃ y, Reads m y ∧ Q y := by
  obtain ⟨h1, h2⟩ := hf
  cases hs with
  | nothing _ hk => rw [hk] at h1; simp at h1
  | read x _ hk hs => exact ⟨x, rfl, h2 x x hs⟩
  | write x y _ hk hs => exact ⟨x, rfl, h2 x y hs⟩
  | store y _ hk => rw [hk] at h1; simp at h1

theorem Stands.found' {op : O} {r : R} {i : Op W} {m : Res W} (hs : Stands S op r i m) {y : W} (hr : Reads m y) :
    ∃ z, S.sem op y z r := by
  cases hs with
  | nothing => cases hr
  | read x _ hk hs => cases hr; exact ⟨_, hs⟩
  | write x z _ hk hs => cases hr; exact ⟨z, hs⟩
  | store => cases hr

theorem Stands.left {op : O} {r : R} {i : Op W} {m : Res W} (hs : Stands S op r i m) {Q : W → Prop}
    (hf : S.Left op r Q) : ∃ x, Leaves i m x ∧ m ≠ .panic ∧ Q x := by
  obtain ⟨h1, h2⟩ := hf
  cases hs with
  | nothing _ hk => exact absurd hk h1
  | read x _ hk hs => exact ⟨x, rfl, by simp, h2 x x hs⟩
  | write x y _ hk hs => exact ⟨y, ⟨x, rfl, Function.update_self ..⟩, by simp, h2 x y hs⟩
  | store y _ hk hs => exact ⟨y, rfl, by simp, h2 y y (hs y)⟩

theorem Found.notNothing {op : O} {r : R} {Q : W → Prop} (hf : S.Found op r Q) : S.kind op r ≠ .nothing := by
  rcases hf.1 with e | e <;> rw [e] <;> simp

theorem Image.fullFence (x : Image S h n p) {f g : Nat} {t : Tid} (F : S.FullFence h f g t) : WM.FullFence n f g t := by
  rcases F with ⟨e, h1⟩ | ⟨o, op, r, C, h1, h2⟩
  · exact .inl ⟨e, x.client_iff.1 h1⟩
  · obtain ⟨i, m, C', hs⟩ := x.called C
    refine .inr ⟨o, i, m, C', by rw [hs.effOrd h2]; exact h1, ?_⟩
    rintro rfl
    cases hs with
    | nothing _ hk => exact h2 hk

/-! ## The promises -/

variable {w0 : Obj → W} {x0 : Nat → X}

/-- Message passing. -/
theorem message_passing (L : Legal S) (hb : Behaviour S w0 x0 h) {a : Nat} {x1 : X} {o : Obj} {Q : W → Prop}
    (h0 : ¬ Q (w0 o)) (hw : OnlyStores h a x1)
    (hc : ∀ (j : Nat) (t : Tid) (op : O), h[j]? = some (.inv t o op) → S.Keeps (fun y => ¬ Q y) op ∨
      rels (S.succ op) = true ∧ ∃ l < j, ∃ ow r, h[l]? = some (.client t (.store a x1 ow) r))
    {i k j : Nat} {t : Tid} {op : O} {r : R} (C : Called h i k t o op r) (ha : acqs (S.effOrd op r) = true)
    (hf : S.Found op r Q) (hj : k < j) {ol : MemOrd} {z : Option X} (hz : h[j]? = some (.client t (.load a ol) z)) :
    z = some x1 := by
  obtain ⟨n, p, x, hn⟩ := exists_image L hb
  obtain ⟨i', m, C', hs⟩ := x.called C
  obtain ⟨y, hy, hq⟩ := hs.found hf
  refine Native.message_passing hn h0 (x.onlyStores hw) ?_ C' (by rw [hs.effOrd (Found.notNothing hf)]; exact ha) hy hq hj
    (x.client_iff.1 hz)
  intro l u i'' hl
  obtain ⟨op', h1, h2⟩ := x.inv_of hl
  rcases hc l u op' h1 with hk | ⟨hr, l', hl', ow, r', h3⟩
  · exact .inl (h2.keeps hk)
  · have hst : ∃ l'' < l, ∃ ow r, n[l'']? = some (.client u (.store a x1 ow) r) := ⟨l', hl', ow, r', x.client_iff.1 h3⟩
    rcases h2 with rfl | ⟨r'', m', h2⟩
    · exact .inl trivial
    · cases h2 with
      | nothing => exact .inl trivial
      | read => exact .inl trivial
      | write => exact .inr ⟨⟨_, rfl, hr⟩, hst⟩
      | store => exact .inr ⟨⟨_, rfl, hr⟩, hst⟩

/-- Coherence, and recency of `SeqCst` operations. -/
theorem recency (L : Legal S) (hb : Behaviour S w0 x0 h) {o : Obj} {Q : W → Prop} (hk : S.AllKeep h o Q)
    {i k i' k' : Nat} {t t' : Tid} {op op' : O} {r r' : R} (C : Called h i k t o op r) (C' : Called h i' k' t' o op' r')
    (hlt : k < i') (hs : t = t' ∨ S.effOrd op r = .seqCst ∧ S.effOrd op' r' = .seqCst) (hl : S.Left op r Q)
    (hf : S.kind op' r' = .read ∨ S.kind op' r' = .write) : ∃ x y, S.sem op' x y r' ∧ Q x := by
  obtain ⟨n, p, x, hn⟩ := exists_image L hb
  obtain ⟨j, m, D, st⟩ := x.called C
  obtain ⟨j', m', D', st'⟩ := x.called C'
  obtain ⟨v, h1, h2, h3⟩ := st.left hl
  have hn' : S.kind op' r' ≠ .nothing := by rcases hf with e | e <;> rw [e] <;> simp
  obtain ⟨y, hy, -⟩ := st'.found (Q := fun _ => True) ⟨hf, fun _ _ _ => trivial⟩
  have := Native.recency hn (x.allKeep hk) D D' hlt
    (hs.imp id fun e => ⟨by rw [st.effOrd hl.1]; exact e.1, by rw [st'.effOrd hn']; exact e.2⟩) h1 h2 h3 hy
  obtain ⟨z, hz⟩ := st'.found' hy
  exact ⟨y, z, hz, this⟩

/-- `SeqCst` operations as fences. -/
theorem sc_fences (L : Legal S) (hb : Behaviour S w0 x0 h) {a : Nat} {x1 : X} (hw : OnlyStores h a x1)
    {m f g f' g' j : Nat} {A B : Tid} {ow ol : MemOrd} {r : Option X} {z : Option X}
    (hm : h[m]? = some (.client A (.store a x1 ow) r)) (hmf : m < f) (F : S.FullFence h f g A) (hg : g < f')
    (F' : S.FullFence h f' g' B) (hj : g' < j) (hz : h[j]? = some (.client B (.load a ol) z)) : z = some x1 := by
  obtain ⟨n, p, x, hn⟩ := exists_image L hb
  exact Native.sc_fences hn (x.onlyStores hw) (x.client_iff.1 hm) hmf (x.fullFence F) hg (x.fullFence F') hj
    (x.client_iff.1 hz)

end Verif.WM.Derived
