import Verif.WM.Wrap
import Mathlib.Tactic.Order
/-!
# Two weak memories, one with fewer writes and smaller views (proof internals)

The code may make writes that put back what was there (a load made by compare-exchange).  The memory of
the specification lacks them; `MRel` relates the writes to a location in the two memories.
-/
set_option autoImplicit false
set_option linter.unusedSectionVars false
namespace Verif.WM.Derived
open Verif.WM.Native (Loc)

section
variable {L : Type} [DecidableEq L] {V W : Type}

/-- No free place in `ms` meets `(f, t]`. -/
def Blocked (ms : List (Msg L V)) (f t : Ts) : Prop := ∀ a b, Fresh ms a b → b ≤ f ∨ t ≤ a

theorem fresh_sub {ms ms' : List (Msg L V)} {a b : Ts} (h : Fresh ms' a b) (hs : ms ⊆ ms') : Fresh ms a b :=
  ⟨h.1, fun m hm => h.2 m (hs hm)⟩

theorem Blocked.mono {ms ms' : List (Msg L V)} {f t : Ts} (h : Blocked ms f t) (hs : ms ⊆ ms') : Blocked ms' f t :=
  fun a b hf => h a b (fresh_sub hf hs)

theorem blocked_mem {ms : List (Msg L V)} {m : Msg L V} (h : m ∈ ms) : Blocked ms m.frm m.ts :=
  fun _ _ hf => hf.2 m h

theorem Blocked.trans {ms : List (Msg L V)} {f t u : Ts} (h : Blocked ms f t) (k : Blocked ms t u) : Blocked ms f u := by
  intro a b hf
  rcases h a b hf with h1 | h1
  · exact .inl h1
  · rcases k a b hf with h2 | h2
    · exact absurd hf.1 (not_lt.2 (h2.trans h1))
    · exact .inr h2

/-- `s` stands for `m`. -/
structure Rep (abs : V → W) (mi : List (Msg L V)) (ms : List (Msg L W)) (m : Msg L V) (s : Msg L W) : Prop where
  mem : s ∈ ms
  val : s.val = abs m.val
  view : s.view ≤ m.view
  le : s.ts ≤ m.ts
  blk : s.ts = m.ts ∨ Blocked mi s.ts m.ts
  gap : ∀ s' ∈ ms, s'.ts ≤ s.ts ∨ m.ts < s'.ts

structure MRel (abs : V → W) (inv : V → Prop) (mi : List (Msg L V)) (ms : List (Msg L W)) : Prop where
  inv : ∀ m ∈ mi, inv m.val
  rep : ∀ m ∈ mi, ∃ s, Rep abs mi ms m s
  blk : ∀ s ∈ ms, Blocked mi s.frm s.ts
  wf : ∀ s ∈ ms, s.frm < s.ts ∨ s.ts = 0

variable {abs : V → W} {inv : V → Prop} {mi : List (Msg L V)} {ms : List (Msg L W)}

theorem mrel_init {v : V} (hv : inv v) : MRel (L := L) abs inv (initMsgs v) (initMsgs (abs v)) := by
  refine ⟨?_, ?_, ?_, ?_⟩
  · intro m hm; rw [List.mem_singleton.1 hm]; exact hv
  · intro m hm
    rw [List.mem_singleton.1 hm]
    refine ⟨⟨0, 0, abs v, ⊥⟩, List.mem_singleton.2 rfl, rfl, le_rfl, le_rfl, .inl rfl, ?_⟩
    intro s hs; rw [List.mem_singleton.1 hs]; exact .inl le_rfl
  · intro s hs
    rw [List.mem_singleton.1 hs]
    exact fun a b _ => .inr zero_le
  · intro s hs; rw [List.mem_singleton.1 hs]; exact .inr rfl

/-- A place free in the larger memory is free in the smaller. -/
theorem MRel.fresh (h : MRel abs inv mi ms) {a b : Ts} (hf : Fresh mi a b) : Fresh ms a b :=
  ⟨hf.1, fun s hs => h.blk s hs a b hf⟩

theorem MRel.fresh_rmw (h : MRel abs inv mi ms) {m : Msg L V} {s : Msg L W} (r : Rep abs mi ms m s) {t : Ts}
    (hf : Fresh mi m.ts t) : Fresh ms s.ts t := by
  refine ⟨r.le.trans_lt hf.1, fun s' hs' => ?_⟩
  rcases (h.fresh hf).2 s' hs' with h1 | h1
  · exact .inl h1
  · rcases r.gap s' hs' with h2 | h2
    · exact .inr h2
    · exact absurd h2 (not_lt.2 h1)

/-- A write made in both memories. -/
theorem MRel.push (h : MRel abs inv mi ms) {f f' t : Ts} {y : V} {vi vs : View L} (hf : Fresh mi f t)
    (hf' : Fresh ms f' t) (hb : f' = f ∨ Blocked mi f' f) (hi : inv y) (hv : vs ≤ vi) :
    MRel abs inv (⟨f, t, y, vi⟩ :: mi) (⟨f', t, abs y, vs⟩ :: ms) := by
  have hsub : mi ⊆ ⟨f, t, y, vi⟩ :: mi := List.subset_cons_self _ _
  refine ⟨?_, ?_, ?_, ?_⟩
  · intro m hm
    rcases List.mem_cons.1 hm with rfl | hm
    · exact hi
    · exact h.inv m hm
  · intro m hm
    rcases List.mem_cons.1 hm with rfl | hm
    · exact ⟨_, List.mem_cons_self, rfl, hv, le_rfl, .inl rfl, fun s' _ => le_or_gt _ _⟩
    · obtain ⟨s, r⟩ := h.rep m hm
      refine ⟨s, List.mem_cons_of_mem _ r.mem, r.val, r.view, r.le, ?_, ?_⟩
      · exact r.blk.imp id fun k => k.mono hsub
      · intro s' hs'
        rcases List.mem_cons.1 hs' with rfl | hs'
        · rcases r.blk with e | k
          · show t ≤ s.ts ∨ m.ts < t
            rw [e]; exact le_or_gt _ _
          · exact (k f t hf).imp id fun k => k.trans_lt hf.1
        · exact r.gap s' hs'
  · intro s hs
    rcases List.mem_cons.1 hs with rfl | hs
    · have h1 : Blocked (⟨f, t, y, vi⟩ :: mi) f t := blocked_mem (m := ⟨f, t, y, vi⟩) List.mem_cons_self
      rcases hb with rfl | hb
      · exact h1
      · exact (hb.mono hsub).trans h1
    · exact (h.blk s hs).mono hsub
  · intro s hs
    rcases List.mem_cons.1 hs with rfl | hs
    · exact .inl hf'.1
    · exact h.wf s hs

/-- A write made only in the larger memory, which puts back what was there. -/
theorem MRel.dup (h : MRel abs inv mi ms) {m : Msg L V} (hm : m ∈ mi) {t : Ts} {y : V} {vi : View L}
    (hf : Fresh mi m.ts t) (hy : abs y = abs m.val) (hi : inv y) (hv : m.view ≤ vi) :
    MRel abs inv (⟨m.ts, t, y, vi⟩ :: mi) ms := by
  have hsub : mi ⊆ ⟨m.ts, t, y, vi⟩ :: mi := List.subset_cons_self _ _
  refine ⟨?_, ?_, fun s hs => (h.blk s hs).mono hsub, h.wf⟩
  · intro m hm
    rcases List.mem_cons.1 hm with rfl | hm
    · exact hi
    · exact h.inv m hm
  · intro m' hm'
    rcases List.mem_cons.1 hm' with rfl | hm'
    · obtain ⟨s, r⟩ := h.rep m hm
      have h1 : Blocked (⟨m.ts, t, y, vi⟩ :: mi) m.ts t := blocked_mem (m := ⟨m.ts, t, y, vi⟩) List.mem_cons_self
      refine ⟨s, r.mem, r.val.trans hy.symm, r.view.trans hv, r.le.trans hf.1.le, .inr ?_, ?_⟩
      · rcases r.blk with e | k
        · rw [e]; exact h1
        · exact (k.mono hsub).trans h1
      · intro s' hs'
        rcases r.gap s' hs' with k | k
        · exact .inl k
        · right
          rcases h.blk s' hs' _ _ hf with k' | k'
          · rcases h.wf s' hs' with w | w
            · exact k'.trans_lt w
            · rw [w] at k; exact absurd k (not_lt.2 zero_le)
          · exact absurd k (not_lt.2 k')
    · obtain ⟨s, r⟩ := h.rep m' hm'
      exact ⟨s, r.mem, r.val, r.view, r.le, r.blk.imp id fun k => k.mono hsub, r.gap⟩

/-! ## Views -/

/-- Smaller views. -/
structure TLe (v v' : TV L) : Prop where
  cur : v.cur ≤ v'.cur
  acq : v.acq ≤ v'.acq
  rel : v.rel ≤ v'.rel

theorem TLe.rfl' {v : TV L} : TLe v v := ⟨le_rfl, le_rfl, le_rfl⟩
theorem TLe.trans {a b c : TV L} (x : TLe a b) (y : TLe b c) : TLe a c :=
  ⟨x.cur.trans y.cur, x.acq.trans y.acq, x.rel.trans y.rel⟩

theorem single_le {l : L} {a b : Ts} (h : a ≤ b) : single l a ≤ single l b := by
  intro k
  by_cases e : k = l
  · subst e; simpa [single] using h
  · simp [single, Function.update_of_ne e]

theorem acqs_of {o o' : MemOrd} (h : o.AtLeast o') : acqs o' = true → acqs o = true := by
  have := h .acquire
  revert this
  cases o <;> cases o' <;> simp [acqs, MemOrd.gives]

theorem rels_of {o o' : MemOrd} (h : o.AtLeast o') : rels o' = true → rels o = true := by
  have := h .release
  revert this
  cases o <;> cases o' <;> simp [rels, MemOrd.gives]

theorem sc_of {o o' : MemOrd} (h : o.AtLeast o') : o' = .seqCst → o = .seqCst := by
  have := h .total
  revert this
  cases o <;> cases o' <;> simp [MemOrd.gives]

theorem TLe.read {v v' : TV L} (h : TLe v v') (l : L) {o o' : MemOrd} (ho : o'.AtLeast o) {m : Msg L W} {m' : Msg L V}
    (ht : m.ts ≤ m'.ts) (hv : m.view ≤ m'.view) : TLe (v.read l o m) (v'.read l o' m') := by
  refine ⟨?_, ?_, h.rel⟩
  · refine sup_le_sup (sup_le_sup h.cur (single_le ht)) ?_
    cases e : acqs o with
    | false => simp
    | true => simpa [acqs_of ho e] using hv
  · exact sup_le_sup (sup_le_sup h.acq (single_le ht)) hv

theorem tle_read (v : TV L) (l : L) (o : MemOrd) (m : Msg L V) : TLe v (v.read l o m) :=
  ⟨le_sup_left.trans le_sup_left, le_sup_left.trans le_sup_left, le_rfl⟩

theorem tle_write (v : TV L) (l : L) (t : Ts) : TLe v (v.write l t) := ⟨le_sup_left, le_sup_left, le_rfl⟩

theorem TLe.write {v v' : TV L} (h : TLe v v') (l : L) (t : Ts) : TLe (v.write l t) (v'.write l t) :=
  ⟨sup_le_sup h.cur le_rfl, sup_le_sup h.acq le_rfl, h.rel⟩

theorem TLe.msgView {v v' : TV L} (h : TLe v v') (w : v.rel ≤ v'.cur) (l : L) (t : Ts) {o o' : MemOrd}
    (ho : o'.AtLeast o) : v.msgView l t o ≤ v'.msgView l t o' := by
  refine sup_le_sup ?_ le_rfl
  cases e : rels o with
  | true => simpa [rels_of ho e] using h.cur
  | false =>
    cases e' : rels o' with
    | true => simpa using w
    | false => simpa using h.rel

theorem TLe.scFence {v v' : TV L} (h : TLe v v') {S S' : View L} (hS : S ≤ S') : TLe (v.scFence S) (v'.scFence S') :=
  ⟨sup_le_sup h.acq hS, sup_le_sup h.acq hS, sup_le_sup h.acq hS⟩

theorem TLe.fence {v v' : TV L} (h : TLe v v') {S S' : View L} (hS : S ≤ S') (o : MemOrd) :
    TLe (WM.fence v S o).1 (WM.fence v' S' o).1 ∧ (WM.fence v S o).2 ≤ (WM.fence v' S' o).2 := by
  cases o <;> simp only [WM.fence, TV.fence, acqs, rels, if_true, Bool.false_eq_true, if_false]
  · exact ⟨⟨h.cur, h.acq, h.rel⟩, hS⟩
  · exact ⟨⟨h.cur, h.acq, h.cur⟩, hS⟩
  · exact ⟨⟨h.acq, h.acq, h.rel⟩, hS⟩
  · exact ⟨⟨h.acq, h.acq, h.acq⟩, hS⟩
  · exact ⟨h.scFence hS, sup_le_sup h.acq hS⟩

/-- The places the view points at satisfy `T`. -/
def Pts (T : L → Ts → Prop) (v : View L) : Prop := ∀ l, T l (v l)

theorem Pts.sup {T : L → Ts → Prop} {v w : View L} (h : Pts T v) (k : Pts T w) : Pts T (v ⊔ w) := by
  intro l
  rcases le_total (v l) (w l) with e | e
  · have : (v ⊔ w) l = w l := sup_eq_right.2 e
    rw [this]; exact k l
  · have : (v ⊔ w) l = v l := sup_eq_left.2 e
    rw [this]; exact h l

theorem Pts.bot {T : L → Ts → Prop} (h : ∀ l, T l 0) : Pts T (⊥ : View L) := h

theorem Pts.single {T : L → Ts → Prop} (h : ∀ l, T l 0) {l : L} {t : Ts} (ht : T l t) : Pts T (single l t) := by
  intro k
  by_cases e : k = l
  · subst e; simpa [WM.single] using ht
  · have : WM.single l t k = 0 := by simp [WM.single, Function.update_of_ne e]
    rw [this]; exact h k

theorem Pts.mono {T T' : L → Ts → Prop} (hT : ∀ l t, T l t → T' l t) {v : View L} (h : Pts T v) : Pts T' v :=
  fun l => hT l _ (h l)

structure TPts (T : L → Ts → Prop) (v : TV L) : Prop where
  cur : Pts T v.cur
  acq : Pts T v.acq
  rel : Pts T v.rel

theorem TPts.mono {T T' : L → Ts → Prop} (hT : ∀ l t, T l t → T' l t) {v : TV L} (h : TPts T v) : TPts T' v :=
  ⟨h.cur.mono hT, h.acq.mono hT, h.rel.mono hT⟩

theorem TPts.read {T : L → Ts → Prop} (h0 : ∀ l, T l 0) {v : TV L} (h : TPts T v) {l : L} (o : MemOrd) {m : Msg L W}
    (hm : T l m.ts) (hv : Pts T m.view) : TPts T (v.read l o m) := by
  refine ⟨(h.cur.sup (.single h0 hm)).sup ?_, (h.acq.sup (.single h0 hm)).sup hv, h.rel⟩
  split
  · exact hv
  · exact .bot h0

theorem TPts.write {T : L → Ts → Prop} (h0 : ∀ l, T l 0) {v : TV L} (h : TPts T v) {l : L} {t : Ts} (ht : T l t) :
    TPts T (v.write l t) :=
  ⟨h.cur.sup (.single h0 ht), h.acq.sup (.single h0 ht), h.rel⟩

theorem TPts.msgView {T : L → Ts → Prop} (h0 : ∀ l, T l 0) {v : TV L} (h : TPts T v) {l : L} {t : Ts} (o : MemOrd)
    (ht : T l t) : Pts T (v.msgView l t o) := by
  refine Pts.sup ?_ (.single h0 ht)
  split
  · exact h.cur
  · exact h.rel

theorem TPts.scFence {T : L → Ts → Prop} {v : TV L} (h : TPts T v) {S : View L} (hS : Pts T S) : TPts T (v.scFence S) :=
  ⟨h.acq.sup hS, h.acq.sup hS, h.acq.sup hS⟩

theorem TPts.fence {T : L → Ts → Prop} {v : TV L} (h : TPts T v) {S : View L} (hS : Pts T S) (o : MemOrd) :
    TPts T (WM.fence v S o).1 ∧ Pts T (WM.fence v S o).2 := by
  cases o <;> simp only [WM.fence, TV.fence, acqs, rels, if_true, Bool.false_eq_true, if_false]
  · exact ⟨⟨h.cur, h.acq, h.rel⟩, hS⟩
  · exact ⟨⟨h.cur, h.acq, h.cur⟩, hS⟩
  · exact ⟨⟨h.acq, h.acq, h.rel⟩, hS⟩
  · exact ⟨⟨h.acq, h.acq, h.acq⟩, hS⟩
  · exact ⟨h.scFence hS, h.acq.sup hS⟩

/-- A write readable in the larger memory is, in the smaller, stood for by a readable one. -/
theorem Rep.readable {m : Msg L V} {s : Msg L W} (r : Rep abs mi ms m s) {vi vs : Ts} (hv : vs ≤ vi) (hm : vi ≤ m.ts)
    (hp : ∃ s' ∈ ms, s'.ts = vs) : vs ≤ s.ts := by
  obtain ⟨s', h1, rfl⟩ := hp
  rcases r.gap s' h1 with h | h
  · exact h
  · exact absurd h (not_lt.2 (hv.trans hm))

end
end Verif.WM.Derived
