import Verif.WM.ScPublish
/-!
# Sequentially consistent operations are linearizable in weak memory

The proof reads an execution backwards.  `M` is the memory at its end and `fate t` the place, in
modification order, at which the call thread `t` is engaged in will take effect.  An operation takes
effect in the specification when the global view of the sequentially consistent fences passes its
place; a read at the place that is already published takes effect at its first fence.
-/
set_option autoImplicit false
set_option linter.unusedSectionVars false
namespace Verif.WM.Sc
open Verif.WM.Native
variable {V X : Type} [DecidableEq V]

/-! ## The effect of one access -/

theorem isSeqCst_ok {op : Op V} (h : op.IsSeqCst) : op.ordOk = true := by
  cases op <;> simp only [Op.IsSeqCst] at h
  · subst h; rfl
  · subst h; rfl
  · rfl
  · obtain ⟨-, h⟩ := h; subst h; rfl
  · rfl

/-- Adding a write at a free place. -/
theorem Wf.push {v : V} {L : Ms V} (w : Wf v L) {f t : Ts} (hf : Fresh L f t) (x : V) (u : View Loc) :
    Wf v (⟨f, t, x, u⟩ :: L) ∧ ∀ m ∈ L, m.ts ≠ t := by
  refine ⟨⟨?_, ?_, List.mem_cons_of_mem _ w.ini⟩, ?_⟩
  · intro m hm m' hm'
    rcases List.mem_cons.1 hm with e | hm <;> rcases List.mem_cons.1 hm' with e' | hm'
    · left; rw [e, e']
    · subst e; right
      rcases hf.2 m' hm' with k | k
      · exact .inl k
      · exact .inr k
    · subst e'; right
      rcases hf.2 m hm with k | k
      · exact .inr k
      · exact .inl k
    · exact w.sep m hm m' hm'
  · intro m hm
    rcases List.mem_cons.1 hm with e | hm
    · subst e; exact .inl hf.1
    · exact w.pos m hm
  · intro m hm e
    rcases hf.2 m hm with k | k
    · rcases w.pos m hm with p | p
      · rw [e] at p; exact absurd k (not_le_of_gt p)
      · rw [p] at e; simp only [m0] at e
        have := hf.1
        rw [← e] at this
        exact absurd this (by simp)
    · rw [e] at k; exact absurd hf.1 (not_lt_of_ge k)

/-- What an access to object `o` did: where it took effect. -/
structure Took (v : V) (o : Obj) (L : Ms V) (tv : TV Loc) (op : Op V) (ms : Ms V) (tv' : TV Loc) (r : Res V)
    (g : Tgt V) : Prop where
  wf : Wf v ms
  res : g.res = r
  valid : ∀ M, Wf v M → ms ⊆ M → Valid M op g
  cur : tv.cur (.obj o) ≤ g.ts
  acq : g.ts ≤ tv'.acq (.obj o)
  mem : ∃ m ∈ ms, m.ts = g.ts
  read : g.wr = false → ms = L
  write : g.wr = true → tv.cur (.obj o) < g.ts ∧ (∀ m ∈ L, m.ts ≠ g.ts) ∧ ∀ m ∈ ms, m ∈ L ∨ m.ts = g.ts

theorem single_self (l : Loc) (t : Ts) : single l t l = t := by simp [single]

theorem took_load {v : V} {o : Obj} {L : Ms V} {tv tv' : TV Loc} {op : Op V} {ord : MemOrd} {x : V} {r : Res V}
    (w : Wf v L) (h : Load L tv (.obj o) ord x tv') (hop : op.onCell x = (x, r)) :
    ∃ g, Took v o L tv op L tv' r g := by
  cases h with
  | mk m hm hv =>
    refine ⟨⟨m.ts, false, r⟩, w, rfl, ?_, hv, ?_, ⟨m, hm, rfl⟩, fun _ => rfl, fun h => by cases h⟩
    · intro M hM hs
      refine ⟨m, hs hm, rfl, ?_⟩
      simp only [Bool.false_eq_true, if_false]; exact hop
    · simp only [TV.read, Pi.sup_apply, single_self]
      exact le_sup_right.trans le_sup_left

theorem took_rmw {v : V} {o : Obj} {L ms : Ms V} {tv tv' : TV Loc} {op : Op V} {ord : MemOrd} {f : V → V} {x : V}
    {r : Res V} (w : Wf v L) (h : Rmw L tv (.obj o) ord f x ms tv') (hop : op.onCell x = (f x, r)) :
    ∃ g, Took v o L tv op ms tv' r g := by
  cases h with
  | mk m t hm hv hf =>
    obtain ⟨w', hne⟩ := w.push hf (f m.val) ((tv.read (.obj o) ord m).msgView (.obj o) t ord ⊔ m.view)
    refine ⟨⟨t, true, r⟩, w', rfl, ?_, hv.trans hf.1.le, ?_, ⟨_, List.mem_cons_self, rfl⟩, (fun h => by cases h),
      fun _ => ⟨hv.trans_lt hf.1, hne, ?_⟩⟩
    · intro M hM hs
      refine ⟨_, hs List.mem_cons_self, rfl, ?_⟩
      simp only [if_true]
      intro p hp hlt hall
      have hmM : m ∈ M := hs (List.mem_cons_of_mem _ hm)
      have h1 := hall m hmM hf.1
      have h2 : p.ts ≤ m.ts := by
        rcases hM.sep p hp _ (hs List.mem_cons_self) with k | k | k
        · rw [k] at hlt; exact absurd hlt (lt_irrefl _)
        · exact k
        · exact absurd (k.trans (hM.frm_le hp)) (not_le_of_gt hlt)
      rw [hM.eq hp hmM (le_antisymm h2 h1)]; exact hop
    · simp only [TV.write, TV.read, Pi.sup_apply, single_self]
      exact le_sup_right
    · intro m' hm'
      rcases List.mem_cons.1 hm' with e | hm'
      · exact .inr (by rw [e])
      · exact .inl hm'

theorem took_store {v : V} {o : Obj} {L ms : Ms V} {tv tv' : TV Loc} {op : Op V} {ord : MemOrd} {x : V}
    {r : Res V} (w : Wf v L) (h : Store L tv (.obj o) ord x ms tv') (hop : ∀ y, op.onCell y = (x, r)) :
    ∃ g, Took v o L tv op ms tv' r g := by
  cases h with
  | mk f t hv hf =>
    obtain ⟨w', hne⟩ := w.push hf x (tv.msgView (.obj o) t ord)
    refine ⟨⟨t, true, r⟩, w', rfl, ?_, hv.le, ?_, ⟨_, List.mem_cons_self, rfl⟩, (fun h => by cases h),
      fun _ => ⟨hv, hne, ?_⟩⟩
    · intro M hM hs
      refine ⟨_, hs List.mem_cons_self, rfl, ?_⟩
      simp only [if_true]
      intro p hp hlt hall
      exact hop _
    · simp only [TV.write, Pi.sup_apply, single_self]
      exact le_sup_right
    · intro m' hm'
      rcases List.mem_cons.1 hm' with e | hm'
      · exact .inr (by rw [e])
      · exact .inl hm'

theorem took {v : V} {o : Obj} {L ms : Ms V} {tv tv' : TV Loc} {op : Op V} {ord : MemOrd} {r : Res V}
    (w : Wf v L) (hc : op.IsSeqCst) (h : Access L tv (.obj o) op ord ms tv' r) :
    ord = .seqCst ∧ ∃ g, Took v o L tv op ms tv' r g := by
  have ok := isSeqCst_ok hc
  cases h with
  | load _ x _ h => exact ⟨hc, took_load w h (by simp [Op.onCell, ok])⟩
  | store x _ _ _ h => exact ⟨hc, took_store w h (by simp [Op.onCell, ok])⟩
  | swap x _ y _ _ h => exact ⟨hc, took_rmw w h (by simp [Op.onCell, ok])⟩
  | rmw f _ y _ _ h => exact ⟨hc, took_rmw w h (by simp [Op.onCell, ok])⟩
  | casOk cur new s f _ _ h => exact ⟨hc.1, took_rmw w h (by simp [Op.onCell, ok])⟩
  | casErr cur new s f y _ h hy => exact ⟨hc.2, took_load w h (by simp [Op.onCell, ok, hy])⟩

/-! ## The relation between the two machines -/

variable (P : Obj → Bool) (v0 : Obj → V)

abbrev Done (V : Type) := Tid → Option (Obj × Op V × Tgt V)
abbrev Fate (V : Type) := Tid → Option (Tgt V)

/-- The call a thread at `p` is engaged in, if it is on an object of `P`. -/
def callOf (p : Pc V) (d : Option (Obj × Op V × Tgt V)) (f : Option (Tgt V)) : Option (Call V) :=
  match p with
  | .idle => none
  | .todo o op b => if P o then some ⟨o, op, b, f⟩ else none
  | .fin _ _ => d.map fun x => ⟨x.1, x.2.1, true, some x.2.2⟩

def callsOf (s : Native.State V X) (g : Done V) (fate : Fate V) : Tid → Option (Call V) :=
  fun t => callOf P (s.pc t) (g t) (fate t)

/-- Invariant, with `g t` where the access of `t` took effect, `fl t` whether `t`'s call is on `P`. -/
structure Fwd (s : Native.State V X) (g : Done V) (fl : Tid → Bool) : Prop where
  views : AllWf s
  wf : ∀ o, P o = true → Wf (v0 o) (s.mo o)
  fin : ∃ N, ∀ t, N ≤ t → s.pc t = .idle
  author : ∀ o, P o = true → ∀ m ∈ s.mo o, s.sc (.obj o) < m.ts →
    ∃ t r b op k, s.pc t = .fin r b ∧ g t = some (o, op, k) ∧ k.wr = true ∧ k.ts = m.ts
  todo : ∀ t o op b, s.pc t = .todo o op b → fl t = P o ∧ (P o = true → op.IsSeqCst)
  flag : ∀ t r b, s.pc t = .fin r b → fl t = (g t).isSome
  tgt : ∀ t r b o op k, s.pc t = .fin r b → g t = some (o, op, k) → P o = true ∧ k.res = r ∧
    (∃ m ∈ s.mo o, m.ts = k.ts) ∧ (∀ M, Wf (v0 o) M → s.mo o ⊆ M → Valid M op k) ∧
    k.ts ≤ (s.tv t).acq (.obj o) ∧ (b = false → k.ts ≤ s.sc (.obj o))
  dist : ∀ t r b o op k t' r' b' op' k', s.pc t = .fin r b → g t = some (o, op, k) → k.wr = true →
    s.pc t' = .fin r' b' → g t' = some (o, op', k') → k'.wr = true → k.ts = k'.ts → t = t'

/-- `M` may be the memory at the end and `fate` the places of the calls not yet performed. -/
structure Cons (s : Native.State V X) (M : Obj → Ms V) (fate : Fate V) : Prop where
  wf : ∀ o, P o = true → Wf (v0 o) (M o)
  sub : ∀ o, P o = true → s.mo o ⊆ M o
  tgt : ∀ t o op b k, s.pc t = .todo o op b → P o = true → fate t = some k → Valid (M o) op k ∧
    (s.tv t).cur (.obj o) ≤ k.ts ∧
    (k.wr = true → (s.tv t).cur (.obj o) < k.ts ∧ ∀ m ∈ s.mo o, m.ts ≠ k.ts) ∧
    (b = false → s.sc (.obj o) ≤ k.ts ∧ (k.wr = true → s.sc (.obj o) < k.ts))
  dist : ∀ t o op b k t' op' b' k', s.pc t = .todo o op b → fate t = some k → k.wr = true →
    s.pc t' = .todo o op' b' → fate t' = some k' → k'.wr = true → P o = true → k.ts = k'.ts → t = t'
  past : ∀ o, P o = true → ∀ m ∈ M o, m.ts ≤ s.sc (.obj o) → m ∈ s.mo o ∨
    ∃ t op b k, s.pc t = .todo o op b ∧ fate t = some k ∧ k.wr = true ∧ k.ts = m.ts

variable {P v0}

/-- Steps that make no write to `P`. -/
theorem Cons.back {s s' : Native.State V X} {M : Obj → Ms V} {fate : Fate V} (C : Cons P v0 s' M fate)
    (hmo : ∀ o, P o = true → s'.mo o = s.mo o) (hsc : s.sc ≤ s'.sc) (hcur : ∀ t, (s.tv t).cur ≤ (s'.tv t).cur)
    (h1 : ∀ t o op b, s.pc t = .todo o op b → P o = true → ∃ b', s'.pc t = .todo o op b' ∧
      (b = false → b' = false ∨ s'.sc (.obj o) ≤ (s'.tv t).cur (.obj o)))
    (h2 : ∀ t o op b, s'.pc t = .todo o op b → P o = true → (∃ b', s.pc t = .todo o op b') ∨ b = false) :
    Cons P v0 s M fate := by
  refine ⟨C.wf, fun o ho => by rw [← hmo o ho]; exact C.sub o ho, ?_, ?_, ?_⟩
  · intro t o op b k hp hP hk
    obtain ⟨b', hp', hb⟩ := h1 t o op b hp hP
    obtain ⟨a1, a2, a3, a4⟩ := C.tgt t o op b' k hp' hP hk
    refine ⟨a1, (hcur t _).trans a2, fun hw => ⟨(hcur t _).trans_lt (a3 hw).1, by rw [← hmo o hP]; exact (a3 hw).2⟩, ?_⟩
    intro hbf
    rcases hb hbf with h | h
    · exact ⟨(hsc _).trans (a4 h).1, fun hw => (hsc _).trans_lt ((a4 h).2 hw)⟩
    · exact ⟨(hsc _).trans (h.trans a2), fun hw => (hsc _).trans_lt (h.trans_lt (a3 hw).1)⟩
  · intro t o op b k t' op' b' k' hp hk hw hp' hk' hw' hP e
    obtain ⟨c, hc, -⟩ := h1 t o op b hp hP
    obtain ⟨c', hc', -⟩ := h1 t' o op' b' hp' hP
    exact C.dist t o op c k t' op' c' k' hc hk hw hc' hk' hw' hP e
  · intro o hP m hm ht
    rcases C.past o hP m hm (ht.trans (hsc _)) with h | ⟨t, op, b, k, k1, k2, k3, k4⟩
    · exact .inl (by rw [← hmo o hP]; exact h)
    · right
      rcases h2 t o op b k1 hP with ⟨b', h⟩ | h
      · exact ⟨t, op, b', k, h, k2, k3, k4⟩
      · have := ((C.tgt t o op b k k1 hP k2).2.2.2 h).2 k3
        rw [k4] at this
        exact absurd (ht.trans (hsc _)) (not_le_of_gt this)

/-- Steps that only advance the published view. -/
theorem can_of {s : Native.State V X} {S' : View Loc} {g : Done V} {fl : Tid → Bool} {M : Obj → Ms V} {fate : Fate V}
    (F : Fwd P v0 s g fl) (C : Cons P v0 s M fate) (hle : s.sc ≤ S')
    (hl : ∀ t o op k, s.pc t = .todo o op false → P o = true → fate t = some k →
      S' (.obj o) ≤ k.ts ∧ (k.wr = true → S' (.obj o) < k.ts))
    (hp : ∀ o, P o = true → ∀ m ∈ M o, m.ts ≤ S' (.obj o) → m ∈ s.mo o ∨
      ∃ t op b k, s.pc t = .todo o op b ∧ fate t = some k ∧ k.wr = true ∧ k.ts = m.ts) :
    Can P v0 M (callsOf P s g fate) s.sc S' := by
  -- what a call in progress is
  have inv : ∀ t c, callsOf P s g fate t = some c →
      (s.pc t = .todo c.o c.op c.b ∧ P c.o = true ∧ c.tg = fate t) ∨
      (∃ r b k, s.pc t = .fin r b ∧ g t = some (c.o, c.op, k) ∧ c.tg = some k ∧ c.b = true) := by
    intro t c hc
    simp only [callsOf, callOf] at hc
    split at hc
    · cases hc
    · next o op b e =>
      split at hc
      · next hP => cases hc; exact .inl ⟨e, hP, rfl⟩
      · cases hc
    · next r b e =>
      cases hg : g t with
      | none => rw [hg] at hc; cases hc
      | some x =>
        obtain ⟨o, op, k⟩ := x
        rw [hg] at hc; cases hc
        exact .inr ⟨r, b, k, e, rfl, rfl, rfl⟩
  refine ⟨?_, C.wf, ?_, ?_, ?_, ?_, ?_, hle⟩
  · obtain ⟨N, hN⟩ := F.fin
    exact ⟨N, fun t ht => by simp [callsOf, callOf, hN t ht]⟩
  · intro t c hc
    rcases inv t c hc with ⟨-, h, -⟩ | ⟨r, b, k, h1, h2, -⟩
    · exact h
    · exact (F.tgt t r b c.o c.op k h1 h2).1
  · intro t c k hc hk
    rcases inv t c hc with ⟨h1, h2, h3⟩ | ⟨r, b, k', h1, h2, h3, -⟩
    · exact (C.tgt t _ _ _ k h1 h2 (h3 ▸ hk)).1
    · rw [h3] at hk; cases hk
      have := F.tgt t r b c.o c.op k h1 h2
      exact this.2.2.2.1 _ (C.wf _ this.1) (C.sub _ this.1)
  · intro t c k hc hk hb
    rcases inv t c hc with ⟨h1, h2, h3⟩ | ⟨r, b, k', h1, h2, h3, h4⟩
    · rw [hb] at h1; exact hl t _ _ k h1 h2 (h3 ▸ hk)
    · rw [hb] at h4; cases h4
  · intro t c k t' c' k' hc hk hw hc' hk' hw' ho e
    rcases inv t c hc with ⟨h1, h2, h3⟩ | ⟨r, b, x, h1, h2, h3, -⟩ <;>
      rcases inv t' c' hc' with ⟨h1', h2', h3'⟩ | ⟨r', b', x', h1', h2', h3', -⟩
    · exact C.dist t c.o c.op c.b k t' c'.op c'.b k' h1 (h3 ▸ hk) hw (by rw [ho]; exact h1') (h3' ▸ hk') hw' h2 e
    · rw [h3'] at hk'; cases hk'
      obtain ⟨m, m1, m2⟩ := (F.tgt t' r' b' _ _ _ h1' h2').2.2.1
      have := ((C.tgt t _ _ _ k h1 h2 (h3 ▸ hk)).2.2.1 hw).2 m (by rw [ho]; exact m1)
      exact absurd (m2.trans e.symm) this
    · rw [h3] at hk; cases hk
      obtain ⟨m, m1, m2⟩ := (F.tgt t r b _ _ _ h1 h2).2.2.1
      have := ((C.tgt t' _ _ _ k' h1' h2' (h3' ▸ hk')).2.2.1 hw').2 m (by rw [← ho]; exact m1)
      exact absurd (m2.trans e) this
    · rw [h3] at hk; cases hk
      rw [h3'] at hk'; cases hk'
      exact F.dist t r b c.o c.op k t' r' b' c'.op k' h1 h2 hw h1' (by rw [ho]; exact h2') hw' e
  · intro o hP m hm hlt hle'
    rcases hp o hP m hm hle' with h | ⟨t, op, b, k, k1, k2, k3, k4⟩
    · obtain ⟨t, r, b, op, k, k1, k2, k3, k4⟩ := F.author o hP m h hlt
      exact ⟨t, ⟨o, op, true, some k⟩, k, by simp [callsOf, callOf, k1, k2], rfl, rfl, k3, k4⟩
    · exact ⟨t, ⟨o, op, b, fate t⟩, k, by simp [callsOf, callOf, k1, hP], rfl, k2, k3, k4⟩

end Verif.WM.Sc
