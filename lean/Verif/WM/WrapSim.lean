import Verif.WM.WrapMem
import Verif.WM.NativeFacts
/-!
# Code over an atomic in weak memory: the simulation (proof internals)
-/
set_option autoImplicit false
set_option linter.unusedSectionVars false
namespace Verif.WM.Derived
open Verif.WM.Native (Loc AllWf)
open Verif.Lf (Acc Next Code)

section mem
variable {L : Type} [DecidableEq L] {V W : Type} {abs : V → W} {inv : V → Prop} {mi mi' : List (Msg L V)}
  {ms : List (Msg L W)} {vi v' vs : TV L} {l : L} {o o' : MemOrd}

theorem read_sim (M : MRel abs inv mi ms) (hv : TLe vs vi) (hp : ∃ s ∈ ms, s.ts = vs.cur l) {x : V}
    (h : Load mi vi l o x v') (ho : o.AtLeast o') :
    inv x ∧ ∃ vs', Load ms vs l o' (abs x) vs' ∧ TLe vs' v' ∧ TLe vs v' := by
  cases h with
  | mk m hm hr =>
    obtain ⟨s, r⟩ := M.rep m hm
    refine ⟨M.inv m hm, _, ?_, hv.read l ho r.le r.view, hv.trans (tle_read _ _ _ _)⟩
    rw [← r.val]
    exact .mk s r.mem (r.readable (hv.cur l) hr hp)

theorem rmw_sim (M : MRel abs inv mi ms) (hv : TLe vs vi) (w : vi.Wf) (hp : ∃ s ∈ ms, s.ts = vs.cur l) {g : V → V}
    {g' : W → W} {x : V} (h : Rmw mi vi l o g x mi' v') (ho : o.AtLeast o') (hi : inv (g x))
    (hg : g' (abs x) = abs (g x)) :
    inv x ∧ ∃ ms' vs', Rmw ms vs l o' g' (abs x) ms' vs' ∧ MRel abs inv mi' ms' ∧ TLe vs' v' := by
  cases h with
  | mk m t hm hr hf =>
    obtain ⟨s, r⟩ := M.rep m hm
    have h1 : TLe (vs.read l o' s) (vi.read l o m) := hv.read l ho r.le r.view
    have hR : Rmw ms vs l o' g' s.val _ _ := .mk s t r.mem (r.readable (hv.cur l) hr hp) (M.fresh_rmw r hf)
    rw [r.val] at hR
    refine ⟨M.inv m hm, _, _, hR, ?_, h1.write l t⟩
    rw [hg]
    refine M.push hf (M.fresh_rmw r hf) r.blk hi (sup_le_sup (h1.msgView ?_ l t ho) r.view)
    exact h1.rel.trans (Native.read_wf w l o m).1.rel

theorem store_sim (M : MRel abs inv mi ms) (hv : TLe vs vi) (w : vi.Wf) {y : V}
    (h : Store mi vi l o y mi' v') (ho : o.AtLeast o') (hi : inv y) :
    ∃ ms' vs', Store ms vs l o' (abs y) ms' vs' ∧ MRel abs inv mi' ms' ∧ TLe vs' v' := by
  cases h with
  | mk f t hr hf =>
    refine ⟨_, _, .mk f t ((hv.cur l).trans_lt hr) (M.fresh hf), ?_, hv.write l t⟩
    exact M.push hf (M.fresh hf) (.inl rfl) hi (hv.msgView (hv.rel.trans w.rel) l t ho)

/-- A store made as a read-modify-write. -/
theorem store_rmw_sim (M : MRel abs inv mi ms) (hv : TLe vs vi) (w : vi.Wf) {g : V → V} {x : V}
    (h : Rmw mi vi l o g x mi' v') (ho : o.AtLeast o') (hi : inv (g x)) :
    ∃ ms' vs', Store ms vs l o' (abs (g x)) ms' vs' ∧ MRel abs inv mi' ms' ∧ TLe vs' v' := by
  cases h with
  | mk m t hm hr hf =>
    have h1 : TLe vs (vi.read l o m) := hv.trans (tle_read _ _ _ _)
    refine ⟨_, _, .mk m.ts t (((hv.cur l).trans hr).trans_lt hf.1) (M.fresh hf), ?_, h1.write l t⟩
    refine M.push hf (M.fresh hf) (.inl rfl) hi (le_sup_of_le_left (h1.msgView ?_ l t ho))
    exact h1.rel.trans (Native.read_wf w l o m).1.rel

/-- A read made as a read-modify-write that puts back what was there. -/
theorem dup_sim (M : MRel abs inv mi ms) (hv : TLe vs vi) (hp : ∃ s ∈ ms, s.ts = vs.cur l) {g : V → V} {x : V}
    (h : Rmw mi vi l o g x mi' v') (ho : o.AtLeast o') (hi : inv (g x)) (hg : abs (g x) = abs x) :
    ∃ vs', Load ms vs l o' (abs x) vs' ∧ MRel abs inv mi' ms ∧ TLe vs' v' ∧ TLe vs v' := by
  cases h with
  | mk m t hm hr hf =>
    obtain ⟨s, r⟩ := M.rep m hm
    refine ⟨_, ?_, M.dup hm hf hg hi le_sup_right, (hv.read l ho r.le r.view).trans (tle_write _ _ _),
      (hv.trans (tle_read _ _ _ _)).trans (tle_write _ _ _)⟩
    rw [← r.val]
    exact .mk s r.mem (r.readable (hv.cur l) hr hp)

end mem

/-! ## The views of the specification point at writes -/

section pts
variable {L : Type} [DecidableEq L] {W : Type} {T T' : L → Ts → Prop} {ms ms' : List (Msg L W)} {v v' : TV L} {l : L}
  {o : MemOrd}

theorem load_pts (h0 : ∀ l, T l 0) (hms : ∀ m ∈ ms, T l m.ts ∧ Pts T m.view) (hv : TPts T v) {x : W}
    (h : Load ms v l o x v') : TPts T v' := by
  cases h with
  | mk m hm hr => exact hv.read h0 o (hms m hm).1 (hms m hm).2

theorem store_pts (h0 : ∀ l, T' l 0) (hT : ∀ l t, T l t → T' l t) (hms : ∀ m ∈ ms, Pts T m.view) (hv : TPts T v) {x : W}
    (h : Store ms v l o x ms' v') (hn : ∀ m ∈ ms', T' l m.ts) : TPts T' v' ∧ ∀ m ∈ ms', Pts T' m.view := by
  cases h with
  | mk f t hr hf =>
    have ht := hn _ List.mem_cons_self
    have hv := hv.mono hT
    refine ⟨hv.write h0 ht, fun m hm => ?_⟩
    rcases List.mem_cons.1 hm with rfl | hm
    · exact hv.msgView h0 o ht
    · exact (hms m hm).mono hT

theorem rmw_pts (h0 : ∀ l, T' l 0) (hT : ∀ l t, T l t → T' l t) (hms : ∀ m ∈ ms, Pts T m.view) (hv : TPts T v)
    {g : W → W} {x : W} (h : Rmw ms v l o g x ms' v') (hn : ∀ m ∈ ms', T' l m.ts) :
    TPts T' v' ∧ ∀ m ∈ ms', Pts T' m.view := by
  cases h with
  | mk m t hm hr hf =>
    have ht := hn _ List.mem_cons_self
    have hv := hv.mono hT
    have hv' := hv.read h0 o (hn m (List.mem_cons_of_mem _ hm)) ((hms m hm).mono hT)
    refine ⟨hv'.write h0 ht, fun m' hm' => ?_⟩
    rcases List.mem_cons.1 hm' with rfl | hm'
    · exact (hv'.msgView h0 o ht).sup ((hms m hm).mono hT)
    · exact (hms m' hm').mono hT

theorem store_sub {x : W} (h : Store ms v l o x ms' v') : ms ⊆ ms' := by
  cases h; exact List.subset_cons_self _ _

theorem rmw_sub {g : W → W} {x : W} (h : Rmw ms v l o g x ms' v') : ms ⊆ ms' := by
  cases h; exact List.subset_cons_self _ _

end pts

variable {V W O R L X : Type} [DecidableEq V]

/-- There is a write at `t`. -/
def Tgt (b : State W X O R) : Loc → Ts → Prop
  | .obj o, t => ∃ s ∈ b.mo o, s.ts = t
  | .ext a, t => ∃ s ∈ b.mx a, s.ts = t

structure SInv (b : State W X O R) : Prop where
  z : ∀ l, Tgt b l 0
  tv : ∀ t, TPts (Tgt b) (b.tv t)
  sc : Pts (Tgt b) b.sc
  mo : ∀ o, ∀ s ∈ b.mo o, Pts (Tgt b) s.view
  mx : ∀ a, ∀ s ∈ b.mx a, Pts (Tgt b) s.view

theorem sinv_init (w0 : Obj → W) (x0 : Nat → X) : SInv (init w0 x0 : State W X O R) := by
  have z : ∀ l, Tgt (init w0 x0 : State W X O R) l 0 := by
    intro l; cases l <;> exact ⟨_, List.mem_singleton.2 rfl, rfl⟩
  refine ⟨z, fun _ => ⟨.bot z, .bot z, .bot z⟩, .bot z, ?_, ?_⟩
  · intro o s hs; rw [List.mem_singleton.1 hs]; exact .bot z
  · intro o s hs; rw [List.mem_singleton.1 hs]; exact .bot z

/-- More writes, other views. -/
theorem SInv.grow {b b' : State W X O R} (I : SInv b) (hmo : ∀ o, b.mo o ⊆ b'.mo o) (hmx : ∀ a, b.mx a ⊆ b'.mx a)
    (htv : ∀ t, TPts (Tgt b) (b'.tv t) ∨ TPts (Tgt b') (b'.tv t)) (hsc : Pts (Tgt b) b'.sc ∨ Pts (Tgt b') b'.sc)
    (ho : ∀ o, ∀ s ∈ b'.mo o, Pts (Tgt b) s.view ∨ Pts (Tgt b') s.view)
    (hx : ∀ a, ∀ s ∈ b'.mx a, Pts (Tgt b) s.view ∨ Pts (Tgt b') s.view) : SInv b' := by
  have hT : ∀ l t, Tgt b l t → Tgt b' l t := by
    intro l t h
    cases l with
    | obj o => obtain ⟨s, h1, h2⟩ := h; exact ⟨s, hmo o h1, h2⟩
    | ext a => obtain ⟨s, h1, h2⟩ := h; exact ⟨s, hmx a h1, h2⟩
  exact ⟨fun l => hT _ _ (I.z l), fun t => (htv t).elim (TPts.mono hT) id, hsc.elim (Pts.mono hT) id,
    fun o s hs => (ho o s hs).elim (Pts.mono hT) id, fun a s hs => (hx a s hs).elim (Pts.mono hT) id⟩

theorem update_cases {A B : Type} [DecidableEq A] {P : A → B → Prop} {f : A → B} {a : A} {y : B} (h1 : P a y)
    (h2 : ∀ x, P x (f x)) (x : A) : P x (Function.update f a y x) := by
  by_cases e : x = a
  · subst e; rw [Function.update_self]; exact h1
  · rw [Function.update_of_ne e]; exact h2 x

theorem SInv.step {S : Spec W O R} {b b' : State W X O R} {e : Option (Ev O R X)} (I : SInv b) (st : Step S b e b') :
    SInv b' := by
  have same : ∀ t p, SInv (b.goto t p) := fun t p =>
    I.grow (fun _ => List.Subset.refl _) (fun _ => List.Subset.refl _) (fun t => .inl (I.tv t)) (.inl I.sc)
      (fun o s hs => .inl (I.mo o s hs)) (fun a s hs => .inl (I.mx a s hs))
  have fen : ∀ t p, SInv ((b.scFence t).goto t p) := fun t p =>
    I.grow (fun _ => List.Subset.refl _) (fun _ => List.Subset.refl _)
      (fun u => .inl (update_cases (P := fun _ v => TPts (Tgt b) v) ((I.tv t).scFence I.sc) I.tv u))
      (.inl ((I.tv t).acq.sup I.sc)) (fun o s hs => .inl (I.mo o s hs)) (fun a s hs => .inl (I.mx a s hs))
  cases st with
  | inv t o op h => exact same _ _
  | pre t o op bb h => exact fen _ _
  | post t r bb h => exact fen _ _
  | ret t r h => exact same _ _
  | access t o op bb ord ms v r h ha hs =>
    set b1 := ({ b with mo := Function.update b.mo o ms, tv := Function.update b.tv t v } : State W X O R).goto t
        (.fin r (decide (ord = MemOrd.seqCst))) with hb1
    have hmo : b1.mo = Function.update b.mo o ms := rfl
    have key : b.mo o ⊆ ms → (TPts (Tgt b) v ∨ TPts (Tgt b1) v) → (∀ m ∈ ms, Pts (Tgt b) m.view ∨ Pts (Tgt b1) m.view) →
        SInv b1 := by
      intro k1 k2 k3
      refine I.grow ?_ (fun _ => List.Subset.refl _) ?_ (.inl I.sc) ?_ (fun a s hs => .inl (I.mx a s hs))
      · exact update_cases (P := fun o' ms' => b.mo o' ⊆ ms') k1 fun _ => List.Subset.refl _
      · exact update_cases (P := fun _ v => TPts (Tgt b) v ∨ TPts (Tgt b1) v) k2 fun u => .inl (I.tv u)
      · exact update_cases (P := fun _ ms' => ∀ m ∈ ms', Pts (Tgt b) m.view ∨ Pts (Tgt b1) m.view) k3
          fun o' s hs => .inl (I.mo o' s hs)
    have hn : ∀ m ∈ ms, Tgt b1 (.obj o) m.ts := fun m hm => ⟨m, by rw [hmo, Function.update_self]; exact hm, rfl⟩
    have hT : b.mo o ⊆ ms → ∀ l t, Tgt b l t → Tgt b1 l t := by
      intro hsub l t h
      cases l with
      | obj o' =>
        obtain ⟨s, h1, h2⟩ := h
        exact ⟨s, update_cases (P := fun o' ms' => b.mo o' ⊆ ms') hsub (fun _ => List.Subset.refl _) o' h1, h2⟩
      | ext a => exact h
    cases ha with
    | nothing _ hk hs' => exact key (List.Subset.refl _) (.inl (I.tv t)) fun m hm => .inl (I.mo o m hm)
    | read x _ _ hk hl hs' =>
      exact key (List.Subset.refl _)
        (.inl (load_pts (l := .obj o) I.z (fun m hm => ⟨⟨m, hm, rfl⟩, I.mo o m hm⟩) (I.tv t) hl)) fun m hm => .inl (I.mo o m hm)
    | write x y _ _ _ hk hl hs' =>
      have hsub := rmw_sub hl
      obtain ⟨h1, h2⟩ := rmw_pts (fun l => hT hsub _ _ (I.z l)) (hT hsub) (I.mo o) (I.tv t) hl hn
      exact key hsub (.inr h1) fun m hm => .inr (h2 m hm)
    | store y _ _ _ hk hl hs' =>
      have hsub := store_sub hl
      obtain ⟨h1, h2⟩ := store_pts (fun l => hT hsub _ _ (I.z l)) (hT hsub) (I.mo o) (I.tv t) hl hn
      exact key hsub (.inr h1) fun m hm => .inr (h2 m hm)
  | client t a r mx v sc h hc =>
    set b1 := ({ b with mx := mx, tv := Function.update b.tv t v, sc := sc } : State W X O R) with hb1
    have key : (∀ a, b.mx a ⊆ mx a) → (TPts (Tgt b) v ∨ TPts (Tgt b1) v) → Pts (Tgt b) sc →
        (∀ a, ∀ m ∈ mx a, Pts (Tgt b) m.view ∨ Pts (Tgt b1) m.view) → SInv b1 := by
      intro k1 k2 k3 k4
      exact I.grow (fun _ => List.Subset.refl _) k1
        (update_cases (P := fun _ v => TPts (Tgt b) v ∨ TPts (Tgt b1) v) k2 fun u => .inl (I.tv u)) (.inl k3)
        (fun o s hs => .inl (I.mo o s hs)) k4
    have hT : (∀ a, b.mx a ⊆ mx a) → ∀ l t, Tgt b l t → Tgt b1 l t := by
      intro hsub l t h
      cases l with
      | obj o' => exact h
      | ext a => obtain ⟨s, h1, h2⟩ := h; exact ⟨s, hsub a h1, h2⟩
    cases hc with
    | load a o x _ hl =>
      exact key (fun _ => List.Subset.refl _)
        (.inl (load_pts (l := .ext a) I.z (fun m hm => ⟨⟨m, hm, rfl⟩, I.mx a m hm⟩) (I.tv t) hl)) I.sc fun a m hm => .inl (I.mx a m hm)
    | store a o x ms _ hl =>
      have hsub : ∀ a', b.mx a' ⊆ Function.update b.mx a ms a' :=
        update_cases (P := fun a' ms' => b.mx a' ⊆ ms') (store_sub hl) fun _ => List.Subset.refl _
      obtain ⟨h1, h2⟩ := store_pts (fun l => hT hsub _ _ (I.z l)) (hT hsub) (I.mx a) (I.tv t) hl
        (fun m hm => ⟨m, by simp only [hb1, Function.update_self]; exact hm, rfl⟩)
      exact key hsub (.inr h1) I.sc
        (update_cases (P := fun _ ms' => ∀ m ∈ ms', Pts (Tgt b) m.view ∨ Pts (Tgt b1) m.view)
          (fun m hm => .inr (h2 m hm)) fun a m hm => .inl (I.mx a m hm))
    | rmw a g o x ms _ hl =>
      have hsub : ∀ a', b.mx a' ⊆ Function.update b.mx a ms a' :=
        update_cases (P := fun a' ms' => b.mx a' ⊆ ms') (rmw_sub hl) fun _ => List.Subset.refl _
      obtain ⟨h1, h2⟩ := rmw_pts (fun l => hT hsub _ _ (I.z l)) (hT hsub) (I.mx a) (I.tv t) hl
        (fun m hm => ⟨m, by simp only [hb1, Function.update_self]; exact hm, rfl⟩)
      exact key hsub (.inr h1) I.sc
        (update_cases (P := fun _ ms' => ∀ m ∈ ms', Pts (Tgt b) m.view ∨ Pts (Tgt b1) m.view)
          (fun m hm => .inr (h2 m hm)) fun a m hm => .inl (I.mx a m hm))
    | fence o =>
      obtain ⟨h1, h2⟩ := (I.tv t).fence I.sc o
      exact key (fun _ => List.Subset.refl _) (.inl h1) h2 fun a m hm => .inl (I.mx a m hm)

end Verif.WM.Derived
