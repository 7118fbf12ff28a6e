import Verif.WM.NativeFacts
/-!
# What the orderings promise, for native atomics (proof internals of `Props/WeakMemory.lean`)
-/
set_option autoImplicit false
set_option linter.unusedSectionVars false
namespace Verif.WM.Native
variable {V X : Type} [DecidableEq V] {v0 : Obj → V} {x0 : Nat → X} {h : List (Ev V X)}

theorem untorn (hx : Behaviour v0 x0 h) {i k : Nat} {t : Tid} {o : Obj} {op : Op V} {r : Res V}
    (C : Called h i k t o op r) {y : V} (hy : Reads r y) : Written v0 (h.take k) o y := by
  obtain ⟨s, x⟩ := hx
  obtain ⟨p, q, w, e, -, -, hk, hr⟩ := C.split
  rw [e] at x
  rcases call (init_wf v0 x0) x hr with ⟨-, rfl⟩ | ⟨sp, sa, sz, q1, q2, ord, ms, v, hq, -, xa, -, -, ha, -⟩
  · cases hy
  · obtain ⟨m, hm, -, rfl, -⟩ := access_reads ha hy
    have := (val_inv xa).msgs o m hm
    rw [hk, hq, ← List.cons_append, ← List.append_assoc]
    exact this.append q2

/-- Who may see what after a call that leaves a value with `Q`. -/
theorem after_call {s0 s : State V X} (w0 : AllWf s0) {p q w : List (Ev V X)} {t : Tid} {o : Obj} {op : Op V}
    {r : Res V} {Q : V → Prop} (x : Exec Step s0 (p ++ .inv t o op :: (q ++ .ret t r :: w)) s)
    (hr : ∀ r, Ev.ret t r ∉ q) {y : V} (hl : Leaves op r y) (hq : Q y) (hn : r ≠ .panic) :
    ∃ sz, Exec Step s0 (p ++ .inv t o op :: (q ++ [.ret t r])) sz ∧ Exec Step sz w s ∧ AllWf sz ∧
      Sees Q (sz.mo o) ((sz.tv t).cur (.obj o)) ∧
      (effOrd op r = .seqCst → Sees Q (sz.mo o) (sz.sc (.obj o))) := by
  rcases call w0 x hr with ⟨-, rfl⟩ | ⟨sp, sa, sz, q1, q2, ord, ms, v, -, -, xa, -, -, ha, -, -, h1, h2, -, h3, xz, xw⟩
  · exact absurd rfl hn
  · have hs := sees_access ha hl hq
    refine ⟨sz, xz, xw, (exec_le w0 xz).1, hs.mono h2 (h1 _), fun e => hs.mono h2 (h3 ?_ _)⟩
    rw [access_ord ha]; exact e

theorem mem_of_take {h : List (Ev V X)} {o : Obj} {Q : V → Prop} (hk : AllKeep h o Q) {p q : List (Ev V X)}
    (e : h = p ++ q) : ∀ t op, Ev.inv t o op ∈ p → Keeps Q op := by
  intro t op hm
  obtain ⟨n, hn⟩ := List.mem_iff_getElem?.1 hm
  refine hk n t op ?_
  rw [e, List.getElem?_append_left (List.getElem?_eq_some_iff.1 hn).1, hn]

/-- Two calls, the second after the first. -/
theorem two_calls {i k i' k' : Nat} {t t' : Tid} {o o' : Obj} {op op' : Op V} {r r' : Res V}
    (C : Called h i k t o op r) (C' : Called h i' k' t' o' op' r') (hlt : k < i') :
    ∃ p q p' q' w', h = p ++ .inv t o op :: (q ++ .ret t r :: (p' ++ .inv t' o' op' :: (q' ++ .ret t' r' :: w'))) ∧
      (∀ r, Ev.ret t r ∉ q) ∧ (∀ r, Ev.ret t' r ∉ q') ∧ w' = h.drop (k' + 1) := by
  obtain ⟨p, q, w, e, -, hw, -, hr⟩ := C.split
  obtain ⟨p', q', w', e', -, hw', -, hr'⟩ := (C'.drop (n := k + 1) hlt).split
  refine ⟨p, q, p', q', w', ?_, hr, hr', ?_⟩
  · rw [← e', ← hw]; exact e
  · have := C'.1
    rw [hw', List.drop_drop]
    congr 1; omega

/-- What `Q`-recency gives to a later reader. -/
theorem later_call {sz s : State V X} {p0 p' q' w' : List (Ev V X)} {t' : Tid} {o : Obj} {op' : Op V}
    {r' : Res V} {Q : V → Prop} (xz0 : Exec Step (init v0 x0) p0 sz) (wz : AllWf sz)
    (xw : Exec Step sz (p' ++ .inv t' o op' :: (q' ++ .ret t' r' :: w')) s) (hr' : ∀ r, Ev.ret t' r ∉ q')
    (hk : ∀ t op, Ev.inv t o op ∈ p0 ++ (p' ++ .inv t' o op' :: q') → Keeps Q op)
    (hs : Sees Q (sz.mo o) ((sz.tv t').cur (.obj o)) ∨
      effOrd op' r' = .seqCst ∧ Sees Q (sz.mo o) (sz.sc (.obj o)))
    {y : V} (hy : Reads r' y) : Q y := by
  rcases call wz xw hr' with ⟨-, rfl⟩ | ⟨sp, sa, sy, q1, q2, ord, ms, v, hq, xp, xa, -, -, ha, hl, -, -, -, h3, -, -, -⟩
  · cases hy
  · have F := flag_inv (o := o) (Q := Q) (xz0.trans xa) (fun t op hm => hk t op (by
      simp only [List.mem_append, List.mem_cons, hq] at hm ⊢; tauto))
    refine F.reads ha ?_ hy
    have l1 := (exec_le wz xp).2
    rcases hs with hs | ⟨ho, hs⟩
    · exact hs.mono (List.Subset.trans (l1.mo o) (hl.mo o)) (((l1.cur t').trans (hl.cur t')) _)
    · exact hs.mono (List.Subset.trans (l1.mo o) (hl.mo o))
        ((l1.sc.trans (h3 (by rw [access_ord ha]; exact ho))) _)

theorem recency (hx : Behaviour v0 x0 h) {o : Obj} {Q : V → Prop} (hk : AllKeep h o Q)
    {i k i' k' : Nat} {t t' : Tid} {op op' : Op V} {r r' : Res V}
    (C : Called h i k t o op r) (C' : Called h i' k' t' o op' r') (hlt : k < i')
    (hs : t = t' ∨ effOrd op r = .seqCst ∧ effOrd op' r' = .seqCst)
    {x y : V} (hl : Leaves op r x) (hn : r ≠ .panic) (hq : Q x) (hy : Reads r' y) : Q y := by
  obtain ⟨s, xx⟩ := hx
  obtain ⟨p, q, p', q', w', e, hr, hr', -⟩ := two_calls C C' hlt
  rw [e] at xx
  obtain ⟨sz, xz, xw, wz, s1, s2⟩ := after_call (init_wf v0 x0) xx hr hl hq hn
  refine later_call xz wz xw hr' (mem_of_take (q := Ev.ret t' r' :: w') hk (e.trans (by simp))) ?_ hy
  rcases hs with rfl | ⟨h1, h2⟩
  · exact .inl s1
  · exact .inr ⟨h2, s2 h1⟩

/-- A client load by a thread that knows of a write to `a`. -/
theorem load_knows {s s' : State V X} {a : Nat} {x1 : X} {t : Tid} {ol : MemOrd} {y : Option X}
    (hv : ∀ m ∈ s.mx a, m.ts ≠ 0 → m.val = x1) (hk : Knows a s (s.tv t).cur)
    (st : Step s (some (.client t (.load a ol) y)) s') : y = some x1 := by
  cases st with
  | client _ _ _ mx v sc hp hcl =>
    cases hcl with
    | load _ _ z v' hld =>
      cases hld with
      | mk m hm hv' =>
        obtain ⟨m1, -, h4, h5⟩ := hk
        refine congrArg some (hv m hm fun h6 => h4 ?_)
        have := h5.trans hv'
        rw [h6] at this
        exact le_antisymm this zero_le

theorem message_passing (hx : Behaviour v0 x0 h) {a : Nat} {x1 : X} {o : Obj} {Q : V → Prop} (h0 : ¬ Q (v0 o))
    (hw : OnlyStores h a x1)
    (hc : ∀ (n : Nat) (t : Tid) (op : Op V), h[n]? = some (.inv t o op) → Keeps (fun y => ¬ Q y) op ∨
      (∃ w, wrOrd op = some w ∧ rels w = true) ∧ ∃ m < n, ∃ ow r, h[m]? = some (.client t (.store a x1 ow) r))
    {i k j : Nat} {t : Tid} {op : Op V} {r : Res V} (C : Called h i k t o op r)
    (ha : acqs (effOrd op r) = true) {y : V} (hy : Reads r y) (hq : Q y) (hj : k < j) {ol : MemOrd}
    {z : Option X} (hz : h[j]? = some (.client t (.load a ol) z)) : z = some x1 := by
  obtain ⟨s, xx⟩ := hx
  obtain ⟨p, q, w, e, -, hw', -, hr⟩ := C.split
  have hjl : w[j - (k + 1)]? = some (.client t (.load a ol) z) := by
    rw [hw', List.getElem?_drop, ← hz]; congr 1; omega
  have ew := split_at hjl
  generalize w.take (j - (k + 1)) = w1 at ew
  generalize w.drop (j - (k + 1) + 1) = w2 at ew
  have lhw : ∀ (p' q' : List (Ev V X)), h = p' ++ q' →
      ∀ t act r, Ev.client t act r ∈ p' → WritesVar a act → ∃ ow, act = .store a x1 ow := by
    intro p' q' e' t act r hm
    obtain ⟨n, hn⟩ := List.mem_iff_getElem?.1 hm
    refine hw n t act r ?_
    rw [e', List.getElem?_append_left (List.getElem?_eq_some_iff.1 hn).1, hn]
  have lhc : ∀ (p' q' : List (Ev V X)), h = p' ++ q' → ∀ p t op q, p' = p ++ Ev.inv t o op :: q →
      Keeps (fun y => ¬ Q y) op ∨
      (∃ w, wrOrd op = some w ∧ rels w = true) ∧ ∃ ow r, Ev.client t (.store a x1 ow) r ∈ p := by
    intro p' q' e' p t op q e2
    have hn : h[p.length]? = some (.inv t o op) := by
      rw [e', e2, List.append_assoc]; simp
    rcases hc _ t op hn with h1 | ⟨h1, m, hm, ow, r, h2⟩
    · exact .inl h1
    · refine .inr ⟨h1, ow, r, ?_⟩
      rw [e', e2, List.append_assoc, List.getElem?_append_left hm] at h2
      exact List.mem_of_getElem? h2
  rw [e] at xx
  rcases call (init_wf v0 x0) xx hr with ⟨-, rfl⟩ | ⟨sp, sa, sz, q1, q2, ord, ms, v, hqq, xp, xa, -, -, hac, hl, hl', h1, h2, -, -, xz, xw⟩
  · cases hy
  rw [ew] at xw
  obtain ⟨s3, x3, x4⟩ := xw.split rfl
  obtain ⟨s5, s6, x5, st, -⟩ := x4.cons_inv
  have I := mp_inv (a := a) (x1 := x1) (o := o) (Q := Q) xa h0
    (lhw _ (q2 ++ .ret t r :: w) (by rw [e, hqq]; simp)) (lhc _ (q2 ++ .ret t r :: w) (by rw [e, hqq]; simp))
  have xz5 : Exec Step (init v0 x0) ((p ++ .inv t o op :: (q ++ [.ret t r])) ++ w1) s5 := by
    simpa using (xz.trans x3).trans x5
  have e5 : h = ((p ++ .inv t o op :: (q ++ [.ret t r])) ++ w1) ++ .client t (.load a ol) z :: w2 := by
    rw [e, ew]; simp
  have I5 := mp_inv (a := a) (x1 := x1) (o := o) (Q := Q) xz5 h0 (lhw _ _ e5) (lhc _ _ e5)
  refine load_knows I5.vals ?_ st
  obtain ⟨m, hm, -, hmy, -, hmv⟩ := access_reads hac hy
  have hkn := I.msgs m hm (hmy ▸ hq)
  have lz5 : Le sz s5 := by
    have := exec_le (exec_le (init_wf v0 x0) xz).1 (x3.trans x5)
    exact this.2
  exact hkn.mono (hl'.trans lz5) (((hmv (by rw [access_ord hac]; exact ha)).trans h1).trans (lz5.cur t))

theorem OnlyStores.mem {a : Nat} {x1 : X} (hw : OnlyStores h a x1) {p' q' : List (Ev V X)} (e' : h = p' ++ q') :
    ∀ t act r, Ev.client t act r ∈ p' → WritesVar a act → ∃ ow, act = .store a x1 ow := by
  intro t act r hm
  obtain ⟨n, hn⟩ := List.mem_iff_getElem?.1 hm
  refine hw n t act r ?_
  rw [e', List.getElem?_append_left (List.getElem?_eq_some_iff.1 hn).1, hn]

theorem FullFence.drop {f g n : Nat} {t : Tid} (F : FullFence h f g t) (hn : n ≤ f) :
    FullFence (h.drop n) (f - n) (g - n) t := by
  rcases F with ⟨rfl, h1⟩ | ⟨o, op, r, C, h1⟩
  · refine .inl ⟨rfl, ?_⟩
    rw [List.getElem?_drop, ← h1]; congr 1; omega
  · exact .inr ⟨o, op, r, C.drop hn, h1⟩

theorem FullFence.le {f g : Nat} {t : Tid} (F : FullFence h f g t) : f ≤ g := by
  rcases F with ⟨rfl, -⟩ | ⟨o, op, r, C, -⟩
  · exact le_rfl
  · exact C.1.le

/-- A full fence publishes what its thread knew and learns what was published. -/
theorem fence_step {f g : Nat} {t : Tid} (F : FullFence h f g t) {s0 s : State V X} (w0 : AllWf s0)
    (x : Exec Step s0 h s) : ∃ s1 s2, Exec Step s0 (h.take f) s1 ∧ Exec Step s0 (h.take (g + 1)) s2 ∧
      Exec Step s2 (h.drop (g + 1)) s ∧ (s1.tv t).cur ≤ s2.sc ∧ s1.sc ≤ (s2.tv t).cur ∧ Le s1 s2 ∧ AllWf s2 := by
  have hgl : g < h.length := by
    rcases F with ⟨rfl, hf⟩ | ⟨o, op, r, C, -⟩
    · exact (List.getElem?_eq_some_iff.1 hf).1
    · exact (List.getElem?_eq_some_iff.1 C.2.2.1).1
  rcases F with ⟨rfl, hf⟩ | ⟨o, op, r, C, hsc, hn⟩
  · have e := split_at hf
    have x' := x
    rw [e] at x'
    obtain ⟨s3, x3, x4⟩ := x'.split rfl
    obtain ⟨s1, s2, x5, st, x6⟩ := x4.cons_inv
    have x1 : Exec Step s0 (h.take f) s1 := by simpa using x3.trans x5
    have w1 := (exec_le w0 x1).1
    have l := step_le w1 st
    have e2 : h.take (f + 1) = h.take f ++ [.client t (.fence .seqCst) none] := by
      rw [List.take_add_one, hf]; rfl
    refine ⟨s1, s2, x1, e2 ▸ x1.ev st, x6, ?_, ?_, l.2, l.1⟩
    · cases st with
      | client _ _ _ mx v sc hp hcl =>
        cases hcl with
        | fence o => exact (w1 t).cur.trans le_sup_left
    · cases st with
      | client _ _ _ mx v sc hp hcl =>
        cases hcl with
        | fence o =>
          simp only [Function.update_self]
          exact le_sup_right
  · obtain ⟨p, q, w, e, hp, hw, hk, hr⟩ := C.split
    have x' := x
    rw [e] at x'
    have e2 : h.take (g + 1) = p ++ .inv t o op :: (q ++ [.ret t r]) := by
      rw [List.take_add_one, hk, C.2.2.1]; simp
    rcases call w0 x' hr with ⟨-, rfl⟩ | ⟨sp, sa, sz, q1, q2, ord, ms, v, -, xp, xa, -, -, ha, l1, l2, h1, h2, h3, h4, xz, xw⟩
    · exact absurd rfl hn
    · have ho : ord = .seqCst := by rw [access_ord ha]; exact hsc
      have wa := (exec_le w0 xa).1
      have hv := (access_wf (wa t) ha).2.1
      refine ⟨sp, sz, hp ▸ xp, e2 ▸ xz, hw ▸ xw, ?_, ?_, l1.trans l2, (exec_le w0 xz).1⟩
      · exact ((l1.cur t).trans hv).trans (h4 ho)
      · exact ((h3 ho).trans hv).trans h1

theorem sc_fences (hx : Behaviour v0 x0 h) {a : Nat} {x1 : X} (hw : OnlyStores h a x1)
    {m f g f' g' j : Nat} {A B : Tid} {ow ol : MemOrd} {r : Option X} {z : Option X}
    (hm : h[m]? = some (.client A (.store a x1 ow) r)) (hmf : m < f) (F : FullFence h f g A) (hg : g < f')
    (F' : FullFence h f' g' B) (hj : g' < j) (hz : h[j]? = some (.client B (.load a ol) z)) : z = some x1 := by
  obtain ⟨s, xx⟩ := hx
  obtain ⟨s1, s2, x1', x2, x3, h1, -, l12, w2⟩ := fence_step F (init_wf v0 x0) xx
  have F2 := FullFence.drop (n := g + 1) F' hg
  obtain ⟨s3, s4, x4, x5, x6, -, h2, l34, w4⟩ := fence_step F2 w2 x3
  have le' := FullFence.le F'
  rw [List.drop_drop] at x6
  have hz' : (h.drop (g + 1 + (g' - (g + 1) + 1)))[j - (g' + 1)]? = some (.client B (.load a ol) z) := by
    rw [List.getElem?_drop, ← hz]; congr 1; omega
  have e6 := split_at hz'
  generalize List.take (j - (g' + 1)) _ = u1 at e6
  generalize List.drop (j - (g' + 1) + 1) _ = u2 at e6
  rw [e6] at x6
  obtain ⟨s5, x7, x8⟩ := x6.split rfl
  obtain ⟨s7, s8, x9, st, -⟩ := x8.cons_inv
  have nq : ∀ (p : List (Ev V X)), ∀ p1 t op q, p = p1 ++ Ev.inv t 0 op :: q →
      Keeps (fun _ : V => ¬ False) op ∨ (∃ w, wrOrd op = some w ∧ rels w = true) ∧
        ∃ ow r, Ev.client t (.store a x1 ow) r ∈ p1 := by
    intro p p1 t op q _
    refine .inl ?_
    cases op <;> simp [Keeps]
  have I1 := mp_inv (a := a) (x1 := x1) (o := 0) (Q := fun _ => False) x1' (fun h => h)
    (OnlyStores.mem hw (List.take_append_drop f h).symm) (nq _)
  have hk1 : Knows a s1 (s1.tv A).cur := by
    refine I1.did A ow r ?_
    refine List.mem_of_getElem? (i := m) ?_
    rw [List.getElem?_take, if_pos hmf, hm]
  have xs7 : Exec Step (init v0 x0) (h.take (g + 1) ++ (h.drop (g + 1)).take (g' - (g + 1) + 1) ++ u1) s7 := by
    simpa using ((x2.trans x5).trans x7).trans x9
  have e7 : h = (h.take (g + 1) ++ (h.drop (g + 1)).take (g' - (g + 1) + 1) ++ u1) ++
      .client B (.load a ol) z :: u2 := by
    have e8 : (h.drop (g + 1)).drop (g' - (g + 1) + 1) = h.drop (g + 1 + (g' - (g + 1) + 1)) := List.drop_drop ..
    rw [List.append_assoc, ← e6, List.append_assoc, ← e8, List.take_append_drop, List.take_append_drop]
  have I7 := mp_inv (a := a) (x1 := x1) (o := 0) (Q := fun _ => False) xs7 (fun h => h)
    (OnlyStores.mem hw e7) (nq _)
  refine load_knows I7.vals ?_ st
  have l23 := (exec_le w2 x4).2
  have l47 := (exec_le w4 (x7.trans x9)).2
  exact hk1.mono (((l12.trans l23).trans l34).trans l47)
    ((((h1.trans l23.sc).trans h2)).trans (l47.cur B))

end Verif.WM.Native
