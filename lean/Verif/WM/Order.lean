import Verif.WM.Lemmas
/-!
# Order facts and steps that touch only the acting thread (proof internals)
-/
set_option autoImplicit false
set_option linter.unusedSectionVars false
namespace Verif.WM.Lock
open Verif.Fallback
variable {V X : Type} [DecidableEq V] {c : Cfg V}

namespace LockInv
variable {L : LG} {l : Nat} {ml mh : List (Msg CL (BitVec c.W))} (I : LockInv c L l ml mh)
include I

theorem tau_succ {e : Nat} (h : e < L.E) : L.tau e < L.tau (e + 1) :=
  (I.tausig e (.inl h)).trans (I.sigtau e h)

theorem tau_mono {e e' : Nat} (h : e ≤ e') (h' : e' ≤ L.E) : L.tau e ≤ L.tau e' := by
  induction e' with
  | zero => rw [Nat.le_zero.1 h]
  | succ n ih =>
    rcases Nat.lt_or_ge n e with h1 | h1
    · rw [show e = n + 1 by omega]
    · exact (ih h1 (by omega)).trans (I.tau_succ (by omega)).le

theorem tau_lt {e e' : Nat} (h : e < e') (h' : e' ≤ L.E) : L.tau e < L.tau e' :=
  (I.tau_succ (by omega)).trans_le (I.tau_mono h h')

theorem le_of_tau {e e' : Nat} (he : e ≤ L.E) (h : L.tau e ≤ L.tau e') : e ≤ e' := by
  by_contra hn
  exact absurd h (not_le.2 (I.tau_lt (by omega) he))

theorem sig_lt {e e' : Nat} (h : e < e') (h' : e' ≤ L.E) : L.sig e < L.tau e' :=
  (I.sigtau e (by omega)).trans_le (I.tau_mono h h')

theorem lt_of_sig {e e' : Nat} (ht : L.taken e) (h : L.sig e ≤ L.tau e') : e < e' := by
  by_contra hn
  have he : e ≤ L.E := by rcases ht with h | h <;> omega
  have := I.tau_mono (show e' ≤ e by omega) he
  exact absurd (h.trans this) (not_le.2 (I.tausig e ht))

theorem wr_mono {e e' : Nat} (h : e ≤ e') (h' : e' ≤ L.E) : L.wr e ≤ L.wr e' := by
  induction e' with
  | zero => rw [Nat.le_zero.1 h]
  | succ n ih =>
    rcases Nat.lt_or_ge n e with h1 | h1
    · rw [show e = n + 1 by omega]
    · have := ih h1 (by omega)
      rcases I.wrS n (by omega) with h2 | h2 <;> omega

theorem hts_mono (hw : c.wide = true) {j j' : Nat} (h : j ≤ j') (h' : j' ≤ L.hcount c) :
    L.hts j ≤ L.hts j' := by
  induction j' with
  | zero => rw [Nat.le_zero.1 h]
  | succ n ih =>
    rcases Nat.lt_or_ge n j with h1 | h1
    · rw [show j = n + 1 by omega]
    · exact (ih h1 (by omega)).trans (I.hmono hw n (by omega)).le

theorem le_of_hts (hw : c.wide = true) {j j' : Nat} (hj : j ≤ L.hcount c) (h : L.hts j ≤ L.hts j') :
    j ≤ j' := by
  by_contra hn
  have h1 := I.hmono hw j' (by omega)
  have h2 := I.hts_mono hw (show j' + 1 ≤ j by omega) hj
  exact absurd h (not_le.2 (h1.trans_le h2))

theorem wrE_le_hcount : L.wr L.E / c.B ≤ L.hcount c :=
  Nat.div_le_div_right (by split <;> omega)

theorem tau_nonlock {m : Msg CL (BitVec c.W)} (hm : m ∈ ml) (h : m.val ≠ 1) :
    ∃ e, e ≤ L.E ∧ m.ts = L.tau e ∧ m.val = c.stamp (L.wr e) ∧ m.view = L.fv e :=
  (I.msgs m hm).resolve_left h

omit I in
theorem exists_min {Y : Type} (P : Y → Prop) (f : Y → Ts) (S : List Y) (h : ∃ y ∈ S, P y) :
    ∃ y ∈ S, P y ∧ ∀ z ∈ S, P z → f y ≤ f z := by
  induction S with
  | nil => obtain ⟨y, hy, -⟩ := h; cases hy
  | cons x S ih =>
    by_cases hS : ∃ y ∈ S, P y
    · obtain ⟨y, hy, hP, hmin⟩ := ih hS
      by_cases hx : P x ∧ f x ≤ f y
      · refine ⟨x, List.mem_cons_self, hx.1, fun z hz hPz => ?_⟩
        rcases List.mem_cons.1 hz with rfl | hz
        · exact le_rfl
        · exact hx.2.trans (hmin z hz hPz)
      · refine ⟨y, List.mem_cons_of_mem _ hy, hP, fun z hz hPz => ?_⟩
        rcases List.mem_cons.1 hz with rfl | hz
        · exact le_of_lt (not_le.1 fun h => hx ⟨hPz, h⟩)
        · exact hmin z hz hPz
    · obtain ⟨y, hy, hP⟩ := h
      rcases List.mem_cons.1 hy with rfl | hy
      · refine ⟨y, List.mem_cons_self, hP, fun z hz hPz => ?_⟩
        rcases List.mem_cons.1 hz with rfl | hz
        · exact le_rfl
        · exact absurd ⟨z, hz, hPz⟩ hS
      · exact absurd ⟨y, hy, hP⟩ hS

/-- A free place after the last free write, once the lock is taken, is after everything. -/
theorem fresh_last {f t : Ts} (hf : Fresh ml f t) (ht : L.tau L.E < t) (m : Msg CL (BitVec c.W))
    (hm : m ∈ ml) : m.ts ≤ f := by
  have main : ∀ m ∈ ml, ¬ t < m.ts := by
    intro m hm hlt
    obtain ⟨m, hm, hlt, hmin⟩ := exists_min (fun m : Msg CL (BitVec c.W) => t < m.ts) (·.ts) ml ⟨m, hm, hlt⟩
    obtain ⟨m', hm', e', -⟩ := I.contig m hm (ht.trans hlt)
    have h1 : t ≤ m.frm := (hf.2 m hm).resolve_right (fun h => absurd (hf.1.trans hlt) (not_lt.2 h))
    have hpos : m.frm < m.ts := by
      rcases I.pos m hm with h | h
      · exact h
      · rw [h] at hlt; exact absurd hlt not_lt_zero
    have h2 : t < m'.ts := by
      rcases lt_or_eq_of_le h1 with h | h
      · rw [e']; exact h
      · exfalso
        rcases hf.2 m' hm' with h3 | h3
        · rcases I.pos m' hm' with hq | hq
          · rw [e', ← h] at hq; exact absurd h3 (not_le.2 hq)
          · rw [e', ← h] at hq; rw [hq] at ht; exact absurd ht not_lt_zero
        · rw [e', ← h] at h3; exact absurd hf.1 (not_lt.2 h3)
    have := hmin m' hm' h2
    rw [e'] at this
    exact absurd hpos (not_lt.2 this)
  have h1 := main m hm
  rcases hf.2 m hm with h | h
  · rcases I.pos m hm with hp | hp
    · exact absurd (h.trans_lt hp) h1
    · rw [hp]; exact zero_le
  · exact h

end LockInv

namespace ObjInv
variable {L : LG} {O : OG V} {o : Obj} {mc : Nat → List (Msg CL (BitVec c.W))}
  {mo : List (Msg Native.Loc V)} (I : ObjInv c L O o mc mo)
include I

theorem vt_mono {k k' : Nat} (h : k ≤ k') (h' : k' ≤ O.K) : O.vt k ≤ O.vt k' := by
  induction k' with
  | zero => rw [Nat.le_zero.1 h]
  | succ n ih =>
    rcases Nat.lt_or_ge n k with h1 | h1
    · rw [show k = n + 1 by omega]
    · exact (ih h1 (by omega)).trans (I.vtmono n (by omega)).le

theorem vt_lt {k k' : Nat} (h : k < k') (h' : k' ≤ O.K) : O.vt k < O.vt k' :=
  (I.vtmono k (by omega)).trans_le (I.vt_mono h h')

theorem ct_mono {i k k' : Nat} (hi : i < c.n o) (h : k ≤ k') (h' : k' ≤ O.K) : O.ct i k ≤ O.ct i k' := by
  induction k' with
  | zero => rw [Nat.le_zero.1 h]
  | succ n ih =>
    rcases Nat.lt_or_ge n k with h1 | h1
    · rw [show k = n + 1 by omega]
    · exact (ih h1 (by omega)).trans (I.ctmono i n hi (by omega)).le

theorem ct_lt {i k k' : Nat} (hi : i < c.n o) (h : k < k') (h' : k' ≤ O.K ∨ k' = O.K + 1 ∧ i < O.pend) :
    O.ct i k < O.ct i k' := by
  rcases h' with h' | ⟨rfl, h'⟩
  · exact (I.ctmono i k hi (by omega)).trans_le (I.ct_mono hi h h')
  · exact (I.ct_mono hi (show k ≤ O.K by omega) le_rfl).trans_lt (I.ctpend i hi h')

/-- The last version published by epoch `e`. -/
theorem ver_at (e : Nat) : ∃ k, k ≤ O.K ∧ O.vt k ≤ e ∧ ∀ k', k' ≤ O.K → O.vt k' ≤ e → k' ≤ k := by
  have : ∀ n, n ≤ O.K → ∃ k, k ≤ n ∧ O.vt k ≤ e ∧ ∀ k', k' ≤ n → O.vt k' ≤ e → k' ≤ k := by
    intro n
    induction n with
    | zero => exact fun _ => ⟨0, le_rfl, by rw [I.vt0]; omega, fun k' h _ => h⟩
    | succ n ih =>
      intro hn
      by_cases h : O.vt (n + 1) ≤ e
      · exact ⟨n + 1, le_rfl, h, fun k' h _ => h⟩
      · obtain ⟨k, h1, h2, h3⟩ := ih (by omega)
        refine ⟨k, by omega, h2, fun k' h' he => ?_⟩
        rcases Nat.lt_or_ge k' (n + 1) with h4 | h4
        · exact h3 k' (by omega) he
        · rw [show k' = n + 1 by omega] at he; exact absurd he h
  exact this O.K le_rfl

end ObjInv

/-! ### Frame -/

variable {lk lk' : Nat → LG} {ob ob' : Obj → OG V}

theorem Rd.grow {L L' : LG} (h : LExt L L') {v : TV CL} {hi lo : BitVec c.W} {e : Nat}
    (r : Rd c L v hi lo e) : Rd c L' v hi lo e := by
  refine ⟨r.le.trans h.E, ?_, ?_, ?_⟩
  · rw [h.wr _ r.le]; exact r.lo
  · rw [h.fv _ r.le]; exact r.fv
  · rw [h.wr _ r.le]; exact r.hi

theorem Chs.grow {L L' : LG} (h : LExt L L') {mem mem' : Fallback.Loc → List (Msg CL (BitVec c.W))}
    (hm : ∀ l m, m ∈ mem l → m ∈ mem' l) {o : Obj} {e i : Nat} (he : e ≤ L.E)
    {acc : Nat → BitVec c.W} {b b' : Ts} (hb : b ≤ b') (r : Chs c mem L o e i acc b) :
    Chs c mem' L' o e i acc b' := by
  intro j hj
  obtain ⟨m, h1, h2, h3, h4⟩ := r j hj
  exact ⟨m, hm _ _ h1, h2, by rw [h.fv _ he]; exact h3, h4.trans hb⟩

theorem RInv.grow (hl : ∀ l, LExt (lk l) (lk' l)) {mem mem' : Fallback.Loc → List (Msg CL (BitVec c.W))}
    (hm : ∀ l m, m ∈ mem l → m ∈ mem' l) {v : TV CL} {pc : Pc V c.W} (r : RInv c lk mem v pc) :
    RInv c lk' mem' v pc := by
  cases pc <;> simp only [RInv] at r ⊢
  case optLo k h =>
    intro hw
    obtain ⟨m, h1, h2⟩ := r hw
    exact ⟨m, hm _ _ h1, h2⟩
  case optChunk k h lo i acc =>
    obtain ⟨hi, e, h1, h2⟩ := r
    exact ⟨hi, e, h1.grow (hl _), h2.grow (hl _) hm h1.le le_rfl⟩
  case valFence k h lo acc =>
    obtain ⟨e, h1, h2⟩ := r
    exact ⟨e, h1.grow (hl _), h2.grow (hl _) hm h1.le le_rfl⟩
  case valLo k h lo acc =>
    obtain ⟨e, h1, h2⟩ := r
    exact ⟨e, h1.grow (hl _), h2.grow (hl _) hm h1.le le_rfl⟩
  case valHi k h lo acc lo' =>
    obtain ⟨hw, r⟩ := r
    refine ⟨hw, fun e => ?_⟩
    obtain ⟨e, e', h1, h2, h3, h4, h5, h6⟩ := r e
    refine ⟨e, e', h1.grow (hl _), h2.trans (hl _).E, ?_, ?_, ?_, h6.grow (hl _) hm h1.le le_rfl⟩
    · rw [(hl _).wr _ h2]; exact h3
    · rw [(hl _).fv _ h2]; exact h4
    · rw [(hl _).tau _ h2]; exact h5

/-- A holder's knowledge depends only on its own lock and the objects of that lock. -/
theorem HInv.frame {v : TV CL} {pc : Pc V c.W} (h : HInv c lk ob v pc)
    (hl : ∀ l, c.owns pc = some l → lk' l = lk l ∧ ∀ o, c.lockOf o = l → ob' o = ob o) :
    HInv c lk' ob' v pc := by
  have key : ∀ k : Call V, (lk' (c.lockOf k.obj) = lk (c.lockOf k.obj) ∧
      ∀ o, c.lockOf o = c.lockOf k.obj → ob' o = ob o) →
      (NoPend c ob (c.lockOf k.obj) → NoPend c ob' (c.lockOf k.obj)) ∧
      (∀ v i r, Wr c (lk (c.lockOf k.obj)) ob k v i r → Wr c (lk (c.lockOf k.obj)) ob' k v i r) := by
    rintro k ⟨-, h2⟩
    refine ⟨fun hn o ho => by rw [h2 o ho]; exact hn o ho, fun v i r w => ?_⟩
    have e := h2 k.obj rfl
    exact ⟨fun o' h1 ho => by rw [h2 o' ho]; exact w.oth o' h1 ho, by rw [e]; exact w.pend,
      by rw [e]; exact w.ct, by rw [e]; exact w.vt, by rw [e]; exact w.writes, by rw [e]; exact w.res⟩
  cases pc <;> simp only [HInv] at h ⊢ <;> simp only [Cfg.owns, Cfg.holds, Option.map_some] at hl
  case relFence k p =>
    have h1 := hl _ rfl
    obtain ⟨k1, k2⟩ := key k h1
    rw [h1.1]
    exact ⟨h.1, k1 h.2.1, h.2.2⟩
  case naRead k p i acc =>
    have h1 := hl _ rfl
    obtain ⟨k1, k2⟩ := key k h1
    rw [h1.1, h1.2 _ rfl]
    exact ⟨h.1, k1 h.2.1, h.2.2⟩
  case wrChunk k p i new r =>
    have h1 := hl _ rfl
    obtain ⟨k1, k2⟩ := key k h1
    rw [h1.1, h1.2 _ rfl]
    exact ⟨h.1, h.2.1, h.2.2.1, h.2.2.2.1, k2 _ _ _ h.2.2.2.2.1, h.2.2.2.2.2⟩
  case hiLoad k p r =>
    have h1 := hl _ rfl
    obtain ⟨k1, k2⟩ := key k h1
    rw [h1.1]
    exact ⟨h.1, h.2.1, k2 _ _ _ h.2.2.1, h.2.2.2⟩
  case hiStore k p hh r =>
    have h1 := hl _ rfl
    obtain ⟨k1, k2⟩ := key k h1
    rw [h1.1]
    exact ⟨h.1, h.2.1, k2 _ _ _ h.2.2.1, h.2.2.2⟩
  case dropStore k p r =>
    have h1 := hl _ rfl
    obtain ⟨k1, k2⟩ := key k h1
    rw [h1.1]
    exact ⟨h.1, k2 _ _ _ h.2.1, h.2.2⟩
  case abortStore k p r =>
    have h1 := hl _ rfl
    obtain ⟨k1, k2⟩ := key k h1
    rw [h1.1, h1.2 _ rfl]
    exact ⟨h.1, k1 h.2.1, h.2.2⟩

/-- Counting calls that have not yet taken effect. -/
theorem cnt_step {pc : Tid → Pc V c.W} {N : Nat} {w w' : Nat → Nat}
    (I : ∃ (P : Finset Tid) (nl : Nat), (∀ t, t ∈ P ↔ (Cfg.pcCall (pc t)).isSome) ∧
      nl + P.card ≤ N ∧ ∀ l, w l ≤ nl) (t : Tid) {p : Pc V c.W}
    (hcall : Cfg.pcCall p = Cfg.pcCall (pc t) ∨ Cfg.pcCall p = none)
    (hw : ∀ l, w' l = w l ∨
      w' l = w l + 1 ∧ (Cfg.pcCall (pc t)).isSome ∧ Cfg.pcCall p = none) :
    ∃ (P : Finset Tid) (nl : Nat), (∀ u, u ∈ P ↔ (Cfg.pcCall (Function.update pc t p u)).isSome) ∧
      nl + P.card ≤ N ∧ ∀ l, w' l ≤ nl := by
  obtain ⟨P, nl, h1, h2, h3⟩ := I
  by_cases h : (Cfg.pcCall (pc t)).isSome ∧ Cfg.pcCall p = none
  · have ht := (h1 t).2 h.1
    refine ⟨P.erase t, nl + 1, fun u => ?_, ?_, fun l => ?_⟩
    · rw [Finset.mem_erase]
      by_cases e : u = t
      · subst e; simp [h.2]
      · simp only [Function.update_of_ne e, ← h1 u]; simp [e]
    · have := Finset.card_pos.2 ⟨t, ht⟩
      rw [Finset.card_erase_of_mem ht]; omega
    · rcases hw l with e | ⟨e, -⟩ <;> have := h3 l <;> omega
  · have hc : Cfg.pcCall p = Cfg.pcCall (pc t) := by
      rcases hcall with e | e
      · exact e
      · have : ¬ (Cfg.pcCall (pc t)).isSome := fun h' => h ⟨h', e⟩
        rw [e]
        cases hh : Cfg.pcCall (pc t) with
        | none => rfl
        | some _ => rw [hh] at this; simp at this
    refine ⟨P, nl, fun u => ?_, h2, fun l => ?_⟩
    · by_cases e : u = t
      · subst e; simp only [Function.update_self]; rw [hc]; exact h1 u
      · simp only [Function.update_of_ne e]; exact h1 u
    · rcases hw l with e | ⟨-, e1, e2⟩
      · rw [e]; exact h3 l
      · exact absurd ⟨e1, e2⟩ h

namespace Inv
variable {s : State c X} {a : Native.State V X} {N : Nat} (I : Inv c lk ob s a N)
include I

theorem h0 (o : Obj) : (lk (c.lockOf o)).tau ((ob o).vt 0) = 0 := by
  rw [(I.obj o).vt0, (I.lock _).tau0]

theorem vtE (o : Obj) (k : Nat) (h : k ≤ (ob o).K) : (ob o).vt k ≤ (lk (c.lockOf o)).E :=
  (I.obj o).vtE k h

/-- A step that changes only the acting thread (and the SC view). -/
theorem stepLocal (t : Tid) {v : TV CL} {p : Pc V c.W} {av : TV Native.Loc} {ap : Native.Pc V}
    {sc : View CL} {asc : View Native.Loc} {nr : Fallback.Loc → Tid → Nat}
    (hle : (s.tv t).cur ≤ v.cur) (wf : v.Wf) (hown : c.owns p = c.owns (s.pc t))
    (hcall : Cfg.pcCall p = Cfg.pcCall (s.pc t) ∨ Cfg.pcCall p = none) (hh : HInv c lk ob v p) (hr : RInv c lk s.mem v p)
    (hl : LoadPc c p) (hap : APc c p ap) (htle : TLe c lk ob av v) (hsc : VLe c lk ob asc sc)
    (hnr : ∀ o i u, nr (.chunk o i) u = s.nr (.chunk o i) u ∨
      (lk (c.lockOf o)).held = some t ∧ (nr (.chunk o i) u : Ts) ≤ v.cur (.rd (.chunk o i) u)) :
    Inv c lk ob
      { s with tv := Function.update s.tv t v, pc := Function.update s.pc t p, sc := sc, nr := nr }
      { a with tv := Function.update a.tv t av, pc := Function.update a.pc t ap, sc := asc } N where
  lock := I.lock
  obj := I.obj
  objv := I.objv
  held u l := by
    by_cases e : u = t
    · subst e; simp only [Function.update_self]; rw [hown]; exact I.held u l
    · simp only [Function.update_of_ne e]; exact I.held u l
  hinv u := by
    by_cases e : u = t
    · subst e; simpa only [Function.update_self] using hh
    · simpa only [Function.update_of_ne e] using I.hinv u
  rinv u := by
    by_cases e : u = t
    · subst e; simpa only [Function.update_self] using hr
    · simpa only [Function.update_of_ne e] using I.rinv u
  lpc u := by
    by_cases e : u = t
    · subst e; simpa only [Function.update_self] using hl
    · simpa only [Function.update_of_ne e] using I.lpc u
  free := I.free
  markF l hl o ho i u := by
    rcases hnr o i u with h | ⟨h, -⟩
    · rw [show (nr (.chunk o i) u : Ts) = s.nr (.chunk o i) u by rw [h]]
      exact I.markF l hl o ho i u
    · rw [ho, hl] at h; cases h
  markH l u hl o ho i u' := by
    rcases hnr o i u' with h | ⟨h, h2⟩
    · simp only [h]
      refine (I.markH l u hl o ho i u').trans ?_
      by_cases e : u = t
      · subst e; simp only [Function.update_self]; exact hle _
      · simp only [Function.update_of_ne e]; exact le_rfl
    · rw [ho, hl] at h; cases h
      simp only [Function.update_self]; exact h2
  ext := I.ext
  tle u := by
    by_cases e : u = t
    · subst e; simpa only [Function.update_self] using htle
    · simpa only [Function.update_of_ne e] using I.tle u
  sc := hsc
  wf u := by
    by_cases e : u = t
    · subst e; simpa only [Function.update_self] using wf
    · simpa only [Function.update_of_ne e] using I.wf u
  apc u := by
    by_cases e : u = t
    · subst e; simpa only [Function.update_self] using hap
    · simpa only [Function.update_of_ne e] using I.apc u
  cnt := cnt_step I.cnt t hcall fun l => Or.inl rfl

/-- The same when the specification does nothing. -/
theorem stepLocal' (t : Tid) {v : TV CL} {p : Pc V c.W} {nr : Fallback.Loc → Tid → Nat}
    (hle : (s.tv t).Le v) (wf : v.Wf) (hown : c.owns p = c.owns (s.pc t))
    (hcall : Cfg.pcCall p = Cfg.pcCall (s.pc t) ∨ Cfg.pcCall p = none) (hh : HInv c lk ob v p) (hr : RInv c lk s.mem v p)
    (hl : LoadPc c p) (hap : APc c p (a.pc t))
    (hnr : ∀ o i u, nr (.chunk o i) u = s.nr (.chunk o i) u ∨
      (lk (c.lockOf o)).held = some t ∧ (nr (.chunk o i) u : Ts) ≤ v.cur (.rd (.chunk o i) u)) :
    Inv c lk ob
      { s with tv := Function.update s.tv t v, pc := Function.update s.pc t p, nr := nr } a N := by
  have := I.stepLocal t hle.cur wf hown hcall hh hr hl hap ((I.tle t).mono hle) I.sc hnr
  simpa only [Function.update_eq_self] using this

end Inv

/-- Objects of a lock that moves on without them. -/
theorem ObjInv.grow {L L' : LG} {O : OG V} {o : Obj} {mc : Nat → List (Msg CL (BitVec c.W))}
    {mo : List (Msg Native.Loc V)} (I : ObjInv c L O o mc mo) (hl : LExt L L')
    (hs : ∀ e, e < L.E → L'.sig e = L.sig e) (hp : O.pend = 0)
    (hf : ∀ e, L.E < e → e ≤ L'.E → L.fv L.E ≤ L'.fv e) : ObjInv c L' O o mc mo where
  vt0 := I.vt0
  vtmono := I.vtmono
  vtE k hk := (I.vtE k hk).trans hl.E
  vtwr k e hk h := by
    have := I.vtE k hk
    rw [hl.wr _ (by omega), hl.wr _ (by omega)]
    exact I.vtwr k e hk h
  chunks i m hm := by
    obtain ⟨k, h1, h2, h3, h4⟩ := I.chunks i m hm
    refine ⟨k, h1, h2, h3, fun e he => ?_⟩
    rcases h2 with h2 | h2
    · have := I.vtE k h2
      rw [hs e (by omega)]; exact h4 e he
    · omega
  ctmono := I.ctmono
  ctpend := I.ctpend
  vtpend h := absurd hp h
  fvct i k e hi hk he hv := by
    rcases Nat.lt_or_ge L.E e with h | h
    · exact (I.fvct i k L.E hi hk le_rfl (I.vtE k hk)).trans (hf e h he _)
    · rw [hl.fv _ h]; exact I.fvct i k e hi hk h hv
  amem := I.amem

namespace Inv
variable {s : State c X} {a : Native.State V X} {N : Nat} (I : Inv c lk ob s a N)
include I

/-- A step of the thread that takes, holds or releases lock `l`, working on object `o`. -/
theorem stepMem (t : Tid) {o : Obj} {L' : LG} {O' : OG V}
    {mem' : Fallback.Loc → List (Msg CL (BitVec c.W))} {v : TV CL} {p : Pc V c.W}
    {av : TV Native.Loc} {ap : Native.Pc V} {amo : List (Msg Native.Loc V)}
    (hlk : LExt (lk (c.lockOf o)) L') (hob : OExt (ob o) O')
    (hmem : ∀ l m, m ∈ s.mem l → m ∈ mem' l)
    (hlo : ∀ l, l ≠ c.lockOf o → mem' (.lo l) = s.mem (.lo l))
    (hhi : ∀ l, l ≠ c.lockOf o → mem' (.hi l) = s.mem (.hi l))
    (hch : ∀ o' i, o' ≠ o → mem' (.chunk o' i) = s.mem (.chunk o' i))
    (lock : LockInv c L' (c.lockOf o) (mem' (.lo (c.lockOf o))) (mem' (.hi (c.lockOf o))))
    (objO : ObjInv c L' O' o (fun i => mem' (.chunk o i)) amo)
    (objX : ∀ o', o' ≠ o → c.lockOf o' = c.lockOf o →
      ObjInv c L' (ob o') o' (fun i => s.mem (.chunk o' i)) (a.mo o'))
    (objv : ∀ o' k e, c.lockOf o' = c.lockOf o → k ≤ (Function.update ob o O' o').K → e ≤ L'.E →
      (Function.update ob o O' o').vt k ≤ e →
      VLe c (Function.update lk (c.lockOf o) L') (Function.update ob o O')
        ((Function.update ob o O' o').av k) (L'.fv e))
    (hnone : ∀ u, u ≠ t → c.owns (s.pc u) ≠ some (c.lockOf o))
    (hown : ∀ l, c.owns (s.pc t) = some l → l = c.lockOf o)
    (hown' : ∀ l, c.owns p = some l ↔ l = c.lockOf o ∧ L'.held = some t)
    (hheld : ∀ u, L'.held = some u → u = t)
    (hh : HInv c (Function.update lk (c.lockOf o) L') (Function.update ob o O') v p)
    (hr : RInv c (Function.update lk (c.lockOf o) L') mem' v p)
    (hlp : LoadPc c p)
    (hfree : L'.held = none → NoPend c (Function.update ob o O') (c.lockOf o))
    (hmF : L'.held = none → ∀ o', c.lockOf o' = c.lockOf o → ∀ i u,
      (s.nr (.chunk o' i) u : Ts) ≤ L'.fv L'.E (.rd (.chunk o' i) u))
    (hmH : L'.held = some t → ∀ o', c.lockOf o' = c.lockOf o → ∀ i u,
      (s.nr (.chunk o' i) u : Ts) ≤ v.cur (.rd (.chunk o' i) u))
    (htle : TLe c (Function.update lk (c.lockOf o) L') (Function.update ob o O') av v)
    (wf : v.Wf) (hap : APc c p ap)
    (hcall : Cfg.pcCall p = Cfg.pcCall (s.pc t) ∨ Cfg.pcCall p = none)
    (hw : L'.wr L'.E = (lk (c.lockOf o)).wr (lk (c.lockOf o)).E ∨
      L'.wr L'.E = (lk (c.lockOf o)).wr (lk (c.lockOf o)).E + 1 ∧ (Cfg.pcCall (s.pc t)).isSome ∧
        Cfg.pcCall p = none) :
    Inv c (Function.update lk (c.lockOf o) L') (Function.update ob o O')
      { s with mem := mem', tv := Function.update s.tv t v, pc := Function.update s.pc t p }
      { a with mo := Function.update a.mo o amo, tv := Function.update a.tv t av,
               pc := Function.update a.pc t ap } N := by
  have hl : ∀ l, LExt (lk l) (Function.update lk (c.lockOf o) L' l) := by
    intro l
    by_cases e : l = c.lockOf o
    · subst e; simpa only [Function.update_self] using hlk
    · simpa only [Function.update_of_ne e] using LExt.refl _
  have ho : ∀ o', OExt (ob o') (Function.update ob o O' o') := by
    intro o'
    by_cases e : o' = o
    · subst e; simpa only [Function.update_self] using hob
    · simpa only [Function.update_of_ne e] using OExt.refl _
  have ne_obj : ∀ {o' : Obj}, c.lockOf o' ≠ c.lockOf o → o' ≠ o := fun h e => h (by rw [e])
  refine ⟨?_, ?_, ?_, ?_, ?_, ?_, ?_, ?_, ?_, ?_, ?_, ?_, ?_, ?_, ?_, ?_⟩
  · intro l
    by_cases e : l = c.lockOf o
    · subst e; simpa only [Function.update_self] using lock
    · simp only [Function.update_of_ne e, hlo l e, hhi l e]; exact I.lock l
  · intro o'
    by_cases e : o' = o
    · subst e; simpa only [Function.update_self] using objO
    · simp only [Function.update_of_ne e, hch o' _ e]
      by_cases e' : c.lockOf o' = c.lockOf o
      · rw [e', Function.update_self]; exact objX o' e e'
      · rw [Function.update_of_ne e']; exact I.obj o'
  · intro o' k e hk he hv
    by_cases e' : c.lockOf o' = c.lockOf o
    · rw [e', Function.update_self] at he ⊢; exact objv o' k e e' hk he hv
    · rw [Function.update_of_ne e'] at he ⊢
      rw [Function.update_of_ne (ne_obj e')] at hk hv ⊢
      exact (I.objv o' k e hk he hv).grow hl ho I.vtE
  · intro u l
    by_cases e : u = t
    · subst e
      simp only [Function.update_self]
      rw [hown' l]
      by_cases e' : l = c.lockOf o
      · subst e'; simp
      · rw [Function.update_of_ne e']
        constructor
        · rintro ⟨h, -⟩; exact absurd h e'
        · intro h; exact absurd (hown l ((I.held u l).2 h)) e'
    · simp only [Function.update_of_ne e]
      by_cases e' : l = c.lockOf o
      · subst e'; rw [Function.update_self]
        constructor
        · intro h; exact absurd h (hnone u e)
        · intro h; exact absurd (hheld u h) e
      · rw [Function.update_of_ne e']; exact I.held u l
  · intro u
    by_cases e : u = t
    · subst e; simpa only [Function.update_self] using hh
    · simp only [Function.update_of_ne e]
      refine (I.hinv u).frame fun l h => ?_
      have hne : l ≠ c.lockOf o := fun h' => hnone u e (by rw [h, h'])
      exact ⟨Function.update_of_ne hne .., fun o' ho' =>
        Function.update_of_ne (ne_obj (by rw [ho']; exact hne)) ..⟩
  · intro u
    by_cases e : u = t
    · subst e; simpa only [Function.update_self] using hr
    · simp only [Function.update_of_ne e]
      exact (I.rinv u).grow hl hmem
  · intro u
    by_cases e : u = t
    · subst e; simpa only [Function.update_self] using hlp
    · simpa only [Function.update_of_ne e] using I.lpc u
  · intro l
    by_cases e : l = c.lockOf o
    · subst e; rw [Function.update_self]; exact hfree
    · rw [Function.update_of_ne e]
      intro h o' ho'
      rw [Function.update_of_ne (ne_obj (by rw [ho']; exact e))]
      exact I.free l h o' ho'
  · intro l
    by_cases e : l = c.lockOf o
    · subst e; rw [Function.update_self]; exact hmF
    · rw [Function.update_of_ne e]; exact I.markF l
  · intro l u
    by_cases e : l = c.lockOf o
    · subst e; rw [Function.update_self]
      intro h
      obtain rfl := hheld u h
      simp only [Function.update_self]
      exact hmH h
    · rw [Function.update_of_ne e]
      intro h
      have hu : u ≠ t := by
        rintro rfl
        exact e (hown l ((I.held u l).2 h))
      simp only [Function.update_of_ne hu]
      exact I.markH l u h
  · intro x
    exact (I.ext x).imp fun _ _ h => h.grow hl ho I.vtE
  · intro u
    by_cases e : u = t
    · subst e; simpa only [Function.update_self] using htle
    · simpa only [Function.update_of_ne e] using (I.tle u).grow hl ho I.vtE
  · exact I.sc.grow hl ho I.vtE
  · intro u
    by_cases e : u = t
    · subst e; simpa only [Function.update_self] using wf
    · simpa only [Function.update_of_ne e] using I.wf u
  · intro u
    by_cases e : u = t
    · subst e; simpa only [Function.update_self] using hap
    · simpa only [Function.update_of_ne e] using I.apc u
  · refine cnt_step I.cnt t hcall fun l => ?_
    by_cases e : l = c.lockOf o
    · subst e; rw [Function.update_self]; exact hw
    · rw [Function.update_of_ne e]; exact Or.inl rfl

end Inv
end Verif.WM.Lock
