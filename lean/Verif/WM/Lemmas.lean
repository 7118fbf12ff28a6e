import Verif.WM.Inv
/-!
# Views, ghost extension, client accesses (proof internals)
-/
set_option autoImplicit false
set_option linter.unusedSectionVars false
namespace Verif.WM

section views
variable {L : Type} [DecidableEq L] {X : Type}

theorem ts_bot : (⊥ : Ts) = 0 := rfl

@[simp] theorem single_self (l : L) (t : Ts) : single l t l = t := by simp [single]
theorem single_ne {l l' : L} (t : Ts) (h : l' ≠ l) : single l t l' = 0 := by
  simp [single, Function.update_of_ne h, ts_bot]
theorem single_le {l : L} {t : Ts} {v : View L} : single l t ≤ v ↔ t ≤ v l := by
  constructor
  · intro h; simpa using h l
  · intro h l'
    by_cases e : l' = l
    · subst e; simpa using h
    · rw [single_ne _ e]; exact zero_le

/-- Thread views grow. -/
structure TV.Le (v v' : TV L) : Prop where
  cur : v.cur ≤ v'.cur
  acq : v.acq ≤ v'.acq
  rel : v.rel ≤ v'.rel

theorem TV.Le.refl (v : TV L) : v.Le v := ⟨le_rfl, le_rfl, le_rfl⟩

theorem TV.le_read (v : TV L) (l : L) (o : MemOrd) (m : Msg L X) : v.Le (v.read l o m) :=
  ⟨le_sup_of_le_left le_sup_left, le_sup_of_le_left le_sup_left, le_rfl⟩

theorem TV.le_write (v : TV L) (l : L) (t : Ts) : v.Le (v.write l t) :=
  ⟨le_sup_left, le_sup_left, le_rfl⟩

theorem TV.Le.trans {a b d : TV L} (h : a.Le b) (h' : b.Le d) : a.Le d :=
  ⟨h.cur.trans h'.cur, h.acq.trans h'.acq, h.rel.trans h'.rel⟩

theorem TV.Wf.read {v : TV L} (w : v.Wf) (l : L) (o : MemOrd) (m : Msg L X) : (v.read l o m).Wf := by
  refine ⟨w.rel.trans (v.le_read l o m).cur, ?_⟩
  simp only [TV.read]
  refine sup_le (sup_le ?_ ?_) ?_
  · exact le_sup_of_le_left (le_sup_of_le_left w.cur)
  · exact le_sup_of_le_left le_sup_right
  · split
    · exact le_sup_right
    · exact bot_le

theorem TV.Wf.write {v : TV L} (w : v.Wf) (l : L) (t : Ts) : (v.write l t).Wf :=
  ⟨w.rel.trans le_sup_left, sup_le_sup_right w.cur _⟩

theorem TV.Wf.fence {v : TV L} (w : v.Wf) (o : MemOrd) : (v.fence o).Wf ∧ v.Le (v.fence o) := by
  have := w.rel; have := w.cur
  cases o <;> simp [TV.fence, acqs, rels] <;>
    exact ⟨⟨by first | assumption | exact le_rfl | exact w.rel.trans w.cur,
      by first | assumption | exact le_rfl⟩, ⟨by first | assumption | exact le_rfl,
      by first | assumption | exact le_rfl,
      by first | assumption | exact le_rfl | exact w.rel.trans w.cur⟩⟩

theorem TV.Wf.scFence {v : TV L} (w : v.Wf) (S : View L) : (v.scFence S).Wf ∧ v.Le (v.scFence S) :=
  ⟨⟨le_rfl, le_rfl⟩, ⟨w.cur.trans le_sup_left, le_sup_left,
    (w.rel.trans w.cur).trans le_sup_left⟩⟩

theorem read_cur_self (v : TV L) (l : L) (o : MemOrd) (m : Msg L X) : m.ts ≤ (v.read l o m).cur l := by
  simp [TV.read]

theorem write_cur_self (v : TV L) (l : L) (t : Ts) : t ≤ (v.write l t).cur l := by
  simp [TV.write]

theorem read_view_acq (v : TV L) (l : L) (o : MemOrd) (m : Msg L X) : m.view ≤ (v.read l o m).acq :=
  le_sup_right

theorem read_view_cur (v : TV L) (l : L) (o : MemOrd) (m : Msg L X) (h : acqs o = true) :
    m.view ≤ (v.read l o m).cur := by
  simp only [TV.read, h, if_true]; exact le_sup_right

end views

namespace Lock
open Verif.Fallback
variable {V X : Type} [DecidableEq V] {c : Cfg V}

/-- The ghost state of a lock grows. -/
structure LExt (L L' : LG) : Prop where
  E : L.E ≤ L'.E
  tau : ∀ e, e ≤ L.E → L'.tau e = L.tau e
  wr : ∀ e, e ≤ L.E → L'.wr e = L.wr e
  fv : ∀ e, e ≤ L.E → L'.fv e = L.fv e

theorem LExt.refl (L : LG) : LExt L L := ⟨le_rfl, fun _ _ => rfl, fun _ _ => rfl, fun _ _ => rfl⟩

/-- The ghost state of an object grows. -/
structure OExt (O O' : OG V) : Prop where
  K : O.K ≤ O'.K
  vt : ∀ k, k ≤ O.K → O'.vt k = O.vt k

theorem OExt.refl (O : OG V) : OExt O O := ⟨le_rfl, fun _ _ => rfl⟩

variable {lk lk' : Nat → LG} {ob ob' : Obj → OG V}

theorem VLe.mono {va : View Native.Loc} {vc vc' : View CL} (h : VLe c lk ob va vc) (hv : vc ≤ vc') :
    VLe c lk ob va vc' := by
  refine ⟨fun a => (h.1 a).trans (hv _), fun o => ?_⟩
  obtain ⟨k, h1, h2, h3⟩ := h.2 o
  exact ⟨k, h1, h2, h3.trans (hv _)⟩

theorem VLe.sup {va vb : View Native.Loc} {vc : View CL} (h : VLe c lk ob va vc)
    (h' : VLe c lk ob vb vc) : VLe c lk ob (va ⊔ vb) vc := by
  refine ⟨fun a => sup_le (h.1 a) (h'.1 a), fun o => ?_⟩
  obtain ⟨k, h1, h2, h3⟩ := h.2 o
  obtain ⟨k', h1', h2', h3'⟩ := h'.2 o
  rcases le_total k k' with hk | hk
  · exact ⟨k', h1', sup_le (h2.trans (by exact_mod_cast hk)) h2', h3'⟩
  · exact ⟨k, h1, sup_le h2 (h2'.trans (by exact_mod_cast hk)), h3⟩

theorem VLe.bot (h0 : ∀ o, (lk (c.lockOf o)).tau ((ob o).vt 0) = 0) (vc : View CL) :
    VLe c lk ob ⊥ vc :=
  ⟨fun _ => bot_le, fun o => ⟨0, Nat.zero_le _, bot_le, by rw [h0]; exact zero_le⟩⟩

theorem VLe.obj (h0 : ∀ o, (lk (c.lockOf o)).tau ((ob o).vt 0) = 0) {o : Obj} {k : Nat}
    {vc : View CL} (hk : k ≤ (ob o).K)
    (ht : (lk (c.lockOf o)).tau ((ob o).vt k) ≤ vc (vlo (c.lockOf o))) :
    VLe c lk ob (single (.obj o) (k : Ts)) vc := by
  refine ⟨fun a => by rw [single_ne _ (by simp)]; exact zero_le, fun o' => ?_⟩
  by_cases e : o' = o
  · subst e; exact ⟨k, hk, by simp, ht⟩
  · exact ⟨0, Nat.zero_le _, by rw [single_ne _ (by simpa using e)]; simp, by rw [h0]; exact zero_le⟩

theorem VLe.ext_single (h0 : ∀ o, (lk (c.lockOf o)).tau ((ob o).vt 0) = 0) {a : Nat} {t : Ts}
    {vc : View CL} (ht : t ≤ vc (ext a)) : VLe c lk ob (single (.ext a) t) vc := by
  refine ⟨fun a' => ?_, fun o' => ?_⟩
  · by_cases e : a' = a
    · subst e; simpa using ht
    · rw [single_ne _ (by simpa using e)]; exact zero_le
  · exact ⟨0, Nat.zero_le _, by rw [single_ne _ (by simp)]; simp, by rw [h0]; exact zero_le⟩

theorem VLe.grow (hl : ∀ l, LExt (lk l) (lk' l)) (ho : ∀ o, OExt (ob o) (ob' o))
    (hE : ∀ o k, k ≤ (ob o).K → (ob o).vt k ≤ (lk (c.lockOf o)).E) {va : View Native.Loc}
    {vc : View CL} (h : VLe c lk ob va vc) : VLe c lk' ob' va vc := by
  refine ⟨h.1, fun o => ?_⟩
  obtain ⟨k, h1, h2, h3⟩ := h.2 o
  refine ⟨k, h1.trans (ho o).K, h2, ?_⟩
  rw [(ho o).vt k h1, (hl _).tau _ (hE o k h1)]
  exact h3

theorem TLe.mono {a : TV Native.Loc} {v v' : TV CL} (h : TLe c lk ob a v) (hv : v.Le v') :
    TLe c lk ob a v' := ⟨h.cur.mono hv.cur, h.acq.mono hv.acq, h.rel.mono hv.rel⟩

theorem TLe.grow (hl : ∀ l, LExt (lk l) (lk' l)) (ho : ∀ o, OExt (ob o) (ob' o))
    (hE : ∀ o k, k ≤ (ob o).K → (ob o).vt k ≤ (lk (c.lockOf o)).E) {a : TV Native.Loc}
    {v : TV CL} (h : TLe c lk ob a v) : TLe c lk' ob' a v :=
  ⟨h.cur.grow hl ho hE, h.acq.grow hl ho hE, h.rel.grow hl ho hE⟩

theorem MLe.grow (hl : ∀ l, LExt (lk l) (lk' l)) (ho : ∀ o, OExt (ob o) (ob' o))
    (hE : ∀ o k, k ≤ (ob o).K → (ob o).vt k ≤ (lk (c.lockOf o)).E) {ma : Msg Native.Loc X}
    {m : Msg CL X} (h : MLe c lk ob ma m) : MLe c lk' ob' ma m :=
  ⟨h.1, h.2.1, h.2.2.1, h.2.2.2.grow hl ho hE⟩

/-- A read: the specification reads a write `ma` at `la` whose knowledge is justified. -/
theorem TLe.read {Y : Type} (h0 : ∀ o, (lk (c.lockOf o)).tau ((ob o).vt 0) = 0)
    {a : TV Native.Loc} {v : TV CL} (h : TLe c lk ob a v) {la : Native.Loc} {o : MemOrd}
    {ma : Msg Native.Loc Y} (hs : VLe c lk ob (single la ma.ts) v.cur) (w : v.Wf)
    (hv : VLe c lk ob ma.view v.acq) (hc : acqs o = true → VLe c lk ob ma.view v.cur) :
    TLe c lk ob (a.read la o ma) v := by
  refine ⟨?_, ?_, h.rel⟩
  · refine (h.cur.sup hs).sup ?_
    split
    · next h => exact hc h
    · exact VLe.bot h0 _
  · exact (h.acq.sup (hs.mono w.cur)).sup hv

/-- A write. -/
theorem TLe.write {a : TV Native.Loc} {v : TV CL} (h : TLe c lk ob a v) {la : Native.Loc} {t : Ts}
    (hs : VLe c lk ob (single la t) v.cur) (w : v.Wf) : TLe c lk ob (a.write la t) v :=
  ⟨h.cur.sup hs, h.acq.sup (hs.mono w.cur), h.rel⟩

theorem TLe.scFence {a : TV Native.Loc} {v : TV CL} (h : TLe c lk ob a v) {Sa : View Native.Loc}
    {S : View CL} (hS : VLe c lk ob Sa S) :
    TLe c lk ob (a.scFence Sa) (v.scFence S) ∧ VLe c lk ob (a.acq ⊔ Sa) (v.acq ⊔ S) := by
  have : VLe c lk ob (a.acq ⊔ Sa) (v.acq ⊔ S) := (h.acq.mono le_sup_left).sup (hS.mono le_sup_right)
  exact ⟨⟨this, this, this⟩, this⟩

theorem TLe.fence {a : TV Native.Loc} {v : TV CL} (h : TLe c lk ob a v) {Sa : View Native.Loc}
    {S : View CL} (hS : VLe c lk ob Sa S) (o : MemOrd) :
    TLe c lk ob (WM.fence a Sa o).1 (WM.fence v S o).1 ∧
      VLe c lk ob (WM.fence a Sa o).2 (WM.fence v S o).2 := by
  have h1 := h.cur; have h2 := h.acq; have h3 := h.rel
  cases o
  case seqCst => exact h.scFence hS
  all_goals
    refine ⟨⟨?_, ?_, ?_⟩, hS⟩ <;> simp [WM.fence, TV.fence, acqs, rels] <;> assumption

theorem fence_wf {v : TV CL} (w : v.Wf) (S : View CL) (o : MemOrd) :
    (WM.fence v S o).1.Wf ∧ v.Le (WM.fence v S o).1 := by
  cases o
  case seqCst => exact w.scFence S
  all_goals exact w.fence _

theorem forall₂_mem {Y Z : Type} {R : Y → Z → Prop} {l : List Y} {l' : List Z}
    (h : List.Forall₂ R l l') {z : Z} (hz : z ∈ l') : ∃ y ∈ l, R y z := by
  induction h with
  | nil => cases hz
  | @cons y z' l l' hr _ ih =>
    rcases List.mem_cons.1 hz with rfl | hz
    · exact ⟨y, List.mem_cons_self, hr⟩
    · obtain ⟨y', h1, h2⟩ := ih hz
      exact ⟨y', List.mem_cons_of_mem _ h1, h2⟩

theorem forall₂_mem' {Y Z : Type} {R : Y → Z → Prop} {l : List Y} {l' : List Z}
    (h : List.Forall₂ R l l') {y : Y} (hz : y ∈ l) : ∃ z ∈ l', R y z := by
  induction h with
  | nil => cases hz
  | @cons y' z' l l' hr _ ih =>
    rcases List.mem_cons.1 hz with rfl | hz
    · exact ⟨z', List.mem_cons_self, hr⟩
    · obtain ⟨y', h1, h2⟩ := ih hz
      exact ⟨y', List.mem_cons_of_mem _ h1, h2⟩

theorem fresh_ext {f t : Ts} {la : List (Msg Native.Loc X)} {l : List (Msg CL X)}
    (h : List.Forall₂ (MLe c lk ob) la l) (hf : Fresh l f t) : Fresh la f t := by
  refine ⟨hf.1, fun m hm => ?_⟩
  obtain ⟨m', hm', e1, e2, -, -⟩ := forall₂_mem' h hm
  rw [e1, e2]; exact hf.2 m' hm'

/-- A client access of the implementation is one of the specification. -/
theorem client_sim (h0 : ∀ o, (lk (c.lockOf o)).tau ((ob o).vt 0) = 0)
    {a : TV Native.Loc} {v : TV CL} (h : TLe c lk ob a v) (w : v.Wf) {Sa : View Native.Loc}
    {S : View CL} (hS : VLe c lk ob Sa S) {amx : Nat → List (Msg Native.Loc X)}
    {mx mx' : Nat → List (Msg CL X)} (hx : ∀ x, List.Forall₂ (MLe c lk ob) (amx x) (mx x))
    {act : CAct X} {r : Option X} {v' : TV CL} {S' : View CL}
    (hc : Client ext S mx v act r mx' v' S') :
    ∃ amx' a' Sa', Client Native.Loc.ext Sa amx a act r amx' a' Sa' ∧ TLe c lk ob a' v' ∧ v'.Wf ∧
      v.Le v' ∧ VLe c lk ob Sa' S' ∧ ∀ x, List.Forall₂ (MLe c lk ob) (amx' x) (mx' x) := by
  have upd : ∀ x {l : List (Msg CL X)} {al}, List.Forall₂ (MLe c lk ob) al l →
      ∀ y, List.Forall₂ (MLe c lk ob) (Function.update amx x al y) (Function.update mx x l y) := by
    intro x l al hl y
    by_cases e : y = x
    · subst e; simpa using hl
    · simpa [Function.update_of_ne e] using hx y
  cases hc with
  | load x o y v' hl =>
    obtain ⟨m, hm, hv⟩ := hl
    obtain ⟨ma, hma, e1, e2, e3, e4⟩ := forall₂_mem (hx x) hm
    have hl' := v.le_read (ext x) o m
    refine ⟨amx, a.read (.ext x) o ma, Sa, ?_, ?_, w.read .., hl', hS, hx⟩
    · rw [← e3]
      exact .load _ _ _ _ (.mk ma hma (by rw [e2]; exact (h.cur.1 x).trans hv))
    · refine (h.mono hl').read h0 (VLe.ext_single h0 ?_) (w.read ..) ?_ ?_
      · rw [e2]; exact read_cur_self v (ext x) o m
      · exact e4.mono (read_view_acq v (ext x) o m)
      · intro ho; exact e4.mono (read_view_cur v (ext x) o m ho)
  | store x o y ms v' hl =>
    obtain ⟨f, t, hv, hf⟩ := hl
    have hs : VLe c lk ob (single (.ext x) t) (v.write (ext x) t).cur :=
      VLe.ext_single h0 (write_cur_self ..)
    have hl' := v.le_write (ext x) t
    refine ⟨_, _, Sa, .store x o y _ _ (.mk f t ((h.cur.1 x).trans_lt hv) (fresh_ext (hx x) hf)),
      (h.mono hl').write hs (w.write ..), w.write .., hl', hS, upd x (.cons ⟨rfl, rfl, rfl, ?_⟩ (hx x))⟩
    have hs' : VLe c lk ob (single (.ext x) t) (single (ext x) t) := VLe.ext_single h0 (by simp)
    refine VLe.sup ?_ (hs'.mono le_sup_right)
    refine VLe.mono ?_ (le_sup_left (b := single (ext x) t))
    split
    · exact h.cur
    · exact h.rel
  | rmw x g o y ms v' hl =>
    obtain ⟨m, t, hm, hv, hf⟩ := hl
    obtain ⟨ma, hma, e1, e2, e3, e4⟩ := forall₂_mem (hx x) hm
    have hr := v.le_read (ext x) o m
    have hrd : TLe c lk ob (a.read (.ext x) o ma) (v.read (ext x) o m) := by
      refine (h.mono hr).read h0 (VLe.ext_single h0 ?_) (w.read ..) ?_ ?_
      · rw [e2]; exact read_cur_self v (ext x) o m
      · exact e4.mono (read_view_acq v (ext x) o m)
      · intro ho; exact e4.mono (read_view_cur v (ext x) o m ho)
    have hs : VLe c lk ob (single (.ext x) t) ((v.read (ext x) o m).write (ext x) t).cur :=
      VLe.ext_single h0 (write_cur_self ..)
    have hl' := (v.read (ext x) o m).le_write (ext x) t
    rw [← e3]
    have hf' := fresh_ext (hx x) hf
    rw [← e2] at hf'
    refine ⟨_, _, Sa, .rmw x g o _ _ _ (.mk ma t hma (by rw [e2]; exact (h.cur.1 x).trans hv) hf'),
      (hrd.mono hl').write hs ((w.read ..).write ..), (w.read ..).write .., hr.trans hl', hS,
      upd x (.cons ⟨e2, rfl, rfl, ?_⟩ (hx x))⟩
    have hs' : VLe c lk ob (single (.ext x) t) (single (ext x) t) := VLe.ext_single h0 (by simp)
    refine VLe.sup ?_ (e4.mono le_sup_right)
    refine VLe.mono ?_ (le_sup_left (b := m.view))
    refine VLe.sup ?_ (hs'.mono le_sup_right)
    refine VLe.mono ?_ (le_sup_left (b := single (ext x) t))
    split
    · exact hrd.cur
    · exact hrd.rel
  | fence o =>
    have := h.fence hS o
    have hw := fence_wf w S o
    exact ⟨amx, _, _, .fence o, this.1, hw.1, hw.2, this.2, hx⟩

end Lock
end Verif.WM
