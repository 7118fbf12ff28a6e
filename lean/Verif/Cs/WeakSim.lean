import Verif.Cs.WeakInv
import Verif.Spec.Reorder
import Verif.Irq.Sim
/-!
# Critical sections in weak memory: simulation (proof internals)

The operation takes effect, in the specifications (plain cells; native atomics), when its last plain
access has been made.
-/
set_option autoImplicit false
set_option linter.unusedSectionVars false
namespace Verif.WM.Crit
open Verif.Irq (Val after)

variable {n : Nat} {C X : Type} [DecidableEq C]

/-! ## Views of the two machines -/

/-- As far as the client's variables are concerned. -/
def Below (v : View Native.Loc) (w : View (CL n)) : Prop := ∀ a, v (.ext a) ≤ w (.ext a)

/-- No write to an object later than `top` is known. -/
def Cap (top : Obj → Ts) (v : View Native.Loc) : Prop := ∀ o, v (.obj o) ≤ top o

theorem Below.sup {v v' : View Native.Loc} {w w' : View (CL n)} (h : Below v w) (h' : Below v' w') :
    Below (v ⊔ v') (w ⊔ w') := fun a => sup_le_sup (h a) (h' a)
theorem Below.mono {v : View Native.Loc} {w w' : View (CL n)} (h : Below v w) (h' : w ≤ w') : Below v w' :=
  fun a => (h a).trans (h' _)
theorem Below.sup_le {v v' : View Native.Loc} {w : View (CL n)} (h : Below v w) (h' : Below v' w) :
    Below (v ⊔ v') w := fun a => _root_.sup_le (h a) (h' a)
theorem Below.bot (w : View (CL n)) : Below ⊥ w := fun _ => bot_le
theorem Below.single (a : Nat) (t : Ts) : Below (n := n) (single (.ext a) t) (single (.ext a) t) := by
  intro b
  by_cases e : b = a
  · subst e; simp
  · rw [single_ne _ (by simpa using e)]; exact zero_le
theorem Below.single_obj (o : Obj) (t : Ts) (w : View (CL n)) : Below (WM.single (.obj o) t) w := by
  intro b
  rw [single_ne _ (by simp)]; exact zero_le
theorem Below.ite {p : Bool} {v v' : View Native.Loc} {w w' : View (CL n)} (h : Below v w) (h' : Below v' w') :
    Below (if p = true then v else v') (if p = true then w else w') := by
  cases p <;> simpa

theorem Cap.sup {top : Obj → Ts} {v v' : View Native.Loc} (h : Cap top v) (h' : Cap top v') :
    Cap top (v ⊔ v') := fun o => sup_le (h o) (h' o)
theorem Cap.bot (top : Obj → Ts) : Cap top ⊥ := fun _ => bot_le
theorem Cap.single_ext (top : Obj → Ts) (a : Nat) (t : Ts) : Cap top (single (.ext a) t) := by
  intro o
  rw [single_ne _ (by simp)]; exact zero_le
theorem Cap.single_obj {top : Obj → Ts} {o : Obj} {t : Ts} (h : t ≤ top o) : Cap top (single (.obj o) t) := by
  intro o'
  by_cases e : o' = o
  · subst e; simpa using h
  · rw [single_ne _ (by simpa using e)]; exact zero_le
theorem Cap.ite {p : Bool} {top : Obj → Ts} {v v' : View Native.Loc} (h : Cap top v) (h' : Cap top v') :
    Cap top (if p = true then v else v') := by
  cases p <;> simpa
theorem Cap.mono {top top' : Obj → Ts} {v : View Native.Loc} (h : Cap top v) (h' : ∀ o, top o ≤ top' o) :
    Cap top' v := fun o => (h o).trans (h' o)

structure TVBelow (top : Obj → Ts) (v : TV Native.Loc) (w : TV (CL n)) : Prop where
  cur : Below v.cur w.cur
  acq : Below v.acq w.acq
  rel : Below v.rel w.rel
  ccur : Cap top v.cur
  cacq : Cap top v.acq
  crel : Cap top v.rel

theorem TVBelow.cap {top top' : Obj → Ts} {v : TV Native.Loc} {w : TV (CL n)} (h : TVBelow top v w)
    (h' : ∀ o, top o ≤ top' o) : TVBelow top' v w :=
  ⟨h.cur, h.acq, h.rel, h.ccur.mono h', h.cacq.mono h', h.crel.mono h'⟩

/-- Corresponding writes to a variable of the client. -/
structure MsgRel (top : Obj → Ts) (a : Msg Native.Loc X) (b : Msg (CL n) X) : Prop where
  frm : a.frm = b.frm
  ts : a.ts = b.ts
  val : a.val = b.val
  view : Below a.view b.view
  cap : Cap top a.view

def MxRel (top : Obj → Ts) (nm : Nat → List (Msg Native.Loc X)) (m : Nat → List (Msg (CL n) X)) : Prop :=
  ∀ a, List.Forall₂ (MsgRel top) (nm a) (m a)

theorem MxRel.cap {top top' : Obj → Ts} {nm : Nat → List (Msg Native.Loc X)} {m : Nat → List (Msg (CL n) X)}
    (h : MxRel top nm m) (h' : ∀ o, top o ≤ top' o) : MxRel top' nm m :=
  fun a => (h a).imp fun _ _ k => ⟨k.frm, k.ts, k.val, k.view, k.cap.mono h'⟩

theorem forall₂_right {A B : Type} {R : A → B → Prop} {as : List A} {bs : List B} (h : List.Forall₂ R as bs)
    {b : B} (hb : b ∈ bs) : ∃ a ∈ as, R a b := by
  induction h with
  | nil => cases hb
  | cons hr _ ih =>
    rcases List.mem_cons.1 hb with rfl | hb
    · exact ⟨_, List.mem_cons_self, hr⟩
    · obtain ⟨a, ha, hr⟩ := ih hb
      exact ⟨a, List.mem_cons_of_mem _ ha, hr⟩

theorem forall₂_left {A B : Type} {R : A → B → Prop} {as : List A} {bs : List B} (h : List.Forall₂ R as bs)
    {a : A} (ha : a ∈ as) : ∃ b ∈ bs, R a b := by
  induction h with
  | nil => cases ha
  | cons hr _ ih =>
    rcases List.mem_cons.1 ha with rfl | ha
    · exact ⟨_, List.mem_cons_self, hr⟩
    · obtain ⟨a, ha, hr⟩ := ih ha
      exact ⟨a, List.mem_cons_of_mem _ ha, hr⟩

theorem fresh_rel {top : Obj → Ts} {nm : List (Msg Native.Loc X)} {m : List (Msg (CL n) X)}
    (h : List.Forall₂ (MsgRel top) nm m) {f t : Ts} (hf : Fresh m f t) : Fresh nm f t := by
  refine ⟨hf.1, fun a ha => ?_⟩
  obtain ⟨b, hb, k⟩ := forall₂_left h ha
  have := hf.2 b hb
  rw [k.frm, k.ts]; exact this

theorem read_rel {top : Obj → Ts} {v : TV Native.Loc} {w : TV (CL n)} (h : TVBelow top v w) (a : Nat) (o : MemOrd)
    {p : Msg Native.Loc X} {q : Msg (CL n) X} (k : MsgRel top p q) :
    TVBelow top (v.read (.ext a) o p) (w.read (.ext a) o q) := by
  have hs : Below (n := n) (single (.ext a) p.ts) (single (.ext a) q.ts) := by
    rw [k.ts]; exact Below.single a _
  refine ⟨?_, ?_, h.rel, ?_, ?_, h.crel⟩
  · exact (h.cur.sup hs).sup (k.view.ite (Below.bot _))
  · exact (h.acq.sup hs).sup k.view
  · exact (h.ccur.sup (Cap.single_ext _ _ _)).sup (k.cap.ite (Cap.bot _))
  · exact (h.cacq.sup (Cap.single_ext _ _ _)).sup k.cap

theorem write_rel {top : Obj → Ts} {v : TV Native.Loc} {w : TV (CL n)} (h : TVBelow top v w) (a : Nat) (t : Ts) :
    TVBelow top (v.write (.ext a) t) (w.write (.ext a) t) :=
  ⟨h.cur.sup (Below.single a t), h.acq.sup (Below.single a t), h.rel,
    h.ccur.sup (Cap.single_ext _ _ _), h.cacq.sup (Cap.single_ext _ _ _), h.crel⟩

theorem msgView_rel {top : Obj → Ts} {v : TV Native.Loc} {w : TV (CL n)} (h : TVBelow top v w) (a : Nat) (t : Ts)
    (o : MemOrd) : Below (v.msgView (.ext a) t o) (w.msgView (.ext a) t o) ∧ Cap top (v.msgView (.ext a) t o) :=
  ⟨(h.cur.ite h.rel).sup (Below.single a t), (h.ccur.ite h.crel).sup (Cap.single_ext _ _ _)⟩

theorem fence_rel {top : Obj → Ts} {v : TV Native.Loc} {w : TV (CL n)} (h : TVBelow top v w)
    {S : View Native.Loc} {T : View (CL n)} (hs : Below S T) (hc : Cap top S) (o : MemOrd) :
    TVBelow top (fence v S o).1 (fence w T o).1 ∧ Below (fence v S o).2 (fence w T o).2 ∧
      Cap top (fence v S o).2 := by
  have h1 := h.acq.sup hs
  have h2 := h.cacq.sup hc
  cases o <;> simp only [fence, TV.fence, TV.scFence, acqs, rels, if_true, if_false, Bool.false_eq_true]
  · exact ⟨h, hs, hc⟩
  · exact ⟨⟨h.cur, h.acq, h.cur, h.ccur, h.cacq, h.ccur⟩, hs, hc⟩
  · exact ⟨⟨h.acq, h.acq, h.rel, h.cacq, h.cacq, h.crel⟩, hs, hc⟩
  · exact ⟨⟨h.acq, h.acq, h.acq, h.cacq, h.cacq, h.cacq⟩, hs, hc⟩
  · exact ⟨⟨h1, h1, h1, h2, h2, h2⟩, h1, h2⟩

/-- The client's own accesses. -/
theorem client_rel {top : Obj → Ts} {S : View Native.Loc} {T T' : View (CL n)} {nm : Nat → List (Msg Native.Loc X)}
    {m m' : Nat → List (Msg (CL n) X)} {v : TV Native.Loc} {w w' : TV (CL n)} (hm : MxRel top nm m)
    (hv : TVBelow top v w) (hs : Below S T) (hc : Cap top S) {act : CAct X} {r : Option X}
    (c : Client CL.ext T m w act r m' w' T') :
    ∃ nm' v' S', Client Native.Loc.ext S nm v act r nm' v' S' ∧ MxRel top nm' m' ∧ TVBelow top v' w' ∧
      Below S' T' ∧ Cap top S' := by
  have upd : ∀ {a : Nat} {l : List (Msg Native.Loc X)} {l' : List (Msg (CL n) X)},
      List.Forall₂ (MsgRel top) l l' → MxRel top (Function.update nm a l) (Function.update m a l') := by
    intro a l l' h b
    by_cases e : b = a
    · subst e; simpa only [Function.update_self] using h
    · simpa only [Function.update_of_ne e] using hm b
  cases c with
  | load a o x v' h =>
    cases h with
    | mk q hq hle =>
      obtain ⟨p, hp, k⟩ := forall₂_right (hm a) hq
      refine ⟨nm, _, S, .load a o _ _ ?_, hm, read_rel hv a o k, hs, hc⟩
      rw [← k.val]
      exact .mk p hp ((hv.cur a).trans (hle.trans (le_of_eq k.ts.symm)))
  | store a o x ms v' h =>
    cases h with
    | mk f t hlt hf =>
      refine ⟨_, _, S, .store a o x _ _ (.mk f t (lt_of_le_of_lt (hv.cur a) hlt) (fresh_rel (hm a) hf)),
        upd (.cons ⟨rfl, rfl, rfl, (msgView_rel hv a t o).1, (msgView_rel hv a t o).2⟩ (hm a)),
        write_rel hv a t, hs, hc⟩
  | rmw a g o x ms v' h =>
    cases h with
    | mk q t hq hle hf =>
      obtain ⟨p, hp, k⟩ := forall₂_right (hm a) hq
      have hr := read_rel hv a o k
      have hmv := msgView_rel hr a t o
      have hR := Rmw.mk (ms := nm a) (v := v) (l := .ext a) (o := o) (g := g) p t hp
        ((hv.cur a).trans (hle.trans (le_of_eq k.ts.symm))) (by rw [k.ts]; exact fresh_rel (hm a) hf)
      rw [k.val] at hR
      exact ⟨_, _, S, .rmw a g o _ _ _ hR,
        upd (.cons ⟨k.ts, rfl, rfl, hmv.1.sup k.view, hmv.2.sup k.cap⟩ (hm a)),
        write_rel hr a t, hs, hc⟩
  | fence o =>
    have := fence_rel hv hs hc o
    exact ⟨nm, _, _, .fence o, hm, this.1, this.2.1, this.2.2⟩

/-! ## Operations of the specification on the latest write -/

/-- The latest write has timestamp `τ` and value `x`. -/
def Latest {L Y : Type} (ms : List (Msg L Y)) (τ : Ts) (x : Y) : Prop :=
  ∃ m ms', ms = m :: ms' ∧ m.val = x ∧ m.ts = τ ∧ ∀ m' ∈ ms', m'.ts ≤ τ

/-- The views carried by the writes are known to `w`. -/
def Carried {V : Type} (top : Obj → Ts) (ms : List (Msg Native.Loc V)) (w : View (CL n)) : Prop :=
  ∀ m ∈ ms, Below m.view w ∧ Cap top m.view

/-- Outcome of an access to `o`. -/
structure Done {V : Type} (top : Obj → Ts) (o : Obj) (ms' : List (Msg Native.Loc V)) (v' : TV Native.Loc) (w : TV (CL n))
    (y : V) (τ' : Ts) : Prop where
  le : top o ≤ τ'
  latest : Latest ms' τ' y
  carried : Carried (Function.update top o τ') ms' w.cur
  tv : TVBelow (Function.update top o τ') v' w

theorem top_le {top : Obj → Ts} {o : Obj} {τ' : Ts} (h : top o ≤ τ') (o' : Obj) :
    top o' ≤ Function.update top o τ' o' := by
  by_cases e : o' = o
  · subst e; rw [Function.update_self]; exact h
  · rw [Function.update_of_ne e]

section
variable {V : Type} {top : Obj → Ts} {o : Obj} {ms : List (Msg Native.Loc V)} {v : TV Native.Loc} {w : TV (CL n)}

theorem read_obj (hw : w.Wf) (hv : TVBelow top v w) {m : Msg Native.Loc V} (hb : Below m.view w.cur)
    (hc : Cap top m.view) (ht : m.ts ≤ top o) (ord : MemOrd) : TVBelow top (v.read (.obj o) ord m) w := by
  refine ⟨?_, ?_, hv.rel, ?_, ?_, hv.crel⟩
  · refine (hv.cur.sup_le (Below.single_obj _ _ _)).sup_le ?_
    split
    · exact hb
    · exact Below.bot _
  · exact (hv.acq.sup_le (Below.single_obj _ _ _)).sup_le (hb.mono hw.cur)
  · exact (hv.ccur.sup (Cap.single_obj ht)).sup (hc.ite (Cap.bot _))
  · exact (hv.cacq.sup (Cap.single_obj ht)).sup hc

theorem write_obj (hv : TVBelow top v w) {t : Ts} (ht : t ≤ top o) : TVBelow top (v.write (.obj o) t) w :=
  ⟨hv.cur.sup_le (Below.single_obj _ _ _), hv.acq.sup_le (Below.single_obj _ _ _), hv.rel,
    hv.ccur.sup (Cap.single_obj ht), hv.cacq.sup (Cap.single_obj ht), hv.crel⟩

theorem msgView_obj (hw : w.Wf) (hv : TVBelow top v w) {t : Ts} (ht : t ≤ top o) (ord : MemOrd) :
    Below (v.msgView (.obj o) t ord) w.cur ∧ Cap top (v.msgView (.obj o) t ord) := by
  refine ⟨Below.sup_le ?_ (Below.single_obj _ _ _), (hv.ccur.ite hv.crel).sup (Cap.single_obj ht)⟩
  split
  · exact hv.cur
  · exact hv.rel.mono hw.rel

theorem load_obj {x : V} (hw : w.Wf) (hv : TVBelow top v w) (hl : Latest ms (top o) x)
    (hc : Carried top ms w.cur) (ord : MemOrd) :
    ∃ v', Load ms v (.obj o) ord x v' ∧ Done top o ms v' w x (top o) := by
  obtain ⟨m, ms', rfl, hx, ht, hle⟩ := hl
  have hm := hc m List.mem_cons_self
  refine ⟨v.read (.obj o) ord m, ?_, le_rfl, ⟨m, ms', rfl, hx, ht, hle⟩, ?_, ?_⟩
  · rw [← hx]; exact .mk m List.mem_cons_self ((hv.ccur o).trans (le_of_eq ht.symm))
  · rw [Function.update_eq_self]; exact hc
  · rw [Function.update_eq_self]; exact read_obj hw hv hm.1 hm.2 (le_of_eq ht) ord

theorem store_obj {x y : V} (hw : w.Wf) (hv : TVBelow top v w) (hl : Latest ms (top o) x)
    (hc : Carried top ms w.cur) (ord : MemOrd) :
    ∃ ms' v', Store ms v (.obj o) ord y ms' v' ∧ Done top o ms' v' w y (top o + 1) := by
  obtain ⟨m, ms', rfl, hx, ht, hle⟩ := hl
  have hlt : top o < top o + 1 := lt_add_one _
  have hle' : ∀ m' ∈ m :: ms', m'.ts ≤ top o := by
    intro m' hm'
    rcases List.mem_cons.1 hm' with rfl | hm'
    · exact le_of_eq ht
    · exact hle m' hm'
  have hv' := hv.cap (top_le (top := top) (o := o) hlt.le)
  have hself : top o + 1 ≤ Function.update top o (top o + 1) o := by rw [Function.update_self]
  refine ⟨_, _, .mk (top o) (top o + 1) (lt_of_le_of_lt (hv.ccur o) hlt) ⟨hlt, fun m' hm' => .inr (hle' m' hm')⟩,
    hlt.le, ⟨_, _, rfl, rfl, rfl, fun m' hm' => (hle' m' hm').trans hlt.le⟩, ?_, write_obj hv' hself⟩
  intro m' hm'
  rcases List.mem_cons.1 hm' with rfl | hm'
  · exact msgView_obj hw hv' hself ord
  · exact ⟨(hc m' hm').1, (hc m' hm').2.mono (top_le hlt.le)⟩

theorem rmw_obj {x : V} (f : V → V) (hw : w.Wf) (hv : TVBelow top v w) (hl : Latest ms (top o) x)
    (hc : Carried top ms w.cur) (ord : MemOrd) :
    ∃ ms' v', Rmw ms v (.obj o) ord f x ms' v' ∧ Done top o ms' v' w (f x) (top o + 1) := by
  obtain ⟨m, ms', rfl, hx, ht, hle⟩ := hl
  have hlt : top o < top o + 1 := lt_add_one _
  have hle' : ∀ m' ∈ m :: ms', m'.ts ≤ top o := by
    intro m' hm'
    rcases List.mem_cons.1 hm' with rfl | hm'
    · exact le_of_eq ht
    · exact hle m' hm'
  have hm := hc m List.mem_cons_self
  have hv' := hv.cap (top_le (top := top) (o := o) hlt.le)
  have hself : top o + 1 ≤ Function.update top o (top o + 1) o := by rw [Function.update_self]
  have hr := read_obj (o := o) hw hv' hm.1 (hm.2.mono (top_le hlt.le)) ((le_of_eq ht).trans (hlt.le.trans hself)) ord
  have hR := Rmw.mk (ms := m :: ms') (v := v) (l := .obj o) (o := ord) (g := f) m (top o + 1) List.mem_cons_self
    ((hv.ccur o).trans (le_of_eq ht.symm)) ⟨by rw [ht]; exact hlt, fun m' hm' => .inr (by rw [ht]; exact hle' m' hm')⟩
  rw [hx] at hR
  refine ⟨_, _, hR, hlt.le, ⟨_, _, rfl, rfl, rfl, fun m' hm' => (hle' m' hm').trans hlt.le⟩, ?_, write_obj hr hself⟩
  intro m' hm'
  rcases List.mem_cons.1 hm' with rfl | hm'
  · have := msgView_obj hw hr hself ord
    exact ⟨this.1.sup_le hm.1, this.2.sup (hm.2.mono (top_le hlt.le))⟩
  · exact ⟨(hc m' hm').1, (hc m' hm').2.mono (top_le hlt.le)⟩

/-- The native operation, on the latest write, does what the plain cell does. -/
theorem access_obj [DecidableEq V] {x : V} {op op' : Op V} (hs : SameOp op op') (hok : op.ordOk = true)
    (hn : NoSeqCst op') (hw : w.Wf) (hv : TVBelow top v w) (hl : Latest ms (top o) x)
    (hc : Carried top ms w.cur) :
    ∃ ord ms' v' τ', Native.Access ms v (.obj o) op' ord ms' v' (op.onCell x).2 ∧ ord ≠ .seqCst ∧
      Done top o ms' v' w (op.onCell x).1 τ' := by
  cases op with
  | load ord =>
    cases op' with
    | load ord' =>
      obtain ⟨v', h1, h2⟩ := load_obj hw hv hl hc ord'
      refine ⟨ord', ms, v', top o, ?_, hn, ?_⟩
      · simp only [Op.onCell, hok, if_true]; exact .load ord' x v' h1
      · simpa only [Op.onCell, hok, if_true] using h2
    | _ => exact hs.elim
  | store y ord =>
    cases op' with
    | store y' ord' =>
      obtain rfl : y = y' := hs
      obtain ⟨ms', v', h1, h2⟩ := store_obj (y := y) hw hv hl hc ord'
      refine ⟨ord', ms', v', top o + 1, ?_, hn, ?_⟩
      · simp only [Op.onCell, hok, if_true]; exact .store y ord' ms' v' h1
      · simpa only [Op.onCell, hok, if_true] using h2
    | _ => exact hs.elim
  | swap y ord =>
    cases op' with
    | swap y' ord' =>
      obtain rfl : y = y' := hs
      obtain ⟨ms', v', h1, h2⟩ := rmw_obj (fun _ => y) hw hv hl hc ord'
      refine ⟨ord', ms', v', top o + 1, ?_, hn, ?_⟩
      · simp only [Op.onCell, hok, if_true]; exact .swap y ord' x ms' v' h1
      · simpa only [Op.onCell, hok, if_true] using h2
    | _ => exact hs.elim
  | rmw f ord =>
    cases op' with
    | rmw f' ord' =>
      obtain rfl : f = f' := hs
      obtain ⟨ms', v', h1, h2⟩ := rmw_obj f hw hv hl hc ord'
      refine ⟨ord', ms', v', top o + 1, ?_, hn, ?_⟩
      · simp only [Op.onCell, hok, if_true]; exact .rmw f ord' x ms' v' h1
      · simpa only [Op.onCell, hok, if_true] using h2
    | _ => exact hs.elim
  | cas c d sc fl =>
    cases op' with
    | cas c' d' sc' fl' =>
      obtain ⟨rfl, rfl⟩ : c = c' ∧ d = d' := hs
      by_cases e : x = c
      · subst e
        obtain ⟨ms', v', h1, h2⟩ := rmw_obj (fun _ => d) hw hv hl hc sc'
        refine ⟨sc', ms', v', top o + 1, ?_, hn.1, ?_⟩
        · simp only [Op.onCell, hok, if_true]; exact .casOk x d sc' fl' ms' v' h1
        · simpa only [Op.onCell, hok, if_true] using h2
      · obtain ⟨v', h1, h2⟩ := load_obj hw hv hl hc fl'
        refine ⟨fl', ms, v', top o, ?_, hn.2, ?_⟩
        · simp only [Op.onCell, hok, if_true, if_neg e]; exact .casErr c d sc' fl' x v' h1 e
        · simpa only [Op.onCell, hok, if_true, if_neg e] using h2
    | _ => exact hs.elim

end

/-! ## The simulation -/

/-- Where the context is, in the code and in the two specifications. -/
def At (g : Op (Val n C) → Op (Val n C)) : Pc n C → Native.Pc (Val n C) → Atomic.Th (Val n C) → Prop
  | .idle, p, q => p = .idle ∧ q = .idle
  | .start o op, p, q => p = .todo o (g op) false ∧ q = .pending o op
  | .acq o op, p, q => p = .todo o (g op) false ∧ q = .pending o op ∧ op.ordOk = true
  | .rd o op _, p, q => p = .todo o (g op) false ∧ q = .pending o op ∧ op.ordOk = true
  | .wr o op _ _ _, p, q => p = .todo o (g op) false ∧ q = .pending o op ∧ op.ordOk = true
  | .rel _ _ r, p, q => p = .fin r false ∧ q = .done r
  | .fin r, p, q => p = .fin r false ∧ q = .done r

/-- What an operation in progress has read or written. -/
def MemAt (w cell : Obj → Val n C) : Pc n C → Prop
  | .rd o _ buf => ∀ i x, buf i = some x → cell o i = x
  | .wr o op new wrote r =>
      (∀ i, w o i = if wrote i then new i else cell o i) ∧ op.onCell (cell o) = (new, r)
  | _ => True

/-- Is this object being written? -/
def writing (o : Obj) : Pc n C → Prop
  | .wr o' _ _ _ _ => o' = o
  | _ => False

/-- `w`: the latest values of the words. -/
structure Rel (g : Op (Val n C) → Op (Val n C)) (s : State n C X) (w : Obj → Val n C) (ns : Native.State (Val n C) X)
    (as : Atomic.State (Val n C)) (top : Obj → Ts) : Prop where
  inv : Inv s
  head : ∀ o i, Head (s.mem o i) (w o i)
  at_ : ∀ t, At g (s.pc t) (ns.pc t) (as.th t)
  memAt : ∀ t, MemAt w as.cell (s.pc t)
  mem : ∀ o, (∀ t, ¬ writing o (s.pc t)) → w o = as.cell o
  latest : ∀ o, Latest (ns.mo o) (top o) (as.cell o)
  carried : ∀ v, s.Lock v → ∀ o, Carried top (ns.mo o) v
  tv : ∀ t, TVBelow top (ns.tv t) (s.tv t)
  sc : Below ns.sc s.sc ∧ Cap top ns.sc
  mx : MxRel top ns.mx s.mx

variable {g : Op (Val n C) → Op (Val n C)} {s s' : State n C X} {w : Obj → Val n C} {ns : Native.State (Val n C) X}
  {as : Atomic.State (Val n C)} {top : Obj → Ts}

theorem writing_inside {o : Obj} {p : Pc n C} (h : writing o p) : inside p = true := by
  cases p <;> first | rfl | exact h.elim

/-- Two contexts are never inside their critical sections together. -/
theorem Inv.alone (I : Inv s) {t u : Tid} (ht : inside (s.pc t) = true) (hu : inside (s.pc u) = true) : u = t :=
  I.excl u t (I.ins u hu) (I.ins t ht)

theorem tv_mono {v : TV Native.Loc} {a b : TV (CL n)} (h : TVBelow top v a) (hc : a.cur ≤ b.cur) (ha : a.acq ≤ b.acq)
    (hr : a.rel ≤ b.rel) : TVBelow top v b :=
  ⟨h.cur.mono hc, h.acq.mono ha, h.rel.mono hr, h.ccur, h.cacq, h.crel⟩

theorem tv_le {v : TV Native.Loc} {a b : TV (CL n)} (h : TVBelow top v a) (hl : a.Le b) : TVBelow top v b :=
  tv_mono h hl.cur hl.acq hl.rel

/-- Steps the specifications do not see. -/
theorem Rel.quiet (R : Rel g s w ns as top) (I : Inv s') (G : Grow s s') {w' : Obj → Val n C}
    (hd : ∀ o i, Head (s'.mem o i) (w' o i)) (ha : ∀ t, At g (s'.pc t) (ns.pc t) (as.th t))
    (hm : ∀ t, MemAt w' as.cell (s'.pc t)) (he : ∀ o, (∀ t, ¬ writing o (s'.pc t)) → w' o = as.cell o)
    (hv : ∀ t, (s.tv t).Le (s'.tv t)) (hs : s'.sc = s.sc) (hx : s'.mx = s.mx) : Rel g s' w' ns as top := by
  refine ⟨I, hd, ha, hm, he, R.latest, fun v' hv' o m hm => ?_, fun t => tv_le (R.tv t) (hv t), hs ▸ R.sc, hx ▸ R.mx⟩
  obtain ⟨v0, h0, hl⟩ := G.lock v' hv'
  have := R.carried v0 h0 o m hm
  exact ⟨this.1.mono hl, this.2⟩

/-- Moving to another program point. -/
theorem Rel.move (R : Rel g s w ns as top) {t : Tid} {p : Pc n C} (I : Inv (s.goto t p))
    (ha : At g p (ns.pc t) (as.th t)) (hm : MemAt w as.cell p)
    (he : ∀ o, ¬ writing o p → writing o (s.pc t) → w o = as.cell o) : Rel g (s.goto t p) w ns as top := by
  refine R.quiet I (grow_goto t p) R.head (fun u => ?_) (fun u => ?_) (fun o ho => ?_) (fun _ => TV.Le.refl _) rfl rfl
  · by_cases e : u = t
    · subst e; simpa only [State.goto, Function.update_self] using ha
    · simpa only [State.goto, Function.update_of_ne e] using R.at_ u
  · by_cases e : u = t
    · subst e; simpa only [State.goto, Function.update_self] using hm
    · simpa only [State.goto, Function.update_of_ne e] using R.memAt u
  · by_cases hw : writing o (s.pc t)
    · refine he o ?_ hw
      have := ho t
      simpa only [State.goto, Function.update_self] using this
    · refine R.mem o (fun u => ?_)
      by_cases e : u = t
      · subst e; exact hw
      · have := ho u
        simpa only [State.goto, Function.update_of_ne e] using this

theorem enter_le (s : State n C X) (t u : Tid) : (s.tv u).Le ((s.enter t).tv u) := by
  unfold State.enter
  by_cases h : s.held t = 0
  · simp only [h, if_true]
    by_cases e : u = t
    · subst e; rw [Function.update_self]; exact ⟨le_sup_left, le_sup_left, le_rfl⟩
    · rw [Function.update_of_ne e]; exact TV.Le.refl _
  · simp only [if_neg h]; exact TV.Le.refl _

theorem Rel.enter (R : Rel g s w ns as top) {t : Tid} (hf : s.free t) : Rel g (s.enter t) w ns as top :=
  R.quiet (R.inv.enter hf) (grow_enter R.inv.wf hf) R.head R.at_ R.memAt R.mem (enter_le s t) rfl rfl

theorem Rel.leave (R : Rel g s w ns as top) {t : Tid} (hh : s.held t ≠ 0) (ho : inside (s.pc t) = false) :
    Rel g (s.leave t) w ns as top :=
  R.quiet (R.inv.leave hh ho) (grow_leave R.inv.excl hh) R.head R.at_ R.memAt R.mem (fun _ => TV.Le.refl _) rfl rfl

/-- The last plain access has been made: the operation takes effect. -/
theorem Rel.commit (hg : Reorders g) (R : Rel g s w ns as top) {t : Tid} {o : Obj} {op : Op (Val n C)} {r : Res (Val n C)}
    (hin : inside (s.pc t) = true) (hat : ns.pc t = .todo o (g op) false) (hth : as.th t = .pending o op)
    (hok : op.ordOk = true) (hw : ∀ o', writing o' (s.pc t) → o' = o) (hc : op.onCell (as.cell o) = (w o, r)) :
    ∃ ns' as' top', Rel g (s.goto t (.rel o op r)) w ns' as' top' ∧ Native.Step ns none ns' ∧
      Atomic.Step as none as' := by
  obtain ⟨h1, h2, h3⟩ := hg op
  have hh := R.inv.ins t hin
  obtain ⟨ord, ms', v', τ', ha, hns, hd⟩ := access_obj (o := o) h1 hok h3 (R.inv.wf t) (R.tv t) (R.latest o)
    (R.carried _ (.held t hh) o)
  rw [hc] at ha hd
  have st := Native.Step.access ns t o (g op) false ord ms' v' r hat (h2.trans hok) ha (fun e => absurd e hns)
  have st' := Atomic.Step.commit as t o op hth
  refine ⟨_, _, Function.update top o τ', ?_, st, st'⟩
  have hle : ∀ o', top o' ≤ Function.update top o τ' o' := top_le hd.le
  have alone : ∀ u, u ≠ t → inside (s.pc u) = false := by
    intro u hu
    cases h : inside (s.pc u) with
    | false => rfl
    | true => exact absurd (R.inv.alone hin h) hu
  have hcell : Function.update as.cell o (op.onCell (as.cell o)).1 = Function.update as.cell o (w o) := by rw [hc]
  refine ⟨R.inv.goto t _ (fun _ => hh), R.head, fun u => ?_, fun u => ?_, fun o' ho' => ?_, fun o' => ?_,
    fun v hv o' => ?_, fun u => ?_, ⟨R.sc.1, R.sc.2.mono hle⟩, R.mx.cap hle⟩
  · by_cases e : u = t
    · subst e
      simp only [State.goto, Native.State.goto, Function.update_self, hc]
      refine ⟨?_, rfl⟩
      simp [hns]
    · simpa only [State.goto, Native.State.goto, Function.update_of_ne e] using R.at_ u
  · by_cases e : u = t
    · subst e; simp only [State.goto, Function.update_self]; trivial
    · simp only [State.goto, Function.update_of_ne e]
      have := alone u e
      cases hp : s.pc u <;> first | trivial | (rw [hp] at this; cases this)
  · show w o' = Function.update as.cell o (op.onCell (as.cell o)).1 o'
    rw [hcell]
    by_cases e : o' = o
    · subst e; rw [Function.update_self]
    · rw [Function.update_of_ne e]
      refine R.mem o' (fun u hu => ?_)
      by_cases e' : u = t
      · subst e'; exact e (hw o' hu)
      · have := ho' u
        simp only [State.goto, Function.update_of_ne e'] at this
        exact this hu
  · show Latest (Function.update ns.mo o ms' o') _ (Function.update as.cell o (op.onCell (as.cell o)).1 o')
    rw [hcell]
    by_cases e : o' = o
    · subst e; simp only [Function.update_self]; exact hd.latest
    · simp only [Function.update_of_ne e]; exact R.latest o'
  · have hv0 := Lock.goto.1 hv
    have hv1 : v = (s.tv t).cur := by
      cases hv0 with
      | free h => exact absurd (h t) hh
      | held u hu => obtain rfl := R.inv.excl u t hu hh; rfl
    show Carried _ (Function.update ns.mo o ms' o') v
    by_cases e : o' = o
    · subst e; rw [Function.update_self, hv1]; exact hd.carried
    · rw [Function.update_of_ne e]
      intro m hm
      have := R.carried v hv0 o' m hm
      exact ⟨this.1, this.2.mono hle⟩
  · show TVBelow _ (Function.update ns.tv t v' u) (s.tv u)
    by_cases e : u = t
    · subst e; rw [Function.update_self]; exact hd.tv
    · rw [Function.update_of_ne e]; exact (R.tv u).cap hle

theorem sim_step (hg : Reorders g) {e : Option (Ev (Val n C) X)} (R : Rel g s w ns as top) (st : Step s e s') :
    ∃ w' ns' as' top', Rel g s' w' ns' as' top' ∧
      match e with
      | none => (ns' = ns ∨ Native.Step ns none ns') ∧ (as' = as ∨ Atomic.Step as none as')
      | some ev => Native.Step ns (some (ev.reord g)) ns' ∧
          match ev.call with
          | none => as' = as
          | some oe => Atomic.Step as (some oe) as' := by
  have IG := step_inv R.inv st
  cases st with
  | inv t o op h =>
    have ha := R.at_ t; rw [h] at ha
    refine ⟨w, ns.goto t (.todo o (g op) false), { as with th := Function.update as.th t (.pending o op) }, top, ?_,
      .inv ns t o (g op) ha.1, .inv as t o op ha.2⟩
    refine ⟨IG.1, R.head, fun u => ?_, fun u => ?_, fun o' ho' => ?_, R.latest, fun v hv => R.carried v (Lock.goto.1 hv),
      R.tv, R.sc, R.mx⟩
    · by_cases e : u = t
      · subst e; simp only [State.goto, Native.State.goto, Function.update_self]; exact ⟨rfl, rfl⟩
      · simpa only [State.goto, Native.State.goto, Function.update_of_ne e] using R.at_ u
    · by_cases e : u = t
      · subst e; simp only [State.goto, Function.update_self]; trivial
      · simpa only [State.goto, Function.update_of_ne e] using R.memAt u
    · refine R.mem o' (fun u => ?_)
      by_cases e : u = t
      · subst e; rw [h]; exact id
      · have := ho' u; simpa only [State.goto, Function.update_of_ne e] using this
  | panic t o op h ho =>
    have ha := R.at_ t; rw [h] at ha
    have hc : op.onCell (as.cell o) = (as.cell o, .panic) := by simp [Op.onCell, ho]
    have st' := Atomic.Step.commit as t o op ha.2
    rw [hc] at st'
    refine ⟨w, ns.goto t (.fin .panic false), _, top, ?_, .inr (.panic ns t o (g op) false ha.1 ((hg op).2.1.trans ho)),
      .inr st'⟩
    have hcell : Function.update as.cell o (as.cell o) = as.cell := Function.update_eq_self ..
    refine ⟨IG.1, R.head, fun u => ?_, fun u => ?_, fun o' ho' => ?_, ?_, fun v hv => R.carried v (Lock.goto.1 hv),
      R.tv, R.sc, R.mx⟩
    · by_cases e : u = t
      · subst e; simp only [State.goto, Native.State.goto, Function.update_self]; exact ⟨rfl, rfl⟩
      · simpa only [State.goto, Native.State.goto, Function.update_of_ne e] using R.at_ u
    · show MemAt w (Function.update as.cell o (as.cell o)) _
      rw [hcell]
      by_cases e : u = t
      · subst e; simp only [State.goto, Function.update_self]; trivial
      · simpa only [State.goto, Function.update_of_ne e] using R.memAt u
    · show _ = Function.update as.cell o (as.cell o) o'
      rw [hcell]
      refine R.mem o' (fun u => ?_)
      by_cases e : u = t
      · subst e; rw [h]; exact id
      · have := ho' u; simpa only [State.goto, Function.update_of_ne e] using this
    · show ∀ o', Latest (ns.mo o') (top o') (Function.update as.cell o (as.cell o) o')
      rw [hcell]; exact R.latest
  | check t o op h ho =>
    have ha := R.at_ t; rw [h] at ha
    exact ⟨w, ns, as, top, R.move IG.1 ⟨ha.1, ha.2, ho⟩ trivial (fun o' _ hw => by rw [h] at hw; exact hw.elim),
      .inl rfl, .inl rfl⟩
  | acq t o op h hf =>
    have ha := R.at_ t; rw [h] at ha
    have hno : ∀ u, ¬ writing o (s.pc u) := by
      intro u hw
      have h5 := R.inv.ins u (writing_inside hw)
      by_cases hu : u = t
      · subst hu; rw [h] at hw; exact hw
      · exact h5 (hf u hu)
    have R1 := R.enter hf
    refine ⟨w, ns, as, top, R1.move IG.1 ?_ ?_ (fun o' _ hw => ?_), .inl rfl, .inl rfl⟩
    · cases op <;> exact ha
    · cases op with
      | store v ord =>
        refine ⟨fun i => ?_, ?_⟩
        · simp [R.mem o hno]
        · simp only [Op.onCell, ha.2.2, if_true]
      | _ => intro i x hx; cases hx
    · have hw' : writing o' (s.pc t) := hw
      rw [h] at hw'; exact hw'.elim
  | rd t o op buf i x v h hl =>
    have ha := R.at_ t; rw [h] at ha
    have hma := R.memAt t; rw [h] at hma
    have hin : inside (s.pc t) = true := by rw [h]; rfl
    have hx := load_head R.inv (R.inv.ins t hin) (R.head o i) hl
    have hno : ∀ u, ¬ writing o (s.pc u) := by
      intro u hw
      obtain rfl := R.inv.alone hin (writing_inside hw)
      rw [h] at hw; exact hw
    refine ⟨w, ns, as, top, R.quiet IG.1 IG.2 R.head (fun u => ?_) (fun u => ?_) (fun o' ho' => ?_) (fun u => ?_) rfl rfl,
      .inl rfl, .inl rfl⟩
    · by_cases e : u = t
      · subst e; simp only [State.goto, Function.update_self]; exact ha
      · simpa only [State.goto, Function.update_of_ne e] using R.at_ u
    · by_cases e : u = t
      · subst e
        simp only [State.goto, Function.update_self]
        intro j y hy
        by_cases ej : j = i
        · subst ej
          rw [Function.update_self] at hy
          rw [← R.mem o hno, ← hx]
          exact Option.some.inj hy
        · rw [Function.update_of_ne ej] at hy; exact hma j y hy
      · simpa only [State.goto, Function.update_of_ne e] using R.memAt u
    · refine R.mem o' (fun u => ?_)
      by_cases e : u = t
      · subst e; rw [h]; exact id
      · have := ho' u; simpa only [State.goto, Function.update_of_ne e] using this
    · show (s.tv u).Le (Function.update s.tv t _ u)
      by_cases e : u = t
      · subst e
        rw [Function.update_self]
        cases hl with
        | mk m hm hv =>
          exact (TV.le_read _ _ _ m).trans ⟨le_sup_left, le_sup_left, le_rfl⟩
      · rw [Function.update_of_ne e]; exact TV.Le.refl _
  | rdRel t o op buf x r h hx hr =>
    have ha := R.at_ t; rw [h] at ha
    have hma := R.memAt t; rw [h] at hma
    have hin : inside (s.pc t) = true := by rw [h]; rfl
    have hno : ∀ u, ¬ writing o (s.pc u) := by
      intro u hw
      obtain rfl := R.inv.alone hin (writing_inside hw)
      rw [h] at hw; exact hw
    have ex : x = as.cell o := funext fun i => (hma i _ (hx i)).symm
    have hc := Irq.after_none ha.2.2 hr
    obtain ⟨ns', as', top', R', h1, h2⟩ := R.commit hg (r := r) hin ha.1 ha.2.1 ha.2.2
      (fun o' hw => by rw [h] at hw; exact hw.elim) (by rw [R.mem o hno, ← ex]; exact hc)
    exact ⟨w, ns', as', top', R', .inr h1, .inr h2⟩
  | rdWr t o op buf x v r h hx hr =>
    have ha := R.at_ t; rw [h] at ha
    have hma := R.memAt t; rw [h] at hma
    have hin : inside (s.pc t) = true := by rw [h]; rfl
    have hno : ∀ u, ¬ writing o (s.pc u) := by
      intro u hw
      obtain rfl := R.inv.alone hin (writing_inside hw)
      rw [h] at hw; exact hw
    have ex : x = as.cell o := funext fun i => (hma i _ (hx i)).symm
    refine ⟨w, ns, as, top, R.move IG.1 ha ⟨fun i => ?_, ?_⟩ (fun o' _ hw => by rw [h] at hw; exact hw.elim),
      .inl rfl, .inl rfl⟩
    · simp [R.mem o hno]
    · rw [← ex]; exact Irq.after_some ha.2.2 hr
  | wr t o op new wrote r i ms v h hs =>
    have ha := R.at_ t; rw [h] at ha
    have hma := R.memAt t; rw [h] at hma
    have hin : inside (s.pc t) = true := by rw [h]; rfl
    have hd := store_head R.inv (R.inv.ins t hin) hs
    refine ⟨Function.update w o (Function.update (w o) i (new i)), ns, as, top,
      R.quiet IG.1 IG.2 (fun o' i' => ?_) (fun u => ?_) (fun u => ?_) (fun o' ho' => ?_) (fun u => ?_) rfl rfl,
      .inl rfl, .inl rfl⟩
    · show Head (Function.update s.mem o (Function.update (s.mem o) i ms) o' i') _
      by_cases eo : o' = o
      · subst eo
        by_cases ei : i' = i
        · subst ei; simp only [Function.update_self]; exact hd
        · simp only [Function.update_self, Function.update_of_ne ei]; exact R.head o' i'
      · simp only [Function.update_of_ne eo]; exact R.head o' i'
    · by_cases e : u = t
      · subst e; simp only [State.goto, Function.update_self]; exact ha
      · simpa only [State.goto, Function.update_of_ne e] using R.at_ u
    · by_cases e : u = t
      · subst e
        simp only [State.goto, Function.update_self]
        refine ⟨fun j => ?_, hma.2⟩
        rw [Function.update_self]
        by_cases hj : j = i
        · subst hj; simp
        · rw [Function.update_of_ne hj, Function.update_of_ne hj]; exact hma.1 j
      · simp only [State.goto, Function.update_of_ne e]
        cases hp : s.pc u with
        | rd => exact absurd (R.inv.alone hin (by rw [hp]; rfl)) e
        | wr => exact absurd (R.inv.alone hin (by rw [hp]; rfl)) e
        | _ => trivial
    · have h1 := ho' t
      simp only [State.goto, Function.update_self] at h1
      have eo : o' ≠ o := fun e => h1 e.symm
      rw [Function.update_of_ne eo]
      refine R.mem o' (fun u => ?_)
      by_cases e : u = t
      · subst e; rw [h]; exact fun e => eo e.symm
      · have := ho' u; simpa only [State.goto, Function.update_of_ne e] using this
    · show (s.tv u).Le (Function.update s.tv t _ u)
      by_cases e : u = t
      · subst e
        rw [Function.update_self]
        cases hs with
        | mk f t' hv hf => exact TV.le_write _ _ _
      · rw [Function.update_of_ne e]; exact TV.Le.refl _
  | wrRel t o op new wrote r h hw =>
    have ha := R.at_ t; rw [h] at ha
    have hma := R.memAt t; rw [h] at hma
    have hin : inside (s.pc t) = true := by rw [h]; rfl
    have ew : w o = new := funext fun i => by rw [hma.1 i, if_pos (hw i)]
    obtain ⟨ns', as', top', R', h1, h2⟩ := R.commit hg (r := r) hin ha.1 ha.2.1 ha.2.2
      (fun o' hw => by rw [h] at hw; exact hw.symm) (by rw [ew]; exact hma.2)
    exact ⟨w, ns', as', top', R', .inr h1, .inr h2⟩
  | rel t o op r h =>
    have ha := R.at_ t; rw [h] at ha
    have hh := R.inv.ins t (by rw [h]; rfl)
    have R1 : Rel g (s.goto t (.fin r)) w ns as top :=
      R.move (R.inv.goto t _ (fun h => by cases h)) ha trivial (fun o' _ hw => by rw [h] at hw; exact hw.elim)
    exact ⟨w, ns, as, top, R1.leave (t := t) hh (by simp [State.goto, inside]), .inl rfl, .inl rfl⟩
  | ret t r h =>
    have ha := R.at_ t; rw [h] at ha
    refine ⟨w, ns.goto t .idle, { as with th := Function.update as.th t .idle }, top, ?_,
      .ret ns t r ha.1, .ret as t r ha.2⟩
    refine ⟨IG.1, R.head, fun u => ?_, fun u => ?_, fun o' ho' => ?_, R.latest, fun v hv => R.carried v (Lock.goto.1 hv),
      R.tv, R.sc, R.mx⟩
    · by_cases e : u = t
      · subst e; simp only [State.goto, Native.State.goto, Function.update_self]; exact ⟨rfl, rfl⟩
      · simpa only [State.goto, Native.State.goto, Function.update_of_ne e] using R.at_ u
    · by_cases e : u = t
      · subst e; simp only [State.goto, Function.update_self]; trivial
      · simpa only [State.goto, Function.update_of_ne e] using R.memAt u
    · refine R.mem o' (fun u => ?_)
      by_cases e : u = t
      · subst e; rw [h]; exact id
      · have := ho' u; simpa only [State.goto, Function.update_of_ne e] using this
  | enter t h hf => exact ⟨w, ns, as, top, R.enter hf, .inl rfl, .inl rfl⟩
  | leave t h hh => exact ⟨w, ns, as, top, R.leave hh (by rw [h]; rfl), .inl rfl, .inl rfl⟩
  | client t a r mx v sc h hc =>
    have ha := R.at_ t; rw [h] at ha
    obtain ⟨nm', v', S', c', h1, h2, h3, h4⟩ := client_rel R.mx (R.tv t) R.sc.1 R.sc.2 hc
    refine ⟨w, _, as, top, ?_, .client ns t a r nm' v' S' ha.1 c', rfl⟩
    refine ⟨IG.1, R.head, R.at_, R.memAt, R.mem, R.latest, fun v1 hv1 o m hm => ?_, fun u => ?_, ⟨h3, h4⟩, h1⟩
    · obtain ⟨v0, h0, hl⟩ := IG.2.lock v1 hv1
      have := R.carried v0 h0 o m hm
      exact ⟨this.1.mono hl, this.2⟩
    · show TVBelow top (Function.update ns.tv t v' u) (Function.update s.tv t v u)
      by_cases e : u = t
      · subst e; simp only [Function.update_self]; exact h2
      · simp only [Function.update_of_ne e]; exact R.tv u

theorem init_rel (v0 : Obj → Val n C) (x0 : Nat → X) :
    Rel g (init v0 x0) v0 (Native.init v0 x0) (Atomic.init v0) (fun _ => 0) := by
  have hb : ∀ v : View (CL n), Below ⊥ v := Below.bot
  have hc : Cap (fun _ => 0) ⊥ := Cap.bot _
  refine ⟨init_inv v0 x0, fun o i => ⟨_, [], rfl, rfl, fun _ h => by simp at h⟩, fun _ => ⟨rfl, rfl⟩, fun _ => trivial,
    fun _ _ => rfl, fun o => ⟨_, [], rfl, rfl, rfl, fun _ h => by simp at h⟩, fun v _ o m hm => ?_,
    fun _ => ⟨hb _, hb _, hb _, hc, hc, hc⟩, ⟨hb _, hc⟩, fun a => .cons ⟨rfl, rfl, rfl, hb _, hc⟩ .nil⟩
  simp only [Native.init, initMsgs, List.mem_singleton] at hm
  subst hm
  exact ⟨hb _, hc⟩

theorem sim_exec (hg : Reorders g) {v0 : Obj → Val n C} {x0 : Nat → X} {h : List (Ev (Val n C) X)} {s : State n C X}
    (hx : Exec Step (init v0 x0) h s) :
    ∃ w ns as top, Rel g s w ns as top ∧ Exec Native.Step (Native.init v0 x0) (h.map (Ev.reord g)) ns ∧
      Exec Atomic.Step (Atomic.init v0) (callHistory h) as := by
  generalize hi : init v0 x0 = i at hx
  induction hx with
  | refl => subst hi; exact ⟨_, _, _, _, init_rel v0 x0, .refl _, .refl _⟩
  | tau _ st ih =>
    obtain ⟨w, ns, as, top, R, h1, h2⟩ := ih
    obtain ⟨w', ns', as', top', R', h3, h4⟩ := sim_step hg R st
    refine ⟨w', ns', as', top', R', ?_, ?_⟩
    · rcases h3 with rfl | h3
      · exact h1
      · exact .tau h1 h3
    · rcases h4 with rfl | h4
      · exact h2
      · exact .tau h2 h4
  | @ev h s e s' _ st ih =>
    obtain ⟨w, ns, as, top, R, h1, h2⟩ := ih
    obtain ⟨w', ns', as', top', R', h3, h4⟩ := sim_step hg R st
    refine ⟨w', ns', as', top', R', ?_, ?_⟩
    · rw [List.map_append]; exact .ev h1 h3
    · rw [callHistory, List.filterMap_append]
      cases he : e.call with
      | none =>
        rw [he] at h4
        have h4' : as' = as := h4
        subst h4'
        simpa [he, callHistory] using h2
      | some oe =>
        rw [he] at h4
        have h4' : Atomic.Step as (some oe) as' := h4
        have : List.filterMap Ev.call [e] = [oe] := by simp [he]
        rw [this]; exact .ev h2 h4'

end Verif.WM.Crit
