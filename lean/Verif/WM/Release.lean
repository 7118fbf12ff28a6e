import Verif.WM.Store
/-!
# Releasing the lock: the moment an operation takes effect (proof internals)
-/
set_option autoImplicit false
set_option linter.unusedSectionVars false
namespace Verif.WM.Lock
open Verif.Fallback
variable {V X : Type} [DecidableEq V] {c : Cfg V}
variable {lk : Nat → LG} {ob : Obj → OG V}

namespace Inv
variable {s : State c X} {a : Native.State V X} {N : Nat}

theorem stepRelease (I : Inv c lk ob s a N) {t : Tid} {k : Call V} {O' : OG V} {p : BitVec c.W}
    {f ts : Ts} {w : Nat} {r : Res V} {amo : List (Msg Native.Loc V)} {av : TV Native.Loc} {ap : Native.Pc V}
    (hown : c.owns (s.pc t) = some (c.lockOf k.obj)) (hcall : Cfg.pcCall (s.pc t) = some k)
    (hH : Hold c (lk (c.lockOf k.obj)) (c.lockOf k.obj) (s.tv t) p)
    (hv : (s.tv t).cur (vlo (c.lockOf k.obj)) < ts)
    (hf : Fresh (s.mem (.lo (c.lockOf k.obj))) f ts)
    (hw : w = (lk (c.lockOf k.obj)).wr (lk (c.lockOf k.obj)).E ∨
      w = (lk (c.lockOf k.obj)).wr (lk (c.lockOf k.obj)).E + 1)
    (hhc : c.wide = true → w / c.B = (lk (c.lockOf k.obj)).hcount c ∧
      ((lk (c.lockOf k.obj)).hip = true → w = (lk (c.lockOf k.obj)).wr (lk (c.lockOf k.obj)).E + 1))
    (hhi : c.wide = true → (lk (c.lockOf k.obj)).hts (w / c.B) ≤ (s.tv t).cur (vhi (c.lockOf k.obj)))
    (hoth : Others c ob (c.lockOf k.obj) k.obj) (hob : OExt (ob k.obj) O') (hpend : O'.pend = 0)
    (objO : ObjInv c ((lk (c.lockOf k.obj)).released ts w ((s.tv t).msgView (vlo (c.lockOf k.obj)) ts .release))
      O' k.obj (fun i => s.mem (.chunk k.obj i)) amo)
    (hav : ∀ j, j ≤ (ob k.obj).K → O'.av j = (ob k.obj).av j)
    (hnew : ∀ j, j ≤ O'.K → (ob k.obj).K < j → O'.vt j = (lk (c.lockOf k.obj)).E + 1 ∧
      VLe c (Function.update lk (c.lockOf k.obj)
          ((lk (c.lockOf k.obj)).released ts w ((s.tv t).msgView (vlo (c.lockOf k.obj)) ts .release)))
        (Function.update ob k.obj O') (O'.av j) ((s.tv t).write (vlo (c.lockOf k.obj)) ts).cur)
    (htle : TLe c (Function.update lk (c.lockOf k.obj)
          ((lk (c.lockOf k.obj)).released ts w ((s.tv t).msgView (vlo (c.lockOf k.obj)) ts .release)))
        (Function.update ob k.obj O') av ((s.tv t).write (vlo (c.lockOf k.obj)) ts))
    (hap : APc c (c.finish k r) ap) :
    ∃ lk' ob', Inv c lk' ob'
      { s with mem := Function.update s.mem (.lo (c.lockOf k.obj))
                 (⟨f, ts, c.stamp w, (s.tv t).msgView (vlo (c.lockOf k.obj)) ts .release⟩ ::
                   s.mem (.lo (c.lockOf k.obj))),
               tv := Function.update s.tv t ((s.tv t).write (vlo (c.lockOf k.obj)) ts),
               pc := Function.update s.pc t (c.finish k r) }
      { a with mo := Function.update a.mo k.obj amo, tv := Function.update a.tv t av,
               pc := Function.update a.pc t ap } N := by
  have hheld := (I.held t _).1 hown
  have hle := (s.tv t).le_write (vlo (c.lockOf k.obj)) ts
  have hwf := (I.wf t).write (vlo (c.lockOf k.obj)) ts
  have hL := (lk (c.lockOf k.obj)).ext_released ts w ((s.tv t).msgView (vlo (c.lockOf k.obj)) ts .release)
  have hM : (lk (c.lockOf k.obj)).fv (lk (c.lockOf k.obj)).E ≤
      (s.tv t).msgView (vlo (c.lockOf k.obj)) ts .release := hH.fv.trans hle.cur
  have hfvnew : ((lk (c.lockOf k.obj)).released ts w
      ((s.tv t).msgView (vlo (c.lockOf k.obj)) ts .release)).fv ((lk (c.lockOf k.obj)).E + 1) =
      ((s.tv t).write (vlo (c.lockOf k.obj)) ts).cur := by
    simp only [LG.released, Function.update_self]; rfl
  refine ⟨_, _, I.stepMem t (o := k.obj) (O' := O')
    (L' := (lk (c.lockOf k.obj)).released ts w ((s.tv t).msgView (vlo (c.lockOf k.obj)) ts .release))
    (mem' := Function.update s.mem (.lo (c.lockOf k.obj))
                 (⟨f, ts, c.stamp w, (s.tv t).msgView (vlo (c.lockOf k.obj)) ts .release⟩ ::
                   s.mem (.lo (c.lockOf k.obj))))
    (v := (s.tv t).write (vlo (c.lockOf k.obj)) ts) (p := c.finish k r)
    hL hob (fun l m h => mem_update l m h)
    (fun l hl => Function.update_of_ne (by simpa using hl) ..)
    (fun l _ => Function.update_of_ne (by simp) ..)
    (fun o' i _ => Function.update_of_ne (by simp) ..)
    ?_ ?_ ?_ ?_ (I.nonow hown) ?_ ?_ ?_ (hinv_finish ..) (rinv_finish ..) (lpc_finish ..) ?_ ?_ ?_
    htle hwf hap (.inr (Cfg.pcCall_finish ..)) ?_⟩
  · rw [Function.update_self, Function.update_of_ne (by simp)]
    exact (I.lock _).release (by rw [hheld]; rfl) hH.sig hv hf hw hhc hhi
  · have : (fun i => Function.update s.mem (.lo (c.lockOf k.obj))
                 (⟨f, ts, c.stamp w, (s.tv t).msgView (vlo (c.lockOf k.obj)) ts .release⟩ ::
                   s.mem (.lo (c.lockOf k.obj))) (.chunk k.obj i)) = fun i => s.mem (.chunk k.obj i) := by
      funext i; rw [Function.update_of_ne (by simp)]
    rw [this]; exact objO
  · intro o' hne ho'
    have := I.obj o'
    rw [ho'] at this
    refine this.grow hL (fun _ _ => rfl) (hoth o' hne ho') ?_
    intro e h1 h2
    have h2' : e ≤ (lk (c.lockOf k.obj)).E + 1 := h2
    rw [show e = (lk (c.lockOf k.obj)).E + 1 by omega, hfvnew]
    exact hM
  · intro o' j e ho' hj he hvt
    have he' : e ≤ (lk (c.lockOf k.obj)).E + 1 := he
    by_cases hnewv : o' = k.obj ∧ (ob k.obj).K < j
    · obtain ⟨rfl, hlt⟩ := hnewv
      simp only [Function.update_self] at hj hvt ⊢
      obtain ⟨h1, h2⟩ := hnew j hj hlt
      rw [show e = (lk (c.lockOf k.obj)).E + 1 by omega, hfvnew]
      exact h2
    · have hk' : j ≤ (ob o').K := by
        by_cases h : o' = k.obj
        · subst h; by_contra hn; exact hnewv ⟨rfl, by omega⟩
        · simpa only [Function.update_of_ne h] using hj
      have e2 : (Function.update ob k.obj O' o').av j = (ob o').av j := by
        by_cases h : o' = k.obj
        · subst h; simp only [Function.update_self]; exact hav j hk'
        · simp only [Function.update_of_ne h]
      rw [(oext_upd hob o').vt j hk'] at hvt
      rw [e2]
      have base : ∀ e, e ≤ (lk (c.lockOf k.obj)).E → (ob o').vt j ≤ e →
          VLe c (Function.update lk (c.lockOf k.obj)
            ((lk (c.lockOf k.obj)).released ts w ((s.tv t).msgView (vlo (c.lockOf k.obj)) ts .release)))
          (Function.update ob k.obj O') ((ob o').av j) ((lk (c.lockOf k.obj)).fv e) := by
        intro e he hvt
        have := I.objv o' j e hk' (by rw [ho']; exact he) hvt
        rw [ho'] at this
        exact this.grow (ext_upd hL) (oext_upd hob) I.vtE
      rcases Nat.lt_or_ge (lk (c.lockOf k.obj)).E e with h | h
      · rw [show e = (lk (c.lockOf k.obj)).E + 1 by omega, hfvnew]
        have hE := I.vtE o' j hk'
        rw [ho'] at hE
        exact (base _ le_rfl hE).mono hM
      · rw [hL.fv e h]; exact base e h hvt
  · intro l h; rw [hown] at h; exact (Option.some.inj h).symm
  · intro l; rw [owns_finish]
    constructor
    · intro h; cases h
    · rintro ⟨-, h⟩; cases h
  · intro u h; cases h
  · intro _ o' ho'
    by_cases e : o' = k.obj
    · subst e; simpa only [Function.update_self] using hpend
    · simp only [Function.update_of_ne e]; exact hoth o' e ho'
  · intro _ o' ho' i u
    show _ ≤ ((lk (c.lockOf k.obj)).released ts w
      ((s.tv t).msgView (vlo (c.lockOf k.obj)) ts .release)).fv ((lk (c.lockOf k.obj)).E + 1) _
    rw [hfvnew]
    exact (I.markH _ _ hheld o' ho' i u).trans (hle.cur _)
  · intro h; cases h
  · simp only [LG.released, Function.update_self]
    rcases hw with h | h
    · exact .inl h
    · exact .inr ⟨h, by rw [hcall]; rfl, Cfg.pcCall_finish ..⟩

/-- The abstract access that only reads, of the latest version. -/
theorem abs_read (I : Inv c lk ob s a N) {t : Tid} {k : Call V} {r : Res V} {lk' : Nat → LG} {v : TV CL}
    (hok : k.op.ordOk = true)
    (hnw : ¬ Writes k.op ((ob k.obj).val (ob k.obj).K))
    (hres : k.op.onCell ((ob k.obj).val (ob k.obj).K) = ((ob k.obj).val (ob k.obj).K, r))
    (h0 : ∀ o, (lk' (c.lockOf o)).tau ((ob o).vt 0) = 0)
    (hT : TLe c lk' ob (a.tv t) v) (wf : v.Wf)
    (hs : VLe c lk' ob (single (.obj k.obj) ((ob k.obj).K : Ts)) v.cur)
    (hav : VLe c lk' ob ((ob k.obj).av (ob k.obj).K) v.cur) :
    ∃ ord v', Native.Access (a.mo k.obj) (a.tv t) (.obj k.obj) k.op ord (a.mo k.obj) v' r ∧
      TLe c lk' ob v' v ∧ (ord = MemOrd.seqCst → wantsSc k.op = true) := by
  have hmem : (⟨(((ob k.obj).K - 1 : Nat) : Ts), ((ob k.obj).K : Ts), (ob k.obj).val (ob k.obj).K,
      (ob k.obj).av (ob k.obj).K⟩ : Msg Native.Loc V) ∈ a.mo k.obj :=
    ((I.obj k.obj).amem _).2 ⟨_, le_rfl, rfl⟩
  have hcur : (a.tv t).cur (.obj k.obj) ≤ ((ob k.obj).K : Ts) := by
    obtain ⟨k', h1, h2, -⟩ := (I.tle t).cur.2 k.obj
    exact h2.trans (by exact_mod_cast h1)
  have hL : ∀ ord, Load (a.mo k.obj) (a.tv t) (.obj k.obj) ord ((ob k.obj).val (ob k.obj).K) _ :=
    fun ord => .mk _ hmem hcur
  have hread : ∀ ord, TLe c lk' ob ((a.tv t).read (.obj k.obj) ord
      (⟨(((ob k.obj).K - 1 : Nat) : Ts), ((ob k.obj).K : Ts), (ob k.obj).val (ob k.obj).K,
        (ob k.obj).av (ob k.obj).K⟩ : Msg Native.Loc V)) v :=
    fun ord => hT.read h0 hs wf (hav.mono wf.cur) (fun _ => hav)
  cases hop : k.op with
  | load ord =>
    rw [hop] at hres hok
    simp only [Op.onCell, hok, if_true, Prod.mk.injEq, true_and] at hres
    subst hres
    exact ⟨ord, _, .load _ _ _ (hL ord), hread ord, fun e => by rw [e]; rfl⟩
  | cas cur new sc fl =>
    rw [hop] at hres hok hnw
    have hne : (ob k.obj).val (ob k.obj).K ≠ cur := hnw
    simp only [Op.onCell, hok, if_true, if_neg hne, Prod.mk.injEq, true_and] at hres
    subst hres
    exact ⟨fl, _, .casErr _ _ _ _ _ _ (hL fl) hne, hread fl, fun e => by rw [e]; simp [wantsSc]⟩
  | store v o => rw [hop] at hnw; exact absurd trivial hnw
  | swap v o => rw [hop] at hnw; exact absurd trivial hnw
  | rmw f o => rw [hop] at hnw; exact absurd trivial hnw

/-- The abstract access that writes the next version. -/
theorem abs_write (I : Inv c lk ob s a N) {t : Tid} {k : Call V} {r : Res V} {y : V} {lk' : Nat → LG}
    {ob' : Obj → OG V} {v : TV CL} (hok : k.op.ordOk = true)
    (hw : Writes k.op ((ob k.obj).val (ob k.obj).K))
    (hres : k.op.onCell ((ob k.obj).val (ob k.obj).K) = (y, r))
    (h0 : ∀ o, (lk' (c.lockOf o)).tau ((ob' o).vt 0) = 0)
    (hT : TLe c lk' ob' (a.tv t) v) (wf : v.Wf)
    (hs : VLe c lk' ob' (single (.obj k.obj) ((ob k.obj).K : Ts)) v.cur)
    (hs' : VLe c lk' ob' (single (.obj k.obj) (((ob k.obj).K + 1 : Nat) : Ts)) v.cur)
    (hav : VLe c lk' ob' ((ob k.obj).av (ob k.obj).K) v.cur) :
    ∃ ord w v', Native.Access (a.mo k.obj) (a.tv t) (.obj k.obj) k.op ord
        (⟨((ob k.obj).K : Ts), (((ob k.obj).K + 1 : Nat) : Ts), y, w⟩ :: a.mo k.obj) v' r ∧
      TLe c lk' ob' v' v ∧ VLe c lk' ob' w v.cur ∧ (ord = MemOrd.seqCst → wantsSc k.op = true) := by
  have hmem : (⟨(((ob k.obj).K - 1 : Nat) : Ts), ((ob k.obj).K : Ts), (ob k.obj).val (ob k.obj).K,
      (ob k.obj).av (ob k.obj).K⟩ : Msg Native.Loc V) ∈ a.mo k.obj :=
    ((I.obj k.obj).amem _).2 ⟨_, le_rfl, rfl⟩
  have hcur : (a.tv t).cur (.obj k.obj) ≤ ((ob k.obj).K : Ts) := by
    obtain ⟨k', h1, h2, -⟩ := (I.tle t).cur.2 k.obj
    exact h2.trans (by exact_mod_cast h1)
  have hlt : ((ob k.obj).K : Ts) < (((ob k.obj).K + 1 : Nat) : Ts) := by exact_mod_cast Nat.lt_succ_self _
  have hfresh : Fresh (a.mo k.obj) ((ob k.obj).K : Ts) (((ob k.obj).K + 1 : Nat) : Ts) := by
    refine ⟨hlt, fun m hm => .inr ?_⟩
    obtain ⟨j, h1, rfl⟩ := ((I.obj k.obj).amem m).1 hm
    show (j : Ts) ≤ _
    exact_mod_cast h1
  have hread : ∀ ord, TLe c lk' ob' ((a.tv t).read (.obj k.obj) ord
      (⟨(((ob k.obj).K - 1 : Nat) : Ts), ((ob k.obj).K : Ts), (ob k.obj).val (ob k.obj).K,
        (ob k.obj).av (ob k.obj).K⟩ : Msg Native.Loc V)) v :=
    fun ord => hT.read h0 hs wf (hav.mono wf.cur) (fun _ => hav)
  have hmv : ∀ (x : TV Native.Loc) ord, TLe c lk' ob' x v →
      VLe c lk' ob' (x.msgView (.obj k.obj) (((ob k.obj).K + 1 : Nat) : Ts) ord) v.cur := by
    intro x ord hx
    refine VLe.sup ?_ hs'
    split
    · exact hx.cur
    · exact hx.rel.mono wf.rel
  have hR : ∀ ord (g : V → V), Rmw (a.mo k.obj) (a.tv t) (.obj k.obj) ord g ((ob k.obj).val (ob k.obj).K)
      (⟨((ob k.obj).K : Ts), (((ob k.obj).K + 1 : Nat) : Ts), g ((ob k.obj).val (ob k.obj).K), _⟩ :: a.mo k.obj) _ :=
    fun ord g => .mk (g := g) _ (((ob k.obj).K + 1 : Nat) : Ts) hmem hcur hfresh
  cases hop : k.op with
  | load ord => rw [hop] at hw; exact absurd hw (fun h => h)
  | cas cur new sc fl =>
    rw [hop] at hres hok hw
    have hne : (ob k.obj).val (ob k.obj).K = cur := hw
    simp only [Op.onCell, hok, if_true, if_pos hne, Prod.mk.injEq] at hres
    obtain ⟨rfl, rfl⟩ := hres
    have := hR sc (fun _ => new)
    rw [hne] at this ⊢
    refine ⟨sc, _, _, .casOk _ _ _ _ _ _ this, (hread sc).write hs' wf, (hmv _ sc (hread sc)).sup hav,
      fun e => by rw [e]; simp [wantsSc]⟩
  | store y' o =>
    rw [hop] at hres hok
    simp only [Op.onCell, hok, if_true, Prod.mk.injEq] at hres
    obtain ⟨rfl, rfl⟩ := hres
    exact ⟨o, _, _, .store _ _ _ _ (.mk _ _ (hcur.trans_lt hlt) hfresh), hT.write hs' wf, hmv _ o hT,
      fun e => by rw [e]; rfl⟩
  | swap y' o =>
    rw [hop] at hres hok
    simp only [Op.onCell, hok, if_true, Prod.mk.injEq] at hres
    obtain ⟨rfl, rfl⟩ := hres
    exact ⟨o, _, _, .swap _ _ _ _ _ (hR o (fun _ => y')), (hread o).write hs' wf,
      (hmv _ o (hread o)).sup hav, fun e => by rw [e]; rfl⟩
  | rmw g o =>
    rw [hop] at hres hok
    simp only [Op.onCell, hok, if_true, Prod.mk.injEq] at hres
    obtain ⟨rfl, rfl⟩ := hres
    exact ⟨o, _, _, .rmw _ _ _ _ _ (hR o g), (hread o).write hs' wf,
      (hmv _ o (hread o)).sup hav, fun e => by rw [e]; rfl⟩

theorem abortStore (I : Inv c lk ob s a N) {t : Tid} {k : Call V} {p : BitVec c.W}
    {r : Res V} (hpc : s.pc t = .abortStore k p r) {x : BitVec c.W}
    {s' : State c X} (hd : Do s t (.store (.lo (c.lockOf k.obj)) p .release) x s') :
    Sim c a [] (s'.goto t (c.finish k r)) N := by
  cases hd with | store _ _ _ _ _ hS =>
  cases hS with | mk f ts hv hf =>
  have hhi := I.hinv t
  rw [hpc] at hhi
  obtain ⟨hH, hnp, hp, hnw, hres⟩ := hhi
  obtain ⟨hok, b, hapc, hb⟩ := I.apc_body hpc rfl (by simp)
  have hle := (s.tv t).le_write (vlo (c.lockOf k.obj)) ts
  have hwf := (I.wf t).write (vlo (c.lockOf k.obj)) ts
  have hL := (lk (c.lockOf k.obj)).ext_released ts ((lk (c.lockOf k.obj)).wr (lk (c.lockOf k.obj)).E)
    ((s.tv t).msgView (vlo (c.lockOf k.obj)) ts .release)
  have hgrow : ∀ {va vc}, VLe c lk ob va vc → VLe c (Function.update lk (c.lockOf k.obj)
          ((lk (c.lockOf k.obj)).released ts ((lk (c.lockOf k.obj)).wr (lk (c.lockOf k.obj)).E)
            ((s.tv t).msgView (vlo (c.lockOf k.obj)) ts .release)))
        (Function.update ob k.obj (ob k.obj)) va vc :=
    fun h => h.grow (ext_upd hL) (oext_upd (OExt.refl _)) I.vtE
  have h0 : ∀ o, (Function.update lk (c.lockOf k.obj)
          ((lk (c.lockOf k.obj)).released ts ((lk (c.lockOf k.obj)).wr (lk (c.lockOf k.obj)).E)
            ((s.tv t).msgView (vlo (c.lockOf k.obj)) ts .release)) (c.lockOf o)).tau ((ob o).vt 0) = 0 := by
    intro o
    rw [(ext_upd hL (c.lockOf o)).tau _ (I.vtE o 0 (Nat.zero_le _))]; exact I.h0 o
  obtain ⟨ord, va, hacc, hT, hsc⟩ := I.abs_read (t := t) (r := r) (v := (s.tv t).write (vlo (c.lockOf k.obj)) ts) hok hnw hres h0
    (by
      have := ((I.tle t).mono hle).grow (ext_upd hL) (oext_upd (OExt.refl (ob k.obj))) I.vtE
      rwa [Function.update_eq_self] at this)
    hwf
    (by
      have := hgrow (VLe.obj I.h0 (o := k.obj) (vc := ((s.tv t).write (vlo (c.lockOf k.obj)) ts).cur) le_rfl (by
        refine ((I.lock _).tau_mono (I.vtE _ _ le_rfl) le_rfl).trans ?_
        rw [← (I.lock (c.lockOf k.obj)).fvlo _ le_rfl]
        exact (hH.fv.trans hle.cur) _))
      rwa [Function.update_eq_self] at this)
    (by
      have := hgrow ((I.objv k.obj (ob k.obj).K _ le_rfl le_rfl (I.vtE _ _ le_rfl)).mono (hH.fv.trans hle.cur))
      rwa [Function.update_eq_self] at this)
  obtain ⟨lk', ob', J⟩ := I.stepRelease (t := t) (k := k) (O' := ob k.obj) (f := f) (ts := ts) (r := r)
    (amo := a.mo k.obj) (av := va) (ap := .fin r (decide (ord = MemOrd.seqCst)))
    (w := (lk (c.lockOf k.obj)).wr (lk (c.lockOf k.obj)).E)
    (by rw [hpc]; rfl) (by rw [hpc]; rfl) hH hv hf (.inl rfl)
    (fun _ => ⟨by simp [LG.hcount, hp], fun h => by rw [hp] at h; cases h⟩)
    (fun hw => ((I.lock _).fvhi hw _ le_rfl).trans (hH.fv _))
    (fun o' _ ho' => hnp o' ho') (OExt.refl _) (hnp _ rfl)
    ((I.obj k.obj).grow hL (fun _ _ => rfl) (hnp _ rfl) (by
      intro e h1 h2
      have h2' : e ≤ (lk (c.lockOf k.obj)).E + 1 := h2
      rw [show e = (lk (c.lockOf k.obj)).E + 1 by omega]
      simp only [LG.released, Function.update_self]
      exact hH.fv.trans hle.cur))
    (fun _ _ => rfl) (fun j h1 h2 => absurd h1 (Nat.not_le.2 h2))
    (by rw [Function.update_eq_self]; exact hT)
    (apc_finish hsc)
  have hst := Native.Step.access (X := X) a t k.obj k.op b ord _ _ _ hapc hok hacc (fun e => hb (hsc e))
  rw [← hH.prev] at J
  exact ⟨lk', ob', _, .one_tau hst, J⟩

/-- Ghost state of an object after its next version has been published. -/
def _root_.Verif.WM.Lock.OG.published (O : OG V) (w : View Native.Loc) : OG V :=
  { O with K := O.K + 1, av := Function.update O.av (O.K + 1) w, pend := 0 }

theorem _root_.Verif.WM.Lock.ObjInv.publish {L : LG} {O : OG V} {o : Obj}
    {mc : Nat → List (Msg CL (BitVec c.W))}
    {mo : List (Msg Native.Loc V)} (I : ObjInv c L O o mc mo) {ts : Ts} {M : View CL} {w : View Native.Loc}
    (hpend : O.pend = c.n o) (hvt : O.vt (O.K + 1) = L.E + 1) (hfv : L.fv L.E ≤ M)
    (hct : ∀ j, j < c.n o → O.ct j (O.K + 1) ≤ M (vch o j)) :
    ObjInv c (L.released ts (L.wr L.E + 1) M) (O.published w) o mc
      (⟨(O.K : Ts), ((O.K + 1 : Nat) : Ts), O.val (O.K + 1), w⟩ :: mo) := by
  have hL := L.ext_released ts (L.wr L.E + 1) M
  have hfvn : (L.released ts (L.wr L.E + 1) M).fv (L.E + 1) = M := by
    simp only [LG.released, Function.update_self]
  refine ⟨I.vt0, ?_, ?_, ?_, ?_, ?_, ?_, fun h => absurd rfl h, ?_, ?_⟩
  · intro k hk
    have hk' : k < O.K + 1 := hk
    show O.vt k < O.vt (k + 1)
    by_cases e : k = O.K
    · subst e; have := I.vtE _ (le_refl O.K); omega
    · exact I.vtmono k (by omega)
  · intro k hk
    have hk' : k ≤ O.K + 1 := hk
    show O.vt k ≤ L.E + 1
    by_cases e : k = O.K + 1
    · subst e; omega
    · have := I.vtE k (by omega); omega
  · intro k e hk h
    have hk' : k ≤ O.K + 1 := hk
    have h' : O.vt k = e + 1 := h
    by_cases e1 : k = O.K + 1
    · subst e1
      rw [show e = L.E by omega]
      rw [hL.wr _ le_rfl]
      simp only [LG.released, Function.update_self]
    · have := I.vtE k (by omega)
      rw [hL.wr _ (by omega), hL.wr _ (by omega)]
      exact I.vtwr k e (by omega) h'
  · intro i m hm
    obtain ⟨k, h1, h2, h3, h4⟩ := I.chunks i m hm
    refine ⟨k, h1, .inl ?_, h3, h4⟩
    show k ≤ O.K + 1
    rcases h2 with h | h <;> omega
  · intro i k hi hk
    have hk' : k < O.K + 1 := hk
    show O.ct i k < O.ct i (k + 1)
    by_cases e : k = O.K
    · subst e; exact I.ctpend i hi (by omega)
    · exact I.ctmono i k hi (by omega)
  · intro i hi h; exact absurd h (Nat.not_lt_zero _)
  · intro i k e hi hk he hv
    have hk' : k ≤ O.K + 1 := hk
    have hv' : O.vt k ≤ e := hv
    have he' : e ≤ L.E + 1 := he
    show O.ct i k ≤ _
    by_cases e1 : k = O.K + 1
    · subst e1
      rw [show e = L.E + 1 by omega, hfvn]
      exact hct i hi
    · by_cases e2 : e = L.E + 1
      · subst e2
        rw [hfvn]
        exact (I.fvct i k L.E hi (by omega) le_rfl (I.vtE k (by omega))).trans (hfv _)
      · rw [hL.fv e (by omega)]
        exact I.fvct i k e hi (by omega) (by omega) hv'
  · intro m
    rw [List.mem_cons, I.amem]
    constructor
    · rintro (rfl | ⟨k, h1, h2⟩)
      · exact ⟨O.K + 1, le_rfl, by simp [OG.published]⟩
      · refine ⟨k, Nat.le_succ_of_le h1, ?_⟩
        rw [h2]
        simp only [OG.published]
        rw [Function.update_of_ne (by omega)]
    · rintro ⟨k, h1, h2⟩
      have hk' : k ≤ O.K + 1 := h1
      by_cases e : k = O.K + 1
      · subst e; left; rw [h2]; simp [OG.published]
      · right
        refine ⟨k, by omega, ?_⟩
        rw [h2]
        simp only [OG.published]
        rw [Function.update_of_ne e]

theorem dropStore (I : Inv c lk ob s a N) (ok : c.Sound) {t : Tid} {k : Call V} {p : BitVec c.W}
    {r : Res V} (hpc : s.pc t = .dropStore k p r) {x : BitVec c.W}
    {s' : State c X} (hd : Do s t (.store (.lo (c.lockOf k.obj)) (p + 2) .release) x s') :
    Sim c a [] (s'.goto t (c.finish k r)) N := by
  cases hd with | store _ _ _ _ _ hS =>
  cases hS with | mk f ts hv hf =>
  have hhi := I.hinv t
  rw [hpc] at hhi
  obtain ⟨hH, hW, hwd⟩ := hhi
  obtain ⟨hok, b, hapc, hb⟩ := I.apc_body hpc rfl (by simp)
  have hle := (s.tv t).le_write (vlo (c.lockOf k.obj)) ts
  have hwf := (I.wf t).write (vlo (c.lockOf k.obj)) ts
  have hL := (lk (c.lockOf k.obj)).ext_released ts ((lk (c.lockOf k.obj)).wr (lk (c.lockOf k.obj)).E + 1)
    ((s.tv t).msgView (vlo (c.lockOf k.obj)) ts .release)
  have hcnt : c.wide = true → ((lk (c.lockOf k.obj)).wr (lk (c.lockOf k.obj)).E + 1) / c.B =
      (lk (c.lockOf k.obj)).hcount c := by
    intro hw
    obtain ⟨h1, -⟩ := hwd hw
    simp only [LG.hcount]
    by_cases hz : p + 2 = 0
    · rw [h1, decide_eq_true hz, if_pos rfl]
    · rw [h1, decide_eq_false hz, Cfg.succ_div_nowrap ok (by rw [← hH.prev]; exact hz)]
      simp
  -- ghost state and abstract access
  have key : ∀ w : View Native.Loc,
      OExt (ob k.obj) ((ob k.obj).published w) := fun w =>
    ⟨Nat.le_succ _, fun _ _ => rfl⟩
  have h0 : ∀ w o, (Function.update lk (c.lockOf k.obj)
          ((lk (c.lockOf k.obj)).released ts ((lk (c.lockOf k.obj)).wr (lk (c.lockOf k.obj)).E + 1)
            ((s.tv t).msgView (vlo (c.lockOf k.obj)) ts .release)) (c.lockOf o)).tau
              ((Function.update ob k.obj ((ob k.obj).published w) o).vt 0) = 0 := by
    intro w o
    rw [(oext_upd (key w) o).vt 0 (Nat.zero_le _), (ext_upd hL (c.lockOf o)).tau _ (I.vtE o 0 (Nat.zero_le _))]
    exact I.h0 o
  have hgrow : ∀ w {va vc}, VLe c lk ob va vc → VLe c (Function.update lk (c.lockOf k.obj)
          ((lk (c.lockOf k.obj)).released ts ((lk (c.lockOf k.obj)).wr (lk (c.lockOf k.obj)).E + 1)
            ((s.tv t).msgView (vlo (c.lockOf k.obj)) ts .release)))
        (Function.update ob k.obj ((ob k.obj).published w)) va vc :=
    fun w _ _ h => h.grow (ext_upd hL) (oext_upd (key w)) I.vtE
  have hTw : ∀ w, TLe c (Function.update lk (c.lockOf k.obj)
          ((lk (c.lockOf k.obj)).released ts ((lk (c.lockOf k.obj)).wr (lk (c.lockOf k.obj)).E + 1)
            ((s.tv t).msgView (vlo (c.lockOf k.obj)) ts .release)))
        (Function.update ob k.obj ((ob k.obj).published w)) (a.tv t) ((s.tv t).write (vlo (c.lockOf k.obj)) ts) :=
    fun w => ((I.tle t).mono hle).grow (ext_upd hL) (oext_upd (key w)) I.vtE
  have acc : ∀ w, ∃ ord w' v', Native.Access (a.mo k.obj) (a.tv t) (.obj k.obj) k.op ord
        (⟨((ob k.obj).K : Ts), (((ob k.obj).K + 1 : Nat) : Ts), (ob k.obj).val ((ob k.obj).K + 1), w'⟩ :: a.mo k.obj) v' r ∧
      TLe c (Function.update lk (c.lockOf k.obj)
          ((lk (c.lockOf k.obj)).released ts ((lk (c.lockOf k.obj)).wr (lk (c.lockOf k.obj)).E + 1)
            ((s.tv t).msgView (vlo (c.lockOf k.obj)) ts .release)))
        (Function.update ob k.obj ((ob k.obj).published w)) v' ((s.tv t).write (vlo (c.lockOf k.obj)) ts) ∧
      VLe c (Function.update lk (c.lockOf k.obj)
          ((lk (c.lockOf k.obj)).released ts ((lk (c.lockOf k.obj)).wr (lk (c.lockOf k.obj)).E + 1)
            ((s.tv t).msgView (vlo (c.lockOf k.obj)) ts .release)))
        (Function.update ob k.obj ((ob k.obj).published w)) w' ((s.tv t).write (vlo (c.lockOf k.obj)) ts).cur ∧
      (ord = MemOrd.seqCst → wantsSc k.op = true) := by
    intro w
    refine I.abs_write (t := t) (r := r) (v := (s.tv t).write (vlo (c.lockOf k.obj)) ts) hok hW.writes hW.res (h0 w) (hTw w) hwf
      (hgrow w (VLe.obj I.h0 (o := k.obj) (vc := ((s.tv t).write (vlo (c.lockOf k.obj)) ts).cur) le_rfl ?_)) ?_
      (hgrow w ((I.objv k.obj (ob k.obj).K _ le_rfl le_rfl (I.vtE _ _ le_rfl)).mono (hH.fv.trans hle.cur)))
    · refine ((I.lock _).tau_mono (I.vtE _ _ le_rfl) le_rfl).trans ?_
      rw [← (I.lock (c.lockOf k.obj)).fvlo _ le_rfl]
      exact (hH.fv.trans hle.cur) _
    · refine VLe.obj (h0 w) (o := k.obj) (k := (ob k.obj).K + 1) ?_ ?_
      · simp only [Function.update_self]; exact le_rfl
      · simp only [Function.update_self]
        simp only [OG.published, LG.released]
        rw [hW.vt, Function.update_self]
        exact write_cur_self _ _ _
  -- the relations above do not depend on the view chosen for the new version
  have indep : ∀ w w' va vc, VLe c (Function.update lk (c.lockOf k.obj)
          ((lk (c.lockOf k.obj)).released ts ((lk (c.lockOf k.obj)).wr (lk (c.lockOf k.obj)).E + 1)
            ((s.tv t).msgView (vlo (c.lockOf k.obj)) ts .release)))
        (Function.update ob k.obj ((ob k.obj).published w)) va vc → VLe c (Function.update lk (c.lockOf k.obj)
          ((lk (c.lockOf k.obj)).released ts ((lk (c.lockOf k.obj)).wr (lk (c.lockOf k.obj)).E + 1)
            ((s.tv t).msgView (vlo (c.lockOf k.obj)) ts .release)))
        (Function.update ob k.obj ((ob k.obj).published w')) va vc := by
    intro w w' va vc h
    refine ⟨h.1, fun o => ?_⟩
    obtain ⟨j, h1, h2, h3⟩ := h.2 o
    refine ⟨j, ?_, h2, ?_⟩
    · by_cases e : o = k.obj
      · subst e; simp only [Function.update_self] at h1 ⊢; exact h1
      · simp only [Function.update_of_ne e] at h1 ⊢; exact h1
    · by_cases e : o = k.obj
      · subst e; simp only [Function.update_self] at h3 ⊢; exact h3
      · simp only [Function.update_of_ne e] at h3 ⊢; exact h3
  obtain ⟨ord, w, va, hacc, hT, hwv, hsc⟩ := acc ⊥
  obtain ⟨lk', ob', J⟩ := I.stepRelease (t := t) (k := k) (O' := (ob k.obj).published w) (f := f) (ts := ts) (r := r)
    (amo := ⟨((ob k.obj).K : Ts), (((ob k.obj).K + 1 : Nat) : Ts), (ob k.obj).val ((ob k.obj).K + 1), w⟩ :: a.mo k.obj)
    (av := va) (ap := .fin r (decide (ord = MemOrd.seqCst)))
    (w := (lk (c.lockOf k.obj)).wr (lk (c.lockOf k.obj)).E + 1)
    (by rw [hpc]; rfl) (by rw [hpc]; rfl) hH hv hf (.inr rfl)
    (fun hw => ⟨hcnt hw, fun _ => rfl⟩)
    (fun hw => (hwd hw).2)
    hW.oth (key w) rfl
    ((I.obj k.obj).publish hW.pend hW.vt (hH.fv.trans hle.cur) (fun j hj => (hW.ct j hj).trans (hle.cur _)))
    (fun j hj => Function.update_of_ne (by omega) ..)
    (by
      intro j h1 h2
      have h1' : j ≤ (ob k.obj).K + 1 := h1
      obtain rfl : j = (ob k.obj).K + 1 := by omega
      refine ⟨hW.vt, ?_⟩
      simp only [OG.published, Function.update_self]
      exact indep _ _ _ _ hwv)
    ⟨indep _ _ _ _ hT.cur, indep _ _ _ _ hT.acq, indep _ _ _ _ hT.rel⟩
    (apc_finish hsc)
  have hst := Native.Step.access (X := X) a t k.obj k.op b ord _ _ _ hapc hok hacc (fun e => hb (hsc e))
  rw [← Cfg.stamp_add, ← hH.prev] at J
  exact ⟨lk', ob', _, .one_tau hst, J⟩

end Inv
end Verif.WM.Lock
