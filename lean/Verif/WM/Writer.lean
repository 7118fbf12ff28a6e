import Verif.WM.Reader
/-!
# Steps of lock takers and holders (proof internals)
-/
set_option autoImplicit false
set_option linter.unusedSectionVars false
namespace Verif.WM.Lock
open Verif.Fallback
variable {V X : Type} [DecidableEq V] {c : Cfg V}
variable {lk : Nat → LG} {ob : Obj → OG V}

/-! ### The lock word -/

/-- Ghost state of a lock after its release at `t`, with `w` completed writes and view `M`. -/
def LG.released (L : LG) (t : Ts) (w : Nat) (M : View CL) : LG :=
  { L with E := L.E + 1, held := none, tau := Function.update L.tau (L.E + 1) t,
           wr := Function.update L.wr (L.E + 1) w, fv := Function.update L.fv (L.E + 1) M, hip := false }

theorem LG.ext_released (L : LG) (t : Ts) (w : Nat) (M : View CL) : LExt L (L.released t w M) := by
  refine ⟨Nat.le_succ _, fun e he => ?_, fun e he => ?_, fun e he => ?_⟩ <;>
    exact Function.update_of_ne (show e ≠ L.E + 1 by omega) ..

namespace LockInv
variable {L : LG} {l : Nat} {ml mh : List (Msg CL (BitVec c.W))}

/-- A failed attempt to take the lock. -/
theorem push (I : LockInv c L l ml mh) {m : Msg CL (BitVec c.W)} {t : Ts} {w : View CL}
    (hm : m ∈ ml) (hf : Fresh ml m.ts t) : LockInv c L l (⟨m.ts, t, 1, w⟩ :: ml) mh where
  tau0 := I.tau0
  wr0 := I.wr0
  wrS := I.wrS
  msgs m' hm' := by
    rcases List.mem_cons.1 hm' with rfl | hm'
    · exact .inl rfl
    · exact I.msgs m' hm'
  pos m' hm' := by
    rcases List.mem_cons.1 hm' with rfl | hm'
    · exact .inl hf.1
    · exact I.pos m' hm'
  last := by
    obtain ⟨m', h1, h2⟩ := I.last
    exact ⟨m', List.mem_cons_of_mem _ h1, h2⟩
  tausig := I.tausig
  took e he := by
    obtain ⟨m', h1, h2⟩ := I.took e he
    exact ⟨m', List.mem_cons_of_mem _ h1, h2⟩
  sigtau := I.sigtau
  contig m' hm' ht := by
    rcases List.mem_cons.1 hm' with rfl | hm'
    · refine ⟨m, List.mem_cons_of_mem _ hm, rfl, ?_⟩
      obtain ⟨m1, h1, h2⟩ := I.last
      rcases hf.2 m1 h1 with h3 | h3
      · rcases I.pos m1 h1 with h4 | h4
        · rw [h2] at h4
          exact absurd (h3.trans_lt h4) (not_lt.2 (le_of_lt ht))
        · rw [← h2, h4]; exact zero_le
      · rw [← h2]; exact h3
    · obtain ⟨m1, h1, h2⟩ := I.contig m' hm' ht
      exact ⟨m1, List.mem_cons_of_mem _ h1, h2⟩
  fvlo := I.fvlo
  hip := I.hip
  himsgs := I.himsgs
  hmono := I.hmono
  fvhi := I.fvhi

/-- A swap that finds the lock free has found the latest free write, which nobody has taken. -/
theorem swap_last (I : LockInv c L l ml mh) {m : Msg CL (BitVec c.W)} {t : Ts}
    (hm : m ∈ ml) (hf : Fresh ml m.ts t) (hx : m.val ≠ 1) :
    m.ts = L.tau L.E ∧ m.val = c.stamp (L.wr L.E) ∧ m.view = L.fv L.E ∧ L.held = none := by
  obtain ⟨e, he, h1, h2, h3⟩ := I.tau_nonlock hm hx
  have hnt : ¬ L.taken e := by
    intro ht
    obtain ⟨m', h4, h5, h6⟩ := I.took e ht
    rcases hf.2 m' h4 with h7 | h7
    · rw [h5, ← h1] at h7; exact absurd hf.1 (not_lt.2 h7)
    · rw [h6, h1] at h7; exact absurd (I.tausig e ht) (not_lt.2 h7)
  have hE : e = L.E := by
    by_contra hn
    exact hnt (.inl (by omega))
  subst hE
  refine ⟨h1, h2, h3, ?_⟩
  cases hh : L.held with
  | none => rfl
  | some t => exact absurd (.inr ⟨rfl, by rw [hh]; rfl⟩) hnt

/-- The lock is taken at `t`. -/
theorem take (I : LockInv c L l ml mh) {m : Msg CL (BitVec c.W)} {t : Ts} {w : View CL} (u : Tid)
    (hm : m ∈ ml) (hf : Fresh ml m.ts t) (hx : m.val ≠ 1) :
    LockInv c { L with held := some u, sig := Function.update L.sig L.E t } l
      (⟨m.ts, t, 1, w⟩ :: ml) mh := by
  obtain ⟨h1, h2, h3, h4⟩ := I.swap_last hm hf hx
  have hp : L.hip = false := by
    cases hh : L.hip with
    | false => rfl
    | true => have := (I.hip hh).1; rw [h4] at this; cases this
  have P := I.push (w := w) hm hf
  have hs : ∀ e, e ≠ L.E → Function.update L.sig L.E t e = L.sig e := fun e he =>
    Function.update_of_ne he ..
  have htk : ∀ e, e ≠ L.E → e ≤ L.E → L.taken e := fun e h h' => .inl (by omega)
  have hle : ∀ e, LG.taken { L with held := some u, sig := Function.update L.sig L.E t } e →
      e ≠ L.E → L.taken e := by
    intro e h hn
    rcases h with h | h
    · exact .inl h
    · exact absurd h.1 hn
  refine ⟨P.tau0, P.wr0, P.wrS, P.msgs, P.pos, P.last, ?_, ?_, ?_, P.contig, P.fvlo, ?_, ?_, P.hmono,
    P.fvhi⟩
  · intro e he
    by_cases e' : e = L.E
    · subst e'; simp only [Function.update_self]; rw [← h1]; exact hf.1
    · simp only [hs e e']; exact I.tausig e (hle e he e')
  · intro e he
    by_cases e' : e = L.E
    · subst e'
      exact ⟨_, List.mem_cons_self, h1, by simp only [Function.update_self]⟩
    · simp only [hs e e']; exact P.took e (hle e he e')
  · intro e he
    have e' : e ≠ L.E := Nat.ne_of_lt he
    simp only [hs e e']; exact I.sigtau e he
  · intro h; rw [hp] at h; cases h
  · intro hw m' hm'
    obtain ⟨j, g1, g2, g3, g4⟩ := I.himsgs hw m' hm'
    refine ⟨j, g1, g2, g3, g4.imp_right ?_⟩
    rintro ⟨e, g5, g6, g7⟩
    rcases g7 with g7 | g7
    · refine ⟨e, g5, ?_, .inl g7⟩
      simp only [hs e (by omega)]; exact g6
    · rw [hp] at g7; exact absurd g7.2 (by simp)

/-- The lock is released at `t` with `w` completed writes. -/
theorem release (I : LockInv c L l ml mh) {f t : Ts} {v : TV CL} {w : Nat}
    (hheld : L.held.isSome) (hsig : L.sig L.E ≤ v.cur (vlo l)) (hv : v.cur (vlo l) < t)
    (hf : Fresh ml f t) (hw : w = L.wr L.E ∨ w = L.wr L.E + 1)
    (hhc : c.wide = true → w / c.B = L.hcount c ∧ (L.hip = true → w = L.wr L.E + 1))
    (hhi : c.wide = true → L.hts (w / c.B) ≤ v.cur (vhi l)) :
    LockInv c (L.released t w (v.msgView (vlo l) t .release)) l
      (⟨f, t, c.stamp w, v.msgView (vlo l) t .release⟩ :: ml) mh := by
  have htE : L.taken L.E := .inr ⟨rfl, hheld⟩
  have hlast := I.fresh_last hf (((I.tausig _ htE).trans_le hsig).trans hv)
  have hu : ∀ {Y : Type} (g : Nat → Y) (y : Y) e, e ≤ L.E → Function.update g (L.E + 1) y e = g e :=
    fun g y e he => Function.update_of_ne (by omega) ..
  have htk : ∀ e, e < L.E + 1 → L.taken e := by
    intro e he
    rcases Nat.lt_or_ge e L.E with h | h
    · exact .inl h
    · rw [show e = L.E by omega]; exact htE
  have htk' : ∀ e, LG.taken (L.released t w (v.msgView (vlo l) t .release)) e → e < L.E + 1 := by
    intro e he
    rcases he with h | ⟨-, h⟩
    · exact h
    · cases h
  unfold LG.released
  refine ⟨?_, ?_, ?_, ?_, ?_, ?_, ?_, ?_, ?_, ?_, ?_, ?_, ?_, ?_, ?_⟩
  · simp only [hu _ _ 0 (Nat.zero_le _)]; exact I.tau0
  · simp only [hu _ _ 0 (Nat.zero_le _)]; exact I.wr0
  · intro e he
    have he' : e < L.E + 1 := he
    simp only [hu L.wr _ e (by omega)]
    by_cases e1 : e = L.E
    · subst e1; simp only [Function.update_self]; exact hw
    · simp only [hu L.wr _ (e + 1) (by omega)]; exact I.wrS e (by omega)
  · intro m hm
    rcases List.mem_cons.1 hm with rfl | hm
    · exact .inr ⟨L.E + 1, le_rfl, by simp, by simp, by simp⟩
    · refine (I.msgs m hm).imp_right ?_
      rintro ⟨e, h1, h2, h3, h4⟩
      refine ⟨e, Nat.le_succ_of_le h1, ?_, ?_, ?_⟩
      · simp only [hu L.tau _ e h1]; exact h2
      · simp only [hu L.wr _ e h1]; exact h3
      · simp only [hu L.fv _ e h1]; exact h4
  · intro m hm
    rcases List.mem_cons.1 hm with rfl | hm
    · exact .inl hf.1
    · exact I.pos m hm
  · exact ⟨_, List.mem_cons_self, by simp⟩
  · intro e he
    have he' := htk' e he
    simp only [hu L.tau _ e (by omega)]; exact I.tausig e (htk e he')
  · intro e he
    have he' := htk' e he
    obtain ⟨m, h1, h2⟩ := I.took e (htk e he')
    exact ⟨m, List.mem_cons_of_mem _ h1, by simp only [hu L.tau _ e (by omega)]; exact h2⟩
  · intro e he
    have he' : e < L.E + 1 := he
    by_cases e1 : e = L.E
    · subst e1; simp only [Function.update_self]; exact hsig.trans_lt hv
    · simp only [hu L.tau _ (e + 1) (by omega)]; exact I.sigtau e (by omega)
  · intro m hm ht
    simp only [Function.update_self] at ht
    rcases List.mem_cons.1 hm with rfl | hm
    · exact absurd ht (lt_irrefl _)
    · exact absurd ((hlast m hm).trans_lt hf.1) (not_lt.2 ht.le)
  · intro e he
    by_cases e1 : e = L.E + 1
    · subst e1
      simp only [Function.update_self, TV.msgView, rels, if_true, Pi.sup_apply, single_self]
      exact sup_eq_right.2 hv.le
    · have he' : e ≤ L.E + 1 := he
      simp only [Function.update_of_ne e1]; exact I.fvlo e (by omega)
  · intro h; cases h
  · intro hwd m hm
    obtain ⟨j, g1, g2, g3, g4⟩ := I.himsgs hwd m hm
    refine ⟨j, g1, g2, ?_, g4.imp_right ?_⟩
    · simp only [LG.hcount, Function.update_self]
      rw [(show (if false = true then 1 else 0) = 0 from rfl), Nat.add_zero, (hhc hwd).1]; exact g3
    · rintro ⟨e, g5, g6, g7⟩
      refine ⟨e, ?_, g6, .inl ?_⟩
      · simp only [hu L.wr _ e (by omega)]; exact g5
      · rcases g7 with ⟨g7, g8⟩ | ⟨g7, g8⟩
        · refine ⟨Nat.lt_succ_of_lt g7, ?_⟩
          simp only [hu L.wr _ e (by omega), hu L.wr _ (e + 1) (by omega)]; exact g8
        · subst g7
          refine ⟨Nat.lt_succ_self _, ?_⟩
          simp only [hu L.wr _ L.E le_rfl, Function.update_self]; exact (hhc hwd).2 g8
  · intro hwd j hj
    refine I.hmono hwd j ?_
    rw [← (hhc hwd).1]
    simpa only [LG.hcount, Function.update_self, Bool.false_eq_true, if_false, Nat.add_zero] using hj
  · intro hwd e he
    by_cases e1 : e = L.E + 1
    · subst e1
      simp only [Function.update_self]
      refine (hhi hwd).trans ?_
      simp only [TV.msgView, rels, if_true]
      exact le_sup_left (a := v.cur) _
    · have he' : e ≤ L.E + 1 := he
      simp only [Function.update_of_ne e1]; exact I.fvhi hwd e (by omega)

/-- The high half is advanced at `t`. -/
theorem advance (I : LockInv c L l ml mh) {f t : Ts} {v : TV CL} (hwide : c.wide = true)
    (hheld : L.held.isSome) (hsig : L.sig L.E ≤ v.cur (vlo l)) (hfv : L.fv L.E ≤ v.cur)
    (hv : v.cur (vhi l) < t) (hp : L.hip = false) (hd : (L.wr L.E + 1) % c.B = 0)
    (hdiv : (L.wr L.E + 1) / c.B = L.wr L.E / c.B + 1) :
    LockInv c { L with hip := true, hts := Function.update L.hts (L.wr L.E / c.B + 1) t } l ml
      (⟨f, t, BitVec.ofNat c.W (L.wr L.E / c.B + 1), v.msgView (vhi l) t .release⟩ :: mh) := by
  have hc : L.hcount c = L.wr L.E / c.B := by simp [LG.hcount, hp]
  have hc' : LG.hcount c { L with hip := true, hts := Function.update L.hts (L.wr L.E / c.B + 1) t } =
      L.wr L.E / c.B + 1 := by simp only [LG.hcount, if_true]; exact hdiv
  have hu : ∀ j, j ≤ L.wr L.E / c.B → Function.update L.hts (L.wr L.E / c.B + 1) t j = L.hts j :=
    fun j hj => Function.update_of_ne (by omega) ..
  refine ⟨I.tau0, I.wr0, I.wrS, I.msgs, I.pos, I.last, I.tausig, I.took, I.sigtau, I.contig, I.fvlo,
    fun _ => ⟨hheld, hd⟩, ?_, ?_, ?_⟩
  · intro _ m hm
    rcases List.mem_cons.1 hm with rfl | hm
    · refine ⟨L.wr L.E / c.B + 1, by simp, rfl, by rw [hc'], .inr ⟨L.E, ?_, ?_, .inr ⟨rfl, rfl⟩⟩⟩
      · rw [← hdiv]; exact (Nat.div_mul_cancel (Nat.dvd_of_mod_eq_zero hd)).symm
      · simp only [TV.msgView, rels, if_true]
        exact hsig.trans (le_sup_left (a := v.cur) _)
    · obtain ⟨j, g1, g2, g3, g4⟩ := I.himsgs hwide m hm
      rw [hc] at g3
      refine ⟨j, ?_, g2, by rw [hc']; omega, g4.imp_right ?_⟩
      · simp only [hu j g3]; exact g1
      · rintro ⟨e, g5, g6, g7⟩
        refine ⟨e, g5, g6, .inl ?_⟩
        rcases g7 with g7 | g7
        · exact g7
        · rw [hp] at g7; exact absurd g7.2 (by simp)
  · intro _ j hj
    rw [hc'] at hj
    by_cases e : j = L.wr L.E / c.B
    · subst e
      simp only [hu _ le_rfl, Function.update_self]
      exact (I.fvhi hwide L.E le_rfl).trans_lt ((hfv _).trans_lt hv)
    · simp only [hu j (by omega), hu (j + 1) (by omega)]
      exact I.hmono hwide j (by rw [hc]; omega)
  · intro _ e he
    have := Nat.div_le_div_right (c := c.B) (I.wr_mono he le_rfl)
    simp only [hu _ this]
    exact I.fvhi hwide e he

end LockInv

/-! ### Taking the lock -/

theorem mem_update {mem : Fallback.Loc → List (Msg CL (BitVec c.W))} {l0 : Fallback.Loc}
    {m0 : Msg CL (BitVec c.W)} (l : Fallback.Loc) (m : Msg CL (BitVec c.W)) (h : m ∈ mem l) :
    m ∈ Function.update mem l0 (m0 :: mem l0) l := by
  by_cases e : l = l0
  · subst e; rw [Function.update_self]; exact List.mem_cons_of_mem _ h
  · rw [Function.update_of_ne e]; exact h

namespace Inv
variable {s : State c X} {a : Native.State V X} {N : Nat}

theorem swapFail (I : Inv c lk ob s a N) {t : Tid} {k : Call V} (hpc : s.pc t = .swapLock k)
    {m : Msg CL (BitVec c.W)} {ts : Ts} {w : View CL} {v : TV CL} (hm : m ∈ s.mem (.lo (c.lockOf k.obj)))
    (hf : Fresh (s.mem (.lo (c.lockOf k.obj))) m.ts ts) (hv : (s.tv t).Le v) (wf : v.Wf) :
    Inv c lk ob
      { s with mem := Function.update s.mem (.lo (c.lockOf k.obj))
                        (⟨m.ts, ts, 1, w⟩ :: s.mem (.lo (c.lockOf k.obj))),
               tv := Function.update s.tv t v, pc := Function.update s.pc t (.spin k) } a N := by
  have hap := I.apc t
  rw [hpc] at hap
  have J := I.stepLocal' t (nr := s.nr) (p := .spin k) hv wf (by rw [hpc]; rfl) (.inl (by rw [hpc]; rfl))
    trivial trivial trivial hap (fun _ _ _ => .inl rfl)
  refine ⟨fun l => ?_, fun o => ?_, J.objv, J.held, J.hinv, fun u => ?_, J.lpc, J.free, J.markF, J.markH,
    J.ext, J.tle, J.sc, J.wf, J.apc, J.cnt⟩
  · by_cases e : l = c.lockOf k.obj
    · subst e
      simp only [Function.update_self]
      rw [Function.update_of_ne (by simp)]
      exact (I.lock _).push hm hf
    · simp only
      rw [Function.update_of_ne (by simpa using e), Function.update_of_ne (by simp)]
      exact I.lock l
  · simp only
    have : (fun i => Function.update s.mem (.lo (c.lockOf k.obj))
        (⟨m.ts, ts, 1, w⟩ :: s.mem (.lo (c.lockOf k.obj))) (.chunk o i)) = fun i => s.mem (.chunk o i) := by
      funext i; rw [Function.update_of_ne (by simp)]
    rw [this]; exact I.obj o
  · exact (J.rinv u).grow (fun l => LExt.refl _) (fun l m h => mem_update l m h)

theorem swapOk (I : Inv c lk ob s a N) {t : Tid} {k : Call V} (hpc : s.pc t = .swapLock k)
    {m : Msg CL (BitVec c.W)} {ts : Ts} {w : View CL} (hm : m ∈ s.mem (.lo (c.lockOf k.obj)))
    (hf : Fresh (s.mem (.lo (c.lockOf k.obj))) m.ts ts) (hx : m.val ≠ 1) :
    ∃ lk' ob', Inv c lk' ob'
      { s with mem := Function.update s.mem (.lo (c.lockOf k.obj))
                        (⟨m.ts, ts, 1, w⟩ :: s.mem (.lo (c.lockOf k.obj))),
               tv := Function.update s.tv t (((s.tv t).read (.mem (.lo (c.lockOf k.obj))) .acquire m).write
                 (.mem (.lo (c.lockOf k.obj))) ts),
               pc := Function.update s.pc t (.relFence k m.val) } a N := by
  obtain ⟨h1, h2, h3, h4⟩ := (I.lock _).swap_last hm hf hx
  have hap := I.apc t
  rw [hpc] at hap
  have hp : (lk (c.lockOf k.obj)).hip = false := by
    cases hh : (lk (c.lockOf k.obj)).hip with
    | false => rfl
    | true => have := ((I.lock _).hip hh).1; rw [h4] at this; cases this
  have hle1 := (s.tv t).le_read (.mem (.lo (c.lockOf k.obj))) .acquire m
  have hle2 := ((s.tv t).read (.mem (.lo (c.lockOf k.obj))) .acquire m).le_write (.mem (.lo (c.lockOf k.obj))) ts
  have hle := hle1.trans hle2
  have hfv : (lk (c.lockOf k.obj)).fv (lk (c.lockOf k.obj)).E ≤
      (((s.tv t).read (.mem (.lo (c.lockOf k.obj))) .acquire m).write (.mem (.lo (c.lockOf k.obj))) ts).cur := by
    rw [← h3]; exact (read_view_cur _ _ _ _ rfl).trans hle2.cur
  have hLE : LExt (lk (c.lockOf k.obj)) { lk (c.lockOf k.obj) with held := some t, sig := Function.update (lk (c.lockOf k.obj)).sig (lk (c.lockOf k.obj)).E ts } :=
    ⟨le_rfl, fun _ _ => rfl, fun _ _ => rfl, fun _ _ => rfl⟩
  have hnp := I.free _ h4
  have hobj : ∀ o', c.lockOf o' = c.lockOf k.obj → ObjInv c
      { lk (c.lockOf k.obj) with held := some t, sig := Function.update (lk (c.lockOf k.obj)).sig (lk (c.lockOf k.obj)).E ts }
      (ob o') o' (fun i => s.mem (.chunk o' i)) (a.mo o') := by
    intro o' ho'
    have := I.obj o'
    rw [ho'] at this
    refine this.grow hLE (fun e he => Function.update_of_ne (Nat.ne_of_lt he) ..) (hnp o' ho') ?_
    intro e h1 h2
    exact absurd h1 (Nat.not_lt.2 h2)
  have hch : (fun i => Function.update s.mem (.lo (c.lockOf k.obj))
        (⟨m.ts, ts, 1, w⟩ :: s.mem (.lo (c.lockOf k.obj))) (.chunk k.obj i)) = fun i => s.mem (.chunk k.obj i) := by
      funext i; rw [Function.update_of_ne (by simp)]
  have hl : ∀ l, LExt (lk l) (Function.update lk (c.lockOf k.obj) { lk (c.lockOf k.obj) with held := some t, sig := Function.update (lk (c.lockOf k.obj)).sig (lk (c.lockOf k.obj)).E ts } l) := by
    intro l
    by_cases e : l = c.lockOf k.obj
    · subst e; simpa only [Function.update_self] using hLE
    · simpa only [Function.update_of_ne e] using LExt.refl _
  have ho : ∀ o', OExt (ob o') (Function.update ob k.obj (ob k.obj) o') := by
    intro o'; rw [Function.update_eq_self]; exact OExt.refl _
  have := I.stepMem t (o := k.obj) (O' := ob k.obj)
    (L' := { lk (c.lockOf k.obj) with held := some t, sig := Function.update (lk (c.lockOf k.obj)).sig (lk (c.lockOf k.obj)).E ts })
    (mem' := Function.update s.mem (.lo (c.lockOf k.obj))
                        (⟨m.ts, ts, 1, w⟩ :: s.mem (.lo (c.lockOf k.obj))))
    (v := ((s.tv t).read (.mem (.lo (c.lockOf k.obj))) .acquire m).write (.mem (.lo (c.lockOf k.obj))) ts)
    (p := .relFence k m.val) (av := a.tv t) (ap := a.pc t) (amo := a.mo k.obj)
    hLE (OExt.refl _) (fun l m h => mem_update l m h)
    (fun l hl => Function.update_of_ne (by simpa using hl) ..)
    (fun l _ => Function.update_of_ne (by simp) ..)
    (fun o' i _ => Function.update_of_ne (by simp) ..)
    (by rw [Function.update_self, Function.update_of_ne (by simp)]; exact (I.lock _).take t hm hf hx)
    (by rw [hch]; exact hobj _ rfl)
    (fun o' _ ho' => hobj o' ho')
    (by
      intro o' kk e ho' hk he hv
      rw [Function.update_eq_self] at hk hv ⊢
      have := I.objv o' kk e hk (by rw [ho']; exact he) hv
      rw [ho'] at this
      have := this.grow hl ho I.vtE
      rwa [Function.update_eq_self] at this)
    (by
      intro u hu h
      have := (I.held u _).1 h
      rw [h4] at this; cases this)
    (by intro l h; rw [hpc] at h; cases h)
    (by
      intro l
      constructor
      · intro h
        simp only [Cfg.owns, Cfg.holds, Option.map_some, Option.some.injEq] at h
        exact ⟨h.symm, rfl⟩
      · rintro ⟨rfl, -⟩; rfl)
    (by intro u h; exact (Option.some.inj h).symm)
    (by
      simp only [HInv, Function.update_self, Function.update_eq_self]
      exact ⟨⟨h2, by simp only [Function.update_self]; exact write_cur_self _ _ _, hfv⟩, hnp, hp⟩)
    trivial trivial
    (by intro h; cases h) (by intro h; cases h)
    (by
      intro _ o' ho' i u
      exact (I.markF _ h4 o' ho' i u).trans (hfv _))
    (((I.tle t).mono hle).grow hl ho I.vtE)
    (((I.wf t).read ..).write ..) hap (.inl (by rw [hpc]; rfl)) (.inl rfl)
  simp only [Function.update_eq_self] at this
  exact ⟨_, _, this⟩

theorem swapLock (I : Inv c lk ob s a N) {t : Tid} {k : Call V} (hpc : s.pc t = .swapLock k)
    {x : BitVec c.W} {s' : State c X} (hd : Do s t (.swap (.lo (c.lockOf k.obj)) 1 .acquire) x s') :
    Sim c a [] (s'.goto t (if x = 1 then .spin k else .relFence k x)) N := by
  cases hd with | swap _ _ _ _ _ _ h =>
  cases h with | mk m ts hm hv hf =>
  split
  · next hx =>
    exact ⟨lk, ob, a, .refl _, I.swapFail hpc hm hf ((TV.le_read ..).trans (TV.le_write ..))
      (((I.wf t).read ..).write ..)⟩
  · next hx =>
    obtain ⟨lk', ob', J⟩ := I.swapOk hpc hm hf hx
    exact ⟨lk', ob', a, .refl _, J⟩

end Inv
end Verif.WM.Lock
