import Verif.WM.Writer
/-!
# Steps of the lock holder (proof internals)
-/
set_option autoImplicit false
set_option linter.unusedSectionVars false
namespace Verif.WM.Lock
open Verif.Fallback
variable {V X : Type} [DecidableEq V] {c : Cfg V}
variable {lk : Nat → LG} {ob : Obj → OG V}

theorem Hold.mono {L : LG} {l : Nat} {v v' : TV CL} {p : BitVec c.W} (h : Hold c L l v p)
    (hv : v.cur ≤ v'.cur) : Hold c L l v' p := ⟨h.prev, h.sig.trans (hv _), h.fv.trans hv⟩

theorem Wr.mono {L : LG} {k : Call V} {v v' : TV CL} {i : Nat} {r : Res V} (h : Wr c L ob k v i r)
    (hv : v.cur ≤ v'.cur) : Wr c L ob k v' i r :=
  ⟨h.oth, h.pend, fun j hj => (h.ct j hj).trans (hv _), h.vt, h.writes, h.res⟩

/-- The next version of an object is announced. -/
def OG.preset (O : OG V) (E : Nat) (x : V) : OG V :=
  { O with vt := Function.update O.vt (O.K + 1) (E + 1), val := Function.update O.val (O.K + 1) x }

theorem OG.ext_preset (O : OG V) (E : Nat) (x : V) : OExt O (O.preset E x) :=
  ⟨le_rfl, fun k hk => Function.update_of_ne (by omega) ..⟩

theorem ObjInv.preset {L : LG} {O : OG V} {o : Obj} {mc : Nat → List (Msg CL (BitVec c.W))}
    {mo : List (Msg Native.Loc V)} (I : ObjInv c L O o mc mo) (hp : O.pend = 0) (E : Nat) (x : V) :
    ObjInv c L (O.preset E x) o mc mo := by
  have hu : ∀ {Y : Type} (g : Nat → Y) (y : Y) k, k ≤ O.K → Function.update g (O.K + 1) y k = g k :=
    fun g y k hk => Function.update_of_ne (by omega) ..
  unfold OG.preset
  refine ⟨?_, ?_, ?_, ?_, ?_, I.ctmono, I.ctpend, fun h => absurd hp h, ?_, ?_⟩
  · simp only [hu O.vt _ 0 (Nat.zero_le _)]; exact I.vt0
  · intro k hk
    have hk' : k < O.K := hk
    simp only [hu O.vt _ k (by omega), hu O.vt _ (k + 1) (by omega)]; exact I.vtmono k hk
  · intro k hk
    have hk' : k ≤ O.K := hk
    simp only [hu O.vt _ k hk']; exact I.vtE k hk
  · intro k e hk h
    have hk' : k ≤ O.K := hk
    simp only [hu O.vt _ k hk'] at h; exact I.vtwr k e hk h
  · intro i m hm
    obtain ⟨k, h1, h2, h3, h4⟩ := I.chunks i m hm
    have hk : k ≤ O.K := by rcases h2 with h | h <;> omega
    refine ⟨k, h1, h2, ?_, ?_⟩
    · simp only [hu O.val _ k hk]; exact h3
    · intro e he
      simp only [hu O.vt _ k hk] at he; exact h4 e he
  · intro i k e hi hk he hv
    have hk' : k ≤ O.K := hk
    simp only [hu O.vt _ k hk'] at hv; exact I.fvct i k e hi hk he hv
  · intro m
    rw [I.amem]
    constructor <;> rintro ⟨k, h1, h2⟩ <;> refine ⟨k, h1, ?_⟩ <;>
      have hk' : k ≤ O.K := h1
    · simp only [hu O.val _ k hk']; exact h2
    · simp only [hu O.val _ k hk'] at h2; exact h2

namespace Inv
variable {s : State c X} {a : Native.State V X} {N : Nat}

theorem nonow (I : Inv c lk ob s a N) {t : Tid} {l : Nat} (h : c.owns (s.pc t) = some l) (u : Tid)
    (hu : u ≠ t) : c.owns (s.pc u) ≠ some l := by
  intro h'
  have h1 := (I.held t l).1 h
  have h2 := (I.held u l).1 h'
  rw [h1] at h2
  exact hu (Option.some.inj h2).symm

theorem ext_upd {L' : LG} {l : Nat} (h : LExt (lk l) L') (l' : Nat) :
    LExt (lk l') (Function.update lk l L' l') := by
  by_cases e : l' = l
  · subst e; simpa only [Function.update_self] using h
  · simpa only [Function.update_of_ne e] using LExt.refl _

theorem oext_upd {O' : OG V} {o : Obj} (h : OExt (ob o) O') (o' : Obj) :
    OExt (ob o') (Function.update ob o O' o') := by
  by_cases e : o' = o
  · subst e; simpa only [Function.update_self] using h
  · simpa only [Function.update_of_ne e] using OExt.refl _

/-- The holder announces the version it is going to write. -/
theorem preset (I : Inv c lk ob s a N) {t : Tid} {o : Obj} (hown : c.owns (s.pc t) = some (c.lockOf o))
    (hnp : NoPend c ob (c.lockOf o)) (x : V)
    (hh : HInv c lk (Function.update ob o ((ob o).preset (lk (c.lockOf o)).E x)) (s.tv t) (s.pc t)) :
    Inv c lk (Function.update ob o ((ob o).preset (lk (c.lockOf o)).E x)) s a N := by
  have hheld := (I.held t _).1 hown
  have hO := (ob o).ext_preset (lk (c.lockOf o)).E x
  have := I.stepMem t (o := o) (L' := lk (c.lockOf o)) (O' := (ob o).preset (lk (c.lockOf o)).E x)
    (mem' := s.mem) (v := s.tv t) (p := s.pc t) (av := a.tv t) (ap := a.pc t) (amo := a.mo o)
    (LExt.refl _) hO (fun _ _ h => h)
    (fun _ _ => rfl) (fun _ _ => rfl) (fun _ _ _ => rfl) (I.lock _)
    ((I.obj o).preset (hnp o rfl) _ x)
    (by intro o' _ ho'; have := I.obj o'; rwa [ho'] at this)
    (by
      intro o' k e ho' hk he hv
      have hk' : k ≤ (ob o').K := by
        by_cases h : o' = o
        · subst h; simp only [Function.update_self] at hk; exact hk
        · simpa only [Function.update_of_ne h] using hk
      have e1 : (Function.update ob o ((ob o).preset (lk (c.lockOf o)).E x) o').vt k = (ob o').vt k :=
        (oext_upd hO o').vt k hk'
      have e2 : (Function.update ob o ((ob o).preset (lk (c.lockOf o)).E x) o').av = (ob o').av := by
        by_cases h : o' = o
        · subst h; simp only [Function.update_self]; rfl
        · simp only [Function.update_of_ne h]
      rw [e1] at hv
      rw [e2]
      have := I.objv o' k e hk' (by rw [ho']; exact he) hv
      rw [ho'] at this
      exact this.grow (ext_upd (LExt.refl _)) (oext_upd hO) I.vtE)
    (I.nonow hown)
    (by intro l h; rw [hown] at h; exact (Option.some.inj h).symm)
    (by
      intro l; rw [hown, hheld]
      constructor
      · intro h; exact ⟨(Option.some.inj h).symm, rfl⟩
      · rintro ⟨rfl, -⟩; rfl)
    (by intro u h; rw [hheld] at h; exact (Option.some.inj h).symm)
    (by rw [Function.update_eq_self]; exact hh)
    (by rw [Function.update_eq_self]; exact I.rinv t)
    (I.lpc t)
    (by intro h; rw [hheld] at h; cases h)
    (by intro h; rw [hheld] at h; cases h)
    (fun h => I.markH _ _ h)
    ((I.tle t).grow (ext_upd (LExt.refl _)) (oext_upd hO) I.vtE) (I.wf t) (I.apc t) (.inl rfl) (.inl rfl)
  simpa only [Function.update_eq_self] using this

theorem noPend_preset {o : Obj} {l E : Nat} {x : V} (h : NoPend c ob l) :
    NoPend c (Function.update ob o ((ob o).preset E x)) l := by
  intro o' ho'
  by_cases e : o' = o
  · subst e; simp only [Function.update_self]; exact h _ ho'
  · simp only [Function.update_of_ne e]; exact h _ ho'

/-- The knowledge of a thread about to write the first word. -/
theorem wr_zero {o : Obj} {k : Call V} (hk : k.obj = o) {v : TV CL} {x : V} {r : Res V}
    (hnp : NoPend c ob (c.lockOf o)) (hw : Writes k.op ((ob o).val (ob o).K))
    (hres : k.op.onCell ((ob o).val (ob o).K) = (x, r)) :
    Wr c (lk (c.lockOf o)) (Function.update ob o ((ob o).preset (lk (c.lockOf o)).E x)) k v 0 r := by
  subst hk
  have e1 : Function.update (ob k.obj).val ((ob k.obj).K + 1) x (ob k.obj).K =
      (ob k.obj).val (ob k.obj).K := Function.update_of_ne (by omega) ..
  refine ⟨?_, ?_, ?_, ?_, ?_, ?_⟩
  · intro o' hne ho'; exact noPend_preset hnp o' ho'
  · simp only [Function.update_self]; exact hnp _ rfl
  · intro j hj; omega
  · simp [OG.preset]
  · simp only [Function.update_self, OG.preset, e1]; exact hw
  · simp only [Function.update_self, OG.preset, e1]; exact hres

theorem relFence (I : Inv c lk ob s a N) (ok : c.Sound) {t : Tid} {k : Call V} {p : BitVec c.W}
    (hpc : s.pc t = .relFence k p) {x : BitVec c.W} {s' : State c X} (hd : Do s t (.fence .release) x s') :
    Sim c a [] (s'.goto t (c.locked k p)) N := by
  cases hd
  have hap := I.apc t; have hhi := I.hinv t
  rw [hpc] at hap hhi
  obtain ⟨hH, hnp, hp⟩ := hhi
  have hf := (I.wf t).fence .release
  have hsig : (lk (c.lockOf k.obj)).sig (lk (c.lockOf k.obj)).E ≤
      ((s.tv t).fence .release).rel (vlo (c.lockOf k.obj)) := hH.sig
  unfold Cfg.locked
  split
  · next v o hop =>
    obtain ⟨hok, -⟩ := I.apc_body hpc rfl (by simp)
    have J := I.preset (t := t) (o := k.obj) (by rw [hpc]; rfl) hnp v
      (by rw [hpc]; exact ⟨hH, noPend_preset hnp, hp⟩)
    refine ⟨_, _, a, .refl _, J.stepLocal' t (nr := s.nr) hf.2 hf.1 (by rw [hpc]; rfl)
      (.inl (by rw [hpc]; rfl)) ?_ trivial trivial hap fun _ _ _ => .inl rfl⟩
    refine ⟨hH.mono hf.2.cur, hp, hsig, ok.hn _, ?_, ?_⟩
    · refine wr_zero rfl hnp ?_ ?_
      · rw [hop]; trivial
      · rw [hop] at hok ⊢; simp [Op.onCell, hok]
    · simp [OG.preset]
  · refine ⟨_, _, a, .refl _, I.stepLocal' t (nr := s.nr) hf.2 hf.1 (by rw [hpc]; rfl)
      (.inl (by rw [hpc]; rfl)) ?_ trivial trivial hap fun _ _ _ => .inl rfl⟩
    exact ⟨hH.mono hf.2.cur, hnp, hp, hsig, ok.hn _, fun j hj => absurd hj (Nat.not_lt_zero _)⟩

theorem mark_le (v : TV CL) (l : Fallback.Loc) (t : Tid) (n : Nat) : v.Le (mark v l t n) :=
  ⟨le_sup_left, le_sup_left, le_rfl⟩

theorem mark_wf {v : TV CL} (w : v.Wf) (l : Fallback.Loc) (t : Tid) (n : Nat) : (mark v l t n).Wf :=
  ⟨w.rel.trans le_sup_left, sup_le_sup_right w.cur _⟩

/-- What the holder reads of its object, when nobody is writing: the latest version. -/
theorem holder_reads (I : Inv c lk ob s a N) {v : TV CL} {o : Obj} {i : Nat} {p : BitVec c.W} (hi : i < c.n o)
    (hH : Hold c (lk (c.lockOf o)) (c.lockOf o) v p) (hp : (ob o).pend = 0)
    {m : Msg CL (BitVec c.W)} (hm : m ∈ s.mem (.chunk o i)) (hv : v.cur (vch o i) ≤ m.ts) :
    m.ts = (ob o).ct i (ob o).K ∧ m.val = c.split o ((ob o).val (ob o).K) i := by
  obtain ⟨k, h1, h2, h3, -⟩ := (I.obj o).chunks i m hm
  have hk : k ≤ (ob o).K := by rcases h2 with h | h <;> omega
  have : k = (ob o).K := by
    by_contra hn
    have h4 := (I.obj o).ct_lt hi (show k < (ob o).K by omega) (.inl le_rfl)
    have h5 := (I.obj o).fvct i (ob o).K _ hi le_rfl le_rfl (I.vtE o _ le_rfl)
    rw [← h1] at h4
    exact absurd ((h5.trans (hH.fv _)).trans hv) (not_le.2 h4)
  subst this
  exact ⟨h1, h3⟩

theorem naRead (I : Inv c lk ob s a N) (ok : c.Sound)
    (hfit : ∀ o k, k ≤ (ob o).K → c.fits o ((ob o).val k)) {t : Tid} {k : Call V} {p : BitVec c.W} {i : Nat}
    {acc : Nat → BitVec c.W} (hpc : s.pc t = .naRead k p i acc) {x : BitVec c.W} {s' : State c X}
    (hd : Do s t (.naLoad (.chunk k.obj i)) x s') :
    Sim c a [] (s'.goto t (if i + 1 < c.n k.obj then .naRead k p (i + 1) (Function.update acc i x)
      else c.decideOp k p (c.join k.obj (Function.update acc i x)))) N := by
  cases hd with | naLoad _ _ _ h =>
  cases h with | mk m hm hv =>
  have hap := I.apc t; have hhi := I.hinv t
  rw [hpc] at hap hhi
  obtain ⟨hH, hnp, hp, hsig, hi, hacc⟩ := hhi
  have hheld := (I.held t (c.lockOf k.obj)).1 (by rw [hpc]; rfl)
  obtain ⟨-, hval⟩ := I.holder_reads hi hH (hnp _ rfl) hm hv
  have hle := ((s.tv t).le_read (.mem (.chunk k.obj i)) .relaxed m).trans
    (mark_le _ (.chunk k.obj i) t (s.nr (.chunk k.obj i) t + 1))
  have hwf := mark_wf ((I.wf t).read (.mem (.chunk k.obj i)) .relaxed m) (.chunk k.obj i) t
    (s.nr (.chunk k.obj i) t + 1)
  have hnr : ∀ o i' u, (Function.update s.nr (.chunk k.obj i) (Function.update (s.nr (.chunk k.obj i)) t
        (s.nr (.chunk k.obj i) t + 1))) (.chunk o i') u = s.nr (.chunk o i') u ∨
      (lk (c.lockOf o)).held = some t ∧
      ((Function.update s.nr (.chunk k.obj i) (Function.update (s.nr (.chunk k.obj i)) t
        (s.nr (.chunk k.obj i) t + 1)) (.chunk o i') u : Nat) : Ts) ≤
        (mark ((s.tv t).read (.mem (.chunk k.obj i)) .relaxed m) (.chunk k.obj i) t
          ((s.nr (.chunk k.obj i) t + 1 : Nat))).cur (.rd (.chunk o i') u) := by
    intro o i' u
    by_cases e : Fallback.Loc.chunk o i' = .chunk k.obj i
    · rw [e, Function.update_self]
      simp only [Fallback.Loc.chunk.injEq] at e
      obtain ⟨rfl, rfl⟩ := e
      by_cases e' : u = t
      · subst e'
        refine .inr ⟨hheld, ?_⟩
        rw [Function.update_self]
        simp only [mark, Pi.sup_apply, single_self]
        exact le_sup_right
      · rw [Function.update_of_ne e']; exact .inl rfl
    · rw [Function.update_of_ne e]; exact .inl rfl
  have hacc' : ∀ j, j < i + 1 → Function.update acc i m.val j = c.split k.obj ((ob k.obj).val (ob k.obj).K) j := by
    intro j hj
    by_cases e : j = i
    · subst e; rw [Function.update_self]; exact hval
    · rw [Function.update_of_ne e]; exact hacc j (by omega)
  have hsig' : (lk (c.lockOf k.obj)).sig (lk (c.lockOf k.obj)).E ≤
      (mark ((s.tv t).read (.mem (.chunk k.obj i)) .relaxed m) (.chunk k.obj i) t
          ((s.nr (.chunk k.obj i) t + 1 : Nat))).rel (vlo (c.lockOf k.obj)) := hsig
  split
  · next hlt =>
    exact ⟨lk, ob, a, .refl _, I.stepLocal' t hle hwf (by rw [hpc]; rfl) (.inl (by rw [hpc]; rfl))
      ⟨hH.mono hle.cur, hnp, hp, hsig', hlt, hacc'⟩ trivial trivial hap hnr⟩
  · next hlt =>
    obtain ⟨hok, -⟩ := I.apc_body hpc rfl (by simp)
    have hj : c.join k.obj (Function.update acc i m.val) = (ob k.obj).val (ob k.obj).K := by
      rw [← ok.join_split _ _ (hfit k.obj (ob k.obj).K le_rfl)]
      exact ok.join_congr _ _ _ fun j hj => hacc' j (by omega)
    rw [hj]
    have write : ∀ (y : V) (r : Res V), Writes k.op ((ob k.obj).val (ob k.obj).K) →
        k.op.onCell ((ob k.obj).val (ob k.obj).K) = (y, r) →
        Sim c a [] (({ s with
          tv := Function.update s.tv t (mark ((s.tv t).read (.mem (.chunk k.obj i)) .relaxed m) (.chunk k.obj i) t
            (s.nr (.chunk k.obj i) t + 1)),
          nr := Function.update s.nr (.chunk k.obj i) (Function.update (s.nr (.chunk k.obj i)) t
            (s.nr (.chunk k.obj i) t + 1)) } : State c X).goto t (c.startWrite k p y r)) N := by
      intro y r hw hres
      have e1 : Function.update (ob k.obj).val ((ob k.obj).K + 1) y (ob k.obj).K =
        (ob k.obj).val (ob k.obj).K := Function.update_of_ne (by omega) ..
      have J := I.preset (t := t) (o := k.obj) (by rw [hpc]; rfl) hnp y
        (by
          rw [hpc]
          refine ⟨hH, noPend_preset hnp, hp, hsig, hi, ?_⟩
          simp only [Function.update_self, OG.preset, e1]; exact hacc)
      refine ⟨_, _, a, .refl _, J.stepLocal' t hle hwf (by rw [hpc]; rfl)
        (.inl (by rw [hpc]; rfl)) ?_ trivial trivial hap hnr⟩
      refine ⟨hH.mono hle.cur, hp, hsig', ok.hn _, wr_zero rfl hnp hw hres, ?_⟩
      simp [OG.preset]
    have abort : ∀ r : Res V, ¬ Writes k.op ((ob k.obj).val (ob k.obj).K) →
        k.op.onCell ((ob k.obj).val (ob k.obj).K) = ((ob k.obj).val (ob k.obj).K, r) →
        Sim c a [] (({ s with
          tv := Function.update s.tv t (mark ((s.tv t).read (.mem (.chunk k.obj i)) .relaxed m) (.chunk k.obj i) t
            (s.nr (.chunk k.obj i) t + 1)),
          nr := Function.update s.nr (.chunk k.obj i) (Function.update (s.nr (.chunk k.obj i)) t
            (s.nr (.chunk k.obj i) t + 1)) } : State c X).goto t (.abortStore k p r)) N := by
      intro r hw hres
      exact ⟨_, _, a, .refl _, I.stepLocal' t hle hwf (by rw [hpc]; rfl)
        (.inl (by rw [hpc]; rfl)) ⟨hH.mono hle.cur, hnp, hp, hw, hres⟩ trivial trivial hap hnr⟩
    unfold Cfg.decideOp
    split
    · next o hop => exact abort _ (by rw [hop]; exact fun h => h) (by rw [hop] at hok ⊢; simp [Op.onCell, hok])
    · next v o hop => exact write _ _ (by rw [hop]; trivial) (by rw [hop] at hok ⊢; simp [Op.onCell, hok])
    · next v o hop => exact write _ _ (by rw [hop]; trivial) (by rw [hop] at hok ⊢; simp [Op.onCell, hok])
    · next cur new s f hop =>
      split
      · next hc =>
        exact write _ _ (by rw [hop]; exact hc) (by rw [hop] at hok ⊢; simp only [Op.onCell, hok, if_true, if_pos hc])
      · next hc =>
        exact abort _ (by rw [hop]; exact hc) (by rw [hop] at hok ⊢; simp only [Op.onCell, hok, if_true, if_neg hc])
    · next f o hop => exact write _ _ (by rw [hop]; trivial) (by rw [hop] at hok ⊢; simp [Op.onCell, hok])

end Inv
end Verif.WM.Lock
