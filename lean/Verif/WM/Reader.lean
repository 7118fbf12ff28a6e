import Verif.WM.Order
/-!
# Steps of readers and of waiting threads (proof internals)
-/
set_option autoImplicit false
set_option linter.unusedSectionVars false
namespace Verif.WM.Lock
open Verif.Fallback
variable {V X : Type} [DecidableEq V] {c : Cfg V}
variable {lk : Nat → LG} {ob : Obj → OG V}

/-- The specification can follow to a state that satisfies the invariant. -/
def Sim (c : Cfg V) (a : Native.State V X) (evs : List (Ev V X)) (s' : State c X) (N : Nat) : Prop :=
  ∃ lk' ob' a', Exec Native.Step a evs a' ∧ Inv c lk' ob' s' a' N

theorem apc_finish {k : Call V} {r : Res V} {ord : MemOrd}
    (h : ord = MemOrd.seqCst → wantsSc k.op = true) :
    APc c (c.finish k r) (.fin r (decide (ord = MemOrd.seqCst))) := by
  unfold Cfg.finish
  split
  · exact ⟨_, rfl⟩
  · next hn =>
    have : ord ≠ .seqCst := fun e => hn (h e)
    simp [APc, this]

theorem owns_finish (k : Call V) (r : Res V) : c.owns (c.finish k r) = none := by
  unfold Cfg.finish; split <;> rfl

theorem hinv_finish {lk : Nat → LG} {ob : Obj → OG V} {v : TV CL} (k : Call V) (r : Res V) :
    HInv c lk ob v (c.finish k r) := by
  unfold Cfg.finish; split <;> trivial

theorem rinv_finish {lk : Nat → LG} {mem : Fallback.Loc → List (Msg CL (BitVec c.W))} {v : TV CL}
    (k : Call V) (r : Res V) : RInv c lk mem v (c.finish k r) := by
  unfold Cfg.finish; split <;> trivial

theorem lpc_finish (k : Call V) (r : Res V) : LoadPc c (c.finish k r) := by
  unfold Cfg.finish; split <;> trivial

theorem owns_enter (k : Call V) : c.owns (c.enter k) = none := by
  unfold Cfg.enter; split
  · split <;> rfl
  · rfl

theorem hinv_enter {lk : Nat → LG} {ob : Obj → OG V} {v : TV CL} (k : Call V) :
    HInv c lk ob v (c.enter k) := by
  unfold Cfg.enter; split
  · split <;> trivial
  · trivial

theorem rinv_enter {lk : Nat → LG} {mem : Fallback.Loc → List (Msg CL (BitVec c.W))} {v : TV CL}
    (k : Call V) : RInv c lk mem v (c.enter k) := by
  unfold Cfg.enter; split
  · split
    · trivial
    · next h => intro hw; exact absurd hw h
  · trivial

theorem lpc_enter (k : Call V) : LoadPc c (c.enter k) := by
  unfold Cfg.enter; split
  · next o e => split <;> exact ⟨o, e⟩
  · trivial

theorem apc_enter {k : Call V} {b : Bool} (ho : k.op.ordOk = true) (hb : wantsSc k.op = true → b = true) :
    APc c (c.enter k) (.todo k.obj k.op b) := by
  unfold Cfg.enter; split
  · split <;> exact ⟨k, rfl, ho, b, rfl, hb⟩
  · exact ⟨k, rfl, ho, b, rfl, hb⟩

theorem Rd.mono {L : LG} {v v' : TV CL} (hv : v.cur ≤ v'.cur) {hi lo : BitVec c.W} {e : Nat}
    (r : Rd c L v hi lo e) : Rd c L v' hi lo e := ⟨r.le, r.lo, r.fv.trans hv, r.hi⟩

namespace Inv
variable {s : State c X} {a : Native.State V X} {N : Nat}

/-- A load that moves the thread without effect in the specification. -/
theorem loadStep (I : Inv c lk ob s a N) (t : Tid) {l : Fallback.Loc} {o : MemOrd}
    {m : Msg CL (BitVec c.W)} {p : Pc V c.W} (hown : c.owns p = c.owns (s.pc t))
    (hcall : Cfg.pcCall p = Cfg.pcCall (s.pc t))
    (hh : HInv c lk ob ((s.tv t).read (.mem l) o m) p)
    (hr : RInv c lk s.mem ((s.tv t).read (.mem l) o m) p)
    (hl : LoadPc c p) (hap : APc c p (a.pc t)) :
    Sim c a [] ((({ s with tv := Function.update s.tv t ((s.tv t).read (.mem l) o m) } :
      State c X)).goto t p) N :=
  ⟨lk, ob, a, .refl _, I.stepLocal' t (nr := s.nr) (TV.le_read ..) ((I.wf t).read ..) hown (.inl hcall) hh hr
    hl hap fun _ _ _ => .inl rfl⟩

theorem optHi (I : Inv c lk ob s a N) {t : Tid} {k : Call V} (hpc : s.pc t = .optHi k)
    {x : BitVec c.W} {s' : State c X} (hd : Do s t (.load (.hi (c.lockOf k.obj)) .acquire) x s') :
    Sim c a [] (s'.goto t (.optLo k x)) N := by
  cases hd with | load _ _ _ _ h =>
  cases h with | mk m hm hv =>
  have hap := I.apc t; have hlp := I.lpc t
  rw [hpc] at hap hlp
  refine I.loadStep t (by rw [hpc]; rfl) (by rw [hpc]; rfl) trivial ?_ hlp hap
  intro _
  exact ⟨m, hm, rfl, read_view_cur _ _ _ _ rfl _⟩

/-- The version counter known from the high half. -/
theorem hi_le (I : Inv c lk ob s a N) (hw : c.wide = true) {l e : Nat} {m : Msg CL (BitVec c.W)}
    (hm : m ∈ s.mem (.hi l)) (he : e ≤ (lk l).E) (hv : m.view (vlo l) ≤ (lk l).tau e) :
    ∃ j, m.val = BitVec.ofNat c.W j ∧ j * c.B ≤ (lk l).wr e := by
  obtain ⟨j, -, h2, -, h4⟩ := (I.lock l).himsgs hw m hm
  refine ⟨j, h2, ?_⟩
  rcases h4 with rfl | ⟨e0, h5, h6, h7⟩
  · simp
  · have htk : (lk l).taken e0 := by
      rcases h7 with ⟨h7, -⟩ | ⟨h7, h8⟩
      · exact .inl h7
      · exact .inr ⟨h7, ((I.lock l).hip h8).1⟩
    have hlt := (I.lock l).lt_of_sig htk (h6.trans hv)
    rcases h7 with ⟨h7, h8⟩ | ⟨h7, -⟩
    · have := (I.lock l).wr_mono (show e0 + 1 ≤ e by omega) he
      omega
    · omega

theorem optLo (I : Inv c lk ob s a N) (ok : c.Sound) {t : Tid} {k : Call V} {h : BitVec c.W}
    (hpc : s.pc t = .optLo k h) {x : BitVec c.W} {s' : State c X}
    (hd : Do s t (.load (.lo (c.lockOf k.obj)) .acquire) x s') :
    Sim c a [] (s'.goto t (if x = 1 then .swapLock k else .optChunk k h x 0 (fun _ => 0))) N := by
  cases hd with | load _ _ _ _ hL =>
  cases hL with | mk m hm hv =>
  have hap := I.apc t; have hlp := I.lpc t; have hri := I.rinv t
  rw [hpc] at hap hlp hri
  split
  · exact I.loadStep t (by rw [hpc]; rfl) (by rw [hpc]; rfl) trivial trivial trivial hap
  · next hx =>
    refine I.loadStep t (by rw [hpc]; rfl) (by rw [hpc]; rfl) trivial ?_ hlp hap
    obtain ⟨e, he, h1, h2, h3⟩ := (I.lock _).tau_nonlock hm hx
    refine ⟨ok.hn _, e, ⟨he, h2, ?_, fun hw => ?_⟩, fun j hj => absurd hj (Nat.not_lt_zero _)⟩
    · rw [← h3]; exact read_view_cur _ _ _ _ rfl
    · obtain ⟨m', hm', rfl, hv'⟩ := hri hw
      exact I.hi_le hw hm' he (h1 ▸ hv'.trans hv)

theorem optChunk (I : Inv c lk ob s a N) (ok : c.Sound) {t : Tid} {k : Call V} {h lo : BitVec c.W} {i : Nat}
    {acc : Nat → BitVec c.W}
    (hpc : s.pc t = .optChunk k h lo i acc) {x : BitVec c.W} {s' : State c X}
    (hd : Do s t (.load (.chunk k.obj i) .relaxed) x s') :
    Sim c a [] (s'.goto t (if i + 1 < c.n k.obj then .optChunk k h lo (i + 1) (Function.update acc i x)
      else .valFence k h lo (Function.update acc i x))) N := by
  cases hd with | load _ _ _ _ hL =>
  cases hL with | mk m hm hv =>
  have hap := I.apc t; have hlp := I.lpc t; have hri := I.rinv t
  rw [hpc] at hap hlp hri
  obtain ⟨hi, e, hrd, hch⟩ := hri
  have hle := (s.tv t).le_read (.mem (.chunk k.obj i)) .relaxed m
  have hch' : Chs c s.mem (lk (c.lockOf k.obj)) k.obj e (i + 1) (Function.update acc i m.val)
      (((s.tv t).read (.mem (.chunk k.obj i)) .relaxed m).acq (vlo (c.lockOf k.obj))) := by
    intro j hj
    by_cases ej : j = i
    · subst ej
      refine ⟨m, hm, by simp, (hrd.fv _).trans hv, read_view_acq _ _ _ _ _⟩
    · obtain ⟨m', h1, h2, h3, h4⟩ := hch j (by omega)
      exact ⟨m', h1, by rw [Function.update_of_ne ej]; exact h2, h3, h4.trans (hle.acq _)⟩
  split
  · next hlt =>
    refine I.loadStep t (by rw [hpc]; rfl) (by rw [hpc]; rfl) trivial ?_ hlp hap
    exact ⟨hlt, e, hrd.mono hle.cur, hch'⟩
  · next hlt =>
    refine I.loadStep t (by rw [hpc]; rfl) (by rw [hpc]; rfl) trivial ?_ hlp hap
    refine ⟨e, hrd.mono hle.cur, ?_⟩
    rw [show c.n k.obj = i + 1 by omega]; exact hch'

theorem valFence (I : Inv c lk ob s a N) {t : Tid} {k : Call V} {h lo : BitVec c.W}
    {acc : Nat → BitVec c.W}
    (hpc : s.pc t = .valFence k h lo acc) {x : BitVec c.W} {s' : State c X}
    (hd : Do s t (.fence .acquire) x s') :
    Sim c a [] (s'.goto t (.valLo k h lo acc)) N := by
  cases hd
  have hap := I.apc t; have hlp := I.lpc t; have hri := I.rinv t
  rw [hpc] at hap hlp hri
  obtain ⟨e, hrd, hch⟩ := hri
  have hf := (I.wf t).fence .acquire
  refine ⟨lk, ob, a, .refl _, I.stepLocal' t (nr := s.nr) hf.2 hf.1 (by rw [hpc]; rfl)
    (.inl (by rw [hpc]; rfl)) trivial ?_ hlp hap fun _ _ _ => .inl rfl⟩
  exact ⟨e, hrd.mono hf.2.cur, hch⟩

theorem spin (I : Inv c lk ob s a N) {t : Tid} {k : Call V} (hpc : s.pc t = .spin k)
    {x : BitVec c.W} {s' : State c X} (hd : Do s t (.load (.lo (c.lockOf k.obj)) .relaxed) x s') :
    Sim c a [] (s'.goto t (if x = 1 then .spin k else .swapLock k)) N := by
  cases hd with | load _ _ _ _ h =>
  cases h with | mk m hm hv =>
  have hap := I.apc t
  rw [hpc] at hap
  split
  · exact I.loadStep t (by rw [hpc]) (by rw [hpc]) trivial trivial trivial hap
  · exact I.loadStep t (by rw [hpc]; rfl) (by rw [hpc]; rfl) trivial trivial trivial hap

theorem wr_lt (I : Inv c lk ob s a N) (hN : N < c.maxOverlap) (l : Nat) {e : Nat} (he : e ≤ (lk l).E) :
    (lk l).wr e < c.maxOverlap := by
  obtain ⟨P, nl, -, h2, h3⟩ := I.cnt
  have := (I.lock l).wr_mono he le_rfl
  have := h3 l
  omega

/-- The words collected are those of one version, the one current at epochs `e` to `e'`. -/
theorem read_ver (I : Inv c lk ob s a N) (ok : c.Sound)
    (hfit : ∀ o k, k ≤ (ob o).K → c.fits o ((ob o).val k)) {t : Tid} {o : Obj} {acc : Nat → BitVec c.W}
    {e e' : Nat} (he : e ≤ e') (he' : e' ≤ (lk (c.lockOf o)).E)
    (hwr : (lk (c.lockOf o)).wr e = (lk (c.lockOf o)).wr e')
    (hcur : (s.tv t).cur (vlo (c.lockOf o)) ≤ (lk (c.lockOf o)).tau e')
    (hch : Chs c s.mem (lk (c.lockOf o)) o e (c.n o) acc ((lk (c.lockOf o)).tau e')) :
    ∃ kk, kk ≤ (ob o).K ∧ (ob o).vt kk ≤ e ∧ c.join o acc = (ob o).val kk ∧ (a.tv t).cur (.obj o) ≤ kk := by
  obtain ⟨kk, hk, hv, hmax⟩ := (I.obj o).ver_at e
  have upto : ∀ k', k' ≤ (ob o).K → (ob o).vt k' ≤ e' → k' ≤ kk := by
    intro k' hk' hv'
    refine hmax k' hk' ?_
    by_contra hn
    obtain ⟨e1, he1⟩ : ∃ e1, (ob o).vt k' = e1 + 1 := ⟨(ob o).vt k' - 1, by omega⟩
    have h1 := (I.obj o).vtwr k' e1 hk' he1
    have h2 := (I.lock (c.lockOf o)).wr_mono (show e ≤ e1 by omega) (by omega)
    have h3 := (I.lock (c.lockOf o)).wr_mono (show e1 + 1 ≤ e' by omega) he'
    omega
  refine ⟨kk, hk, hv, ?_, ?_⟩
  · rw [← ok.join_split _ _ (hfit o kk ‹_›)]
    refine ok.join_congr _ _ _ fun i hi => ?_
    obtain ⟨m, hm, h1, h2, h3⟩ := hch i hi
    obtain ⟨kj, h4, h5, h6, h7⟩ := (I.obj o).chunks i m hm
    have hge : kk ≤ kj := by
      by_contra hn
      have hK : kj < kk := by omega
      have := (I.obj o).ct_lt hi hK (.inl hk)
      have h8 := (I.obj o).fvct i kk e hi hk (by omega) hv
      rw [← h4] at this
      exact absurd (h8.trans h2) (not_le.2 this)
    have hvt : kj ≤ (ob o).K ∧ (ob o).vt kj ≤ e' := by
      rcases h5 with h5 | ⟨h5, h8⟩
      · refine ⟨h5, ?_⟩
        rcases Nat.eq_zero_or_pos ((ob o).vt kj) with h0 | h0
        · omega
        · obtain ⟨e1, he1⟩ : ∃ e1, (ob o).vt kj = e1 + 1 := ⟨(ob o).vt kj - 1, by omega⟩
          have := (I.obj o).vtE kj h5
          have := (I.lock _).lt_of_sig (.inl (by omega)) ((h7 e1 he1).trans h3)
          omega
      · exfalso
        have h9 := (I.obj o).vtpend (by omega)
        rw [← h5] at h9
        have := (I.lock _).lt_of_sig (.inr ⟨rfl, h9.2⟩) ((h7 _ h9.1).trans h3)
        omega
    have : kj = kk := le_antisymm (upto kj hvt.1 hvt.2) hge
    rw [h1, h6, this]
  · obtain ⟨k', h1, h2, h3⟩ := (I.tle t).cur.2 o
    have : k' ≤ kk := upto k' h1 ((I.lock _).le_of_tau (I.vtE o k' h1) (h3.trans hcur))
    exact h2.trans (by exact_mod_cast this)

/-- The abstract load. -/
theorem readDone (I : Inv c lk ob s a N) (t : Tid) {k : Call V} {ord : MemOrd} (hop : k.op = .load ord)
    (hown : c.owns (s.pc t) = none)
    (hapc : k.op.ordOk = true ∧ ∃ b, a.pc t = .todo k.obj k.op b ∧ (wantsSc k.op = true → b = true))
    {l : Fallback.Loc} {o : MemOrd} {m : Msg CL (BitVec c.W)} {e kk : Nat}
    (he : e ≤ (lk (c.lockOf k.obj)).E) (hfv : (lk (c.lockOf k.obj)).fv e ≤ (s.tv t).cur)
    (hkk : kk ≤ (ob k.obj).K) (hvt : (ob k.obj).vt kk ≤ e)
    (hcur : (a.tv t).cur (.obj k.obj) ≤ kk) :
    Sim c a [] ((({ s with tv := Function.update s.tv t ((s.tv t).read (.mem l) o m) } :
      State c X)).goto t (c.finish k (.val ((ob k.obj).val kk)))) N := by
  obtain ⟨hok, b, hapc, hb⟩ := hapc
  have hle := (s.tv t).le_read (.mem l) o m
  have hmem : (⟨((kk - 1 : Nat) : Ts), (kk : Ts), (ob k.obj).val kk, (ob k.obj).av kk⟩ : Msg Native.Loc V)
      ∈ a.mo k.obj := ((I.obj k.obj).amem _).2 ⟨kk, hkk, rfl⟩
  have hv1 : VLe c lk ob ((ob k.obj).av kk) ((s.tv t).read (.mem l) o m).cur :=
    (I.objv k.obj kk e hkk he hvt).mono (hfv.trans hle.cur)
  have hw := (I.wf t).read (.mem l) o m
  have hsing : VLe c lk ob (single (.obj k.obj) (kk : Ts)) ((s.tv t).read (.mem l) o m).cur := by
    refine VLe.obj I.h0 hkk ?_
    refine ((I.lock _).tau_mono hvt he).trans ?_
    rw [← (I.lock (c.lockOf k.obj)).fvlo e he]
    exact (hfv.trans hle.cur) _
  have hacc : Native.Access (a.mo k.obj) (a.tv t) (.obj k.obj) k.op ord (a.mo k.obj)
      ((a.tv t).read (.obj k.obj) ord
        (⟨((kk - 1 : Nat) : Ts), (kk : Ts), (ob k.obj).val kk, (ob k.obj).av kk⟩ : Msg Native.Loc V))
      (.val ((ob k.obj).val kk)) := by
    rw [hop]
    exact .load _ _ _ (.mk _ hmem hcur)
  have hst := Native.Step.access (X := X) a t k.obj k.op b ord _ _ _ hapc hok hacc
    (fun e => hb (by rw [hop, e]; rfl))
  refine ⟨lk, ob, _, .one_tau hst, ?_⟩
  have := I.stepLocal t (nr := s.nr) (sc := s.sc) (asc := a.sc) (p := c.finish k (.val ((ob k.obj).val kk)))
    hle.cur hw (by rw [hown, owns_finish]) (.inr (Cfg.pcCall_finish ..)) (hinv_finish ..)
    (rinv_finish ..) (lpc_finish ..) (apc_finish (ord := ord) (fun e => by rw [hop, e]; rfl))
    (((I.tle t).mono hle).read (la := .obj k.obj) (o := ord)
      (ma := ⟨((kk - 1 : Nat) : Ts), (kk : Ts), (ob k.obj).val kk, (ob k.obj).av kk⟩) I.h0 hsing hw
      (hv1.mono hw.cur) (fun _ => hv1)) I.sc (fun _ _ _ => .inl rfl)
  simpa only [State.goto, Native.State.goto, Function.update_eq_self] using this

theorem apc_body (I : Inv c lk ob s a N) {t : Tid} {k : Call V} {p : Pc V c.W} (hpc : s.pc t = p)
    (hk : Cfg.pcCall p = some k) (hne : ∀ k, p ≠ .scPre k) :
    k.op.ordOk = true ∧ ∃ b, a.pc t = .todo k.obj k.op b ∧ (wantsSc k.op = true → b = true) := by
  have h := I.apc t
  rw [hpc] at h
  cases p <;> simp only [APc] at h <;> first
    | (simp [Cfg.pcCall] at hk; done)
    | exact absurd rfl (hne _)
    | (obtain ⟨k', h1, h2, h3⟩ := h
       obtain rfl := Option.some.inj (h1.symm.trans hk)
       exact ⟨h2, h3⟩)

theorem valLo (I : Inv c lk ob s a N) (ok : c.Sound)
    (hfit : ∀ o k, k ≤ (ob o).K → c.fits o ((ob o).val k)) (hN : N < c.maxOverlap) {t : Tid} {k : Call V}
    {h lo : BitVec c.W} {acc : Nat → BitVec c.W}
    (hpc : s.pc t = .valLo k h lo acc) {x : BitVec c.W} {s' : State c X}
    (hd : Do s t (.load (.lo (c.lockOf k.obj)) (if c.wide then .acquire else .relaxed)) x s') :
    Sim c a [] (s'.goto t (if c.wide then .valHi k h lo acc x
      else if x = lo then c.finish k (.val (c.join k.obj acc)) else .swapLock k)) N := by
  cases hd with | load _ _ _ _ hL =>
  cases hL with | mk m hm hv =>
  have hap := I.apc t; have hlp := I.lpc t; have hri := I.rinv t
  rw [hpc] at hap hlp hri
  obtain ⟨e, hrd, hch⟩ := hri
  have hle := (s.tv t).le_read (.mem (.lo (c.lockOf k.obj))) (if c.wide then .acquire else .relaxed) m
  have main : m.val = lo → ∃ e', e ≤ e' ∧ e' ≤ (lk (c.lockOf k.obj)).E ∧
      m.ts = (lk (c.lockOf k.obj)).tau e' ∧ m.val = c.stamp ((lk (c.lockOf k.obj)).wr e') ∧
      m.view = (lk (c.lockOf k.obj)).fv e' := by
    intro hx
    have hne : m.val ≠ 1 := by rw [hx, hrd.lo]; exact Cfg.stamp_ne_one ok _
    obtain ⟨e', h1, h2, h3, h4⟩ := (I.lock _).tau_nonlock hm hne
    refine ⟨e', ?_, h1, h2, h3, h4⟩
    refine (I.lock _).le_of_tau hrd.le ?_
    rw [← h2, ← (I.lock _).fvlo e hrd.le]
    exact (hrd.fv _).trans hv
  split
  · next hw =>
    simp only [hw, if_true] at hle
    refine I.loadStep t (by rw [hpc]; rfl) (by rw [hpc]; rfl) trivial ⟨hw, fun hx => ?_⟩ hlp hap
    obtain ⟨e', h1, h2, h3, h4, h5⟩ := main hx
    have hcur : (s.tv t).cur (vlo (c.lockOf k.obj)) ≤ (lk (c.lockOf k.obj)).tau e' := h3 ▸ hv
    have hcur' : ((s.tv t).read (.mem (.lo (c.lockOf k.obj))) .acquire m).cur (vlo (c.lockOf k.obj)) ≤
        (lk (c.lockOf k.obj)).tau e' := by
      simp only [TV.read, acqs, if_true, Pi.sup_apply]
      refine sup_le (sup_le hcur ?_) ?_
      · show single (vlo _) m.ts (vlo _) ≤ _
        rw [single_self, h3]
      · rw [h5, (I.lock _).fvlo e' h2]
    refine ⟨e, e', hrd.mono hle.cur, h2, h4, ?_, ?_, ?_⟩
    · rw [← h5]; exact read_view_cur _ _ _ _ rfl
    · exact hcur'
    · exact hch.grow (LExt.refl _) (fun _ _ h => h) hrd.le (hle.cur _)
  · next hw =>
    split
    · next hx =>
      obtain ⟨ord, hop⟩ := hlp
      obtain ⟨e', h1, h2, h3, h4, h5⟩ := main hx
      have hcur : (s.tv t).cur (vlo (c.lockOf k.obj)) ≤ (lk (c.lockOf k.obj)).tau e' := h3 ▸ hv
      have hwr : (lk (c.lockOf k.obj)).wr e = (lk (c.lockOf k.obj)).wr e' := by
        have hb := I.wr_lt hN _ h2
        have hB : c.maxOverlap = c.B := by simp [Cfg.maxOverlap, hw, Cfg.B]
        refine Cfg.stamp_near ok ((I.lock _).wr_mono h1 h2) (by omega) ?_
        rw [← hrd.lo, ← h4, hx]
      obtain ⟨kk, g1, g2, g3, g4⟩ := I.read_ver ok hfit (t := t) h1 h2 hwr hcur
        (hch.grow (LExt.refl _) (fun _ _ h => h) hrd.le hcur)
      rw [g3]
      exact I.readDone t hop (by rw [hpc]; rfl) (I.apc_body hpc rfl (by simp))
        hrd.le hrd.fv g1 g2 g4
    · exact I.loadStep t (by rw [hpc]; rfl) (by rw [hpc]; rfl) trivial trivial trivial hap

theorem valHi (I : Inv c lk ob s a N) (ok : c.Sound)
    (hfit : ∀ o k, k ≤ (ob o).K → c.fits o ((ob o).val k)) (hN : N < c.maxOverlap) {t : Tid} {k : Call V}
    {h lo : BitVec c.W} {acc : Nat → BitVec c.W} {lo' : BitVec c.W}
    (hpc : s.pc t = .valHi k h lo acc lo') {x : BitVec c.W} {s' : State c X}
    (hd : Do s t (.load (.hi (c.lockOf k.obj)) .relaxed) x s') :
    Sim c a [] (s'.goto t (if x = h ∧ lo' = lo then c.finish k (.val (c.join k.obj acc)) else .swapLock k)) N := by
  cases hd with | load _ _ _ _ hL =>
  cases hL with | mk m hm hv =>
  have hap := I.apc t; have hlp := I.lpc t; have hri := I.rinv t
  rw [hpc] at hap hlp hri
  obtain ⟨hw, hri⟩ := hri
  split
  · next hx =>
    obtain ⟨ord, hop⟩ := hlp
    obtain ⟨e, e', hrd, h2, h3, h4, h5, h6⟩ := hri hx.2
    have hee : e ≤ e' := by
      refine (I.lock _).le_of_tau hrd.le ?_
      rw [← (I.lock _).fvlo e hrd.le]
      exact (hrd.fv _).trans h5
    obtain ⟨j1, hj1, hj1'⟩ := hrd.hi hw
    obtain ⟨j2, hj2, hj2', hj2'', -⟩ := (I.lock _).himsgs hw m hm
    have hwm := (I.lock (c.lockOf k.obj)).wr_mono hee h2
    have hB := Cfg.B_pos ok
    have hwE := (I.lock (c.lockOf k.obj)).wrE_le_hcount
    have hwE' := (I.lock (c.lockOf k.obj)).wr_mono h2 le_rfl
    have hjle : (lk (c.lockOf k.obj)).wr e' / c.B ≤ j2 := by
      refine (I.lock _).le_of_hts hw ((Nat.div_le_div_right hwE').trans hwE) ?_
      rw [← hj2]
      exact ((I.lock _).fvhi hw e' h2).trans ((h4 _).trans hv)
    have hwr : (lk (c.lockOf k.obj)).wr e = (lk (c.lockOf k.obj)).wr e' := by
      have hj1B : j1 ≤ (lk (c.lockOf k.obj)).wr e / c.B := (Nat.le_div_iff_mul_le hB).2 hj1'
      have hd1 : (lk (c.lockOf k.obj)).wr e / c.B ≤ (lk (c.lockOf k.obj)).wr e' / c.B :=
        Nat.div_le_div_right hwm
      have hlim : (lk (c.lockOf k.obj)).hcount c < 2 * c.B := by
        have hmax : c.maxOverlap = 2 * c.B * c.B - c.B := by
          have h1 : 1 ≤ c.W := by have := ok.hW; omega
          simp only [Cfg.maxOverlap, hw, if_true, Cfg.B]
          congr 1
          rw [← pow_succ', ← pow_add]
          congr 1; omega
        have h9 := I.wr_lt hN _ (le_refl (lk (c.lockOf k.obj)).E)
        rw [LG.hcount, Nat.div_lt_iff_lt_mul hB]
        rw [hmax] at h9
        split <;> omega
      have heq : j1 = j2 := Cfg.ofNat_near ok (by omega) (by omega) (by rw [← hj1, ← hj2', hx.1])
      refine Cfg.eq_of_div_stamp ok (by omega) ?_
      rw [← hrd.lo, ← h3, hx.2]
    obtain ⟨kk, g1, g2, g3, g4⟩ := I.read_ver ok hfit (t := t) hee h2 hwr h5
      (h6.grow (LExt.refl _) (fun _ _ h => h) hrd.le h5)
    rw [g3]
    exact I.readDone t hop (by rw [hpc]; rfl) (I.apc_body hpc rfl (by simp))
      hrd.le hrd.fv g1 g2 g4
  · exact I.loadStep t (by rw [hpc]; rfl) (by rw [hpc]; rfl) trivial trivial trivial hap

end Inv
end Verif.WM.Lock
