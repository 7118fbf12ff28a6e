import Verif.WM.Hold
/-!
# Stores of the lock holder (proof internals)
-/
set_option autoImplicit false
set_option linter.unusedSectionVars false
namespace Verif.WM.Lock
open Verif.Fallback
variable {V X : Type} [DecidableEq V] {c : Cfg V}
variable {lk : Nat → LG} {ob : Obj → OG V}

/-- Word `i` of the next version is written at `t`. -/
def OG.word (O : OG V) (i : Nat) (t : Ts) : OG V :=
  { O with ct := fun j k => if j = i ∧ k = O.K + 1 then t else O.ct j k, pend := i + 1 }

theorem OG.ext_word (O : OG V) (i : Nat) (t : Ts) : OExt O (O.word i t) := ⟨le_rfl, fun _ _ => rfl⟩

theorem ObjInv.word {L : LG} {O : OG V} {o : Obj} {mc mc' : Nat → List (Msg CL (BitVec c.W))}
    {mo : List (Msg Native.Loc V)} (I : ObjInv c L O o mc mo) {i : Nat} {m0 : Msg CL (BitVec c.W)}
    (hi : i < c.n o) (hp : O.pend = i) (hmc : mc' = Function.update mc i (m0 :: mc i))
    (hval : m0.val = c.split o (O.val (O.K + 1)) i) (hvt : O.vt (O.K + 1) = L.E + 1)
    (hheld : L.held.isSome) (hsig : L.sig L.E ≤ m0.view (vlo (c.lockOf o)))
    (hct : L.fv L.E (vch o i) < m0.ts) : ObjInv c L (O.word i m0.ts) o mc' mo := by
  have hu : ∀ j k, k ≤ O.K → (O.word i m0.ts).ct j k = O.ct j k := by
    intro j k hk
    have : ¬ (j = i ∧ k = O.K + 1) := by omega
    simp [OG.word, this]
  refine ⟨I.vt0, I.vtmono, I.vtE, I.vtwr, ?_, ?_, ?_, fun _ => ⟨hvt, hheld⟩, ?_, I.amem⟩
  · intro j m hm
    have old : m ∈ mc j → ∃ k, m.ts = (O.word i m0.ts).ct j k ∧ (k ≤ O.K ∨ k = O.K + 1 ∧ j < i + 1) ∧
        m.val = c.split o (O.val k) j ∧ ∀ e, O.vt k = e + 1 → L.sig e ≤ m.view (vlo (c.lockOf o)) := by
      intro hm
      obtain ⟨k, h1, h2, h3, h4⟩ := I.chunks j m hm
      refine ⟨k, ?_, h2.imp_right (fun h => ⟨h.1, by omega⟩), h3, h4⟩
      have : ¬ (j = i ∧ k = O.K + 1) := by
        rintro ⟨rfl, rfl⟩
        rcases h2 with h | h <;> omega
      simp only [OG.word, this, if_false]; exact h1
    subst hmc
    by_cases e : j = i
    · subst e
      rw [Function.update_self] at hm
      rcases List.mem_cons.1 hm with rfl | hm
      · refine ⟨O.K + 1, by simp [OG.word], .inr ⟨rfl, Nat.lt_succ_self _⟩, hval, fun e he => ?_⟩
        have he' : O.vt (O.K + 1) = e + 1 := he
        rw [hvt] at he'
        rw [show e = L.E by omega]; exact hsig
      · exact old hm
    · rw [Function.update_of_ne e] at hm; exact old hm
  · intro j k hj hk
    have hk' : k < O.K := hk
    rw [hu j k (by omega), hu j (k + 1) (by omega)]; exact I.ctmono j k hj hk
  · intro j hj hjp
    have hjp' : j < i + 1 := hjp
    show (O.word i m0.ts).ct j O.K < (O.word i m0.ts).ct j (O.K + 1)
    rw [hu j O.K le_rfl]
    by_cases e : j = i
    · subst e
      simp only [OG.word, and_self, if_true]
      exact (I.fvct j O.K L.E hi le_rfl le_rfl (I.vtE _ le_rfl)).trans_lt hct
    · simp only [OG.word, e, false_and, if_false]
      exact I.ctpend j hj (by omega)
  · intro j k e hj hk he hv
    rw [hu j k hk]; exact I.fvct j k e hj hk he hv

namespace Inv
variable {s : State c X} {a : Native.State V X} {N : Nat}

/-- A store by the holder that leaves the lock held and changes neither versions nor views known
to others. -/
theorem stepHeld (I : Inv c lk ob s a N) {t : Tid} {o : Obj} {L' : LG} {O' : OG V}
    {mem' : Fallback.Loc → List (Msg CL (BitVec c.W))} {v : TV CL} {p : Pc V c.W}
    (hown : c.owns (s.pc t) = some (c.lockOf o)) (hown' : c.owns p = some (c.lockOf o))
    (hlk : LExt (lk (c.lockOf o)) L') (hE : L'.E = (lk (c.lockOf o)).E)
    (hheld : L'.held = some t)
    (hob : OExt (ob o) O') (hK : O'.K = (ob o).K) (hav : O'.av = (ob o).av)
    (hmem : ∀ l m, m ∈ s.mem l → m ∈ mem' l)
    (hlo : ∀ l, l ≠ c.lockOf o → mem' (.lo l) = s.mem (.lo l))
    (hhi : ∀ l, l ≠ c.lockOf o → mem' (.hi l) = s.mem (.hi l))
    (hch : ∀ o' i, o' ≠ o → mem' (.chunk o' i) = s.mem (.chunk o' i))
    (lock : LockInv c L' (c.lockOf o) (mem' (.lo (c.lockOf o))) (mem' (.hi (c.lockOf o))))
    (objO : ObjInv c L' O' o (fun i => mem' (.chunk o i)) (a.mo o))
    (objX : ∀ o', o' ≠ o → c.lockOf o' = c.lockOf o →
      ObjInv c L' (ob o') o' (fun i => s.mem (.chunk o' i)) (a.mo o'))
    (hh : HInv c (Function.update lk (c.lockOf o) L') (Function.update ob o O') v p)
    (hr : RInv c (Function.update lk (c.lockOf o) L') mem' v p) (hlp : LoadPc c p)
    (hle : (s.tv t).Le v) (wf : v.Wf) (hap : APc c p (a.pc t))
    (hcall : Cfg.pcCall p = Cfg.pcCall (s.pc t)) :
    Inv c (Function.update lk (c.lockOf o) L') (Function.update ob o O')
      { s with mem := mem', tv := Function.update s.tv t v, pc := Function.update s.pc t p } a N := by
  have hheld0 := (I.held t _).1 hown
  have := I.stepMem t (o := o) (L' := L') (O' := O')
    (mem' := mem') (v := v) (p := p) (av := a.tv t) (ap := a.pc t) (amo := a.mo o)
    hlk hob hmem hlo hhi hch lock objO objX
    (by
      intro o' k e ho' hk he hv
      have hk' : k ≤ (ob o').K := by
        by_cases h : o' = o
        · subst h; simp only [Function.update_self, hK] at hk; exact hk
        · simpa only [Function.update_of_ne h] using hk
      have e2 : (Function.update ob o O' o').av = (ob o').av := by
        by_cases h : o' = o
        · subst h; simp only [Function.update_self]; exact hav
        · simp only [Function.update_of_ne h]
      rw [(oext_upd hob o').vt k hk'] at hv
      rw [e2]
      have := I.objv o' k e hk' (by rw [ho', ← hE]; exact he) hv
      rw [ho', ← hlk.fv e (by rw [← hE]; exact he)] at this
      exact this.grow (ext_upd hlk) (oext_upd hob) I.vtE)
    (I.nonow hown)
    (by intro l h; rw [hown] at h; exact (Option.some.inj h).symm)
    (by
      intro l; rw [hown', hheld]
      constructor
      · intro h; exact ⟨(Option.some.inj h).symm, rfl⟩
      · rintro ⟨rfl, -⟩; rfl)
    (by intro u h; rw [hheld] at h; exact (Option.some.inj h).symm)
    hh hr hlp
    (by intro h; rw [hheld] at h; cases h)
    (by intro h; rw [hheld] at h; cases h)
    (fun _ o' ho' i u => (I.markH _ _ hheld0 o' ho' i u).trans (hle.cur _))
    (((I.tle t).mono hle).grow (ext_upd hlk) (oext_upd hob) I.vtE) wf hap (.inl hcall)
    (.inl (by rw [hE, hlk.wr _ le_rfl]))
  simpa only [Function.update_eq_self] using this

theorem wrChunk (I : Inv c lk ob s a N) (ok : c.Sound) {t : Tid} {k : Call V} {p : BitVec c.W} {i : Nat}
    {new : Nat → BitVec c.W} {r : Res V} (hpc : s.pc t = .wrChunk k p i new r) {x : BitVec c.W}
    {s' : State c X} (hd : Do s t (.store (.chunk k.obj i) (new i) .relaxed) x s') :
    Sim c a [] (s'.goto t (if i + 1 < c.n k.obj then .wrChunk k p (i + 1) new r else c.dropGuard k p r)) N := by
  cases hd with | store _ _ _ _ _ h =>
  cases h with | mk f ts hv hf =>
  have hap := I.apc t; have hhi := I.hinv t
  rw [hpc] at hap hhi
  obtain ⟨hH, hp, hsig, hi, hW, hnew⟩ := hhi
  have hheld := (I.held t (c.lockOf k.obj)).1 (by rw [hpc]; rfl)
  have hle := (s.tv t).le_write (.mem (.chunk k.obj i)) ts
  have hwf := (I.wf t).write (.mem (.chunk k.obj i)) ts
  have hobj := (I.obj k.obj).word (i := i)
    (m0 := ⟨f, ts, new i, (s.tv t).msgView (.mem (.chunk k.obj i)) ts .relaxed⟩)
    (mc' := fun j => Function.update s.mem (.chunk k.obj i)
      (⟨f, ts, new i, (s.tv t).msgView (.mem (.chunk k.obj i)) ts .relaxed⟩ :: s.mem (.chunk k.obj i)) (.chunk k.obj j))
    hi hW.pend
    (by
      funext j
      by_cases e : j = i
      · subst e; simp only [Function.update_self]
      · rw [Function.update_of_ne (by simpa using e), Function.update_of_ne e])
    (by rw [hnew]) hW.vt (by rw [hheld]; rfl)
    (hsig.trans (le_sup_left (a := (s.tv t).rel) _)) ((hH.fv _).trans_lt hv)
  have hWr : Wr c (lk (c.lockOf k.obj)) (Function.update ob k.obj ((ob k.obj).word i ts)) k
      ((s.tv t).write (.mem (.chunk k.obj i)) ts) (i + 1) r := by
    refine ⟨?_, ?_, ?_, ?_, ?_, ?_⟩
    · intro o' hne ho'
      rw [Function.update_of_ne hne]; exact hW.oth o' hne ho'
    · simp only [Function.update_self]; rfl
    · intro j hj
      simp only [Function.update_self, OG.word]
      by_cases e : j = i
      · subst e; simp only [and_self, if_true]; exact write_cur_self _ _ _
      · simp only [e, false_and, if_false]
        exact (hW.ct j (by omega)).trans (hle.cur _)
    · simp only [Function.update_self]; exact hW.vt
    · simp only [Function.update_self]; exact hW.writes
    · simp only [Function.update_self]; exact hW.res
  have step : ∀ p', c.owns p' = some (c.lockOf k.obj) → Cfg.pcCall p' = some k →
      HInv c lk (Function.update ob k.obj ((ob k.obj).word i ts)) ((s.tv t).write (.mem (.chunk k.obj i)) ts) p' →
      RInv c lk (Function.update s.mem (.chunk k.obj i)
        (⟨f, ts, new i, (s.tv t).msgView (.mem (.chunk k.obj i)) ts .relaxed⟩ :: s.mem (.chunk k.obj i)))
        ((s.tv t).write (.mem (.chunk k.obj i)) ts) p' → LoadPc c p' → APc c p' (a.pc t) →
      Sim c a [] (({ s with
        mem := Function.update s.mem (.chunk k.obj i)
          (⟨f, ts, new i, (s.tv t).msgView (.mem (.chunk k.obj i)) ts .relaxed⟩ :: s.mem (.chunk k.obj i)),
        tv := Function.update s.tv t ((s.tv t).write (.mem (.chunk k.obj i)) ts) } : State c X).goto t p') N := by
    intro p' hown' hcall' hh' hr' hl' ha'
    refine ⟨_, _, a, .refl _, I.stepHeld (t := t) (o := k.obj) (L' := lk (c.lockOf k.obj)) (O' := (ob k.obj).word i ts)
      (mem' := Function.update s.mem (.chunk k.obj i)
        (⟨f, ts, new i, (s.tv t).msgView (.mem (.chunk k.obj i)) ts .relaxed⟩ :: s.mem (.chunk k.obj i)))
      (by rw [hpc]; rfl) hown' (LExt.refl _) rfl hheld ((ob k.obj).ext_word i ts) rfl rfl
      (fun l m h => mem_update l m h) (fun l _ => Function.update_of_ne (by simp) ..)
      (fun l _ => Function.update_of_ne (by simp) ..)
      (fun o' i' h => Function.update_of_ne (by simp [h]) ..) ?_ hobj ?_ ?_ ?_ hl' hle hwf ha' ?_⟩
    · rw [Function.update_of_ne (by simp), Function.update_of_ne (by simp)]; exact I.lock _
    · intro o' _ ho'; have := I.obj o'; rwa [ho'] at this
    · rw [Function.update_eq_self]; exact hh'
    · rw [Function.update_eq_self]; exact hr'
    · rw [hcall', hpc]; rfl
  split
  · next hlt =>
    refine step _ rfl rfl ⟨hH.mono hle.cur, hp, hsig, hlt, hWr, ?_⟩ trivial trivial hap
    simp only [Function.update_self, OG.word]; exact hnew
  · next hlt =>
    have hn : i + 1 = c.n k.obj := by omega
    rw [hn] at hWr
    unfold Cfg.dropGuard
    split
    · next hw => exact step _ rfl rfl ⟨hH.mono hle.cur, hp, hWr, hw.1, hw.2⟩ trivial trivial hap
    · next hw =>
      refine step _ rfl rfl ⟨hH.mono hle.cur, hWr, fun hwide => ?_⟩ trivial trivial hap
      have hne : p + 2 ≠ 0 := fun h => hw ⟨hwide, h⟩
      refine ⟨by rw [hp]; exact (decide_eq_false hne).symm, ?_⟩
      rw [Cfg.succ_div_nowrap ok (by rw [← hH.prev]; exact hne)]
      exact ((I.lock _).fvhi hwide _ le_rfl).trans ((hH.fv _).trans (hle.cur _))

theorem hiLoad (I : Inv c lk ob s a N) {t : Tid} {k : Call V} {p : BitVec c.W}
    {r : Res V} (hpc : s.pc t = .hiLoad k p r) {x : BitVec c.W}
    {s' : State c X} (hd : Do s t (.load (.hi (c.lockOf k.obj)) .relaxed) x s') :
    Sim c a [] (s'.goto t (.hiStore k p x r)) N := by
  cases hd with | load _ _ _ _ h =>
  cases h with | mk m hm hv =>
  have hap := I.apc t; have hhi := I.hinv t
  rw [hpc] at hap hhi
  obtain ⟨hH, hp, hW, hwide, hz⟩ := hhi
  have hle := (s.tv t).le_read (.mem (.hi (c.lockOf k.obj))) .relaxed m
  refine I.loadStep t (by rw [hpc]; rfl) (by rw [hpc]; rfl)
    ⟨hH.mono hle.cur, hp, hW.mono hle.cur, hwide, hz, ?_⟩ trivial trivial hap
  obtain ⟨j, h1, h2, h3, -⟩ := (I.lock _).himsgs hwide m hm
  have hc : (lk (c.lockOf k.obj)).hcount c = (lk (c.lockOf k.obj)).wr (lk (c.lockOf k.obj)).E / c.B := by
    simp [LG.hcount, hp]
  have : (lk (c.lockOf k.obj)).hcount c ≤ j := by
    refine (I.lock _).le_of_hts hwide le_rfl ?_
    rw [← h1, hc]
    exact ((I.lock _).fvhi hwide _ le_rfl).trans ((hH.fv _).trans hv)
  rw [h2, ← hc, show j = (lk (c.lockOf k.obj)).hcount c by omega]

theorem hiStore (I : Inv c lk ob s a N) (ok : c.Sound) {t : Tid} {k : Call V} {p h : BitVec c.W}
    {r : Res V} (hpc : s.pc t = .hiStore k p h r) {x : BitVec c.W}
    {s' : State c X} (hd : Do s t (.store (.hi (c.lockOf k.obj)) (h + 1) .release) x s') :
    Sim c a [] (s'.goto t (.dropStore k p r)) N := by
  cases hd with | store _ _ _ _ _ hS =>
  cases hS with | mk f ts hv hf =>
  have hap := I.apc t; have hhi := I.hinv t
  rw [hpc] at hap hhi
  obtain ⟨hH, hp, hW, hwide, hz, hval⟩ := hhi
  have hheld := (I.held t (c.lockOf k.obj)).1 (by rw [hpc]; rfl)
  have hle := (s.tv t).le_write (.mem (.hi (c.lockOf k.obj))) ts
  have hwf := (I.wf t).write (.mem (.hi (c.lockOf k.obj))) ts
  have hz' : c.stamp ((lk (c.lockOf k.obj)).wr (lk (c.lockOf k.obj)).E) + 2 = 0 := by rw [← hH.prev]; exact hz
  have hdiv := Cfg.succ_div_wrap ok hz'
  have hmod : ((lk (c.lockOf k.obj)).wr (lk (c.lockOf k.obj)).E + 1) % c.B = 0 := by
    rw [Cfg.stamp_add, Cfg.stamp_zero ok] at hz'; exact hz'
  have hadd : h + 1 = BitVec.ofNat c.W ((lk (c.lockOf k.obj)).wr (lk (c.lockOf k.obj)).E / c.B + 1) := by
    rw [hval, show (1 : BitVec c.W) = BitVec.ofNat c.W 1 from rfl, ← BitVec.ofNat_add]
  have hlock := (I.lock _).advance (f := f) (t := ts) (v := s.tv t) hwide (by rw [hheld]; rfl) hH.sig hH.fv hv hp hmod hdiv
  have hobj : ∀ o', c.lockOf o' = c.lockOf k.obj → ObjInv c
      { lk (c.lockOf k.obj) with
        hip := true,
        hts := Function.update (lk (c.lockOf k.obj)).hts
          ((lk (c.lockOf k.obj)).wr (lk (c.lockOf k.obj)).E / c.B + 1) ts }
      (ob o') o' (fun i => s.mem (.chunk o' i)) (a.mo o') := by
    intro o' ho'
    have J := I.obj o'
    rw [ho'] at J
    exact ⟨J.vt0, J.vtmono, J.vtE, J.vtwr, J.chunks, J.ctmono, J.ctpend, J.vtpend, J.fvct, J.amem⟩
  refine ⟨_, _, a, .refl _, I.stepHeld (t := t) (o := k.obj)
      (L' := { lk (c.lockOf k.obj) with
        hip := true,
        hts := Function.update (lk (c.lockOf k.obj)).hts
          ((lk (c.lockOf k.obj)).wr (lk (c.lockOf k.obj)).E / c.B + 1) ts }) (O' := ob k.obj)
      (mem' := Function.update s.mem (.hi (c.lockOf k.obj))
        (⟨f, ts, h + 1, (s.tv t).msgView (.mem (.hi (c.lockOf k.obj))) ts .release⟩ :: s.mem (.hi (c.lockOf k.obj))))
      (by rw [hpc]; rfl) rfl ⟨le_rfl, fun _ _ => rfl, fun _ _ => rfl, fun _ _ => rfl⟩ rfl hheld
      (OExt.refl _) rfl rfl
      (fun l m h => mem_update l m h) (fun l _ => Function.update_of_ne (by simp) ..)
      (fun l h => Function.update_of_ne (by simpa using h) ..)
      (fun o' i' h => Function.update_of_ne (by simp) ..) ?_ ?_ (fun o' _ ho' => hobj o' ho') ?_ trivial trivial
      hle hwf hap (by rw [hpc]; rfl)⟩
  · rw [Function.update_self, Function.update_of_ne (by simp), hadd]; exact hlock
  · have : (fun i => Function.update s.mem (.hi (c.lockOf k.obj))
        (⟨f, ts, h + 1, (s.tv t).msgView (.mem (.hi (c.lockOf k.obj))) ts .release⟩ :: s.mem (.hi (c.lockOf k.obj)))
        (.chunk k.obj i)) = fun i => s.mem (.chunk k.obj i) := by
      funext i; rw [Function.update_of_ne (by simp)]
    rw [this]; exact hobj _ rfl
  · rw [Function.update_eq_self]
    simp only [HInv, Function.update_self]
    have hW' := hW.mono hle.cur
    refine ⟨⟨hH.prev, hH.sig.trans (hle.cur _), hH.fv.trans hle.cur⟩,
      ⟨hW'.oth, hW'.pend, hW'.ct, hW'.vt, hW'.writes, hW'.res⟩, fun _ => ⟨(decide_eq_true hz).symm, ?_⟩⟩
    rw [hdiv, Function.update_self]
    exact write_cur_self _ _ _

end Inv
end Verif.WM.Lock
