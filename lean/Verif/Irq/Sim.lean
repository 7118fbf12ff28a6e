import Verif.Irq.Code
/-!
# Linearizability on a single core with nested interrupts
-/
set_option linter.unusedSectionVars false
namespace Verif.Irq
open Verif.Object

variable {n : Nat} {C : Type} [DecidableEq C]

abbrev St (K : Cfg n C) :=
  Status (Obj × Req (Val n C) × BitVec K.arch.w) (Res (Val n C) × BitVec K.arch.w)

/-- Is the operation inside its critical section? -/
def Pc.crit {w : Nat} : Pc w n C → Bool
  | .rd .. | .wr .. => true
  | _ => false

def crit {w : Nat} : Option (Pc w n C) → Bool
  | some p => p.crit
  | none => false

/-- What the program point says about the status register and the specification's view. -/
def At (K : Cfg n C) (sr : BitVec K.arch.w) : Option (Pc K.arch.w n C) → St K → Prop
  | none, st => st = .idle
  | some (.start o q), st => st = .pending (o, q, sr &&& ~~~K.arch.flags)
  | some (.native o op), st => st = .pending (o, ⟨op, true⟩, sr &&& ~~~K.arch.flags) ∧
      (op.ordOk = true ∨ K.checked = false)
  | some (.dis o op k p t), st => ∃ c, st = .pending (o, ⟨op, false⟩, c.sr &&& ~~~K.arch.flags) ∧
      ⟨sr, p, t⟩ = run (K.arch.dis.take k) c ∧ k ≤ K.arch.dis.length ∧
      op.ordOk = true
  | some (.rd o op p _ _), st => ∃ c, st = .pending (o, ⟨op, false⟩, c.sr &&& ~~~K.arch.flags) ∧
      sr &&& ~~~K.arch.flags = (run K.arch.dis c).sr &&& ~~~K.arch.flags ∧
      p = (run K.arch.dis c).prev ∧ op.ordOk = true
  | some (.wr o op p _ _ _ _), st => ∃ c, st = .pending (o, ⟨op, false⟩, c.sr &&& ~~~K.arch.flags) ∧
      sr &&& ~~~K.arch.flags = (run K.arch.dis c).sr &&& ~~~K.arch.flags ∧
      p = (run K.arch.dis c).prev ∧ op.ordOk = true
  | some (.res k p t r), st => ∃ c s u, st = .done (r, c.sr &&& ~~~K.arch.flags) ∧
      s &&& ~~~K.arch.flags = (run K.arch.dis c).sr &&& ~~~K.arch.flags ∧
      ⟨sr, p, t⟩ = run (K.arch.res.take k) ⟨s, (run K.arch.dis c).prev, u⟩ ∧
      k ≤ K.arch.res.length
  | some (.fin r), st => st = .done (r, sr &&& ~~~K.arch.flags)

/-- What the running operation has done to memory. -/
def MemOk (K : Cfg n C) (m : Mem n C) (obj : Mem n C) : Option (Pc K.arch.w n C) → Prop
  | some (.rd o _ _ _ buf) => m = obj ∧ ∀ i x, buf i = some x → obj o i = x
  | some (.wr o op _ _ new wrote r) => (∀ o', o' ≠ o → m o' = obj o') ∧
      (∀ i, m o i = if wrote i then new i else obj o i) ∧ op.onCell (obj o) = (new, r)
  | _ => m = obj

/-- The interrupted contexts. -/
def Below (K : Cfg n C) (th : Tid → St K) : BitVec K.arch.w → List (Frame K.arch.w n C) → Prop
  | _, [] => True
  | sr, f :: fs => At K sr f.pc (th f.tid) ∧ crit f.pc = false ∧ Below K th f.saved fs

/-- The window is closed at the end of `disable` and in the critical section. -/
def WinOk (K : Cfg n C) (win : Bool) : Option (Pc K.arch.w n C) → Prop
  | some (.dis _ _ k _ _) => k = K.arch.dis.length → win = false
  | some (.rd ..) | some (.wr ..) => win = false
  | _ => True

structure Rel (K : Cfg n C) (s : State K.arch.w n C)
    (a : Object.State (Mem n C) (Obj × Req (Val n C) × BitVec K.arch.w)
      (Res (Val n C) × BitVec K.arch.w)) : Prop where
  nodup : ((s.top :: s.below).map Frame.tid).Nodup
  idle : ∀ t, t ∉ (s.top :: s.below).map Frame.tid → a.th t = .idle
  top : At K s.sr s.top.pc (a.th s.top.tid)
  mem : MemOk K s.mem a.obj s.top.pc
  win : WinOk K s.win s.top.pc
  below : Below K a.th s.top.saved s.below

theorem Below.congr {K : Cfg n C} {th th' : Tid → St K} :
    ∀ (fs : List (Frame K.arch.w n C)) (sr : BitVec K.arch.w),
      (∀ f ∈ fs, th' f.tid = th f.tid) → Below K th sr fs → Below K th' sr fs
  | [], _, _, _ => trivial
  | f :: fs, sr, h, ⟨h1, h2, h3⟩ =>
    ⟨by rw [h f (by simp)]; exact h1, h2,
      Below.congr fs f.saved (fun g hg => h g (List.mem_cons_of_mem _ hg)) h3⟩

theorem run_take {w : Nat} {is : List (Ins w)} {k : Nat} {i : Ins w} (h : is[k]? = some i)
    (c : Cpu w) : run (is.take (k + 1)) c = i.exec (run (is.take k) c) := by
  rw [List.take_add_one, h]
  simp [run]

/-- In the critical section no interrupt can be taken. -/
theorem no_irq {K : Cfg n C} (hK : K.arch.Ok) {sr : BitVec K.arch.w} {pc st}
    (ha : At K sr pc st) (hc : crit pc = true) : K.arch.enabled sr = false := by
  cases pc with
  | none => simp [crit] at hc
  | some p =>
    cases p with
    | rd o op p t buf =>
      obtain ⟨c, _, h, _⟩ := ha
      rw [hK.flags_irrelevant _ _ h]; exact hK.disabled c
    | wr o op p t new wrote r =>
      obtain ⟨c, _, h, _⟩ := ha
      rw [hK.flags_irrelevant _ _ h]; exact hK.disabled c
    | _ => simp [crit, Pc.crit] at hc

theorem force_onCell (op : Op (Val n C)) (x : Val n C) (h : op.ordOk = true) :
    (force op).onCell x = op.onCell x := by
  cases op <;> simp_all [force, Op.onCell, Op.ordOk]

theorem after_none {op : Op (Val n C)} {x : Val n C} {r} (ho : op.ordOk = true)
    (h : after op x = (none, r)) : op.onCell x = (x, r) := by
  cases op with
  | load o => simp [after] at h; simp [Op.onCell, ho, h]
  | store v o => simp [after] at h
  | swap v o => simp [after] at h
  | cas cur new s f =>
    by_cases hc : x = cur
    · simp [after, hc] at h
    · simp [after, hc] at h; simp [Op.onCell, ho, hc, h]
  | rmw f o => simp [after] at h

theorem after_some {op : Op (Val n C)} {x v : Val n C} {r} (ho : op.ordOk = true)
    (h : after op x = (some v, r)) : op.onCell x = (v, r) := by
  cases op with
  | load o => simp [after] at h
  | store v o =>
    simp only [after, Prod.mk.injEq, Option.some.injEq] at h
    obtain ⟨rfl, rfl⟩ := h; simp only [Op.onCell, ho, if_true]
  | swap v o =>
    simp only [after, Prod.mk.injEq, Option.some.injEq] at h
    obtain ⟨rfl, rfl⟩ := h; simp only [Op.onCell, ho, if_true]
  | cas cur new s f =>
    by_cases hc : x = cur
    · simp only [after, if_pos hc, Prod.mk.injEq, Option.some.injEq] at h
      obtain ⟨rfl, rfl⟩ := h; simp only [Op.onCell, ho, if_true, if_pos hc]
    · simp [after, hc] at h
  | rmw f o =>
    simp only [after, Prod.mk.injEq, Option.some.injEq] at h
    obtain ⟨rfl, rfl⟩ := h; simp only [Op.onCell, ho, if_true]

/-- Effect of one instruction of the running operation. -/
theorem act_ok {K : Cfg n C} (hK : K.arch.Ok) {m sr win pc m' sr' win' pc'}
    (ha : Act K m sr win pc m' sr' win' pc') {st : St K} {obj : Mem n C}
    (hat : At K sr (some pc) st) (hm : MemOk K m obj (some pc)) (hw : WinOk K win (some pc)) :
    WinOk K win' (some pc') ∧
    ((At K sr' (some pc') st ∧ MemOk K m' obj (some pc')) ∨
      ∃ op obj' r, st = .pending op ∧ (spec K).sem op obj obj' r ∧
        At K sr' (some pc') (.done r) ∧ MemOk K m' obj' (some pc')) := by
  have hpos : 0 < K.arch.dis.length := by
    obtain ⟨i, hi, _⟩ := hK.closed
    cases hd : K.arch.dis with
    | nil => simp [hd] at hi
    | cons a l => simp
  cases ha with
  | @panic o op _ hf hn ho =>
    simp only [At, MemOk] at hat hm
    subst hm
    refine ⟨trivial, Or.inr ⟨_, m, (.panic, sr &&& ~~~K.arch.flags), hat, ⟨rfl, ?_, ?_⟩, ?_, rfl⟩⟩
    · have : K.eff op = op.op := by
        unfold Cfg.eff; rw [if_neg]; rcases hn with h | h <;> simp [h]
      simp [this, Op.onCell, ho]
    · have : K.eff op = op.op := by
        unfold Cfg.eff; rw [if_neg]; rcases hn with h | h <;> simp [h]
      simp [this, Op.onCell, ho]
    · simp only [At, hf]
  | goNative hf ho =>
    simp only [At, MemOk] at hat hm
    exact ⟨trivial, Or.inl ⟨by simp only [At, hf]; exact ⟨hat, ho⟩, hm⟩⟩
  | goDis hf ho =>
    simp only [At, MemOk] at hat hm
    refine ⟨fun h => absurd h (by omega), Or.inl ⟨⟨⟨sr', _, _⟩, ?_, rfl, Nat.zero_le _, ho⟩, hm⟩⟩
    simp only [hf]; exact hat
  | @nat o op _ hf =>
    simp only [At, MemOk] at hat hm
    subst hm
    obtain ⟨h1, h3⟩ := hat
    have he : (K.eff ⟨op, true⟩).onCell (m o) = (force op).onCell (m o) := by
      unfold Cfg.eff
      by_cases hc : K.checked = true
      · rw [if_neg (by simp [hc])]
        rcases h3 with h3 | h3
        · exact (force_onCell op _ h3).symm
        · simp [hc] at h3
      · rw [if_pos (by simp [hc])]
    refine ⟨trivial, Or.inr ⟨_, _, (_, sr &&& ~~~K.arch.flags), h1, ⟨rfl, rfl, rfl⟩, ?_, ?_⟩⟩
    · simp only [At, hf, he]
    · simp only [MemOk, he]
  | @dis o op k p t i hi =>
    simp only [MemOk] at hm
    obtain ⟨c, h1, h2, h3, h4⟩ := hat
    have hk : k < K.arch.dis.length := (List.getElem?_eq_some_iff.1 hi).1
    refine ⟨fun hl => ?_, Or.inl ⟨⟨c, h1, ?_, hk, h4⟩, hm⟩⟩
    · obtain ⟨j, hj, hl'⟩ := hK.closed
      have : i = j := by
        rw [List.getLast?_eq_getElem?] at hj
        have e : K.arch.dis.length - 1 = k := by omega
        rw [e, hi] at hj
        exact Option.some.inj hj
      simp [this, hl']
    · rw [run_take hi, ← h2]
  | disRd h =>
    simp only [MemOk] at hm
    obtain ⟨c, h1, h2, h3, h4⟩ := hat
    rw [List.take_length] at h2
    refine ⟨hw rfl, Or.inl ⟨⟨c, h1, ?_, ?_, h4⟩, hm, ?_⟩⟩
    · rw [← h2]
    · rw [← h2]
    · intro i x hx; simp at hx
  | @disWr o v ord p t =>
    simp only [MemOk] at hm
    obtain ⟨c, h1, h2, h3, h5⟩ := hat
    rw [List.take_length] at h2
    refine ⟨hw rfl, Or.inl ⟨⟨c, h1, ?_, ?_, h5⟩, fun _ _ => by rw [hm], fun i => by simp [hm], ?_⟩⟩
    · rw [← h2]
    · rw [← h2]
    · simp [Op.onCell, h5]
  | @rd o op p t buf _ i hf =>
    obtain ⟨c, h1, h2, h4⟩ := hat
    obtain ⟨h5, h6⟩ := hm
    subst h5
    refine ⟨rfl, Or.inl ⟨⟨c, h1, hf.trans h2, h4⟩, rfl, ?_⟩⟩
    intro j x hx
    by_cases hj : j = i
    · subst hj; simpa using hx
    · rw [Function.update_of_ne hj] at hx; exact h6 j x hx
  | @rdRes o op p t buf _ x r hf hx hr =>
    obtain ⟨c, h1, h2, h4, h5'⟩ := hat
    obtain ⟨h6, h7⟩ := hm
    subst h6
    have ex : x = m o := funext fun i => (h7 i _ (hx i)).symm
    have he : K.eff ⟨op, false⟩ = op := by unfold Cfg.eff; rw [if_neg (by simp)]
    have hc := after_none h5' hr
    refine ⟨trivial, Or.inr ⟨_, m, (r, c.sr &&& ~~~K.arch.flags), h1, ⟨rfl, ?_, ?_⟩, ?_, rfl⟩⟩
    · simp only [he]; rw [← ex, hc, ex]; simp
    · simp only [he]; rw [← ex, hc]
    · refine ⟨c, sr', t, rfl, hf.trans h2, ?_, Nat.zero_le _⟩
      rw [h4]; rfl
  | @rdWr o op p t buf _ x v r hf hx hr =>
    obtain ⟨c, h1, h2, h4, h5'⟩ := hat
    obtain ⟨h6, h7⟩ := hm
    subst h6
    have ex : x = m o := funext fun i => (h7 i _ (hx i)).symm
    have hc := after_some h5' hr
    refine ⟨rfl, Or.inl ⟨⟨c, h1, hf.trans h2, h4, h5'⟩, fun _ _ => rfl, fun i => by simp, ?_⟩⟩
    rw [← ex]; exact hc
  | @wr o op p t new wrote r _ i hf =>
    obtain ⟨c, h1, h2, h4⟩ := hat
    obtain ⟨h6, h7, h8⟩ := hm
    refine ⟨rfl, Or.inl ⟨⟨c, h1, hf.trans h2, h4⟩, ?_, ?_, h8⟩⟩
    · intro o' ho'; rw [Function.update_of_ne ho']; exact h6 o' ho'
    · intro j
      rw [Function.update_self]
      by_cases hj : j = i
      · subst hj; simp
      · rw [Function.update_of_ne hj, Function.update_of_ne hj]; exact h7 j
  | @wrRes o op p t new wrote r _ hf hwr =>
    obtain ⟨c, h1, h2, h4, h5'⟩ := hat
    obtain ⟨h6, h7, h8⟩ := hm
    have he : K.eff ⟨op, false⟩ = op := by unfold Cfg.eff; rw [if_neg (by simp)]
    refine ⟨trivial, Or.inr ⟨_, m, (r, c.sr &&& ~~~K.arch.flags), h1, ⟨rfl, ?_, ?_⟩, ?_, rfl⟩⟩
    · simp only [he, h8]
      funext o'
      by_cases ho' : o' = o
      · subst ho'; rw [Function.update_self]; funext i; rw [h7 i, if_pos (hwr i)]
      · rw [Function.update_of_ne ho']; exact h6 o' ho'
    · simp only [he, h8]
    · refine ⟨c, sr', t, rfl, hf.trans h2, ?_, Nat.zero_le _⟩
      rw [h4]; rfl
  | @res k p t r i hi =>
    simp only [MemOk] at hm
    obtain ⟨c, s, u, h1, h2, h3, h4⟩ := hat
    have hk : k < K.arch.res.length := (List.getElem?_eq_some_iff.1 hi).1
    refine ⟨trivial, Or.inl ⟨⟨c, s, u, h1, h2, ?_, hk⟩, hm⟩⟩
    rw [run_take hi, ← h3]
  | @resFin p t r =>
    simp only [MemOk] at hm
    obtain ⟨c, s, u, h1, h2, h3, h4⟩ := hat
    rw [List.take_length] at h3
    refine ⟨trivial, Or.inl ⟨?_, hm⟩⟩
    have := hK.restored c s u h2
    rw [← h3] at this
    simp only [At, h1, this]

theorem sim_step {K : Cfg n C} (hK : K.arch.Ok) {s e s'} (hs : Step K s e s') {a} (hr : Rel K s a) :
    ∃ a', Rel K s' a' ∧ ((e = none ∧ (a' = a ∨ Object.Step (spec K) a none a')) ∨
      (∃ ev, e = some ev ∧ Object.Step (spec K) a (some ev) a')) := by
  have htop : ∀ f ∈ s.below, f.tid ≠ s.top.tid := by
    intro f hf h
    have := hr.nodup
    simp only [List.map_cons, List.nodup_cons] at this
    exact this.1 (h ▸ List.mem_map_of_mem hf)
  have hupd : ∀ (x : St K), Below K (Function.update a.th s.top.tid x) s.top.saved s.below := by
    intro x
    refine Below.congr _ _ (fun f hf => ?_) hr.below
    rw [Function.update_of_ne (htop f hf)]
  have hidle : ∀ (x : St K) t, t ∉ (s.top :: s.below).map Frame.tid →
      Function.update a.th s.top.tid x t = .idle := by
    intro x t ht
    have : t ≠ s.top.tid := by intro h; subst h; simp at ht
    rw [Function.update_of_ne this]; exact hr.idle t ht
  cases hs with
  | irq t sr' h ht =>
    have hnc : crit s.top.pc = false := by
      cases hc : crit s.top.pc with
      | false => rfl
      | true =>
        exfalso
        have h1 := no_irq hK hr.top hc
        have h2 : s.win = false := by
          have := hr.win
          cases hp : s.top.pc with
          | none => simp [hp, crit] at hc
          | some p => cases p <;> simp_all [crit, Pc.crit, WinOk]
        simp [h1, h2] at h
    refine ⟨a, ⟨?_, ?_, ?_, ?_, trivial, hr.top, hnc, hr.below⟩, Or.inl ⟨rfl, Or.inl rfl⟩⟩
    · rw [List.map_cons, List.nodup_cons]; exact ⟨ht, hr.nodup⟩
    · intro u hu; refine hr.idle u (fun h => hu ?_)
      rw [List.map_cons]; exact List.mem_cons_of_mem _ h
    · exact hr.idle t ht
    · show s.mem = a.obj
      have := hr.mem
      cases hp : s.top.pc with
      | none => simpa [hp, MemOk] using this
      | some p => cases p <;> simp_all [crit, Pc.crit, MemOk]
  | iret f rest h hb =>
    have hbel := hr.below
    rw [hb] at hbel
    obtain ⟨h1, h2, h3⟩ := hbel
    have hnd := hr.nodup
    rw [hb] at hnd
    simp only [List.map_cons, List.nodup_cons] at hnd
    refine ⟨a, ⟨?_, ?_, h1, ?_, ?_, h3⟩, Or.inl ⟨rfl, Or.inl rfl⟩⟩
    · simp only [List.map_cons, List.nodup_cons]; exact hnd.2
    · intro u hu
      by_cases hut : u = s.top.tid
      · subst hut
        have := hr.top
        rw [h] at this
        exact this
      · refine hr.idle u (fun hm => hu ?_)
        rw [hb] at hm
        simp only [List.map_cons, List.mem_cons] at hm ⊢
        rcases hm with hm | hm
        · exact absurd hm hut
        · exact hm
    · have := hr.mem
      rw [h] at this
      cases hp : f.pc with
      | none => exact this
      | some p => rw [hp] at h2; cases p <;> simp_all [crit, Pc.crit, MemOk]
    · cases hp : f.pc with
      | none => trivial
      | some p =>
        rw [hp] at h2
        cases p with
        | dis o op k p t => exact fun _ => rfl
        | rd => simp [crit, Pc.crit] at h2
        | wr => simp [crit, Pc.crit] at h2
        | _ => trivial
  | user sr' win' h =>
    refine ⟨a, ⟨hr.nodup, hr.idle, ?_, hr.mem, ?_, hr.below⟩, Or.inl ⟨rfl, Or.inl rfl⟩⟩
    · have := hr.top; simp only [h] at this ⊢; exact this
    · simp only [h]; trivial
  | inv o op h =>
    have hi : a.th s.top.tid = .idle := by have := hr.top; rw [h] at this; exact this
    refine ⟨⟨a.obj, Function.update a.th s.top.tid (.pending (o, op, s.sr &&& ~~~K.arch.flags))⟩,
      ⟨hr.nodup, hidle _, ?_, ?_, trivial, hupd _⟩, Or.inr ⟨_, rfl, .inv a s.top.tid _ hi⟩⟩
    · simp only [Function.update_self, At]
    · have := hr.mem; rw [h] at this; exact this
  | act pc m' sr' win' pc' h ha =>
    have hat := hr.top
    have hm := hr.mem
    have hw := hr.win
    rw [h] at hat hm hw
    obtain ⟨hw', hd⟩ := act_ok hK ha hat hm hw
    rcases hd with ⟨h1, h2⟩ | ⟨op, obj', r, h1, h2, h3, h4⟩
    · exact ⟨a, ⟨hr.nodup, hr.idle, h1, h2, hw', hr.below⟩, Or.inl ⟨rfl, Or.inl rfl⟩⟩
    · refine ⟨⟨obj', Function.update a.th s.top.tid (.done r)⟩,
        ⟨hr.nodup, hidle _, ?_, h4, hw', hupd _⟩,
        Or.inl ⟨rfl, Or.inr (.commit a s.top.tid op obj' r h1 h2)⟩⟩
      simpa only [Function.update_self] using h3
  | ret r h =>
    have hi : a.th s.top.tid = .done (r, s.sr &&& ~~~K.arch.flags) := by
      have := hr.top; rw [h] at this; exact this
    refine ⟨⟨a.obj, Function.update a.th s.top.tid .idle⟩,
      ⟨hr.nodup, hidle _, ?_, ?_, trivial, hupd _⟩, Or.inr ⟨_, rfl, .ret a s.top.tid _ hi⟩⟩
    · simp only [Function.update_self, At]
    · have := hr.mem; rw [h] at this; exact this

theorem sim_exec {K : Cfg n C} (hK : K.arch.Ok) (t : Tid) (m : Mem n C) (sr : BitVec K.arch.w)
    (win : Bool) {h s} (hx : Exec (Step K) (init t m sr win) h s) :
    ∃ a, Exec (Object.Step (spec K)) { obj := m, th := fun _ => .idle } h a ∧ Rel K s a := by
  generalize hi : init t m sr win = i at hx
  induction hx with
  | refl =>
    subst hi
    exact ⟨_, .refl _, by simp [init], fun _ _ => rfl, rfl, rfl, trivial, trivial⟩
  | tau _ st ih =>
    obtain ⟨a, ha, hr⟩ := ih
    obtain ⟨a', hr', hd⟩ := sim_step hK st hr
    rcases hd with ⟨_, h | h⟩ | ⟨ev, h, _⟩
    · subst h; exact ⟨_, ha, hr'⟩
    · exact ⟨a', .tau ha h, hr'⟩
    · simp at h
  | ev _ st ih =>
    obtain ⟨a, ha, hr⟩ := ih
    obtain ⟨a', hr', hd⟩ := sim_step hK st hr
    rcases hd with ⟨h, _⟩ | ⟨ev, h, hst⟩
    · simp at h
    · obtain rfl := Option.some.inj h
      exact ⟨a', .ev ha hst, hr'⟩

end Verif.Irq
