/- The invariant behind "one detection result per process". -/
import Verif.Detect.Code

set_option linter.unusedSectionVars false
namespace Verif.Detect
variable {Site Impl Tid : Type} [DecidableEq Site] [DecidableEq Tid]

/-- An implementation a site may use if the detection answers are in `Q`. -/
def Ok (C : Cfg Site Impl) (Q : Info → Prop) (s : Site) (i : Impl) : Prop :=
  match C.direct s with
  | some j => i = j
  | none => ∃ v, Q v ∧ i = C.pick s v

/-- An observation that the detection answers in `Q` account for. -/
def EvOk (C : Cfg Site Impl) (Q : Info → Prop) : Ev Site Impl Tid → Prop
  | .used _ s i => Ok C Q s i
  | .lockFree _ b => match C.lfStatic with
    | some c => b = c
    | none => ∃ v, Q v ∧ b = C.lfOf v
  | .info _ v => Q v

/-- A position in the code that `Q` accounts for. -/
def PcOk (C : Cfg Site Impl) (Q : Info → Prop) : Pc Site Impl → Prop
  | .idle => True
  | .func s => C.direct s = none
  | .cache k => KOk k
  | .probe k => KOk k ∧ C.memo ≠ .none
  | .publish k v => KOk k ∧ C.probe v ∧ C.memo ≠ .none
  | .got k v => KOk k ∧ Q v
  | .setFunc s i => C.direct s = none ∧ Ok C Q s i
  | .run s i => Ok C Q s i
where
  KOk : Caller Site → Prop
  | .site s => C.direct s = none
  | .lockFree => C.lfStatic = none
  | .query => True

/-- Everything in the state and the history is accounted for by answers in `Q`. -/
structure Good (C : Cfg Site Impl) (Q : Info → Prop) (S : State Site Impl Tid)
    (h : List (Ev Site Impl Tid)) : Prop where
  cache : ∀ v b, (v, b) ∈ S.cache → v = 0#32 ∨ Q v
  func : ∀ s i b, (some i, b) ∈ S.func s → Ok C Q s i
  pc : ∀ t, PcOk C Q (S.pc t)
  ev : ∀ e ∈ h, EvOk C Q e

theorem Good.goto {C : Cfg Site Impl} {Q} {S : State Site Impl Tid} {h t p}
    (g : Good C Q S h) (hp : PcOk C Q p) : Good C Q (S.goto t p) h := by
  refine ⟨g.cache, g.func, fun u => ?_, g.ev⟩
  by_cases hu : u = t
  · subst hu; simpa [State.goto] using hp
  · simpa [State.goto, hu] using g.pc u

theorem Good.snoc {C : Cfg Site Impl} {Q} {S : State Site Impl Tid} {h e}
    (g : Good C Q S h) (he : EvOk C Q e) : Good C Q S (h ++ [e]) :=
  ⟨g.cache, g.func, g.pc, fun x hx => by
    rcases List.mem_append.1 hx with hx | hx
    · exact g.ev x hx
    · rw [List.mem_singleton.1 hx]; exact he⟩

/-- Every step that publishes nothing new keeps the account; a publication keeps it if what is
published is in the account. -/
theorem Good.step {C : Cfg Site Impl} {Q} {S S' : State Site Impl Tid} {h t e}
    (g : Good C Q S h) (st : Step C t S e S')
    (hpub : ∀ k v, S.pc t = .publish k v → (S'.cache ≠ S.cache) → Q v)
    (hnone : C.memo = .none → ∀ v, C.probe v → Q v) :
    Good C Q S' (h ++ e.toList) := by
  have hpc := g.pc t
  cases st with
  | callDirect s i hp hd =>
      simp only [Option.toList, List.append_nil]
      exact g.goto (by simp [PcOk, Ok, hd])
  | callIfunc s hp hd =>
      simp only [Option.toList, List.append_nil]
      exact g.goto (by simpa [PcOk] using hd)
  | funcInit s hp hr =>
      simp only [Option.toList, List.append_nil]
      rw [hp] at hpc
      exact g.goto (by simpa [PcOk, PcOk.KOk] using hpc)
  | funcSet s i hp hr =>
      simp only [Option.toList, List.append_nil]
      obtain ⟨b, hb⟩ := hr
      exact g.goto (g.func s i b hb)
  | lfStatic b hp hl =>
      exact g.snoc (by simp [EvOk, hl])
  | lfDetect hp hl =>
      simp only [Option.toList, List.append_nil]
      exact g.goto (by simpa [PcOk, PcOk.KOk] using hl)
  | query hp =>
      simp only [Option.toList, List.append_nil]
      exact g.goto (by simp [PcOk, PcOk.KOk])
  | cacheHit k v hp hm hr hv =>
      simp only [Option.toList, List.append_nil]
      rw [hp] at hpc
      obtain ⟨b, hb⟩ := hr
      exact g.goto ⟨hpc, (g.cache v b hb).resolve_left hv⟩
  | cacheMiss k hp hm hr =>
      simp only [Option.toList, List.append_nil]
      rw [hp] at hpc
      exact g.goto ⟨hpc, hm⟩
  | uncached k v hp hm hv =>
      simp only [Option.toList, List.append_nil]
      rw [hp] at hpc
      exact g.goto ⟨hpc, hnone hm v hv⟩
  | probe k v hp hv =>
      simp only [Option.toList, List.append_nil]
      rw [hp] at hpc
      exact g.goto ⟨hpc.1, hv, hpc.2⟩
  | casOk k v c hp hm hc =>
      simp only [Option.toList, List.append_nil]
      rw [hp] at hpc
      generalize hcc : S.cache = c0 at hc
      cases hc with
      | mk a b =>
        have hc := hcc.symm
        have hq : Q v := by
          refine hpub k v hp ?_
          intro e
          have := congrArg List.length e
          rw [← hc] at this
          simp [State.goto] at this
        have g' : Good C Q { S with cache := (v, false) :: (a ++ (0#32, true) :: b) } h := by
          refine ⟨fun w x hx => ?_, g.func, g.pc, g.ev⟩
          simp only [List.mem_cons, List.mem_append, Prod.mk.injEq] at hx
          rcases hx with ⟨rfl, -⟩ | hx | ⟨rfl, -⟩ | hx
          · exact .inr hq
          · exact g.cache w x (by rw [← hc]; simp [hx])
          · exact .inl rfl
          · exact g.cache w x (by rw [← hc]; simp [hx])
        exact g'.goto ⟨hpc.1, hq⟩
  | casFail k v v' hp hm hc =>
      simp only [Option.toList, List.append_nil]
      rw [hp] at hpc
      obtain ⟨⟨b, hb⟩, hv⟩ := hc
      exact g.goto ⟨hpc.1, (g.cache v' b hb).resolve_left hv⟩
  | store k v hp hm =>
      simp only [Option.toList, List.append_nil]
      rw [hp] at hpc
      have hq : Q v := by
        refine hpub k v hp ?_
        intro e
        have := congrArg List.length e
        simp [State.goto, Cell.write] at this
      have g' : Good C Q { S with cache := S.cache.write v } h := by
        refine ⟨fun w x hx => ?_, g.func, g.pc, g.ev⟩
        simp only [Cell.write, List.mem_cons, Prod.mk.injEq] at hx
        rcases hx with ⟨rfl, -⟩ | hx
        · exact .inr hq
        · exact g.cache w x hx
      exact g'.goto ⟨hpc.1, hq⟩
  | pick s v hp =>
      simp only [Option.toList, List.append_nil]
      rw [hp] at hpc
      have hd : C.direct s = none := hpc.1
      exact g.goto ⟨hd, by simp only [Ok, hd]; exact ⟨v, hpc.2, rfl⟩⟩
  | lfRet v hp =>
      rw [hp] at hpc
      have hl : C.lfStatic = none := hpc.1
      exact (g.goto (p := .idle) trivial).snoc (by simp only [EvOk, hl]; exact ⟨v, hpc.2, rfl⟩)
  | queryRet v hp =>
      rw [hp] at hpc
      exact (g.goto (p := .idle) trivial).snoc hpc.2
  | setFunc s i hp =>
      simp only [Option.toList, List.append_nil]
      rw [hp] at hpc
      have g' : Good C Q { S with func := Function.update S.func s ((S.func s).write (some i)) } h := by
        refine ⟨g.cache, fun s' j x hx => ?_, g.pc, g.ev⟩
        by_cases hs : s' = s
        · subst hs
          simp only [Function.update_self, Cell.write, List.mem_cons, Prod.mk.injEq,
            Option.some.injEq] at hx
          rcases hx with ⟨rfl, -⟩ | hx
          · exact hpc.2
          · exact g.func s' j x hx
        · simp only [Function.update_of_ne hs] at hx
          exact g.func s' j x hx
      exact g'.goto hpc.2
  | run s i hp =>
      rw [hp] at hpc
      exact (g.goto (p := .idle) trivial).snoc hpc

theorem Good.init {C : Cfg Site Impl} {Q} : Good C Q (init : State Site Impl Tid) [] := by
  refine ⟨?_, ?_, ?_, by simp⟩
  · intro v b hb; simp only [Detect.init, Cell.init, List.mem_singleton, Prod.mk.injEq] at hb
    exact .inl hb.1
  · intro s i b hb; simp [Detect.init, Cell.init] at hb
  · intro t; trivial

/-- A step that publishes comes from the publishing position and publishes a probe result. -/
theorem Step.cache_eq {C : Cfg Site Impl} {S S' : State Site Impl Tid} {t e}
    (st : Step C t S e S') : S'.cache = S.cache ∨ C.memo = .store ∨
      ∃ k v, S.pc t = .publish k v ∧ Cell.Cas 0#32 v S.cache S'.cache := by
  cases st with
  | casOk k v c hp hm hc => exact .inr (.inr ⟨k, v, hp, hc⟩)
  | store k v hp hm => exact .inr (.inl hm)
  | _ => exact .inl rfl

/-- Whatever the publication mode, everything observable is accounted for by probe results. -/
theorem exec_good {C : Cfg Site Impl} {S : State Site Impl Tid} {h} (x : Exec C S h) :
    Good C C.probe S h := by
  induction x with
  | start => exact .init
  | quiet t x st ih =>
      have := ih.step st (fun k v hp _ => by have := ih.pc t; rw [hp] at this; exact this.2.1)
        (fun _ _ h => h)
      simpa using this
  | emit t e x st ih =>
      exact ih.step st (fun k v hp _ => by have := ih.pc t; rw [hp] at this; exact this.2.1)
        (fun _ _ h => h)

/-- With compare-exchange publication: nothing is decided yet, or exactly one probe result is. -/
theorem exec_one {C : Cfg Site Impl} (hm : C.memo = .cas) (hnz : ∀ v, C.probe v → v ≠ 0#32)
    {S : State Site Impl Tid} {h} (x : Exec C S h) :
    (S.cache = Cell.init 0#32 ∧ ∀ Q, Good C Q S h) ∨
      (∃ v, C.probe v ∧ (0#32, false) ∉ S.cache ∧ Good C (· = v) S h) := by
  have key : ∀ {S S' : State Site Impl Tid} {h t e}, Exec C S h → Step C t S e S' →
      ((S.cache = Cell.init 0#32 ∧ ∀ Q, Good C Q S h) ∨
        (∃ v, C.probe v ∧ (0#32, false) ∉ S.cache ∧ Good C (· = v) S h)) →
      (S'.cache = Cell.init 0#32 ∧ ∀ Q, Good C Q S' (h ++ e.toList)) ∨
        (∃ v, C.probe v ∧ (0#32, false) ∉ S'.cache ∧ Good C (· = v) S' (h ++ e.toList)) := by
    intro S S' h t e x st ih
    have hg := exec_good x
    rcases st.cache_eq with hc | hf | ⟨k, v, hp, hc⟩
    · rcases ih with ⟨hi, g⟩ | ⟨v, hv, hn, g⟩
      · exact .inl ⟨hc.trans hi, fun Q => (g Q).step st (fun _ _ _ hne => absurd hc hne) (fun h => by rw [hm] at h; cases h)⟩
      · exact .inr ⟨v, hv, by rw [hc]; exact hn, g.step st (fun _ _ _ hne => absurd hc hne) (fun h => by rw [hm] at h; cases h)⟩
    · rw [hf] at hm; cases hm
    · have hpv : C.probe v := by have := hg.pc t; rw [hp] at this; exact this.2.1
      generalize hd : S'.cache = d at hc
      generalize he : S.cache = c at hc
      cases hc with
      | mk a b =>
        rcases ih with ⟨hi, g⟩ | ⟨w, hw, hn, g⟩
        · refine .inr ⟨v, hpv, ?_, (g _).step st (fun k' v' hp' _ => ?_)
            (fun h => by rw [hm] at h; cases h)⟩
          · rw [hi] at he
            simp only [Cell.init] at he
            have hab : a = [] ∧ b = [] := by
              rcases a with _ | ⟨a0, a⟩
              · simp only [List.nil_append, List.cons.injEq] at he
                exact ⟨rfl, he.2.symm⟩
              · simp at he
            rw [hab.1, hab.2]
            have := hnz v hpv
            simp only [List.nil_append, List.mem_cons, Prod.mk.injEq, and_true, List.not_mem_nil,
              or_false, not_or]
            exact ⟨fun h => this h.symm, by simp⟩
          · rw [hp] at hp'
            injection hp' with _ hv'
            exact hv'.symm
        · exact absurd (by rw [he]; simp) hn
  induction x with
  | start => exact .inl ⟨rfl, fun _ => .init⟩
  | quiet t x st ih => simpa using key x st ih
  | emit t e x st ih => exact key x st ih

/-- How many more steps of its own a thread needs before it is idle again. -/
def rank : Pc Site Impl → Nat
  | .idle => 0
  | .run .. => 1
  | .setFunc .. => 2
  | .got .. => 3
  | .publish .. => 4
  | .probe .. => 5
  | .cache .. => 6
  | .func .. => 7

theorem Step.rank_lt {C : Cfg Site Impl} {S S' : State Site Impl Tid} {t e}
    (st : Step C t S e S') (hb : rank (S.pc t) ≠ 0) : rank (S'.pc t) < rank (S.pc t) := by
  cases st <;> simp_all [rank, State.goto]

theorem Step.other {C : Cfg Site Impl} {S S' : State Site Impl Tid} {t u e}
    (st : Step C t S e S') (hu : u ≠ t) : S'.pc u = S.pc u := by
  cases st <;> simp [State.goto, Function.update_of_ne hu]

/-- A thread that is not idle always has a step of its own. -/
theorem exists_step {C : Cfg Site Impl} (hpr : ∃ v, C.probe v) {S : State Site Impl Tid} {h}
    (x : Exec C S h) (t : Tid) (hb : rank (S.pc t) ≠ 0) :
    ∃ e S', Step C t S e S' := by
  have hcell : (∃ b, (0#32, b) ∈ S.cache) ∧ ∀ s, ∃ b, (none, b) ∈ S.func s := by
    have key : ∀ {S S' : State Site Impl Tid} {t e}, Step C t S e S' →
        ((∃ b, (0#32, b) ∈ S.cache) ∧ ∀ s, ∃ b, (none, b) ∈ S.func s) →
        ((∃ b, (0#32, b) ∈ S'.cache) ∧ ∀ s, ∃ b, (none, b) ∈ S'.func s) := by
      intro S S' t e st ⟨hc, hf⟩
      cases st with
      | casOk k v c hp hm hcas =>
          refine ⟨?_, hf⟩
          generalize S.cache = c0 at hcas
          cases hcas with
          | mk a b => exact ⟨true, by simp [State.goto]⟩
      | store k v hp hm =>
          obtain ⟨b, hb⟩ := hc
          exact ⟨⟨b, by simp [State.goto, Cell.write, hb]⟩, hf⟩
      | setFunc s i hp =>
          refine ⟨hc, fun s' => ?_⟩
          obtain ⟨b, hb⟩ := hf s'
          refine ⟨b, ?_⟩
          by_cases hs : s' = s
          · subst hs; simp [State.goto, Cell.write, hb]
          · simp [State.goto, Function.update_of_ne hs, hb]
      | _ => exact ⟨hc, hf⟩
    clear hb
    induction x with
    | start => exact ⟨⟨false, by simp [init, Cell.init]⟩, fun s => ⟨false, by simp [init, Cell.init]⟩⟩
    | quiet u x st ih => exact key st ih
    | emit u e x st ih => exact key st ih
  obtain ⟨⟨b0, hc0⟩, hf0⟩ := hcell
  rcases hp : S.pc t with _ | s | k | k | ⟨k, v⟩ | ⟨k, v⟩ | ⟨s, i⟩ | ⟨s, i⟩
  · rw [hp] at hb; simp [rank] at hb
  · exact ⟨_, _, .funcInit s hp (hf0 s)⟩
  · by_cases hm : C.memo = .none
    · obtain ⟨v, hv⟩ := hpr
      exact ⟨_, _, .uncached k v hp hm hv⟩
    · exact ⟨_, _, .cacheMiss k hp hm ⟨b0, hc0⟩⟩
  · obtain ⟨v, hv⟩ := hpr
    exact ⟨_, _, .probe k v hp hv⟩
  · cases hm : C.memo with
    | store => exact ⟨_, _, .store k v hp hm⟩
    | none => have := (exec_good x).pc t; rw [hp] at this; exact absurd hm this.2.2
    | cas =>
      by_cases hz : (0#32, false) ∈ S.cache
      · obtain ⟨a, b, hab⟩ := List.append_of_mem hz
        exact ⟨_, _, .casOk k v _ hp hm (by rw [hab]; exact .mk a b)⟩
      · have hex : ∃ w b, (w, b) ∈ S.cache ∧ w ≠ 0#32 := by
          have key : ∀ {S : State Site Impl Tid} {h}, Exec C S h →
              (0#32, false) ∈ S.cache ∨ ∃ w b, (w, b) ∈ S.cache ∧ w ≠ 0#32 := by
            intro S h x
            have step : ∀ {S S' : State Site Impl Tid} {t e}, Step C t S e S' →
                ((0#32, false) ∈ S.cache ∨ ∃ w b, (w, b) ∈ S.cache ∧ w ≠ 0#32) →
                ((0#32, false) ∈ S'.cache ∨ ∃ w b, (w, b) ∈ S'.cache ∧ w ≠ 0#32) := by
              intro S S' t e st ih
              rcases st.cache_eq with hc | hf | ⟨k, v, hp, hc⟩
              · rw [hc]; exact ih
              · rw [hf] at hm; cases hm
              · generalize hd : S'.cache = d at hc
                generalize he : S.cache = c at hc
                cases hc with
                | mk a b =>
                  by_cases hv : v = 0#32
                  · subst hv; exact .inl (by simp)
                  · exact .inr ⟨v, false, by simp, hv⟩
            induction x with
            | start => exact .inl (by simp [init, Cell.init])
            | quiet u x st ih => exact step st ih
            | emit u e x st ih => exact step st ih
          exact (key x).resolve_left hz
        obtain ⟨w, b, hw, hne⟩ := hex
        exact ⟨_, _, .casFail k v w hp hm ⟨⟨b, hw⟩, hne⟩⟩
  · rcases k with s | _ | _
    · exact ⟨_, _, .pick s v hp⟩
    · exact ⟨_, _, .lfRet v hp⟩
    · exact ⟨_, _, .queryRet v hp⟩
  · exact ⟨_, _, .setFunc s i hp⟩
  · exact ⟨_, _, .run s i hp⟩

end Verif.Detect
