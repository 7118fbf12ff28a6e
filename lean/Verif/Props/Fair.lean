import Verif.Fallback.Fair
import Verif.Props.Fallback
/-!
# Endless runs of the lock-based fallback (C67)
-/
set_option autoImplicit false
namespace Verif
namespace Fallback
open Cfg
variable {V : Type} [DecidableEq V] {c : Cfg V} {cells : Obj → V} {v0 : Nat → Nat} {ext : Nat → BitVec c.W}
  {σ : Nat → State V c.W} {e : Nat → Option (Ev V)} {who : Nat → Tid}

/-- **C67a.** If no thread is stopped for ever in the middle of a call, then a call returns, or infinitely many calls on objects with the same lock return meanwhile.
(`c.lockOf o = c.addr o % 67`.) -/
theorem returns_or_overtaken (ok : c.Sound) (X : Endless c cells v0 ext σ e who) (F : Fair e who)
    {t : Tid} {o : Obj} {i : Nat} (h : Pending e t o i) :
    Returns e t i ∨ ReturnForever e fun o' => c.addr o' % 67 = c.addr o % 67 := by
  by_contra hc
  rw [not_or] at hc
  obtain ⟨h1, h2⟩ := hc
  unfold ReturnForever at h2
  obtain ⟨n, hn⟩ := Classical.not_forall.1 h2
  have hn' : ∀ j, n ≤ j → ∀ u o' r, c.lockOf o' = c.lockOf o → Pending e u o' j → e j ≠ some (.ret u r) :=
    fun j hj u o' r hl hp he => hn ⟨j, hj, u, o', r, hl, hp, he⟩
  have hp : Pending e t o (max i n) := Endless.pending_later h (Nat.le_max_left ..) fun k hk _ r he => h1 ⟨k, hk, r, he⟩
  exact Endless.no_call ok X F hn' (Nat.le_max_right ..) hp rfl

/-- **C67b.** So once no more calls are made on objects with that lock, it returns. -/
theorem returns_if_calls_stop (ok : c.Sound) (X : Endless c cells v0 ext σ e who) (F : Fair e who)
    {t : Tid} {o : Obj} {i n : Nat} (h : Pending e t o i)
    (hn : ∀ j, n ≤ j → ∀ u o' op, c.addr o' % 67 = c.addr o % 67 → e j ≠ some (.inv u o' op)) : Returns e t i := by
  rcases returns_or_overtaken ok X F h with h | h
  · exact h
  · exfalso
    have key : ∀ m, ∃ M, ∀ j, M ≤ j → ∀ k u o' op r, k < m → k < j → e k = some (.inv u o' op) →
        (∀ i, k < i → i < j → ∀ r, e i ≠ some (.ret u r)) → e j ≠ some (.ret u r) := by
      intro m
      induction m with
      | zero => exact ⟨0, fun j _ k u o' op r hk => absurd hk (Nat.not_lt_zero _)⟩
      | succ m ih =>
        obtain ⟨M, hM⟩ := ih
        by_cases hx : ∃ u o' op r j0, e m = some (.inv u o' op) ∧ m < j0 ∧ e j0 = some (.ret u r)
        · obtain ⟨u, o', op, r, j0, hm, hj0, hr⟩ := hx
          refine ⟨max M (j0 + 1), fun j hj k u' o2 op' r' hk hkj hinv hno => ?_⟩
          rcases Nat.lt_succ_iff_lt_or_eq.1 hk with hk | rfl
          · exact hM j (le_trans (Nat.le_max_left ..) hj) k u' o2 op' r' hk hkj hinv hno
          · rw [hm] at hinv
            cases hinv
            exact absurd hr (hno j0 hj0 (lt_of_lt_of_le (Nat.lt_succ_self _) (le_trans (Nat.le_max_right ..) hj)) r)
        · refine ⟨M, fun j hj k u' o2 op' r' hk hkj hinv hno => ?_⟩
          rcases Nat.lt_succ_iff_lt_or_eq.1 hk with hk | rfl
          · exact hM j hj k u' o2 op' r' hk hkj hinv hno
          · exact fun he => hx ⟨u', o2, op', r', j, hinv, hkj, he⟩
    obtain ⟨M, hM⟩ := key n
    obtain ⟨j, hj, u, o', r, hl, ⟨k, hk, ⟨op, hop⟩, hno⟩, he⟩ := h M
    refine hM j hj k u o' op r ?_ hk hop hno he
    by_contra hc
    exact hn k (Nat.le_of_not_lt hc) u o' op hl hop

/-- **C67c.** In every endless run in which no thread is stopped for ever in the middle of a call, infinitely many calls return. -/
theorem infinitely_many_return (ok : c.Sound) (X : Endless c cells v0 ext σ e who) (F : Fair e who) :
    ReturnForever e fun _ => True := by
  intro n
  by_contra hc
  have hno : ∀ j, n ≤ j → ∀ t r, e j ≠ some (.ret t r) := by
    intro j hj t r he
    obtain ⟨o, hp, -⟩ := X.pending_of t j (by rw [(X.pc_ret he).2.1]; simp)
    exact hc ⟨j, hj, t, o, r, trivial, hp, he⟩
  have hnp : ∀ j t o, n ≤ j → ¬ Pending e t o j := by
    intro j t o hj hp
    rcases returns_or_overtaken ok X F hp with ⟨k, hk, r, he⟩ | h
    · exact hno k (le_trans hj hk) t r he
    · obtain ⟨k, hk, u, _, r, _, _, he⟩ := h n
      exact hno k hk u r he
  rcases X.cases_who n with ⟨o, op, he⟩ | ⟨r, he⟩ | he
  · exact hnp (n + 1) (who n) o (Nat.le_succ _) ⟨n, Nat.lt_succ_self _, ⟨op, he⟩, fun j h1 h2 => by omega⟩
  · exact hno n (le_refl _) _ r he
  · obtain ⟨a, ha, -⟩ := X.pc_act he
    obtain ⟨o, hp, -⟩ := X.pending_of (who n) n (by intro h'; rw [h'] at ha; cases ha)
    exact hnp n _ o (le_refl _) hp

/-- Steps of threads other than `u`. -/
def Without (c : Cfg V) (u : Tid) (s : State V c.W) (e : Option (Ev V)) (s' : State V c.W) : Prop :=
  ∃ t, t ≠ u ∧ c.StepOf t s e s'

/-- Program points a call on the lock `l` does not get past while the lock is held. -/
def Waits (c : Cfg V) (l : Nat) : Pc V c.W → Prop
  | .scPre k => c.lockOf k.obj = l
  | .optHi k => c.lockOf k.obj = l
  | .optLo k _ => c.lockOf k.obj = l
  | .swapLock k => c.lockOf k.obj = l
  | .spin k => c.lockOf k.obj = l
  | _ => False

theorem waits_start {l : Nat} (k : Call V) (hk : k.op.ordOk = true) (hl : c.lockOf k.obj = l) : Waits c l (c.start k) := by
  have henter : Waits c l (c.enter k) := by
    unfold enter
    split
    · split <;> exact hl
    · exact hl
  unfold start
  have : checks k.op = .ok := by
    revert hk
    cases k.op with
    | load o => cases o <;> simp [Op.ordOk, checks, MemOrd.assertLoad]
    | store v o => cases o <;> simp [Op.ordOk, checks, MemOrd.assertStore]
    | swap v o => simp [checks]
    | cas a b s f => cases s <;> cases f <;> simp [Op.ordOk, checks, MemOrd.assertCas]
    | rmw f o => simp [checks]
  rw [this]
  show Waits c l (if _ then _ else _)
  split
  · exact hl
  · exact henter

theorem waits_next {l : Nat} {s : State V c.W} {t : Tid} {a : Act c.W} (hw : Waits c l (s.pc t)) (hl : s.mem (.lo l) = 1)
    (ha : c.act (s.pc t) = some a) : Waits c l (c.next (s.pc t) (execSC s.mem a).2) := by
  cases hpc : s.pc t <;> rw [hpc] at hw ha <;> simp only [Waits] at hw
  all_goals (simp only [act, Option.some.injEq] at ha; subst ha)
  · simp only [next]
    unfold enter
    split
    · split <;> exact hw
    · exact hw
  · exact hw
  · subst hw; simp only [next, execSC, hl, if_pos]; exact rfl
  · subst hw; simp only [next, execSC, hl, if_pos]; exact rfl
  · subst hw; simp only [next, execSC, hl, if_pos]; exact rfl

/-- **C67d.** This is why `is_lock_free()` is `false`: while a thread `u` is stopped between taking and releasing the lock of `o2`, no call (with valid orderings)
that another thread makes after that on an object with the same lock returns, whatever the others do. -/
theorem stopped_holder_blocks (ok : c.Sound) {h1 h2 h3 : List (Ev V)} {s s1 s2 s3 : State V c.W} {u t : Tid} {o o2 : Obj} {op : Op V}
    (x : Exec c.Step (c.init cells v0 ext) h1 s) (hu : InSection (s.pc u) o2) (hl : c.addr o % 67 = c.addr o2 % 67)
    (x1 : Exec (Without c u) s h2 s1) (hop : op.ordOk = true) (htu : t ≠ u) (x2 : c.StepOf t s1 (some (.inv t o op)) s2)
    (x3 : Exec (Without c u) s2 h3 s3) : ∀ r, Ev.ret t r ∉ h3 := by
  have hstep : ∀ {a e b}, Without c u a e b → c.Step a e b := fun ⟨t, _, h⟩ => step_iff.2 ⟨t, h⟩
  have hpc : ∀ {a e b w}, c.StepOf w a e b → w ≠ u → b.pc u = a.pc u := by
    intro a e b w h hne
    rcases h with ⟨o, op, rfl, h'⟩ | ⟨r, rfl, h'⟩ | ⟨-, a', -, rfl⟩
    · cases h'; exact Function.update_of_ne (Ne.symm hne) ..
    · cases h'; exact Function.update_of_ne (Ne.symm hne) ..
    · exact Function.update_of_ne (Ne.symm hne) ..
  have hother : ∀ {a e b w}, c.StepOf w a e b → w ≠ t → b.pc t = a.pc t := by
    intro a e b w h hne
    rcases h with ⟨o, op, rfl, h'⟩ | ⟨r, rfl, h'⟩ | ⟨-, a', -, rfl⟩
    · cases h'; exact Function.update_of_ne (Ne.symm hne) ..
    · cases h'; exact Function.update_of_ne (Ne.symm hne) ..
    · exact Function.update_of_ne (Ne.symm hne) ..
  have hinv : ∀ {a h b}, Exec (Without c u) a h b → (∃ owner, LockInv c a owner) ∧ InSection (a.pc u) o2 →
      (∃ owner, LockInv c b owner) ∧ InSection (b.pc u) o2 := by
    intro a h b hx h0
    refine Exec.inv_of (P := fun b => (∃ owner, LockInv c b owner) ∧ InSection (b.pc u) o2) ?_ hx h0
    rintro a e b ⟨⟨owner, R⟩, hi⟩ ⟨w, hw, st⟩
    exact ⟨lockInv_step ok R (step_iff.2 ⟨w, st⟩), by rw [hpc st hw]; exact hi⟩
  have I1 := hinv x1 ⟨lockInv_exec ok x, hu⟩
  have I2 : (∃ owner, LockInv c s2 owner) ∧ InSection (s2.pc u) o2 := by
    obtain ⟨⟨owner, R⟩, hi⟩ := I1
    exact ⟨lockInv_step ok R (step_iff.2 ⟨t, x2⟩), by rw [hpc x2 htu]; exact hi⟩
  have hw2 : Waits c (c.lockOf o2) (s2.pc t) := by
    rcases x2 with ⟨o', op', he, h'⟩ | ⟨r, he, h'⟩ | ⟨he, _⟩
    · cases he
      cases h'
      dsimp only
      rw [Function.update_self]
      exact waits_start _ hop hl
    · cases he
    · cases he
  clear x1 x2 I1 x hu
  have key : Waits c (c.lockOf o2) (s3.pc t) ∧ ∀ r, Ev.ret t r ∉ h3 := by
    have : ∀ {b h}, Exec (Without c u) s2 h b → Waits c (c.lockOf o2) (b.pc t) ∧ ∀ r, Ev.ret t r ∉ h := by
      intro b h hx
      have hlo : ∀ {b h}, Exec (Without c u) s2 h b → b.mem (.lo (c.lockOf o2)) = 1 := by
        intro b h hx
        obtain ⟨⟨owner, R⟩, hi⟩ := hinv hx I2
        exact R.held _ u ((R.own u _).1 hi.owns)
      generalize ha : s2 = z at hx
      induction hx with
      | refl => subst ha; exact ⟨hw2, fun r => by simp⟩
      | tau hx st ih =>
        subst ha
        obtain ⟨ih1, ih2⟩ := ih
        refine ⟨?_, ih2⟩
        obtain ⟨w, hw, st⟩ := st
        by_cases hwt : w = t
        · subst hwt
          rcases st with ⟨o', op', he, h'⟩ | ⟨r, he, h'⟩ | ⟨he, a', ha', rfl⟩
          · cases he
          · cases he
          · dsimp only [doAct]
            rw [Function.update_self]
            exact waits_next ih1 (hlo hx) ha'
        · rw [hother st hwt]; exact ih1
      | ev hx st ih =>
        subst ha
        obtain ⟨ih1, ih2⟩ := ih
        obtain ⟨w, hw, st⟩ := st
        by_cases hwt : w = t
        · subst hwt
          exfalso
          rcases st with ⟨o', op', he, h'⟩ | ⟨r, he, h'⟩ | ⟨he, _⟩
          · cases he
            cases h' with
            | inv _ _ _ h _ => rw [h] at ih1; exact ih1
          · cases he
            cases h' with
            | ret _ _ h => rw [h] at ih1; exact ih1
          · cases he
        · refine ⟨by rw [hother st hwt]; exact ih1, fun r hr => ?_⟩
          rcases List.mem_append.1 hr with hr | hr
          · exact ih2 r hr
          · rw [List.mem_singleton] at hr
            subst hr
            rcases st with ⟨o', op', he, h'⟩ | ⟨r, he, h'⟩ | ⟨he, _⟩
            · cases he
            · cases he; exact hwt rfl
            · cases he
    exact this x3
  exact key.2

/-! ## An endless fair run in which one call never returns -/

namespace Starve

def cfg : Cfg (BitVec 128) := u128Narrow false fun o => 16 * o
theorem ok : cfg.Ok := u128Narrow_ok _ _

abbrev P := Pc (BitVec 128) cfg.W

/-- Both threads store 0 to the object. -/
def op : Op (BitVec 128) := .store 0 .relaxed
def k : Call (BitVec 128) := ⟨0, op⟩

def mem (lo : BitVec cfg.W) : Loc → BitVec cfg.W
  | .lo 0 => lo
  | _ => 0

def pcs (p0 p1 : P) (t : Tid) : P := if t = 0 then p0 else if t = 1 then p1 else .idle

/-- The lock word, how many write sections there were, the same when thread 1 made its call, and where the two threads are. -/
def st (lo : BitVec cfg.W) (m b : Nat) (p0 p1 : P) : State (BitVec 128) cfg.W where
  mem := mem lo
  pc := pcs p0 p1
  ver l := if l = 0 then m else 0
  start t := if t = 1 then b else 0

/-- The lock word when it is free. -/
def fr (m : Nat) : BitVec cfg.W := BitVec.ofNat cfg.W (2 * m)
/-- The words to be written. -/
def z (i : Nat) : BitVec cfg.W := cfg.split 0 0 i

/-- Thread 1 has the lock, is looked at by thread 0, writes, releases the lock, returns, calls again, and takes the lock. -/
def round (m : Nat) : Nat → State (BitVec 128) cfg.W
  | 0 => st 1 m m (.spin k) (.relFence k (fr m))
  | 1 => st 1 m m (.spin k) (.relFence k (fr m))
  | 2 => st 1 m m (.spin k) (.wrChunk k (fr m) 0 z .unit)
  | 3 => st 1 m m (.spin k) (.wrChunk k (fr m) 1 z .unit)
  | 4 => st 1 m m (.spin k) (.dropStore k (fr m) .unit)
  | 5 => st (fr (m + 1)) (m + 1) m (.spin k) (.ret .unit)
  | 6 => st (fr (m + 1)) (m + 1) m (.spin k) .idle
  | _ => st (fr (m + 1)) (m + 1) (m + 1) (.spin k) (.swapLock k)

def runs : Nat → State (BitVec 128) cfg.W
  | 0 => st 0 0 0 .idle .idle
  | 1 => st 0 0 0 .idle (.swapLock k)
  | 2 => st 1 0 0 .idle (.relFence k 0)
  | 3 => st 1 0 0 (.swapLock k) (.relFence k 0)
  | i + 4 => round (i / 8) (i % 8)

def event : Nat → Option (Ev (BitVec 128))
  | 0 => some (.inv 1 0 op)
  | 1 => none
  | 2 => some (.inv 0 0 op)
  | 3 => none
  | i + 4 => match i % 8 with
    | 5 => some (.ret 1 .unit)
    | 6 => some (.inv 1 0 op)
    | _ => none

def sched : Nat → Tid
  | 0 | 1 => 1
  | 2 | 3 => 0
  | i + 4 => if i % 8 = 0 then 0 else 1

theorem pcs0 (p0 p1 p : P) : Function.update (pcs p0 p1) 0 p = pcs p p1 := by
  funext t
  by_cases h : t = 0
  · subst h; simp [pcs]
  · simp [pcs, h]

theorem pcs1 (p0 p1 p : P) : Function.update (pcs p0 p1) 1 p = pcs p0 p := by
  funext t
  by_cases h : t = 1
  · subst h; simp [pcs]
  · simp [pcs, h]

theorem mem_lo (lo lo' : BitVec cfg.W) : Function.update (mem lo) (.lo 0) lo' = mem lo' := by
  funext l
  by_cases h : l = .lo 0
  · subst h; simp [mem]
  · rw [Function.update_of_ne h]
    unfold mem
    split
    · exact absurd rfl h
    · rfl

theorem z0 (i : Nat) : z i = 0 := by
  show (0 : BitVec 128).extractLsb' _ 64 = (0 : BitVec 64)
  simp

theorem mem_chunk (lo : BitVec cfg.W) (i : Nat) : Function.update (mem lo) (.chunk 0 i) (z i) = mem lo := by
  rw [z0]
  exact Function.update_eq_self (f := mem lo) (.chunk 0 i)

theorem fr_ne (m : Nat) : fr m ≠ 1 := stamp_ne_one ok.toSound m

theorem fr_succ (m : Nat) : fr m + 2 = fr (m + 1) := by
  show BitVec.ofNat 64 (2 * m) + 2 = BitVec.ofNat 64 (2 * (m + 1))
  apply BitVec.eq_of_toNat_eq
  simp [BitVec.toNat_add, Nat.mul_add]

/-- A silent step, given as the new memory, program point, and count. -/
theorem act1 {lo lo' : BitVec cfg.W} {m m' b : Nat} {p0 p1 p : P} (a : Act cfg.W) (h : cfg.act p1 = some a)
    (h1 : (execSC (mem lo) a).1 = mem lo') (h2 : cfg.next p1 (execSC (mem lo) a).2 = p)
    (h3 : cfg.bump p1 (fun l => if l = 0 then m else 0) = fun l => if l = 0 then m' else 0) :
    cfg.StepOf 1 (st lo m b p0 p1) none (st lo' m' b p0 p) := by
  refine .inr (.inr ⟨rfl, a, h, ?_⟩)
  have e : cfg.doAct (st lo m b p0 p1) 1 a =
      ⟨(execSC (mem lo) a).1, Function.update (pcs p0 p1) 1 (cfg.next p1 (execSC (mem lo) a).2),
        cfg.bump p1 (fun l => if l = 0 then m else 0), fun t => if t = 1 then b else 0⟩ := rfl
  rw [e, h1, h2, h3, pcs1]
  rfl

theorem act0 {lo lo' : BitVec cfg.W} {m b : Nat} {p0 p1 p : P} (a : Act cfg.W) (h : cfg.act p0 = some a)
    (h1 : (execSC (mem lo) a).1 = mem lo') (h2 : cfg.next p0 (execSC (mem lo) a).2 = p)
    (h3 : cfg.bump p0 (fun l => if l = 0 then m else 0) = fun l => if l = 0 then m else 0) :
    cfg.StepOf 0 (st lo m b p0 p1) none (st lo' m b p p1) := by
  refine .inr (.inr ⟨rfl, a, h, ?_⟩)
  have e : cfg.doAct (st lo m b p0 p1) 0 a =
      ⟨(execSC (mem lo) a).1, Function.update (pcs p0 p1) 0 (cfg.next p0 (execSC (mem lo) a).2),
        cfg.bump p0 (fun l => if l = 0 then m else 0), fun t => if t = 1 then b else 0⟩ := rfl
  rw [e, h1, h2, h3, pcs0]
  rfl

theorem inv1 (lo : BitVec cfg.W) (m b : Nat) (p0 : P) :
    cfg.StepOf 1 (st lo m b p0 .idle) (some (.inv 1 0 op)) (st lo m m p0 (.swapLock k)) := by
  refine .inl ⟨0, op, rfl, ?_⟩
  have h := Step.inv (c := cfg) (st lo m b p0 .idle) 1 0 op rfl trivial
  have e : (⟨mem lo, Function.update (pcs p0 .idle) 1 (.swapLock k), fun l => if l = 0 then m else 0,
      Function.update (fun t => if t = 1 then b else 0) 1 m⟩ : State (BitVec 128) cfg.W) = st lo m m p0 (.swapLock k) := by
    rw [pcs1]
    unfold st
    congr 1
    funext t
    by_cases h : t = 1
    · subst h; simp
    · simp [h]
  rw [← e]
  exact h

theorem inv0 (lo : BitVec cfg.W) (p1 : P) :
    cfg.StepOf 0 (st lo 0 0 .idle p1) (some (.inv 0 0 op)) (st lo 0 0 (.swapLock k) p1) := by
  refine .inl ⟨0, op, rfl, ?_⟩
  have h := Step.inv (c := cfg) (st lo 0 0 .idle p1) 0 0 op rfl trivial
  have e : (⟨mem lo, Function.update (pcs .idle p1) 0 (.swapLock k), fun l => if l = 0 then 0 else 0,
      Function.update (fun t => if t = 1 then 0 else 0) 0 0⟩ : State (BitVec 128) cfg.W) = st lo 0 0 (.swapLock k) p1 := by
    rw [pcs0]
    unfold st
    congr 1
    funext t
    by_cases h : t = 0
    · subst h; simp
    · simp [h]
  rw [← e]
  exact h

theorem ret1 (lo : BitVec cfg.W) (m b : Nat) (p0 : P) :
    cfg.StepOf 1 (st lo m b p0 (.ret .unit)) (some (.ret 1 .unit)) (st lo m b p0 .idle) := by
  refine .inr (.inl ⟨.unit, rfl, ?_⟩)
  have h := Step.ret (c := cfg) (st lo m b p0 (.ret .unit)) 1 .unit rfl
  have e : (⟨mem lo, Function.update (pcs p0 (.ret .unit)) 1 .idle, fun l => if l = 0 then m else 0,
      fun t => if t = 1 then b else 0⟩ : State (BitVec 128) cfg.W) = st lo m b p0 .idle := by
    rw [pcs1]; rfl
  rw [← e]
  exact h

theorem take1 (m b : Nat) (p0 : P) :
    cfg.StepOf 1 (st (fr m) m b p0 (.swapLock k)) none (st 1 m b p0 (.relFence k (fr m))) :=
  act1 (.swap (.lo 0) 1 .acquire) rfl (mem_lo _ _) (if_neg (fr_ne m)) rfl

theorem step_ (i : Nat) : cfg.StepOf (sched i) (runs i) (event i) (runs (i + 1)) := by
  match i with
  | 0 => exact inv1 0 0 0 .idle
  | 1 => exact take1 0 0 .idle
  | 2 => exact inv0 1 _
  | 3 => exact act0 (.swap (.lo 0) 1 .acquire) rfl (mem_lo _ _) rfl rfl
  | i + 4 =>
    have hlt : i % 8 < 8 := Nat.mod_lt _ (by decide)
    generalize hm : i / 8 = m
    have hr : runs (i + 4) = round m (i % 8) := by rw [← hm]; rfl
    have hs : ∀ a b, (i + 1) % 8 = a → (i + 1) / 8 = b → runs (i + 4 + 1) = round b a := by
      rintro a b rfl rfl; rfl
    match hq : i % 8, hlt with
    | 0, _ =>
      have he : event (i + 4) = none := by simp only [event, hq]
      have hw : sched (i + 4) = 0 := by simp only [sched, hq]; rfl
      rw [hr, hq, he, hw, hs 1 m (by omega) (by omega)]
      exact act0 (.load (.lo 0) .relaxed) rfl rfl rfl rfl
    | 1, _ =>
      have he : event (i + 4) = none := by simp only [event, hq]
      have hw : sched (i + 4) = 1 := by simp only [sched, hq]; rfl
      rw [hr, hq, he, hw, hs 2 m (by omega) (by omega)]
      exact act1 (.fence .release) rfl rfl rfl rfl
    | 2, _ =>
      have he : event (i + 4) = none := by simp only [event, hq]
      have hw : sched (i + 4) = 1 := by simp only [sched, hq]; rfl
      rw [hr, hq, he, hw, hs 3 m (by omega) (by omega)]
      exact act1 (.store (.chunk 0 0) (z 0) .relaxed) rfl (mem_chunk _ _) rfl rfl
    | 3, _ =>
      have he : event (i + 4) = none := by simp only [event, hq]
      have hw : sched (i + 4) = 1 := by simp only [sched, hq]; rfl
      rw [hr, hq, he, hw, hs 4 m (by omega) (by omega)]
      exact act1 (.store (.chunk 0 1) (z 1) .relaxed) rfl (mem_chunk _ _) rfl rfl
    | 4, _ =>
      have he : event (i + 4) = none := by simp only [event, hq]
      have hw : sched (i + 4) = 1 := by simp only [sched, hq]; rfl
      rw [hr, hq, he, hw, hs 5 m (by omega) (by omega)]
      refine act1 (.store (.lo 0) (fr m + 2) .release) rfl ((mem_lo _ _).trans (by rw [fr_succ])) rfl ?_
      funext l
      show Function.update (fun l : Nat => if l = 0 then m else 0) 0 (m + 1) l = _
      by_cases h : l = 0
      · subst h; simp
      · simp [h]
    | 5, _ =>
      have he : event (i + 4) = some (.ret 1 .unit) := by simp only [event, hq]
      have hw : sched (i + 4) = 1 := by simp only [sched, hq]; rfl
      rw [hr, hq, he, hw, hs 6 m (by omega) (by omega)]
      exact ret1 ..
    | 6, _ =>
      have he : event (i + 4) = some (.inv 1 0 op) := by simp only [event, hq]
      have hw : sched (i + 4) = 1 := by simp only [sched, hq]; rfl
      rw [hr, hq, he, hw, hs 7 m (by omega) (by omega)]
      exact inv1 ..
    | 7, _ =>
      have he : event (i + 4) = none := by simp only [event, hq]
      have hw : sched (i + 4) = 1 := by simp only [sched, hq]; rfl
      rw [hr, hq, he, hw, hs 0 (m + 1) (by omega) (by omega)]
      exact take1 ..

theorem endless : Endless cfg (fun _ => 0) (fun _ => 0) (fun _ => 0) runs event sched where
  init := by
    show st 0 0 0 .idle .idle = _
    unfold st Cfg.init
    congr 1
    · funext l
      unfold mem
      cases l with
      | hi l => show (0 : BitVec cfg.W) = BitVec.ofNat cfg.W (0 / 2 ^ (cfg.W - 1)); rw [Nat.zero_div]; rfl
      | lo l => cases l <;> rfl
      | chunk o i => exact (z0 i).symm
      | ext a => rfl
    · funext t
      unfold pcs
      split
      · rfl
      · split <;> rfl
    · funext l; simp
    · funext t; simp
  step := step_

theorem calls (i : Nat) (t : Tid) (o : Obj) (op : Op (BitVec 128)) (h : event i = some (.inv t o op)) : t = 0 ∨ t = 1 := by
  unfold event at h
  repeat' split at h
  all_goals cases h
  all_goals first | exact .inl rfl | exact .inr rfl

theorem fair : Fair event sched := by
  rintro i t o ⟨k, -, ⟨op, h⟩, -⟩
  rcases calls k t o op h with rfl | rfl
  · exact ⟨8 * i + 4, by omega, by show (if _ then _ else _) = _; rw [if_pos (by omega)]⟩
  · exact ⟨8 * i + 1 + 4, by omega, by show (if _ then _ else _) = _; rw [if_neg (by omega)]⟩

/-- **C67e.** "Or" in C67a is needed: there is an endless fair run in which thread 0's call never returns, as thread 1's calls keep taking the lock. -/
theorem starved :
    Endless cfg (fun _ => 0) (fun _ => 0) (fun _ => 0) runs event sched ∧ Fair event sched ∧
      Pending event 0 0 3 ∧ ¬ Returns event 0 3 ∧ ReturnForever event fun _ => True := by
  refine ⟨endless, fair, ⟨2, by decide, ⟨op, rfl⟩, fun j h1 h2 => by omega⟩, ?_, infinitely_many_return ok.toSound endless fair⟩
  rintro ⟨j, -, r, h⟩
  unfold event at h
  repeat' split at h
  all_goals cases h

end Starve

/-! ## C67d's hypotheses are met -/

/-- Thread 1 has taken the lock; thread 0 calls. -/
example : InSection ((Starve.runs 2).pc 1) 0 ∧ Exec Starve.cfg.Step (Starve.cfg.init (fun _ => 0) (fun _ => 0) (fun _ => 0)) [.inv 1 0 Starve.op] (Starve.runs 2) ∧
    Starve.op.ordOk = true ∧ Starve.cfg.StepOf 0 (Starve.runs 2) (some (.inv 0 0 Starve.op)) (Starve.runs 3) ∧
    Exec (Without Starve.cfg 1) (Starve.runs 3) [] (Starve.runs 4) := by
  refine ⟨.inl ⟨_, _, rfl, rfl⟩, ?_, rfl, Starve.step_ 2, ?_⟩
  · rw [← Starve.endless.init]
    exact .tau (.ev (h := []) (.refl _) (step_iff.2 ⟨_, Starve.step_ 0⟩)) (step_iff.2 ⟨_, Starve.step_ 1⟩)
  · exact .tau (.refl _) ⟨0, by decide, Starve.step_ 3⟩

end Fallback
end Verif
