import Verif.Spec.Derived
import Verif.Spec.Sync
/-!
# Any operations in weak memory, by the operations of native atomics

A history of the machine of `Spec/Derived.lean` is a history of native atomics (`Spec/WeakMemory.lean`) in which
each call is replaced by the native operation that does what this call did: a load, a store, or the
read-modify-write that turns the value found into the value left and changes no other.  Which one it is
is known only when the access is made, after the call; so the native history is built with the choice
left open (`χ`) for calls still to make their access.
-/
set_option autoImplicit false
set_option linter.unusedSectionVars false
namespace Verif.WM.Derived
variable {W X O R : Type} [DecidableEq W]

/-- `Stands S op r i n`: the native operation `i`, answering `n`, does what `op`, returning `r`, does. -/
inductive Stands (S : Spec W O R) (op : O) : R → Op W → Res W → Prop where
  | nothing (r) (hk : S.kind op r = .nothing) (hs : ∀ x, S.sem op x x r) : Stands S op r (.load .release) .panic
  | read (x r) (hk : S.kind op r = .read) (hs : S.sem op x x r) (ok : (Op.load (S.fail op) : Op W).ordOk = true) :
      Stands S op r (.load (S.fail op)) (.val x)
  | write (x y r) (hk : S.kind op r = .write) (hs : S.sem op x y r) :
      Stands S op r (.rmw (Function.update id x y) (S.succ op)) (.val x)
  | store (y r) (hk : S.kind op r = .store) (hs : ∀ x, S.sem op x y r) (ok : (Op.store y (S.succ op)).ordOk = true) :
      Stands S op r (.store y (S.succ op)) .unit

/-- The native operation for a call that may still be without effect. -/
def MayStand (S : Spec W O R) (op : O) (i : Op W) : Prop := i = .load (S.fail op) ∨ ∃ r n, Stands S op r i n

/-- A native history that stands for a history; `p t`: the call thread `t` is engaged in, and what
stands for it. -/
inductive Image (S : Spec W O R) : List (Ev O R X) → List (WM.Ev W X) → (Tid → Option (O × Op W)) → Prop where
  | nil : Image S [] [] (fun _ => none)
  | inv {h n p} (x : Image S h n p) (t o op i) (hp : p t = none) (hi : MayStand S op i) :
      Image S (h ++ [.inv t o op]) (n ++ [.inv t o i]) (Function.update p t (some (op, i)))
  | ret {h n p} (x : Image S h n p) (t r op i m) (hp : p t = some (op, i)) (hs : Stands S op r i m) :
      Image S (h ++ [.ret t r]) (n ++ [.ret t m]) (Function.update p t none)
  | client {h n p} (x : Image S h n p) (t a r) : Image S (h ++ [.client t a r]) (n ++ [.client t a r]) p

/-- Accesses happen only with orderings that are accepted. -/
structure Legal (S : Spec W O R) : Prop where
  read : ∀ op x r, S.kind op r = .read → S.sem op x x r → (Op.load (S.fail op) : Op W).ordOk = true
  store : ∀ op y r, S.kind op r = .store → (∀ x, S.sem op x y r) → (Op.store y (S.succ op)).ordOk = true
  nothing : ∀ op r, S.kind op r = .nothing → (∀ x, S.sem op x x r) → ¬ (S.succ op = .seqCst ∧ S.fail op = .seqCst)

/-- Where a native thread is. -/
def natPc (i : Op W) (m : Res W) : Pc O R → Native.Pc W
  | .idle => .idle
  | .todo o _ b => .todo o i b
  | .fin _ b => .fin m b

/-- The same state of native atomics. -/
def nat (s : State W X O R) (χ : Tid → Op W) (ρ : Tid → Res W) : Native.State W X where
  mo := s.mo
  mx := s.mx
  tv := s.tv
  sc := s.sc
  pc t := natPc (χ t) (ρ t) (s.pc t)

theorem natPc_update {pc : Tid → Pc O R} {χ χ' : Tid → Op W} {ρ ρ' : Tid → Res W} {t : Tid} {p : Pc O R} {q : Native.Pc W}
    (h1 : natPc (χ' t) (ρ' t) p = q) (h2 : ∀ u, u ≠ t → χ' u = χ u) (h3 : ∀ u, u ≠ t → ρ' u = ρ u) :
    Function.update (fun u => natPc (χ u) (ρ u) (pc u)) t q = fun u => natPc (χ' u) (ρ' u) (Function.update pc t p u) := by
  funext u
  by_cases e : u = t
  · subst e; simp only [Function.update_self, h1]
  · simp only [Function.update_of_ne e, h2 u e, h3 u e]

/-- An access is an access of what stands for it. -/
theorem access_stands {S : Spec W O R} (L : Legal S) {ms ms' : List (Msg Native.Loc W)} {v v' : TV Native.Loc}
    {l : Native.Loc} {op : O} {ord : MemOrd} {r : R} (h : Access S ms v l op ord ms' v' r) :
    ∃ i m, Stands S op r i m ∧
      ((i.ordOk = false ∧ m = .panic ∧ ms' = ms ∧ v' = v ∧ ord = .relaxed) ∨
       (i.ordOk = true ∧ Native.Access ms v l i ord ms' v' m)) := by
  cases h with
  | nothing _ hk hs => exact ⟨_, _, .nothing r hk hs, .inl ⟨rfl, rfl, rfl, rfl, rfl⟩⟩
  | read x _ _ hk h hs =>
    have ok := L.read op x r hk hs
    exact ⟨_, _, .read x r hk hs ok, .inr ⟨ok, .load _ _ _ h⟩⟩
  | write x y _ _ _ hk h hs =>
    refine ⟨_, _, .write x y r hk hs, .inr ⟨rfl, .rmw _ _ _ _ _ ?_⟩⟩
    cases h with
    | mk m t hm hv hf =>
      have := Rmw.mk (o := S.succ op) (g := Function.update id m.val y) m t hm hv hf
      rwa [Function.update_self] at this
  | store y _ _ _ hk h hs =>
    have ok := L.store op y r hk hs
    exact ⟨_, _, .store y r hk hs ok, .inr ⟨ok, .store _ _ _ _ h⟩⟩

/-- The invariant. -/
structure Imaged (S : Spec W O R) (w0 : Obj → W) (x0 : Nat → X) (h : List (Ev O R X)) (s : State W X O R)
    (χ : Tid → Op W) (n : List (WM.Ev W X)) (p : Tid → Option (O × Op W)) (ρ : Tid → Res W) : Prop where
  image : Image S h n p
  exec : Exec Native.Step (Native.init w0 x0) n (nat s χ ρ)
  idle : ∀ t, s.pc t = .idle → p t = none
  todo : ∀ t o op b, s.pc t = .todo o op b → p t = some (op, χ t)
  fin : ∀ t r b, s.pc t = .fin r b → ∃ op i, p t = some (op, i) ∧ Stands S op r i (ρ t)

theorem imaged {S : Spec W O R} (L : Legal S) {w0 : Obj → W} {x0 : Nat → X} {h : List (Ev O R X)} {s : State W X O R}
    (x : Exec (Step S) (init w0 x0) h s) : ∀ χ : Tid → Op W, (∀ t o op b, s.pc t = .todo o op b → MayStand S op (χ t)) →
      ∃ n p ρ, Imaged S w0 x0 h s χ n p ρ := by
  induction x with
  | refl =>
    intro χ _
    exact ⟨[], _, fun _ => .unit, .nil, .refl _, (fun _ _ => rfl), (fun _ _ _ _ h => by cases h), (fun _ _ _ h => by cases h)⟩
  | @tau h s s' _ st ih =>
    intro χ hχ
    cases st with
    | pre t o op b hp =>
      have hother : ∀ u o' op' b', s.pc u = .todo o' op' b' → MayStand S op' (χ u) := by
        intro u o' op' b' hu
        by_cases e : u = t
        · subst e
          rw [hp] at hu; cases hu
          exact hχ u o op true (by simp [State.goto])
        · exact hχ u o' op' b' (by simpa [State.goto, State.scFence, Function.update_of_ne e] using hu)
      obtain ⟨n, p, ρ, I⟩ := ih χ hother
      refine ⟨n, p, ρ, I.image, ?_, ?_, ?_, ?_⟩
      · have st := Native.Step.pre (nat s χ ρ) t o (χ t) b (by simp [nat, natPc, hp])
        have e : ((nat s χ ρ).scFence t).goto t (.todo o (χ t) true) = nat ((s.scFence t).goto t (.todo o op true)) χ ρ := by
          simp only [nat, Native.State.goto, Native.State.scFence, State.goto, State.scFence, Native.State.mk.injEq, true_and]
          exact natPc_update rfl (fun _ _ => rfl) (fun _ _ => rfl)
        rw [← e]
        exact .tau I.exec st
      · intro u hu
        by_cases e : u = t
        · subst e; simp [State.goto] at hu
        · exact I.idle u (by simpa [State.goto, State.scFence, Function.update_of_ne e] using hu)
      · intro u o' op' b' hu
        by_cases e : u = t
        · subst e
          simp only [State.goto, Function.update_self, Pc.todo.injEq] at hu
          obtain ⟨-, rfl, -⟩ := hu
          exact I.todo _ _ _ _ hp
        · exact I.todo u o' op' b' (by simpa [State.goto, State.scFence, Function.update_of_ne e] using hu)
      · intro u r b' hu
        by_cases e : u = t
        · subst e; simp [State.goto] at hu
        · exact I.fin u r b' (by simpa [State.goto, State.scFence, Function.update_of_ne e] using hu)
    | access t o op b ord ms v r hp ha hs =>
      obtain ⟨i, m, hst, hcase⟩ := access_stands L ha
      have hother : ∀ u o' op' b', s.pc u = .todo o' op' b' → MayStand S op' (Function.update χ t i u) := by
        intro u o' op' b' hu
        by_cases e : u = t
        · subst e
          rw [hp] at hu; cases hu
          rw [Function.update_self]
          exact .inr ⟨r, m, hst⟩
        · rw [Function.update_of_ne e]
          exact hχ u o' op' b' (by simpa [State.goto, Function.update_of_ne e] using hu)
      obtain ⟨n, p, ρ, I⟩ := ih (Function.update χ t i) hother
      have hpt := I.todo t o op b hp
      rw [Function.update_self] at hpt
      have hup : ∀ q : Native.Pc W, q = .fin m (decide (ord = MemOrd.seqCst)) →
          Function.update (fun u => natPc (Function.update χ t i u) (ρ u) (s.pc u)) t q =
          fun u => natPc (χ u) (Function.update ρ t m u)
            (Function.update s.pc t (.fin r (decide (ord = MemOrd.seqCst))) u) := by
        rintro q rfl
        refine natPc_update ?_ (fun u e => (Function.update_of_ne e ..).symm) (fun u e => Function.update_of_ne e ..)
        simp only [natPc, Function.update_self]
      refine ⟨n, p, Function.update ρ t m, I.image, ?_, ?_, ?_, ?_⟩
      · rcases hcase with ⟨h1, rfl, rfl, rfl, rfl⟩ | ⟨h1, h2⟩
        · have st := Native.Step.panic (nat s (Function.update χ t i) ρ) t o i b (by simp [nat, natPc, hp]) h1
          refine .tau I.exec ?_
          convert st using 1
          simp only [nat, Native.State.goto, State.goto, Native.State.mk.injEq, Function.update_eq_self, true_and]
          exact (hup _ rfl).symm
        · have st := Native.Step.access (nat s (Function.update χ t i) ρ) t o i b ord ms v m (by simp [nat, natPc, hp]) h1 h2 hs
          refine .tau I.exec ?_
          convert st using 1
          simp only [nat, Native.State.goto, State.goto, Native.State.mk.injEq, true_and]
          exact (hup _ rfl).symm
      · intro u hu
        by_cases e : u = t
        · subst e; simp [State.goto] at hu
        · exact I.idle u (by simpa [State.goto, State.scFence, Function.update_of_ne e] using hu)
      · intro u o' op' b' hu
        by_cases e : u = t
        · subst e; simp [State.goto] at hu
        · have := I.todo u o' op' b' (by simpa [State.goto, Function.update_of_ne e] using hu)
          rwa [Function.update_of_ne e] at this
      · intro u r' b' hu
        by_cases e : u = t
        · subst e
          simp only [State.goto, Function.update_self, Pc.fin.injEq] at hu
          obtain ⟨rfl, -⟩ := hu
          exact ⟨op, i, hpt, by rw [Function.update_self]; exact hst⟩
        · rw [Function.update_of_ne e]
          exact I.fin u r' b' (by simpa [State.goto, Function.update_of_ne e] using hu)
    | post t r b hp =>
      have hother : ∀ u o' op' b', s.pc u = .todo o' op' b' → MayStand S op' (χ u) := by
        intro u o' op' b' hu
        by_cases e : u = t
        · subst e; rw [hp] at hu; cases hu
        · exact hχ u o' op' b' (by simpa [State.goto, State.scFence, Function.update_of_ne e] using hu)
      obtain ⟨n, p, ρ, I⟩ := ih χ hother
      refine ⟨n, p, ρ, I.image, ?_, ?_, ?_, ?_⟩
      · have st := Native.Step.post (nat s χ ρ) t (ρ t) b (by simp [nat, natPc, hp])
        have e : ((nat s χ ρ).scFence t).goto t (.fin (ρ t) false) = nat ((s.scFence t).goto t (.fin r false)) χ ρ := by
          simp only [nat, Native.State.goto, Native.State.scFence, State.goto, State.scFence, Native.State.mk.injEq, true_and]
          exact natPc_update rfl (fun _ _ => rfl) (fun _ _ => rfl)
        rw [← e]
        exact .tau I.exec st
      · intro u hu
        by_cases e : u = t
        · subst e; simp [State.goto] at hu
        · exact I.idle u (by simpa [State.goto, State.scFence, Function.update_of_ne e] using hu)
      · intro u o' op' b' hu
        by_cases e : u = t
        · subst e; simp [State.goto] at hu
        · exact I.todo u o' op' b' (by simpa [State.goto, State.scFence, Function.update_of_ne e] using hu)
      · intro u r' b' hu
        by_cases e : u = t
        · subst e
          simp only [State.goto, Function.update_self, Pc.fin.injEq] at hu
          obtain ⟨rfl, -⟩ := hu
          exact I.fin _ _ _ hp
        · exact I.fin u r' b' (by simpa [State.goto, State.scFence, Function.update_of_ne e] using hu)
  | @ev h s e s' _ st ih =>
    intro χ hχ
    cases st with
    | inv t o op hp =>
      have hother : ∀ u o' op' b', s.pc u = .todo o' op' b' → MayStand S op' (χ u) := by
        intro u o' op' b' hu
        by_cases e : u = t
        · subst e; rw [hp] at hu; cases hu
        · exact hχ u o' op' b' (by simpa [State.goto, Function.update_of_ne e] using hu)
      obtain ⟨n, p, ρ, I⟩ := ih χ hother
      refine ⟨n ++ [.inv t o (χ t)], _, ρ, .inv I.image t o op (χ t) (I.idle t hp) (hχ t o op false (by simp [State.goto])), ?_, ?_, ?_, ?_⟩
      · have st := Native.Step.inv (nat s χ ρ) t o (χ t) (by simp [nat, natPc, hp])
        have e : (nat s χ ρ).goto t (.todo o (χ t) false) = nat (s.goto t (.todo o op false)) χ ρ := by
          simp only [nat, Native.State.goto, State.goto, Native.State.mk.injEq, true_and]
          exact natPc_update rfl (fun _ _ => rfl) (fun _ _ => rfl)
        rw [← e]
        exact .ev I.exec st
      · intro u hu
        by_cases e : u = t
        · subst e; simp [State.goto] at hu
        · rw [Function.update_of_ne e]
          exact I.idle u (by simpa [State.goto, Function.update_of_ne e] using hu)
      · intro u o' op' b' hu
        by_cases e : u = t
        · subst e
          simp only [State.goto, Function.update_self, Pc.todo.injEq] at hu
          obtain ⟨-, rfl, -⟩ := hu
          rw [Function.update_self]
        · rw [Function.update_of_ne e]
          exact I.todo u o' op' b' (by simpa [State.goto, Function.update_of_ne e] using hu)
      · intro u r' b' hu
        by_cases e : u = t
        · subst e; simp [State.goto] at hu
        · rw [Function.update_of_ne e]
          exact I.fin u r' b' (by simpa [State.goto, Function.update_of_ne e] using hu)
    | ret t r hp =>
      have hother : ∀ u o' op' b', s.pc u = .todo o' op' b' → MayStand S op' (χ u) := by
        intro u o' op' b' hu
        by_cases e : u = t
        · subst e; rw [hp] at hu; cases hu
        · exact hχ u o' op' b' (by simpa [State.goto, Function.update_of_ne e] using hu)
      obtain ⟨n, p, ρ, I⟩ := ih χ hother
      obtain ⟨op, i, hpt, hst⟩ := I.fin t r false hp
      refine ⟨n ++ [.ret t (ρ t)], _, ρ, .ret I.image t r op i _ hpt hst, ?_, ?_, ?_, ?_⟩
      · have st := Native.Step.ret (nat s χ ρ) t (ρ t) (by simp [nat, natPc, hp])
        have e : (nat s χ ρ).goto t .idle = nat (s.goto t .idle) χ ρ := by
          simp only [nat, Native.State.goto, State.goto, Native.State.mk.injEq, true_and]
          exact natPc_update rfl (fun _ _ => rfl) (fun _ _ => rfl)
        rw [← e]
        exact .ev I.exec st
      · intro u hu
        by_cases e : u = t
        · subst e; rw [Function.update_self]
        · rw [Function.update_of_ne e]
          exact I.idle u (by simpa [State.goto, Function.update_of_ne e] using hu)
      · intro u o' op' b' hu
        by_cases e : u = t
        · subst e; simp [State.goto] at hu
        · rw [Function.update_of_ne e]
          exact I.todo u o' op' b' (by simpa [State.goto, Function.update_of_ne e] using hu)
      · intro u r' b' hu
        by_cases e : u = t
        · subst e; simp [State.goto] at hu
        · rw [Function.update_of_ne e]
          exact I.fin u r' b' (by simpa [State.goto, Function.update_of_ne e] using hu)
    | client t a r mx v sc hp hc =>
      obtain ⟨n, p, ρ, I⟩ := ih χ hχ
      exact ⟨_, p, ρ, .client I.image t a r,
        .ev I.exec (.client (nat s χ ρ) t a r mx v sc (by simp [nat, natPc, hp]) hc), I.idle, I.todo, I.fin⟩

/-- Every behaviour has an image among the behaviours of native atomics. -/
theorem exists_image {S : Spec W O R} (L : Legal S) {w0 : Obj → W} {x0 : Nat → X} {h : List (Ev O R X)}
    (hb : Behaviour S w0 x0 h) : ∃ n p, Image S h n p ∧ Native.Behaviour w0 x0 n := by
  obtain ⟨s, x⟩ := hb
  obtain ⟨n, p, ρ, I⟩ := imaged L x
    (fun t => match s.pc t with | .todo _ op _ => .load (S.fail op) | _ => .load .relaxed)
    (fun t o op b h => by rw [h]; exact .inl rfl)
  exact ⟨n, p, I.image, _, I.exec⟩

end Verif.WM.Derived
