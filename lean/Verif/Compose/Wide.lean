import Verif.Wide.ApiSim
import Verif.Lf.LlSc
import Verif.Lf.Run
/-!
# The public operations over assembly functions
-/
set_option autoImplicit false
set_option linter.unusedSectionVars false
namespace Verif.Wide
open Verif.Int Verif.Object Verif.Lf Verif.Compose

variable {n : Nat} {I P L K : Type} [DecidableEq K]

/-- The functions of a back end: code, what a call is asked, what it answers. -/
structure Functions (n : Nat) (I P L : Type) where
  code : LlSc.Code (BitVec n) I P L
  op : I → WOp n
  ord : I → MemOrd
  fail : I → MemOrd
  ans : P → Res (BitVec n)

/-- How the methods call the functions: same object, operation and orderings; whatever is in registers. -/
def Functions.Calls (F : Functions n I P L) (a : K × Fn n) (i : K × I) (d : P → Res (BitVec n)) : Prop :=
  i.1 = a.1 ∧ F.op i.2 = a.2.op ∧ F.ord i.2 = a.2.ord ∧ F.fail i.2 = a.2.fail ∧ d = F.ans

/-- Histories of the public operations of objects named by `K`, over the functions. `m`, `m'`: contents of
memory before and after. -/
def Functions.History (F : Functions n I P L) (signed : Bool) (m : K → BitVec n)
    (h : List (Object.Ev (K × IOp n) (IRes n))) (m' : K → BitVec n) : Prop :=
  ∃ mem hi s w, (∀ k, (mem k).val = m k) ∧ (∀ k, (s.mem k).val = m' k) ∧ Runs (F.code.sys K) mem hi s ∧
    Run ((api signed).many K) F.Calls hi h w

/-- The functions do what they are asked, seen as a shared integer. -/
structure Functions.Right (F : Functions n I P L) (S : Spec (BitVec n) I P) : Prop where
  sem : ∀ i x y p, S.sem i x y p → (F.op i).Sem x y (F.ans p)
  lin : ∀ (K : Type) [DecidableEq K] (m : K → LlSc.Cell (BitVec n)) h s, Runs (F.code.sys K) m h s →
    LinearizableTo (S.many (K := K)) (fun k => (m k).val) h (fun k => (s.mem k).val)

def Functions.bridge (F : Functions n I P L) {S : Spec (BitVec n) I P} (hF : F.Right S) :
    Bridge (S.many (K := K)) ((ideal n).many (K := K)) F.Calls where
  abs m := m
  sem := by
    rintro ⟨k, a⟩ ⟨k', i⟩ d x x' p ⟨h1, h2, _, _, rfl⟩ ⟨y, hs, rfl⟩
    simp only at h1 h2
    subst h1
    refine ⟨y, ?_, rfl⟩
    simp only [ideal, ← h2]
    exact hF.sem _ _ _ _ hs

/-- The public operations are linearizable with respect to a shared integer. -/
theorem Functions.linearizable {F : Functions n I P L} {S : Spec (BitVec n) I P} (hF : F.Right S) {e : Nat}
    (hn : n = 2 ^ e) (signed : Bool) {m m' : K → BitVec n} {h} (hx : F.History signed m h m') :
    LinearizableTo ((Int.spec signed).many (K := K)) m h m' := by
  obtain ⟨mem, hi, s, w, h1, h2, hr, hw⟩ := hx
  have := (apiSim hn signed).over (F.bridge hF) (fun _ => trivial) (hF.lin K mem hi s hr) hw
  simp only [apiSim, Functions.bridge, h1, h2] at this
  exact this

/-! ## Running alone -/

/-- A call that ends when left alone, does. -/
theorem ends_exec {V O R L : Type} [DecidableEq V] {c : LlSc.Code V O R L} {Q : R → V → Prop} {l : L} {ρ : Bool} {x : V}
    (h : c.Ends Q l ρ x) : ∀ (s : Lf.State (K → LlSc.Cell V) (K × L × Option Nat)) (t : Tid) (k : K) (v : Option Nat),
      s.th t = some (k, l, v) → (s.mem k).val = x → (ρ = true → v = some (s.mem k).ver) →
      ∃ s' r, Exec (Lf.Step (c.sys K)) s [.ret t r] s' ∧ Q r (s'.mem k).val ∧ s'.th = Function.update s.th t none ∧
        ∀ j, j ≠ k → s'.mem j = s.mem j := by
  induction h with
  | @ret l ρ x r h hq =>
    intro s t k v ht hm _
    have hr : (c.sys K).ret (k, l, v) = some r := by
      show (match c.next l with | .ret r => some r | _ => none) = _
      rw [h]
    refine ⟨{ s with th := Function.update s.th t none }, r, ?_, ?_, rfl, fun _ _ => rfl⟩
    · simpa using Exec.ev (.refl s) (Lf.Step.ret s t (k, l, v) r ht hr)
    · rw [← hm] at hq; exact hq
  | @tau l ρ x l' h _ ih =>
    intro s t k v ht hm hρ
    obtain ⟨s', r, hx, hq, hth, hme⟩ := ih { mem := s.mem, th := Function.update s.th t (some (k, l', v)) } t k v
      (by simp) hm hρ
    refine ⟨s', r, ?_, hq, ?_, hme⟩
    · simpa using (Exec.one_tau (.act s t (k, l, v) (k, l', v) s.mem ht (.tau k l v s.mem l' h))).trans hx
    · rw [hth]; simp
  | @acc l ρ x a f h _ ih =>
    intro s t k v ht hm hρ
    have hs := a.exec_sem false (s.mem k).val
    by_cases he : (a.exec false (s.mem k).val).1 = (s.mem k).val
    · obtain ⟨s', r, hx, hq, hth, hme⟩ := ih _ _ (hm ▸ hs)
        { mem := Function.update s.mem k ⟨(a.exec false (s.mem k).val).1, (s.mem k).ver⟩,
          th := Function.update s.th t (some (k, f (a.exec false (s.mem k).val).2, v)) } t k v
        (by simp [hm]) (by simp [hm]) (by simpa [← hm, he] using hρ)
      refine ⟨s', r, ?_, hq, ?_, fun j hj => ?_⟩
      · simpa using (Exec.one_tau (.act s t (k, l, v) (k, f (a.exec false (s.mem k).val).2, v) _ ht
          (.acc k l v s.mem a f _ _ (s.mem k).ver h hs (Or.inl ⟨he, rfl⟩)))).trans hx
      · rw [hth]; simp
      · rw [hme j hj]; simp [hj]
    · obtain ⟨s', r, hx, hq, hth, hme⟩ := ih _ _ (hm ▸ hs)
        { mem := Function.update s.mem k ⟨(a.exec false (s.mem k).val).1, (s.mem k).ver + 1⟩,
          th := Function.update s.th t (some (k, f (a.exec false (s.mem k).val).2, v)) } t k v
        (by simp [hm]) (by simp [hm]) (by rw [hm] at he; simp [he])
      refine ⟨s', r, ?_, hq, ?_, fun j hj => ?_⟩
      · simpa using (Exec.one_tau (.act s t (k, l, v) (k, f (a.exec false (s.mem k).val).2, v) _ ht
          (.acc k l v s.mem a f _ _ ((s.mem k).ver + 1) h hs (Or.inr rfl)))).trans hx
      · rw [hth]; simp
      · rw [hme j hj]; simp [hj]
  | @ll l ρ x f h _ ih =>
    intro s t k v ht hm hρ
    obtain ⟨s', r, hx, hq, hth, hme⟩ := ih
      { mem := s.mem, th := Function.update s.th t (some (k, f (s.mem k).val, some (s.mem k).ver)) } t k _
      (by simp [hm]) hm (fun _ => rfl)
    refine ⟨s', r, ?_, hq, ?_, hme⟩
    · simpa using (Exec.one_tau (.act s t (k, l, v) (k, f (s.mem k).val, some (s.mem k).ver) s.mem ht
        (.ll k l v s.mem f h))).trans hx
    · rw [hth]; simp
  | @sc l x w f h _ ih =>
    intro s t k v ht hm hρ
    obtain rfl := hρ rfl
    obtain ⟨s', r, hx, hq, hth, hme⟩ := ih
      { mem := Function.update s.mem k ⟨w, (s.mem k).ver + 1⟩,
        th := Function.update s.th t (some (k, f true, none)) } t k none
      (by simp) (by simp) (by simp)
    refine ⟨s', r, ?_, hq, ?_, fun j hj => ?_⟩
    · simpa using (Exec.one_tau (.act s t (k, l, some (s.mem k).ver) (k, f true, none) _ ht
        (.scOk k l s.mem w f h))).trans hx
    · rw [hth]; simp
    · rw [hme j hj]; simp [hj]

/-- Every call a method makes can be made of the functions; each answers if left alone. -/
structure Functions.Live (F : Functions n I P L) (S : Spec (BitVec n) I P) : Prop where
  total : ∀ a : Fn n, a.op.OrdOk a.ord a.fail → ∃ i, F.op i = a.op ∧ F.ord i = a.ord ∧ F.fail i = a.fail
  ends : ∀ i x, F.code.Ends (fun r y => S.sem i x y r) (F.code.start i) false x

/-- One of the operations made of a single call of the back end. -/
def single (op : IOp n) : Prop := ∀ s g f, op ≠ .fetchUpdate s g f

/-- After any history, any thread that is not in a call can call any operation `op` for which `ok op`, and if left
alone returns from it: the operation has then done what is specified, other objects are as they were, and other threads
are still where they were. -/
def Functions.Solo (F : Functions n I P L) (signed : Bool) (ok : IOp n → Prop) : Prop :=
  ∀ (K : Type) [DecidableEq K] (mem : K → LlSc.Cell (BitVec n)) hi ho s w, Runs (F.code.sys K) mem hi s →
    Run ((api signed).many K) F.Calls hi ho w → ∀ t, s.th t = none → w t = .idle → ∀ k op, ok op →
    ∃ hi2 s2 r, Runs (F.code.sys K) mem hi2 s2 ∧
      Run ((api signed).many K) F.Calls hi2 (ho ++ [.inv t (k, op), .ret t r]) w ∧ s2.th = s.th ∧
      Sem signed op (s.mem k).val (s2.mem k).val r ∧ ∀ j, j ≠ k → s2.mem j = s.mem j

/-- Called by any thread that is not in a call, in any state, and left alone, every public operation except
`fetch_update` returns, having done what is specified; other objects and threads are as before. -/
theorem Functions.solo {F : Functions n I P L} {S : Spec (BitVec n) I P} (hF : F.Right S) (hl : F.Live S) {e : Nat}
    (hn : n = 2 ^ e) (signed : Bool) {mem : K → LlSc.Cell (BitVec n)} {hi ho s w} (hr : Runs (F.code.sys K) mem hi s)
    (hw : Run ((api signed).many K) F.Calls hi ho w) (t : Tid) (hs : s.th t = none) (hi' : w t = .idle) (k : K)
    (op : IOp n) (hop : single op) :
    ∃ hi2 s2 r, Runs (F.code.sys K) mem hi2 s2 ∧
      Run ((api signed).many K) F.Calls hi2 (ho ++ [.inv t (k, op), .ret t r]) w ∧ s2.th = s.th ∧
      Sem signed op (s.mem k).val (s2.mem k).val r ∧ ∀ j, j ≠ k → s2.mem j = s.mem j := by
  have hback : Function.update w t .idle = w := by rw [← hi', Function.update_eq_self]
  have hsback : Function.update s.th t none = s.th := by rw [← hs, Function.update_eq_self]
  have h1 := Run.inv hw t (k, op) hi'
  obtain ⟨m, dec, hb⟩ : ∃ m dec, body signed op = .method m dec := by
    cases hb : body signed op with
    | method m dec => exact ⟨m, dec, rfl⟩
    | fetchUpdate s g f => exact absurd (body_update hb.symm) (hop _ _ _)
  have hstart : ((api signed).many K).start (k, op) = (k, Pc.start (.method m dec)) := by
    simp only [Client.many, api, hb]
  rw [hstart] at h1
  cases m with
  | panic =>
    have h2 := Run.tau h1 t _ (k, .fin (.res .panic)) (Function.update_self ..)
      (by simp [Client.many, api, apiNext, callM, Compose.Next.at_])
    have h3 := Run.ret h2 t _ (.res .panic) (Function.update_self ..)
      (by simp [Client.many, api, apiNext, Compose.Next.at_])
    simp only [Function.update_idem, hback] at h3
    exact ⟨hi, s, _, hr, by simpa using h3, rfl, body_panic signed op dec _ hb, fun _ _ => rfl⟩
  | fn a =>
    have hv : a.op.OrdOk a.ord a.fail := by
      refine api_valid signed (.start (op := op)) (c := a) (k := fun r => .fin (dec r)) ?_
      simp only [api, hb, apiNext, callM]
    obtain ⟨i, e1, e2, e3⟩ := hl.total a hv
    have h2 := Run.call h1 t _ (k, a) (fun q => (k, .fin (dec q))) (k, i) F.ans (Function.update_self ..)
      (by simp [Client.many, api, apiNext, callM, Compose.Next.at_]) ⟨rfl, e1, e2, e3, rfl⟩
    have hstep : Exec (Lf.Step (F.code.sys K)) s [.inv t (k, i)]
        { s with th := Function.update s.th t (some (k, F.code.start i, none)) } := by
      exact (Exec.ev (.refl s) (Lf.Step.inv (I := F.code.sys K) s t (k, i) hs) :)
    obtain ⟨s2, p, hx, hq, hth, hme⟩ := ends_exec (hl.ends i (s.mem k).val)
      { s with th := Function.update s.th t (some (k, F.code.start i, none)) } t k none (Function.update_self ..) rfl
      (by simp)
    have h3 := Run.answer h2 t _ p (Function.update_self ..)
    have h4 := Run.ret h3 t _ (dec (F.ans p)) (Function.update_self ..)
      (by simp [Client.many, api, apiNext, Compose.Next.at_])
    simp only [Function.update_idem, hback] at h4
    have hall : Runs (F.code.sys K) mem (hi ++ [.inv t (k, i)] ++ [.ret t p]) s2 := (Exec.trans hr hstep).trans hx
    refine ⟨_, s2, dec (F.ans p), hall, by simpa using h4, ?_, ?_, hme⟩
    · rw [hth]; simp [hsback]
    · refine body_fn hn signed op a dec _ _ _ hb ?_
      rw [← e1]; exact hF.sem _ _ _ _ hq

theorem Functions.solo' {F : Functions n I P L} {S : Spec (BitVec n) I P} (hF : F.Right S) (hl : F.Live S) {e : Nat}
    (hn : n = 2 ^ e) (signed : Bool) : F.Solo signed single :=
  fun _ _ _ _ _ _ _ hr hw t hs hi k op hop => F.solo hF hl hn signed hr hw t hs hi k op hop

/-- Calls one after another, with their results. -/
def inTurn : List ((Tid × K × IOp n) × IRes n) → List (Object.Ev (K × IOp n) (IRes n))
  | [] => []
  | ((t, k, op), r) :: l => .inv t (k, op) :: .ret t r :: inTurn l

theorem inTurn_append (l l' : List ((Tid × K × IOp n) × IRes n)) : inTurn (l ++ l') = inTurn l ++ inTurn l' := by
  induction l with
  | nil => rfl
  | cons x l ih => obtain ⟨⟨t, k, op⟩, r⟩ := x; simp [inTurn, ih]

/-- Any calls, made by any threads one after another on any objects, have a history. -/
theorem Functions.sequence {F : Functions n I P L} {S : Spec (BitVec n) I P} (hF : F.Right S) (hl : F.Live S) {e : Nat}
    (hn : n = 2 ^ e) (signed : Bool) (m : K → BitVec n) (cs : List (Tid × K × IOp n))
    (hc : ∀ c ∈ cs, single c.2.2) :
    ∃ l m', l.map Prod.fst = cs ∧ F.History signed m (inTurn l) m' := by
  suffices key : ∀ (cs : List (Tid × K × IOp n)) (hi ho s), (∀ c ∈ cs, single c.2.2) →
      Runs (F.code.sys K) (fun k => ⟨m k, 0⟩) hi s → Run ((api signed).many K) F.Calls hi ho (fun _ => .idle) →
      (∀ t, s.th t = none) → ∃ l hi' s', l.map Prod.fst = cs ∧ Runs (F.code.sys K) (fun k => ⟨m k, 0⟩) hi' s' ∧
        Run ((api signed).many K) F.Calls hi' (ho ++ inTurn l) (fun _ => .idle) by
    obtain ⟨l, hi, s, h1, h2, h3⟩ := key cs [] [] _ hc (.refl _) .nil (fun _ => rfl)
    exact ⟨l, _, h1, _, hi, s, _, fun _ => rfl, fun _ => rfl, h2, h3⟩
  intro cs
  induction cs with
  | nil => exact fun hi ho s _ h1 h2 _ => ⟨[], hi, s, rfl, h1, by simpa [inTurn] using h2⟩
  | cons c cs ih =>
    intro hi ho s hc h2 h3 h4
    obtain ⟨t, k, op⟩ := c
    obtain ⟨hi2, s2, r, h5, h6, h7, _⟩ := F.solo hF hl hn signed h2 h3 t (h4 t) rfl k op (hc (t, k, op) (by simp))
    obtain ⟨l, hi3, s3, e1, e2, e3⟩ := ih _ _ _ (fun c' h => hc c' (by simp [h])) h5 h6
      (fun t => by rw [h7]; exact h4 t)
    exact ⟨((t, k, op), r) :: l, hi3, s3, by simp [e1], e2, by simpa [inTurn] using e3⟩

end Verif.Wide
