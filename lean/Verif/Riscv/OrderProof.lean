import Verif.Riscv.Proof
import Verif.Rv64.OrderProof
/-!
# Orderings of the operations of `riscv.rs`
-/
set_option autoImplicit false
namespace Verif.Riscv
open Verif.Lf Verif.Rv64

variable {L n : Nat}

/-- The `i`-th event is ordered before whatever comes after the list. -/
def Out (t : List Ev) (i : Nat) : Prop :=
  (∃ r w l, t[i]? = some (.acc r w true l)) ∨
    ∃ pr pw k, MemIn t pr pw i ∧ i < k ∧ t[k]? = some (.fence pr pw true true)

/-- Whatever comes before the list is ordered before the `j`-th event. -/
def In (t : List Ev) (j : Nat) : Prop :=
  (∃ r w a, t[j]? = some (.acc r w a true)) ∨
    ∃ sr sw k, MemIn t sr sw j ∧ k < j ∧ t[k]? = some (.fence true true sr sw)

theorem lt_of {t : List Ev} {i : Nat} {e : Ev} (h : t[i]? = some e) : i < t.length :=
  (List.getElem?_eq_some_iff.1 h).1

theorem at_mid {pre t post : List Ev} {i : Nat} {e : Ev} (h : t[i]? = some e) :
    (pre ++ t ++ post)[pre.length + i]? = some e := by
  rw [inner (lt_of h)]; exact h

theorem memIn_mid {pre t post : List Ev} {r w : Bool} {i : Nat} (h : MemIn t r w i) :
    MemIn (pre ++ t ++ post) r w (pre.length + i) := by
  obtain ⟨a, b, c, d, h, h'⟩ := h
  exact ⟨a, b, c, d, at_mid h, h'⟩

theorem Out.before {pre t post : List Ev} {i j : Nat} (h : Out t i) (hj : pre.length + t.length ≤ j)
    (hm : Mem (pre ++ t ++ post) j) : Before (pre ++ t ++ post) (pre.length + i) j := by
  rcases h with ⟨r, w, l, h⟩ | ⟨pr, pw, k, h, hk, hk'⟩
  · exact .aq (at_mid h) hm (by have := lt_of h; omega)
  · exact .fence (memIn_mid h) hm (k := pre.length + k) (by omega) (by have := lt_of hk'; omega) (at_mid hk')

theorem In.before {pre t post : List Ev} {i j : Nat} (h : In t j) (hi : i < pre.length)
    (hm : Mem (pre ++ t ++ post) i) : Before (pre ++ t ++ post) i (pre.length + j) := by
  rcases h with ⟨r, w, a, h⟩ | ⟨sr, sw, k, h, hk, hk'⟩
  · exact .rl hm (at_mid h) (by omega)
  · exact .fence hm (memIn_mid h) (k := pre.length + k) (by omega) (by omega) (at_mid hk')

theorem kept_of_out {t u : List Ev} (h : ∀ i, Mem t i → Out t i) : KeptInOrder t u := by
  intro pre mid post i j hi hj
  have e1 : pre ++ t ++ mid ++ u ++ post = pre ++ t ++ (mid ++ u ++ post) := by simp
  have el : pre.length + t.length + mid.length + j = (pre ++ t ++ mid).length + j := by simp; omega
  have hMj : Mem ((pre ++ t ++ mid) ++ u ++ post) ((pre ++ t ++ mid).length + j) := memIn_mid hj
  refine .one ?_
  rw [e1, el]
  refine (h i hi).before (by simp; omega) ?_
  rw [← e1]; exact hMj

/-- A list with one access, a read or a write or both, at `i`. -/
structure One (t : List Ev) (r w aq rl : Bool) (i : Nat) : Prop where
  here : t[i]? = some (.acc r w aq rl)
  only : ∀ j, Mem t j → j = i

theorem One.acquire {t : List Ev} {w aq rl : Bool} {i : Nat} (h : One t true w aq rl i) (ho : Out t i) : IsAcquire t := by
  have hl : LastRead t i := ⟨⟨_, _, _, h.here⟩, fun j hj => Nat.le_of_eq (h.only j hj.mem)⟩
  refine ⟨⟨i, hl⟩, fun pre post i' j hi hj hm => ?_⟩
  obtain rfl := h.only i' hi.1.mem
  exact .one (ho.before hj hm)

theorem One.release {t : List Ev} {r w aq rl : Bool} {i : Nat} (h : One t r w aq rl i) (ho : In t i) : IsRelease t := by
  intro pre post i' j hj hi hm
  obtain rfl := h.only j hj.mem
  exact .one (ho.before hi hm)

theorem One.after {t : List Ev} {r w aq rl : Bool} {i : Nat} (h : One t r w aq rl i) (hm : Mem t i) (ho : In t i) :
    AfterEverything t := by
  refine ⟨⟨i, hm, fun j hj => Nat.le_of_eq (h.only j hj)⟩, fun pre post i' j hj hi hm' => ?_⟩
  obtain rfl := h.only j hj.1
  exact .one (ho.before hi hm')

theorem One.kept {t u : List Ev} {r w aq rl : Bool} {i : Nat} (h : One t r w aq rl i) (ho : Out t i) : KeptInOrder t u := by
  refine kept_of_out ?_
  intro j hj
  obtain rfl := h.only j hj
  exact ho

/-- What the events are. -/
def lineEv : Option Fence → List Ev
  | some f => f.events
  | none => []

theorem events_line {f : Option Fence} {k : Prog L n} {t : List Ev} {r : Res (BitVec n)}
    (h : Stmt.Events Ins.acc Fence.events Ins.Events (line f k) t r) :
    ∃ t', t = lineEv f ++ t' ∧ Stmt.Events Ins.acc Fence.events Ins.Events k t' r := by
  cases f with
  | none => exact ⟨t, rfl, h⟩
  | some f => cases h with | fence h => exact ⟨_, rfl, h⟩

theorem events_around {a b : Option Fence} {i : Ins L} {g : Res (BitVec n) → Res (BitVec n)} {t : List Ev}
    {r : Res (BitVec n)}
    (h : Stmt.Events Ins.acc Fence.events Ins.Events (line b (.acc i fun r => line a (.ret (g r)))) t r) :
    ∃ e x x' v, Ins.Events i v e ∧ i.acc.sem x x' v ∧ r = g v ∧ t = lineEv b ++ (e ++ lineEv a) := by
  obtain ⟨t', rfl, h1⟩ := events_line h
  clear h
  cases h1 with
  | acc hs he h2 =>
    obtain ⟨t'', rfl, h3⟩ := events_line h2
    clear h2
    cases h3
    exact ⟨_, _, _, _, he, hs, rfl, by simp⟩

theorem events_amo {k : Amo} {val : BitVec L} {o : MemOrd} {t : List Ev} {r : Res (BitVec n)}
    (h : Stmt.Events Ins.acc Fence.events Ins.Events (rmwAmo k val o) t r) : t = subWordEvents o := by
  cases h with
  | acc hs he h =>
    cases h
    simp only [Ins.Events] at he
    subst he
    rfl

theorem one_single (r w aq rl : Bool) : One [.acc r w aq rl] r w aq rl 0 := by
  refine ⟨rfl, fun j hj => ?_⟩
  have := lt_of_mem hj
  simp at this
  exact this

theorem one_pre (f : Fence) (e : Ev) (r w aq rl : Bool) (h : e = .acc r w aq rl) (b : Option Fence) :
    One (f.events ++ (e :: lineEv b)) r w aq rl 1 := by
  subst h
  refine ⟨by cases f <;> rfl, fun j hj => ?_⟩
  obtain ⟨a, b', c, d, hj, -⟩ := hj
  match j with
  | 0 => cases f <;> simp [Fence.events] at hj
  | 1 => rfl
  | 2 => cases f <;> cases b with
    | none => simp [Fence.events, lineEv] at hj
    | some g => cases g <;> simp [Fence.events, lineEv] at hj
  | j + 3 => cases f <;> cases b with
    | none => simp [Fence.events, lineEv] at hj
    | some g => cases g <;> simp [Fence.events, lineEv] at hj

theorem one_post (e : Ev) (r w aq rl : Bool) (h : e = .acc r w aq rl) (b : Option Fence) :
    One (e :: lineEv b) r w aq rl 0 := by
  subst h
  refine ⟨rfl, fun j hj => ?_⟩
  obtain ⟨a, b', c, d, hj, -⟩ := hj
  match j with
  | 0 => rfl
  | 1 => cases b with
    | none => simp [lineEv] at hj
    | some g => cases g <;> simp [Fence.events, lineEv] at hj
  | j + 2 => cases b with
    | none => simp [lineEv] at hj
    | some g => cases g <;> simp [Fence.events, lineEv] at hj

end Verif.Riscv
