import Verif.Spec.Packed
import Verif.Rv.Proof
/-!
# Values in byte memory, and transport of histories
-/
set_option autoImplicit false
namespace Verif.Rv
open Verif.Object

variable {L : Nat} {K : Type}

/-- The value the bytes hold. -/
def value (sz : Nat) (b : Bytes L) (addr : BitVec L) : BitVec (8 * sz) :=
  BitVec.ofFnLE fun i : Fin (8 * sz) => objBit b addr i.1

theorem value_bit (sz : Nat) (b : Bytes L) (addr : BitVec L) {i : Nat} (hi : i < 8 * sz) :
    (value sz b addr).getLsbD i = objBit b addr i := by
  simp [value, BitVec.getLsbD_ofFnLE, hi]

theorem holds_value (sz : Nat) (b : Bytes L) (addr : BitVec L) : Holds sz b addr (value sz b addr) :=
  fun _ hi => (value_bit sz b addr hi).symm

theorem Holds.eq {sz : Nat} {b : Bytes L} {addr : BitVec L} {v : BitVec (8 * sz)} (h : Holds sz b addr v) :
    v = value sz b addr :=
  BitVec.eq_of_getLsbD_eq fun i hi => by rw [value_bit _ _ _ hi, h i hi]

theorem value_kept {sz sz' : Nat} {b b' : Bytes L} {a a' : BitVec L} (h : OthersKept sz b b' a)
    (hd : ∀ i < sz, ∀ j < sz', byteAddr a i ≠ byteAddr a' j) : value sz' b' a' = value sz' b a' := by
  refine BitVec.eq_of_getLsbD_eq fun i hi => ?_
  rw [value_bit _ _ _ hi, value_bit _ _ _ hi]
  unfold objBit
  rw [h _ fun j hj e => hd j hj (i / 8) (by omega) e.symm]

theorem SemBytes.post {sz : Nat} {addr : BitVec L} {op : SOp sz} {b b' : Bytes L} {r : SRes sz}
    (h : SemBytes sz addr op b b' r) : op.Post (value sz b addr) (value sz b' addr) r := by
  obtain ⟨x, y, hx, hy, _, hp⟩ := h
  rw [← hx.eq, ← hy.eq]; exact hp

theorem byteAddr_zero (a : BitVec L) : byteAddr a 0 = a := by simp [byteAddr]

theorem value_one (b : Bytes L) (a : BitVec L) : value 1 b a = b a := by
  refine BitVec.eq_of_getLsbD_eq fun i hi => ?_
  rw [value_bit _ _ _ hi]
  have h1 : i / 8 = 0 := by omega
  have h2 : i % 8 = i := by omega
  simp [objBit, h1, h2, byteAddr_zero]

/-! ## Histories of an object seen as histories of another -/

variable {O I R C D : Type}

/-- An event with another name for the operation. -/
def mapOp (f : O → I) : Object.Ev O R → Object.Ev I R
  | .inv t op => .inv t (f op)
  | .ret t r => .ret t r

def mapStatus (f : O → I) : Status O R → Status I R
  | .idle => .idle
  | .pending op => .pending (f op)
  | .done r => .done r

theorem transport {T : Spec D I R} {S : Spec C O R} (f : O → I) (Rel : D → C → Prop)
    (sim : ∀ o x x' c r, Rel x c → T.sem (f o) x x' r → ∃ c', S.sem o c c' r ∧ Rel x' c')
    {x x' : D} {c : C} (h0 : Rel x c) {h : List (Object.Ev O R)} (hl : LinearizableTo T x (h.map (mapOp f)) x') :
    ∃ c', LinearizableTo S c h c' ∧ Rel x' c' := by
  obtain ⟨a, hx, rfl⟩ := hl
  suffices key : ∃ a', Exec (Object.Step S) { obj := c, th := fun _ => .idle } h a' ∧ Rel a.obj a'.obj ∧
      ∀ t, a.th t = mapStatus f (a'.th t) by
    obtain ⟨a', h1, h2, _⟩ := key
    exact ⟨_, ⟨a', h1, rfl⟩, h2⟩
  generalize hh : h.map (mapOp f) = hm at hx
  generalize hi : ({ obj := x, th := fun _ => .idle } : Object.State D I R) = i at hx
  induction hx generalizing h with
  | refl =>
    subst hi
    rw [List.map_eq_nil_iff] at hh
    subst hh
    exact ⟨_, .refl _, h0, fun _ => rfl⟩
  | @tau h' s s' _ st ih =>
    obtain ⟨a', h1, h2, h3⟩ := ih hh
    cases st with
    | commit t op d' r hp hs =>
      have h4 := h3 t
      rw [hp] at h4
      cases hq : a'.th t with
      | idle => rw [hq] at h4; cases h4
      | done r => rw [hq] at h4; cases h4
      | pending o =>
        rw [hq] at h4
        simp only [mapStatus, Status.pending.injEq] at h4
        subst h4
        obtain ⟨c', h5, h6⟩ := sim _ _ _ _ _ h2 hs
        refine ⟨_, .tau h1 (.commit a' t o c' r hq h5), h6, fun u => ?_⟩
        by_cases hu : u = t
        · subst hu; simp [mapStatus]
        · simpa only [Function.update_of_ne hu] using h3 u
  | @ev h' s e s' _ st ih =>
    obtain ⟨h1, h2, rfl, e1, e2⟩ := List.map_eq_append_iff.1 hh
    obtain ⟨e0, rfl, e3⟩ : ∃ e0, h2 = [e0] ∧ mapOp f e0 = e := by
      rcases h2 with _ | ⟨e0, _ | ⟨_, _⟩⟩ <;> simp at e2
      exact ⟨_, rfl, e2⟩
    obtain ⟨a', h4, h5, h6⟩ := ih e1
    subst e3
    cases e0 with
    | inv t op =>
      generalize hq : some (mapOp f (.inv t op : Object.Ev O R)) = q at st
      cases st with
      | commit => cases hq
      | ret => simp [mapOp] at hq
      | inv t' op' hp =>
        simp only [mapOp, Option.some.injEq, Object.Ev.inv.injEq] at hq
        obtain ⟨rfl, rfl⟩ := hq
        have h7 : a'.th t = .idle := by
          have := h6 t
          rw [hp] at this
          cases hq : a'.th t <;> rw [hq] at this <;> first | rfl | cases this
        refine ⟨_, .ev h4 (.inv a' t op h7), h5, fun u => ?_⟩
        by_cases hu : u = t
        · subst hu; simp [mapStatus]
        · simpa only [Function.update_of_ne hu] using h6 u
    | ret t r =>
      generalize hq : some (mapOp f (.ret t r : Object.Ev O R)) = q at st
      cases st with
      | commit => cases hq
      | inv => simp [mapOp] at hq
      | ret t' r' hp =>
        simp only [mapOp, Option.some.injEq, Object.Ev.ret.injEq] at hq
        obtain ⟨rfl, rfl⟩ := hq
        have h7 : a'.th t = .done r := by
          have := h6 t
          rw [hp] at this
          cases hq : a'.th t <;> rw [hq] at this <;> first | (simp [mapStatus] at this; rw [this]) | cases this
        refine ⟨_, .ev h4 (.ret a' t r h7), h5, fun u => ?_⟩
        by_cases hu : u = t
        · subst hu; simp [mapStatus]
        · simpa only [Function.update_of_ne hu] using h6 u

end Verif.Rv
