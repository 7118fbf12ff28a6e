import Verif.Compose.Sim
/-!
# Histories of simple operations exist

Used by examples: operations made of one call pass it on, so every history of the implementation in which only such
calls are made is, call by call, a history of the operations.
-/
set_option autoImplicit false
namespace Verif.Compose
open Verif.Object Verif.Lf

variable {A Q O R L I P C D : Type}

/-- `i` is the only call of some operation. -/
def Passes (c : Client A Q O R L) (calls : A → I → (P → Q) → Prop) (i : I) : Prop :=
  ∃ op a k d, c.next (c.start op) = .call a k ∧ calls a i d ∧ ∀ p, ∃ r, c.next (k (d p)) = .ret r

theorem passes {c : Client A Q O R L} {calls : A → I → (P → Q) → Prop} {T : Spec D I P} {m : D} {hi a}
    (hx : Exec (Object.Step T) { obj := m, th := fun _ => .idle } hi a)
    (hp : ∀ t i, Object.Ev.inv t i ∈ hi → Passes c calls i) :
    ∃ ho w, Run c calls hi ho w ∧ ho.length = hi.length ∧
      ∀ t, (a.th t = .idle → w t = .idle) ∧
        (a.th t ≠ .idle → ∃ g, w t = .wait g ∧ ∀ p, ∃ r, c.next (g p) = .ret r) := by
  generalize h0 : ({ obj := m, th := fun _ => .idle } : Object.State D I P) = s0 at hx
  induction hx with
  | refl =>
    subst h0
    exact ⟨[], _, .nil, rfl, fun t => ⟨fun _ => rfl, fun h => absurd rfl h⟩⟩
  | @tau h s s' _ st ih =>
    subst h0
    obtain ⟨ho, w, hr, hl, hw⟩ := ih hp
    refine ⟨ho, w, hr, hl, fun t => ?_⟩
    cases st with
    | commit u op c' r hq hs =>
      by_cases ht : t = u
      · subst ht
        refine ⟨fun h => by simp at h, fun _ => (hw t).2 (by simp [hq])⟩
      · simpa only [Function.update_of_ne ht] using hw t
  | @ev h s e s' _ st ih =>
    subst h0
    obtain ⟨ho, w, hr, hl, hw⟩ := ih (fun t i hm => hp t i (by simp [hm]))
    cases st with
    | inv u i hq =>
      obtain ⟨op, b, k, d, hn, hc, hk⟩ := hp u i (by simp)
      have h1 := Run.inv hr u op ((hw u).1 hq)
      have h2 := Run.call h1 u _ b k i d (Function.update_self ..) hn hc
      refine ⟨_, _, h2, by simp [hl], fun t => ?_⟩
      by_cases ht : t = u
      · subst ht
        exact ⟨fun h => by simp at h, fun _ => ⟨_, Function.update_self .., fun p => hk p⟩⟩
      · simpa only [Function.update_of_ne ht] using hw t
    | ret u p hq =>
      obtain ⟨g, hg, hk⟩ := (hw u).2 (by simp [hq])
      obtain ⟨r, hn⟩ := hk p
      have h1 := Run.answer hr u g p hg
      have h2 := Run.ret h1 u _ r (Function.update_self ..) hn
      refine ⟨_, _, h2, by simp [hl], fun t => ?_⟩
      by_cases ht : t = u
      · subst ht
        exact ⟨fun _ => Function.update_self .., fun h => by simp at h⟩
      · simpa only [Function.update_of_ne ht] using hw t

end Verif.Compose
