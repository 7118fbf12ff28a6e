import Verif.Kuser.Proof
import Verif.Asm.Trace
import Verif.Arm.Barrier
/-!
# Events of the 64-bit operations of pre-v6 Arm Linux

`__kuser_cmpxchg64` has full barriers before and after its accesses, whether it succeeds or not
(kernel documentation: "always includes necessary memory barriers"; the module's comment L15-L16;
trusted).  The two `ldr` have none.  (The processors in question have no weaker barriers; the
events are those of the AArch64 specification restricted to plain accesses and full barriers.)
-/
set_option autoImplicit false
namespace Verif.Kuser
open Verif.Lf Verif.Asm Verif.Wide
export Verif.Arm (Ev IsAcquire IsRelease KeptInOrder)

/-- Events of the helper. -/
def helperEvents : Res (BitVec 64) → List Ev
  | .ok _ => [.full, .rd .plain false, .wr false false, .full]
  | _ => [.full, .rd .plain false, .full]

/-- Events of an instruction or statement; `v` is what its access returned. -/
def Ins.events (i : Ins) (v : Res (BitVec 64)) : List Ev :=
  match i with
  | .ldrLo _ | .ldrHi _ => [.rd .plain false]
  | .kuser => helperEvents v
  | _ => []

/-- `t` is the list of events of a complete execution of `c` with result `r`. -/
def Call.Events (E : Env) (c : Call) (t : List Ev) (r : Res (BitVec 64)) : Prop :=
  ∃ n s', Trace (blocks E) Ins.events c n 0 ((blocks E).entry c) t s' ∧ r = (blocks E).out c s'

/-- No writes, then a successful call of the helper. -/
def Shape (t : List Ev) : Prop :=
  ∃ a, t = a ++ [.full, .rd .plain false, .wr false false, .full] ∧ ∀ e ∈ a, e.isWr = false

variable {E : Env} {c : Call}

theorem shape_from (hE : E.Ok) (hk : E.hasKuser = true) (n : Nat) : ∀ (s s' : St) (t : List Ev), s.src = c.addr →
    Trace (blocks E) Ins.events c n 0 s t s' → Shape t := by
  induction n using Nat.strongRecOn with
  | ind n ih =>
    intro s s' t hs h
    obtain ⟨n1, t1, x, x', v, rfl, ha, rfl, h1⟩ := h.inv_acc (p0 hk) (sem_ldrLo hs)
    have hs1 : (s.gotLo (word0 E.endian) v).src = c.addr := by rw [gotLo_src]; exact hs
    generalize s.gotLo (word0 E.endian) v = s1 at h1 hs1
    obtain ⟨n2, t2, x, x', v, rfl, ha, rfl, h2⟩ := h1.inv_acc (p1 hk) (sem_ldrHi hs1)
    have hs2 : (s1.gotHi (word1 E.endian) v).src = c.addr := by rw [gotHi_src]; exact hs1
    generalize s1.gotHi (word1 E.endian) v = s2 at h2 hs2
    obtain ⟨n3, t3, rfl, rfl, h3⟩ := h2.inv_go (i := .setPrev) (by rw [prog_loop hk]; rfl) rfl
    obtain ⟨n4, t4, rfl, rfl, h4⟩ := h3.inv_go (i := .setNext (next c.op)) (by rw [prog_loop hk]; rfl) rfl
    generalize hs4 : ({ ({ s2 with prev := join E.endian s2.outLo s2.outHi } : St) with
      next := next c.op ({ s2 with prev := join E.endian s2.outLo s2.outHi } : St).prev } : St) = s4 at h4
    have hr4 : s4.src = c.addr := by rw [← hs4]; exact hs2
    obtain ⟨n5, t5, x, x', v, rfl, ha, rfl, h5⟩ := h4.inv_acc (p4 hk) (sem_kuser (helper_of hE hk) hr4)
    rcases kuserAcc_sem ha with ⟨-, -, rfl⟩ | ⟨-, rfl, -⟩
    · obtain ⟨n6, t6, rfl, rfl, h6⟩ := h5.inv_br (i := .ifFailed 0) (b := false) (k := 0) (by rw [prog_loop hk]; rfl) rfl
      obtain ⟨rfl, -⟩ := h6.inv_done (p6 hk)
      refine ⟨[.rd .plain false, .rd .plain false], by simp [Ins.events, helperEvents], ?_⟩
      simp [Arm.Ev.isWr]
    · obtain ⟨n6, t6, rfl, rfl, h6⟩ := h5.inv_br (i := .ifFailed 0) (b := true) (k := 0) (by rw [prog_loop hk]; rfl) rfl
      obtain ⟨a, rfl, hw⟩ := ih n6 (by omega) _ _ _ (show (s4.called (.err x)).src = _ from hr4) h6
      refine ⟨.rd .plain false :: .rd .plain false :: .full :: .rd .plain false :: .full :: a,
        by simp [Ins.events, helperEvents], ?_⟩
      intro e he
      simp only [List.mem_cons] at he
      rcases he with rfl | rfl | rfl | rfl | rfl | he
      · rfl
      · rfl
      · rfl
      · rfl
      · rfl
      · exact hw e he

theorem shape (hE : E.Ok) (hk : E.hasKuser = true) {t : List Ev} {r : Res (BitVec 64)} (h : c.Events E t r) :
    Shape t := by
  obtain ⟨n, s', h, -⟩ := h
  exact shape_from hE hk n _ _ _ rfl h

theorem Shape.fenced {t : List Ev} (h : Shape t) (i : Nat) (hm : Arm.Mem t i) : Arm.Fenced t i := by
  obtain ⟨a, rfl, -⟩ := h
  have e : a ++ [.full, .rd .plain false, .wr false false, .full] =
      (a ++ [.full, .rd .plain false, .wr false false]) ++ [Arm.Ev.full] := by simp
  rw [e] at hm ⊢
  exact Arm.fenced_last i hm

theorem Shape.acquire {t : List Ev} (h : Shape t) : IsAcquire t := by
  refine Arm.acquire_of_full ?_ h.fenced
  obtain ⟨a, rfl, -⟩ := h
  exact ⟨a.length + 1, .plain, false, by rw [List.getElem?_append_right (by omega)]; simp⟩

theorem Shape.release {t : List Ev} (h : Shape t) : IsRelease t := by
  obtain ⟨a, rfl, h⟩ := h
  exact Arm.release_after h

end Verif.Kuser
