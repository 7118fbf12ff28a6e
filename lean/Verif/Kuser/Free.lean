import Verif.Kuser.Proof
import Verif.Asm.Free
/-!
# The pre-v6 Arm back end is lock-free: proof
-/
set_option autoImplicit false
namespace Verif.Kuser
open Verif.Object Verif.Lf Verif.Asm Verif.Wide

variable {E : Env} {c : Call}

theorem kuserAcc_spur {s : St} {x x' : BitVec 64} {r : Res (BitVec 64)} (h : (kuserAcc E s).sem x x' r)
    (hn : ¬ (kuserAcc E s).Spurious x r) : x = s.prev → r = .ok x := by
  intro hx
  rcases kuserAcc_sem h with ⟨-, -, h⟩ | ⟨-, h2, h3⟩
  · exact h
  · exfalso
    cases hsp : E.spurious
    · exact h3 hsp hx
    · refine hn ?_
      unfold kuserAcc
      rw [hsp, if_pos rfl]
      exact ⟨hx, h2⟩

theorem kuserAcc_reads {s : St} {x : BitVec 64} : (kuserAcc E s).Reads (.err x) := by
  unfold kuserAcc
  cases E.spurious <;> exact ⟨x, rfl⟩

theorem free (hE : E.Ok) (hk : E.hasKuser = true) (c : Call) : Free (points hE hk c) where
  once := by
    rintro pc s e ⟨rfl, ⟨rfl, hs⟩ | ⟨rfl, hs⟩ | ⟨rfl, hs⟩⟩
    · refine ⟨_, p0 hk, ?_⟩
      rw [sem_ldrLo hs]
      exact fun _ _ _ _ => .inl trivial
    · refine ⟨_, p1 hk, ?_⟩
      rw [sem_ldrHi hs]
      exact fun _ _ _ _ => .inl trivial
    · refine ⟨_, p4 hk, ?_⟩
      rw [sem_kuser (helper_of hE hk) hs.1]
      intro x x' r hr
      rcases kuserAcc_sem hr with ⟨h1, h2, rfl⟩ | ⟨h1, rfl, h3⟩
      · exact .inr ⟨6, { s with changed := true },
          .br (i := .ifFailed 0) (b := false) (n := 0) (by rw [prog_loop hk]; rfl) rfl (.refl _ _), p6 hk⟩
      · exact .inl kuserAcc_reads
  stops := by
    have back : ∀ (s : St) x, Go (blocks E) c 5 (s.called (.err x)) 0 (s.called (.err x)) := fun s x =>
      .br (i := .ifFailed 0) (b := true) (n := 0) (by rw [prog_loop hk]; rfl) rfl (.refl _ _)
    have out : ∀ (s : St) x, Go (blocks E) c 5 (s.called (.ok x)) 6 (s.called (.ok x)) := fun s x =>
      .br (i := .ifFailed 0) (b := false) (n := 0) (by rw [prog_loop hk]; rfl) rfl (.refl _ _)
    -- from the start the helper compares with what is there
    have head : ∀ s ρ x, s.src = c.addr → Stops (blocks E) c 0 s ρ x := by
      intro s ρ x hs
      refine Stops.acc (p0 hk) (sem_ldrLo hs) fun r hr _ => ?_
      obtain ⟨-, rfl⟩ := Points.load_relaxed hr
      refine Stops.acc (p1 hk) (sem_ldrHi hs) fun r hr _ => ?_
      obtain ⟨-, rfl⟩ := Points.load_relaxed hr
      generalize hs1 : (s.gotLo (word0 E.endian) (.val x)).gotHi (word1 E.endian) (.val x) = s1
      have hsrc : s1.src = c.addr := by rw [← hs1]; exact hs
      have hj : join E.endian s1.outLo s1.outHi = x := by rw [← hs1]; exact join_words _ _
      obtain ⟨s', h1, h2, h3⟩ := ready (E := E) (c := c) hk hsrc
      refine Stops.go h1 (Stops.acc (p4 hk) (sem_kuser (helper_of hE hk) h2.1) fun r hr hn => ?_)
      rw [kuserAcc_spur hr hn (by rw [h3, hj])]
      exact Stops.go (out s' x) (Stops.done (p6 hk))
    have call : ∀ s ρ x, Ready c s → Stops (blocks E) c 4 s ρ x := by
      intro s ρ x hs
      refine Stops.acc (p4 hk) (sem_kuser (helper_of hE hk) hs.1) fun r hr hn => ?_
      rcases kuserAcc_sem hr with ⟨-, -, rfl⟩ | ⟨-, rfl, -⟩
      · exact Stops.go (out s x) (Stops.done (p6 hk))
      · exact Stops.go (back s x) (head _ _ _ hs.1)
    rintro pc s e ⟨rfl, ⟨rfl, hs⟩ | ⟨rfl, hs⟩ | ⟨rfl, hs⟩⟩ ρ x
    · exact head s ρ x hs
    · refine Stops.acc (p1 hk) (sem_ldrHi hs) fun r hr _ => ?_
      obtain ⟨s', h1, h2, -⟩ := ready (E := E) (c := c) hk (s := s.gotHi (word1 E.endian) r) ((gotHi_src ..).trans hs)
      exact Stops.go h1 (call s' ρ x h2)
    · exact call s ρ x hs

theorem looksAt (c : Call) (i : Ins) (s : St) (cur new : BitVec 64) (o g : MemOrd) (k : Res (BitVec 64) → St)
    (h : (blocks E).sem c i s = .acc (.casWeak cur new o g) k) : k (.ok cur) ≠ k (.err cur) := by
  change i.sem E c.addr s = _ at h
  cases i <;> simp only [Ins.sem] at h
  all_goals repeat' split at h
  all_goals first | (cases h; done) | skip
  all_goals
    cases h
    intro e
    have := congrArg St.changed e
    simp [St.called] at this

end Verif.Kuser
