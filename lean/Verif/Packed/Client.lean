import Verif.Compose.Sim
import Verif.Packed.Value
/-!
# A client beside direct use of the same memory

`Client.beside`: threads run the client's operations, and also make calls `P` directly.
-/
set_option autoImplicit false
namespace Verif.Compose
open Verif.Object Verif.Lf Verif.Rv

variable {A Q O R L P X C D W : Type}

/-- Where a thread is: in the client's code, about to make a direct call, or with its answer. -/
inductive BesideLoc (L P X : Type) where
  | code (l : L)
  | call (p : P)
  | ans (x : X)

/-- An answer of the other kind does not occur (`Spec/Packed.lean` `beside`); the code would stay where it is. -/
def Client.beside (c : Client A Q O R L) (P X : Type) : Client (A ⊕ P) (Q ⊕ X) (O ⊕ P) (R ⊕ X) (BesideLoc L P X) where
  start
    | .inl op => .code (c.start op)
    | .inr p => .call p
  next
    | .code l => match c.next l with
      | .ret r => .ret (.inl r)
      | .tau k => .tau (.code k)
      | .call a k => .call (.inl a) (fun | .inl q => .code (k q) | .inr _ => .code l)
    | .call p => .call (.inr p) (fun | .inl _ => .call p | .inr x => .ans x)
    | .ans x => .ret (.inr x)

def inlStatus : Status O R → Status (O ⊕ P) (R ⊕ X)
  | .idle => .idle
  | .pending op => .pending (.inl op)
  | .done r => .done (.inl r)

/-- A client that is right alone is right beside direct calls. -/
def besideSim {c : Client A Q O R L} {S : Spec C A Q} {T : Spec W O R} {U : Spec D P X} (Y : Sim (c.sys S) T) :
    Sim ((c.beside P X).sys (beside S U)) (beside T U) where
  abs m := (Y.abs m.1, m.2)
  inv m := Y.inv m.1
  at_ t m l st := match l with
    | .code l => ∃ st0, Y.at_ t m.1 l st0 ∧ st = inlStatus st0
    | .call p => st = .pending (.inr p)
    | .ans x => st = .done (.inr x)
  start := by
    rintro t m (op | p) hm
    · exact ⟨_, Y.start t m.1 op hm, rfl⟩
    · rfl
  step := by
    rintro t ⟨m, d⟩ l l' ⟨m', d'⟩ st hm hat (⟨k, hn, rfl, hmm⟩ | ⟨a, f, q, hn, hs, rfl⟩)
    · cases hmm
      cases l with
      | call p => simp [Client.beside] at hn
      | ans x => simp [Client.beside] at hn
      | code l =>
        obtain ⟨st0, hat, rfl⟩ := hat
        cases h : c.next l <;> simp [Client.beside, h] at hn
        subst hn
        rename_i k
        obtain ⟨h1, h2⟩ := Y.step t m l k m st0 hm hat (Or.inl ⟨k, h, rfl, rfl⟩)
        refine ⟨h1, ?_⟩
        rcases h2 with ⟨e, h2⟩ | ⟨op, r, rfl, h2, h3⟩
        · exact Or.inl ⟨rfl, _, h2, rfl⟩
        · exact Or.inr ⟨.inl op, .inl r, rfl, ⟨r, h2, rfl, rfl⟩, _, h3, rfl⟩
    · cases l with
      | ans x => simp [Client.beside] at hn
      | call p =>
        simp only [Client.beside, Next.call.injEq] at hn
        obtain ⟨rfl, rfl⟩ := hn
        obtain ⟨x, h1, h2, rfl⟩ := hs
        simp only at h1 h2
        subst h2
        exact ⟨hm, Or.inr ⟨.inr p, .inr x, hat, ⟨x, h1, rfl, rfl⟩, rfl⟩⟩
      | code l =>
        obtain ⟨st0, hat, rfl⟩ := hat
        cases h : c.next l with
        | ret r => simp [Client.beside, h] at hn
        | tau k => simp [Client.beside, h] at hn
        | call b k =>
          simp only [Client.beside, h, Next.call.injEq] at hn
          obtain ⟨rfl, rfl⟩ := hn
          obtain ⟨q, h1, h2, rfl⟩ := hs
          simp only at h1 h2
          subst h2
          obtain ⟨h3, h4⟩ := Y.step t m l (k q) m' st0 hm hat (Or.inr ⟨b, k, q, h, h1, rfl⟩)
          refine ⟨h3, ?_⟩
          rcases h4 with ⟨e, h4⟩ | ⟨op, r, rfl, h4, h5⟩
          · exact Or.inl ⟨by simp only [e], _, h4, rfl⟩
          · exact Or.inr ⟨.inl op, .inl r, rfl, ⟨r, h4, rfl, rfl⟩, _, h5, rfl⟩
  stable := by
    rintro t ⟨m, d⟩ l l' ⟨m', d'⟩ st hm hat hst u k st' hu hk
    cases k with
    | call p => exact hk
    | ans x => exact hk
    | code k =>
      obtain ⟨st0, hk, rfl⟩ := hk
      refine ⟨st0, ?_, rfl⟩
      rcases hst with ⟨j, hn, rfl, hmm⟩ | ⟨a, f, q, hn, hs, rfl⟩
      · cases hmm; exact hk
      · cases l with
        | ans x => simp [Client.beside] at hn
        | call p =>
          simp only [Client.beside, Next.call.injEq] at hn
          obtain ⟨rfl, rfl⟩ := hn
          obtain ⟨x, h1, h2, rfl⟩ := hs
          simp only at h2
          subst h2; exact hk
        | code l =>
          obtain ⟨st1, hat, rfl⟩ := hat
          cases h : c.next l with
          | ret r => simp [Client.beside, h] at hn
          | tau k => simp [Client.beside, h] at hn
          | call b g =>
            simp only [Client.beside, h, Next.call.injEq] at hn
            obtain ⟨rfl, rfl⟩ := hn
            obtain ⟨q, h1, h2, rfl⟩ := hs
            exact Y.stable t m l (g q) m' st1 hm hat (Or.inr ⟨b, g, q, h, h1, rfl⟩) u k st0 hu hk
  ret := by
    rintro t ⟨m, d⟩ l st r hm hat hr
    cases l with
    | call p => simp [Client.sys, Client.beside] at hr
    | ans x =>
      simp [Client.sys, Client.beside] at hr
      subst hr; exact hat
    | code l =>
      obtain ⟨st0, hat, rfl⟩ := hat
      cases h : c.next l with
      | call b g => simp [Client.sys, Client.beside, h] at hr
      | tau k => simp [Client.sys, Client.beside, h] at hr
      | ret r' =>
        simp [Client.sys, Client.beside, h] at hr
        subst hr
        rw [Y.ret t m l st0 r' hm hat (by simp [Client.sys, h])]
        rfl

end Verif.Compose
