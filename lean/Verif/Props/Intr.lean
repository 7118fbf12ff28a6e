import Verif.Intr.Code
import Verif.Props.DerivedSync
/-!
# C59: 128-bit atomics without inline assembly, in weak memory

Under Miri and ThreadSanitizer 128-bit atomics are made of compiler intrinsics; on x86_64 of compare-exchanges
only: a load exchanges 0 for 0, a store is a loop.
-/
set_option autoImplicit false
namespace Verif.Intr
open Verif.Lf Verif.Int Verif.WM Verif.WM.Derived
open Verif.Fallback (Cfg)

/-! ## The functions -/

/-- `x` reads. -/
def Reads (x : Fn) (g : MemOrd) : Prop :=
  ∃ a d, x = .acc a d ∧ a ≠ .peek ∧ ∀ {L : Type} (k : Res V → L) i h rd wr ord r, Calls a (fun r => k (d r)) i h →
    Out i rd wr ord r → ∃ v, h r = k (.val v) ∧ rd = some v ∧ (wr = none ∨ wr = some v) ∧ ord.AtLeast g

/-- `x` is a compare-exchange. -/
def Cas (strong : Bool) (x : Fn) (c n : V) (s g : MemOrd) : Prop :=
  ∃ a d, x = .acc a d ∧ a ≠ .peek ∧ ∀ {L : Type} (k : Res V → L) i h rd wr ord r, Calls a (fun r => k (d r)) i h →
    Out i rd wr ord r → (h r = k (.ok c) ∧ rd = some c ∧ wr = some n ∧ ord = s) ∨
      ∃ v, h r = k (.err v) ∧ rd = some v ∧ wr = none ∧ ord = g ∧ (strong = true → v ≠ c)

theorem cxchg_ok {s f : MemOrd} (hf : f ≠ .release ∧ f ≠ .acqRel) : cxchg s f = some (s, f) := by
  cases s <;> cases f <;> simp_all [cxchg]

theorem cas_ord {c n : V} {s f : MemOrd} (hf : f ≠ .release ∧ f ≠ .acqRel) : (Op.cas c n s f).ordOk ≠ false := by
  cases f <;> simp_all [Op.ordOk]

theorem load_ord {f : MemOrd} (hf : f ≠ .release ∧ f ≠ .acqRel) : (Op.load f : Op V).ordOk ≠ false := by
  cases f <;> simp_all [Op.ordOk]

theorem atomicCas_ok (a : Arch) (c n : V) {s f : MemOrd} (hf : f ≠ .release ∧ f ≠ .acqRel) :
    Cas true (atomicCas a c n s f) c n s f := by
  by_cases ha : a = .x86_64
  · subst ha
    refine ⟨_, _, rfl, by simp, fun k i h rd wr ord r hc ho => ?_⟩
    cases hc
    cases ho with
    | panic _ h => exact absurd h (cas_ord hf)
    | casOk => exact .inl ⟨by simp [ofPrev], rfl, rfl, rfl⟩
    | casErr _ _ _ _ y _ hy => exact .inr ⟨y, by simp [ofPrev, hy], rfl, rfl, rfl, fun _ => hy⟩
  · have e : atomicCas a c n s f = .acc (.op (.cas c n s f)) id := by
      cases a <;> simp_all [atomicCas, cxchg_ok hf]
    refine ⟨_, _, e, by simp, fun k i h rd wr ord r hc ho => ?_⟩
    cases hc
    cases ho with
    | panic _ h => exact absurd h (cas_ord hf)
    | casOk => exact .inl ⟨rfl, rfl, rfl, rfl⟩
    | casErr _ _ _ _ y _ hy => exact .inr ⟨y, rfl, rfl, rfl, rfl, fun _ => hy⟩

theorem atomicCasWeak_ok (a : Arch) (c n : V) {s f : MemOrd} (hf : f ≠ .release ∧ f ≠ .acqRel) :
    Cas false (atomicCasWeak a c n s f) c n s f := by
  by_cases ha : a = .x86_64
  · subst ha
    obtain ⟨a, d, e, h1, h2⟩ := atomicCas_ok .x86_64 c n (s := s) hf
    refine ⟨a, d, e, h1, fun k i h rd wr ord r hc ho => ?_⟩
    rcases h2 k i h rd wr ord r hc ho with h | ⟨v, h3, h4, h5, h6, -⟩
    · exact .inl h
    · exact .inr ⟨v, h3, h4, h5, h6, by simp⟩
  · have e : atomicCasWeak a c n s f = .acc (.casWeak c n s f) id := by
      cases a <;> simp_all [atomicCasWeak, cxchg_ok hf]
    refine ⟨_, _, e, by simp, fun k i h rd wr ord r hc ho => ?_⟩
    cases hc with
    | cas =>
      cases ho with
      | panic _ h => exact absurd h (cas_ord hf)
      | casOk => exact .inl ⟨rfl, rfl, rfl, rfl⟩
      | casErr _ _ _ _ y _ hy => exact .inr ⟨y, rfl, rfl, rfl, rfl, by simp⟩
    | spur =>
      cases ho with
      | panic _ h => exact absurd h (load_ord hf)
      | load _ y => exact .inr ⟨y, rfl, rfl, rfl, rfl, by simp⟩

theorem strongest_ok {o : MemOrd} (ho : o ≠ .release ∧ o ≠ .acqRel) : strongestFailure o = o := by
  cases o <;> simp_all [strongestFailure]

theorem atomicLoad_ok (a : Arch) {o : MemOrd} (ho : o ≠ .release ∧ o ≠ .acqRel) : Reads (atomicLoad a o) o := by
  by_cases ha : a = .x86_64
  · subst ha
    obtain ⟨x, d, e, h1, h2⟩ := atomicCas_ok .x86_64 0 0 (s := o) ho
    refine ⟨x, fun r => either (d r), by simp only [atomicLoad, strongest_ok ho, e], h1, fun k i h rd wr ord r hc hr => ?_⟩
    rcases h2 (fun r => k (either r)) i h rd wr ord r hc hr with ⟨h3, h4, h5, h6⟩ | ⟨v, h3, h4, h5, h6, -⟩
    · exact ⟨0, h3, h4, .inr h5, by rw [h6]; exact fun _ x => x⟩
    · exact ⟨v, h3, h4, .inl h5, by rw [h6]; exact fun _ x => x⟩
  · have e : atomicLoad a o = .acc (.op (.load o)) id := by
      cases a <;> cases o <;> simp_all [atomicLoad]
    refine ⟨_, _, e, by simp, fun k i h rd wr ord r hc ho' => ?_⟩
    cases hc
    cases ho' with
    | panic _ h => exact absurd h (load_ord ho)
    | load _ y => exact ⟨y, rfl, rfl, .inl rfl, fun _ x => x⟩

/-! ## The operations -/

/-- Putting `f x` in place of `x`, with answer `x`, is what `op` is to do. -/
def Does (S : Spec V (IOp 128) (IRes 128)) (op : IOp 128) (f : V → V) (dec : Res V → IRes 128) : Prop :=
  ∀ x, (S.kind op (dec (.val x)) = .write ∧ S.sem op x (f x) (dec (.val x))) ∨
    (S.kind op (dec (.val x)) = .store ∧ ∀ z, S.sem op z (f x) (dec (.val x)))

/-- What `fetch_update` relies on. -/
def Upd (S : Spec V (IOp 128) (IRes 128)) (op : IOp 128) (s g : MemOrd) (f : Closure V) : Prop :=
  (g ≠ .release ∧ g ≠ .acqRel) ∧ s.AtLeast (S.succ op) ∧
    (∀ hist x y, f hist x = some y → S.kind op (.res (.ok x)) = .write ∧ S.sem op x y (.res (.ok x))) ∧
    (∀ hist x, f hist x = none →
      S.kind op (.res (.err x)) = .read ∧ S.sem op x x (.res (.err x)) ∧ g.AtLeast (S.fail op))

/-- What has to hold of the code of an operation. -/
def BodyOk (S : Spec V (IOp 128) (IRes 128)) (op : IOp 128) : Body → Prop
  | .fn .panic dec => S.kind op (dec .panic) = .nothing ∧ ∀ x, S.sem op x x (dec .panic)
  | .fn (.acc a d) dec => a ≠ .peek ∧ ∀ i h rd wr ord r, Calls a (fun r => dec (d r)) i h → Out i rd wr ord r →
      Fits S id op rd wr ord (h r)
  | .fn (.update f o) dec => Does S op f dec ∧ o.AtLeast (S.succ op)
  | .fetchUpdate s g f =>
    ((g = .release ∨ g = .acqRel) ∧ S.kind op (.res .panic) = .nothing ∧ ∀ x, S.sem op x x (.res .panic)) ∨
      Upd S op s g f

variable {S : Spec V (IOp 128) (IRes 128)} {op : IOp 128}

theorem reads_ok {x : Fn} {o : MemOrd} {dec : Res V → IRes 128} (h : Reads x o) (ho : o.AtLeast (S.fail op))
    (hk : ∀ v, S.kind op (dec (.val v)) = .read ∧ S.sem op v v (dec (.val v))) : BodyOk S op (.fn x dec) := by
  obtain ⟨a, d, rfl, h1, h2⟩ := h
  refine ⟨h1, fun i h rd wr ord r hc hr => ?_⟩
  obtain ⟨v, e1, e2, e3, e4⟩ := h2 dec i h rd wr ord r hc hr
  have e5 : ord.AtLeast (S.fail op) := fun g hg => e4 g (ho g hg)
  rw [e1]
  subst e2
  rcases e3 with rfl | rfl
  · exact ⟨(hk v).1, (hk v).2, e5⟩
  · exact .inr (.inr ⟨(hk v).1, rfl, (hk v).2, e5⟩)

theorem cas_ok {strong : Bool} {x : Fn} {c n : V} {s f : MemOrd} {dec : Res V → IRes 128} (h : Cas strong x c n s f)
    (h1 : s.AtLeast (S.succ op)) (h2 : f.AtLeast (S.fail op))
    (hk : S.kind op (dec (.ok c)) = .write ∧ S.sem op c n (dec (.ok c)))
    (he : ∀ v, (strong = true → v ≠ c) → S.kind op (dec (.err v)) = .read ∧ S.sem op v v (dec (.err v))) :
    BodyOk S op (.fn x dec) := by
  obtain ⟨a, d, rfl, h3, h4⟩ := h
  refine ⟨h3, fun i h rd wr ord r hc hr => ?_⟩
  rcases h4 dec i h rd wr ord r hc hr with ⟨e1, rfl, rfl, rfl⟩ | ⟨v, e1, rfl, rfl, rfl, e5⟩
  · rw [e1]; exact .inl ⟨hk.1, hk.2, h1⟩
  · rw [e1]; exact ⟨(he v e5).1, (he v e5).2, h2⟩

/-- A read-modify-write, either way. -/
theorem rmw_ok (b : Bool) {f : V → V} {o : MemOrd} {dec : Res V → IRes 128} (h : ∀ x, S.kind op (dec (.val x)) = .write ∧
    S.sem op x (f x) (dec (.val x))) (ho : o.AtLeast (S.succ op)) :
    BodyOk S op (.fn (if b then .update f o else .acc (.op (.rmw f (rmwOrd o))) id) dec) := by
  cases b with
  | true => exact ⟨fun x => .inl (h x), ho⟩
  | false =>
    refine ⟨by simp, fun i h' rd wr ord r hc hr => ?_⟩
    cases hc
    cases hr with
    | panic _ h => simp [Op.ordOk] at h
    | rmw _ _ x => exact .inl ⟨(h x).1, (h x).2, by cases o <;> exact ho⟩

theorem atLeast_refl (o : MemOrd) : o.AtLeast o := fun _ h => h

theorem mask_eq (n : BitVec 32) : (wrappingShl1 n : V) = 1#128 <<< (n.toNat % 128) := by
  unfold wrappingShl1
  rw [show n.toNat &&& (128 - 1) = n.toNat % 128 from and_pred 7 _]; rfl

theorem bit_ok (a : Arch) (signed : Bool) (b : BitOp) (n : BitVec 32) (o : MemOrd) :
    BodyOk (wspec 128 signed) (.bit b n o) (body a signed (.bit b n o)) := by
  have hi : n.toNat % 128 < 128 := Nat.mod_lt _ (by decide)
  cases b <;> refine rmw_ok _ (fun x => ⟨rfl, ?_⟩) (atLeast_refl _) <;>
    simp only [masked, mask_eq, test_bit hi, wspec, Sem, and_true, Bin.fn]
  · exact bt_post hi .set x
  · exact bt_post hi .clear x
  · exact bt_post hi .toggle x

theorem fetchUn_ok {S : Spec V (IOp 128) (IRes 128)} {op : IOp 128} (a : Arch) (u : Un) (o : MemOrd)
    (dec : Res V → IRes 128) (hk : ∀ x, S.kind op (dec (.val x)) = .write)
    (hs : ∀ x y, u.Post x y → S.sem op x y (dec (.val x))) (ho : o.AtLeast (S.succ op)) :
    BodyOk S op (.fn (fetchUn a u o) dec) := by
  cases u with
  | not =>
    show BodyOk S op (.fn (if a.byUpdate then _ else _) dec)
    cases h : a.byUpdate with
    | true => exact ⟨fun x => .inl ⟨hk x, hs _ _ (not_post x)⟩, ho⟩
    | false =>
      simp only [Bool.false_eq_true, if_false]
      refine rmw_ok _ (fun x => ⟨hk x, hs _ _ ?_⟩) ho
      have := not_post x
      rwa [← xor_ones] at this
  | neg => exact ⟨fun x => .inl ⟨hk x, hs _ _ (neg_post x)⟩, ho⟩

/-- Every operation is right. -/
theorem body_ok (a : Arch) (signed : Bool) (op : IOp 128) : BodyOk (wspec 128 signed) op (body a signed op) := by
  cases op with
  | load o =>
    cases h : o.assertLoad with
    | panic =>
      simp only [body, load, h]
      cases o <;> simp [MemOrd.assertLoad] at h <;> exact ⟨rfl, fun _ => ⟨rfl, by simp⟩⟩
    | ok =>
      simp only [body, load, h]
      have ho : o ≠ .release ∧ o ≠ .acqRel := by cases o <;> simp [MemOrd.assertLoad] at h ⊢
      exact reads_ok (atomicLoad_ok a ho) (atLeast_refl _) (fun v => ⟨rfl, by simp [wspec, Sem, ho]⟩)
  | store v o =>
    cases h : o.assertStore with
    | panic =>
      simp only [body, store, h]
      cases o <;> simp [MemOrd.assertStore] at h <;> exact ⟨rfl, fun _ => by simp [wspec, Sem, dropped]⟩
    | ok =>
      simp only [body, store, h]
      have ho : ∀ z : V, Sem signed (.store v o) z v (.res .unit) := by
        cases o <;> simp [MemOrd.assertStore] at h <;> simp [Sem]
      cases a with
      | x86_64 => exact ⟨fun x => .inr ⟨rfl, ho⟩, atLeast_refl _⟩
      | _ =>
        cases o <;> simp [MemOrd.assertStore] at h <;>
        · refine ⟨by simp, fun i h' rd wr ord r hc hr => ?_⟩
          cases hc
          cases hr with
          | panic _ h => simp [Op.ordOk] at h
          | store => exact ⟨rfl, ho, atLeast_refl _⟩
  | swap v o =>
    show BodyOk _ _ (.fn (if a.byUpdate then _ else _) _)
    cases a.byUpdate with
    | true => exact ⟨fun x => .inl ⟨rfl, rfl, rfl⟩, atLeast_refl _⟩
    | false =>
      refine ⟨by simp, fun i h' rd wr ord r hc hr => ?_⟩
      cases hc
      cases hr with
      | panic _ h => simp [Op.ordOk] at h
      | swap => exact .inl ⟨rfl, ⟨rfl, rfl⟩, by cases o <;> exact atLeast_refl _⟩
  | compareExchange c n s f =>
    cases h : s.assertCas f with
    | panic =>
      simp only [body, compareExchange, h]
      cases f <;> simp [MemOrd.assertCas] at h <;> exact ⟨rfl, fun _ => by simp [wspec, Sem]⟩
    | ok =>
      simp only [body, compareExchange, h]
      have hf : f ≠ .release ∧ f ≠ .acqRel := by cases f <;> simp [MemOrd.assertCas] at h ⊢
      exact cas_ok (atomicCas_ok a c n hf) (atLeast_refl _) (atLeast_refl _) ⟨rfl, by simp [wspec, Sem, hf]⟩
        fun v hv => ⟨rfl, by simp [wspec, Sem, hf, hv rfl]⟩
  | compareExchangeWeak c n s f =>
    cases h : s.assertCas f with
    | panic =>
      simp only [body, compareExchangeWeak, h]
      cases f <;> simp [MemOrd.assertCas] at h <;> exact ⟨rfl, fun _ => by simp [wspec, Sem]⟩
    | ok =>
      simp only [body, compareExchangeWeak, h]
      have hf : f ≠ .release ∧ f ≠ .acqRel := by cases f <;> simp [MemOrd.assertCas] at h ⊢
      exact cas_ok (atomicCasWeak_ok a c n hf) (atLeast_refl _) (atLeast_refl _) ⟨rfl, by simp [wspec, Sem, hf]⟩
        fun v hv => ⟨rfl, by simp [wspec, Sem, hf]⟩
  | fetchBin b v o => exact rmw_ok _ (fun x => ⟨rfl, bin_post b x v, rfl⟩) (atLeast_refl _)
  | bin b v o => exact rmw_ok _ (fun x => ⟨rfl, bin_post b x v, rfl⟩) (atLeast_refl _)
  | fetchBinF b v o =>
    cases b with
    | nand => exact rmw_ok _ (fun x => ⟨rfl, binF_post signed .nand x v, rfl⟩) (atLeast_refl _)
    | max => exact rmw_ok _ (fun x => ⟨rfl, binF_post signed .max x v, rfl⟩) (atLeast_refl _)
    | min => exact rmw_ok _ (fun x => ⟨rfl, binF_post signed .min x v, rfl⟩) (atLeast_refl _)
  | fetchUn u o => exact fetchUn_ok a u o .res (fun x => rfl) (fun x y h => ⟨h, rfl⟩) (atLeast_refl _)
  | un u o => exact fetchUn_ok a u o dropped (fun x => rfl) (fun x y h => ⟨h, rfl⟩) (atLeast_refl _)
  | bit b n o => exact bit_ok a signed b n o
  | fetchUpdate s g f =>
    by_cases hg : g = .release ∨ g = .acqRel
    · exact .inl ⟨hg, rfl, fun x => by simp [wspec, Sem, hg]⟩
    · have hg' : g ≠ .release ∧ g ≠ .acqRel := ⟨fun e => hg (.inl e), fun e => hg (.inr e)⟩
      refine .inr ⟨hg', atLeast_refl _, fun hist x y h => ⟨rfl, ?_⟩, fun hist x h => ⟨rfl, ?_, atLeast_refl _⟩⟩
      · simp only [wspec, Sem, hg, if_false]; exact ⟨hist, .inl ⟨h, trivial⟩⟩
      · simp only [wspec, Sem, hg, if_false]; exact ⟨hist, .inr ⟨h, trivial, trivial⟩⟩

/-! ## The simulation -/

/-- `op` is still to take effect. -/
def At (S : Spec V (IOp 128) (IRes 128)) : Pc → IOp 128 → Prop
  | .start b, op => BodyOk S op b
  | .fin _, _ => False
  | .loop f o dec _, op => Does S op f dec ∧ o.AtLeast (S.succ op)
  | .upd s g f hist prev, op => f hist prev ≠ none ∧ Upd S op s g f

/-- It has, and `r` is its result. -/
def Dn : Pc → IRes 128 → Prop
  | .fin r', r => r' = r
  | .upd _ _ f hist prev, r => f hist prev = none ∧ r = .res (.err prev)
  | _, _ => False

theorem at_read {s g : MemOrd} {f : Closure V} (hist : List V) (x : V) {wr : Option V} (hw : wr = none ∨ wr = some x)
    {ord : MemOrd} (ho : ord.AtLeast g) (hu : Upd S op s g f) :
    (Skips (id : V → V) (some x) wr ∧ At S (.upd s g f hist x) op) ∨
      ∃ r', Fits S id op (some x) wr ord r' ∧ Dn (.upd s g f hist x) r' := by
  by_cases h : f hist x = none
  · obtain ⟨h1, h2, h3⟩ := hu.2.2.2 hist x h
    have h4 : ord.AtLeast (S.fail op) := fun k hk => ho k (h3 k hk)
    refine .inr ⟨.res (.err x), ?_, h, rfl⟩
    rcases hw with rfl | rfl
    · exact ⟨h1, h2, h4⟩
    · exact .inr (.inr ⟨h1, rfl, h2, h4⟩)
  · refine .inl ⟨?_, h, hu⟩
    rcases hw with rfl | rfl
    · exact .inl rfl
    · exact .inr ⟨x, x, rfl, rfl, rfl⟩

theorem call_tau {x : Fn} {k : Res V → Pc} {l : Pc} (h : call x k = .tau l) : (∀ a d, x ≠ .acc a d) ∧ l = k .panic := by
  cases x <;> simp [call] at h <;> exact ⟨by simp, h.symm⟩

theorem call_acc {x : Fn} {k : Res V → Pc} {a : Acc V} {f : Res V → Pc} (h : call x k = .acc a f) :
    ∃ d, x = .acc a d ∧ f = fun r => k (d r) := by
  cases x <;> simp [call] at h
  obtain ⟨rfl, rfl⟩ := h
  exact ⟨_, rfl, rfl⟩

theorem call_ret {x : Fn} {k : Res V → Pc} {r : IRes 128} : call x k ≠ .ret r := by cases x <;> simp [call]

theorem Reads.acc {x : Fn} {g : MemOrd} (h : Reads x g) : ∃ a d, x = .acc a d ∧ a ≠ .peek := by
  obtain ⟨a, d, e, h, -⟩ := h; exact ⟨a, d, e, h⟩

theorem Cas.acc {b : Bool} {x : Fn} {c n : V} {s g : MemOrd} (h : Cas b x c n s g) : ∃ a d, x = .acc a d ∧ a ≠ .peek := by
  obtain ⟨a, d, e, h, -⟩ := h; exact ⟨a, d, e, h⟩

theorem relaxed_ok : MemOrd.relaxed ≠ .release ∧ MemOrd.relaxed ≠ .acqRel := by decide

theorem load_eq {a : Arch} {g : MemOrd} (hg : g ≠ .release ∧ g ≠ .acqRel) : load a g = atomicLoad a g := by
  cases g <;> simp_all [load, MemOrd.assertLoad]

theorem load_panic {a : Arch} {g : MemOrd} (hg : g = .release ∨ g = .acqRel) : load a g = .panic := by
  rcases hg with rfl | rfl <;> simp [load, MemOrd.assertLoad]

theorem casWeak_eq {a : Arch} {c n : V} {s g : MemOrd} (hg : g ≠ .release ∧ g ≠ .acqRel) :
    compareExchangeWeak a c n s g = atomicCasWeak a c n s g := by
  cases g <;> simp_all [compareExchangeWeak, MemOrd.assertCas]

/-- The code on every architecture makes each operation one access. -/
def wsim (a : Arch) (signed : Bool) : WSim (code a signed) (wspec 128 signed) where
  abs := id
  inv _ := True
  at_ := At (wspec 128 signed)
  dn := Dn
  start := body_ok a signed
  tau := by
    intro l op k ha hn
    cases l with
    | start b =>
      cases b with
      | fn x dec =>
        cases x with
        | panic =>
          have hn : call .panic (fun r => .fin (dec r)) = .tau k := hn
          obtain ⟨-, rfl⟩ := call_tau hn
          exact .inr ⟨dec .panic, ha.1, ha.2, rfl⟩
        | acc => simp [code, next, call] at hn
        | update f o =>
          obtain ⟨x, d, e, -⟩ := (atomicLoad_ok a relaxed_ok).acc
          exact absurd e ((call_tau hn).1 x d)
      | fetchUpdate s g f =>
        rcases ha with ⟨hg, hk, hs⟩ | hu
        · obtain ⟨-, rfl⟩ := call_tau hn
          exact .inr ⟨.res .panic, hk, hs, rfl⟩
        · obtain ⟨x, d, e, -⟩ := (atomicLoad_ok a hu.1).acc
          exact absurd (by rw [load_eq hu.1, e]) ((call_tau hn).1 x d)
    | fin => exact ha.elim
    | loop f o dec prev =>
      obtain ⟨x, d, e, -⟩ := (atomicCasWeak_ok a prev (f prev) (s := o) relaxed_ok).acc
      exact absurd e ((call_tau hn).1 x d)
    | upd s g f hist prev =>
      cases hf : f hist prev with
      | none => exact absurd hf ha.1
      | some nx =>
        simp only [code, next, hf] at hn
        obtain ⟨x, d, e, -⟩ := (atomicCasWeak_ok a prev nx (s := s) ha.2.1).acc
        exact absurd (by rw [casWeak_eq ha.2.1, e]) ((call_tau hn).1 x d)
  peek := by
    intro l op f y ha hn
    cases l with
    | start b =>
      cases b with
      | fn x dec =>
        cases x with
        | panic => simp [code, next, call] at hn
        | acc a d =>
          have hn : call (.acc a d) (fun r => .fin (dec r)) = .acc .peek f := hn
          obtain ⟨d', e, -⟩ := call_acc hn
          cases e
          exact absurd rfl ha.1
        | update f o =>
          obtain ⟨x, d, e, h⟩ := (atomicLoad_ok a relaxed_ok).acc
          obtain ⟨d', e', -⟩ := call_acc hn
          rw [e] at e'; cases e'
          exact absurd rfl h
      | fetchUpdate s g f =>
        obtain ⟨d', e', -⟩ := call_acc hn
        rcases ha with ⟨hg, hk, hs⟩ | hu
        · rw [load_panic hg] at e'; cases e'
        · obtain ⟨x, d, e, h⟩ := (atomicLoad_ok a hu.1).acc
          rw [load_eq hu.1, e] at e'; cases e'
          exact absurd rfl h
    | fin => exact ha.elim
    | loop f o dec prev =>
      obtain ⟨d', e', -⟩ := call_acc hn
      obtain ⟨x, d, e, h⟩ := (atomicCasWeak_ok a prev (f prev) (s := o) relaxed_ok).acc
      rw [e] at e'; cases e'
      exact absurd rfl h
    | upd s g f hist prev =>
      cases hf : f hist prev with
      | none => exact absurd hf ha.1
      | some nx =>
        simp only [code, next, hf] at hn
        obtain ⟨d', e', -⟩ := call_acc hn
        obtain ⟨x, d, e, h⟩ := (atomicCasWeak_ok a prev nx (s := s) ha.2.1).acc
        rw [casWeak_eq ha.2.1, e] at e'; cases e'
        exact absurd rfl h
  acc := by
    intro l op x f i g rd wr ord r ha hn hc ho _
    refine ⟨fun _ _ => trivial, ?_⟩
    cases l with
    | start b =>
      cases b with
      | fn y dec =>
        cases y with
        | panic => simp [code, next, call] at hn
        | acc y d =>
          have hn : call (.acc y d) (fun r => .fin (dec r)) = .acc x f := hn
          obtain ⟨d', e, rfl⟩ := call_acc hn
          cases e
          obtain ⟨g', hc', e⟩ := calls_comp (k := Pc.fin) hc
          exact .inr ⟨g' r, ha.2 _ _ _ _ _ _ hc' ho, by rw [e]; rfl⟩
        | update f' o =>
          obtain ⟨d', e, rfl⟩ := call_acc hn
          obtain ⟨y, d, e', -, h⟩ := atomicLoad_ok a relaxed_ok
          rw [e] at e'; cases e'
          obtain ⟨v, e1, rfl, e3, -⟩ := h _ i g rd wr ord r hc ho
          refine .inl ⟨?_, ?_⟩
          · rcases e3 with rfl | rfl
            · exact .inl rfl
            · exact .inr ⟨v, v, rfl, rfl, rfl⟩
          · rw [e1]; exact ha
      | fetchUpdate s q f' =>
        obtain ⟨d', e, rfl⟩ := call_acc hn
        rcases ha with ⟨hg, hk, hs⟩ | hu
        · rw [load_panic hg] at e; cases e
        · obtain ⟨y, d, e', -, h⟩ := atomicLoad_ok a hu.1
          rw [load_eq hu.1, e'] at e; cases e
          obtain ⟨v, e1, rfl, e3, e4⟩ := h _ i g rd wr ord r hc ho
          rw [e1]
          exact at_read [] v e3 e4 hu
    | fin => exact ha.elim
    | loop f' o dec prev =>
      obtain ⟨d', e, rfl⟩ := call_acc hn
      obtain ⟨y, d, e', -, h⟩ := atomicCasWeak_ok a prev (f' prev) (s := o) relaxed_ok
      rw [e] at e'; cases e'
      rcases h _ i g rd wr ord r hc ho with ⟨e1, rfl, rfl, rfl⟩ | ⟨v, e1, rfl, rfl, -, -⟩
      · rw [e1]
        refine .inr ⟨dec (.val prev), ?_, rfl⟩
        rcases ha.1 prev with ⟨h1, h2⟩ | ⟨h1, h2⟩
        · exact .inl ⟨h1, h2, ha.2⟩
        · exact .inr (.inl ⟨h1, h2, ha.2⟩)
      · rw [e1]; exact .inl ⟨.inl rfl, ha⟩
    | upd s q f' hist prev =>
      cases hf : f' hist prev with
      | none => exact absurd hf ha.1
      | some nx =>
        simp only [code, next, hf] at hn
        obtain ⟨d', e, rfl⟩ := call_acc hn
        obtain ⟨y, d, e', -, h⟩ := atomicCasWeak_ok a prev nx (s := s) ha.2.1
        rw [casWeak_eq ha.2.1, e'] at e; cases e
        rcases h _ i g rd wr ord r hc ho with ⟨e1, rfl, rfl, rfl⟩ | ⟨v, e1, rfl, rfl, rfl, -⟩
        · rw [e1]
          obtain ⟨k1, k2⟩ := ha.2.2.2.1 hist prev nx hf
          exact .inr ⟨_, .inl ⟨k1, k2, ha.2.2.1⟩, rfl⟩
        · rw [e1]; exact at_read _ v (.inl rfl) (atLeast_refl _) ha.2
  ret := by
    intro l op r ha hn
    cases l with
    | start b =>
      cases b with
      | fn x dec =>
        cases x with
        | update => exact call_ret hn
        | _ => simp [code, next, call] at hn
      | fetchUpdate => exact call_ret hn
    | fin => exact ha
    | loop => exact call_ret hn
    | upd s g f hist prev =>
      cases hf : f hist prev with
      | none => exact ha.1 hf
      | some nx => simp only [code, next, hf] at hn; exact call_ret hn
  tau_dn := by
    intro l r k hd hn
    cases l with
    | start => exact hd.elim
    | fin => simp [code, next] at hn
    | loop => exact hd.elim
    | upd s g f hist prev => simp [code, next, hd.1] at hn
  acc_dn := by
    intro l r x f hd hn
    cases l with
    | start => exact hd.elim
    | fin => simp [code, next] at hn
    | loop => exact hd.elim
    | upd s g f hist prev => simp [code, next, hd.1] at hn
  ret_dn := by
    intro l r r' hd hn
    cases l with
    | start => exact hd.elim
    | fin q =>
      simp only [code, next, Next.ret.injEq] at hn
      exact hn.symm.trans hd
    | loop => exact hd.elim
    | upd s g f hist prev =>
      simp only [code, next, hd.1, Next.ret.injEq] at hn
      exact hn.symm.trans hd.2.symm

/-! ## The property -/

/-- **C59 (native).**  Every operation of `AtomicI128`/`AtomicU128` is one access with the orderings asked for. -/
theorem intr_weak_memory {X : Type} (a : Arch) (signed : Bool) (v0 : Obj → V) (x0 : Nat → X)
    {ho : List (WM.Derived.Ev (IOp 128) (IRes 128) X)} (h : Over (code a signed) (Native.Behaviour v0 x0) ho) :
    WM.Derived.Behaviour (wspec 128 signed) v0 x0 ho :=
  wrap_refines (wsim a signed) v0 x0 (fun _ => trivial) h

/-- **C59 (lock).**  The same where all compare-exchanges go to the lock-based fallback. -/
theorem intr_weak_memory_lock {X : Type} (signed : Bool) {cfg : Cfg V} (ok : cfg.Ok) (v0 : Obj → V) (x0 : Nat → X)
    {ho : List (WM.Derived.Ev (IOp 128) (IRes 128) X)}
    (h : Over (code .x86_64 signed) (fun hi => Lock.Behaviour cfg v0 x0 hi ∧ Lock.calls hi < cfg.maxOverlap) ho) :
    WM.Derived.Behaviour (wspec 128 signed) v0 x0 ho :=
  lock_refines (wsim .x86_64 signed) ok v0 x0 (fun _ => trivial) h

/-- **C59 (orderings).** -/
theorem intr_promises {X : Type} (a : Arch) (signed : Bool) (v0 : Obj → V) (x0 : Nat → X)
    {ho : List (WM.Derived.Ev (IOp 128) (IRes 128) X)} (h : Over (code a signed) (Native.Behaviour v0 x0) ho) :
    (wspec 128 signed).Promises v0 ho :=
  promises (Int.legal _ _) (intr_weak_memory a signed v0 x0 h)

theorem intr_promises_lock {X : Type} (signed : Bool) {cfg : Cfg V} (ok : cfg.Ok) (v0 : Obj → V) (x0 : Nat → X)
    {ho : List (WM.Derived.Ev (IOp 128) (IRes 128) X)}
    (h : Over (code .x86_64 signed) (fun hi => Lock.Behaviour cfg v0 x0 hi ∧ Lock.calls hi < cfg.maxOverlap) ho) :
    (wspec 128 signed).Promises v0 ho :=
  promises (Int.legal _ _) (intr_weak_memory_lock signed ok v0 x0 h)

/-- **C59 (lock-free).**  `is_lock_free()` says whether the native compare-exchange is used, and a type that is
always lock-free is so whatever is detected. -/
theorem intr_lock_free (a : Arch) (ct rt : Bool) : isLockFree a ct rt = native a ct rt ∧
    (isAlwaysLockFree a ct = true ↔ ∀ rt, isLockFree a ct rt = true) := by
  cases a <;> cases ct <;> cases rt <;> simp [isLockFree, native, isAlwaysLockFree]

end Verif.Intr

/-! ## The hypotheses are met -/

namespace Verif.Intr.Demo
open Verif.Int Verif.WM Verif.WM.Derived Verif.WM.WmDemo

/-- x86_64 without `cmpxchg16b`: thread 0 sets its variable to 7 and stores 9 with `Release` (exchanging 0 for 0 to
read, then 5 for 9); thread 1 loads with `Acquire` and reads the variable. -/
def outer : List (WCmd V (IOp 128) Nat) :=
  [.client 0 (.store 0 7 .relaxed) none, .call 0 0 (.store 9 .release), .acc 0 false, .res 0 (.err 5),
   .acc 0 false, .res 0 (.ok 5), .ret 0,
   .call 1 0 (.load .acquire), .acc 1 false, .res 1 (.err 9), .ret 1, .client 1 (.load 0 .relaxed) (some 7)]

def inner : List (Lock.Cmd V Nat) :=
  [.store 0 0 7 .relaxed, .call 0 0 (.cas 0 0 .relaxed .relaxed)] ++ List.replicate 5 (.go 0 0) ++ [.ret 0 (.err 5),
   .call 0 0 (.cas 5 9 .release .relaxed)] ++ List.replicate 7 (.go 0 0) ++ [.ret 0 (.ok 5),
   .call 1 0 (.cas 0 0 .acquire .acquire)] ++ List.replicate 5 (.go 1 0) ++ [.ret 1 (.err 9), .load 1 0 .relaxed 0 7]

theorem inner_runs : (Lock.run s0 inner).isSome = true := by decide +kernel

def hist : List (Derived.Ev (IOp 128) (IRes 128) Nat) :=
  [.client 0 (.store 0 7 .relaxed) none, .inv 0 0 (.store 9 .release), .ret 0 (.res .unit),
   .inv 1 0 (.load .acquire), .ret 1 (.res (.val 9)), .client 1 (.load 0 .relaxed) (some 7)]

theorem runs : ∃ w, wrun (code .x86_64 false) (X := Nat) ⟨[], [], fun _ => .idle⟩ outer = some w ∧
    w.hi = inner.filterMap Lock.Cmd.ev ∧ w.ho = hist := ⟨_, rfl, rfl, rfl⟩

theorem over_lock : Over (code .x86_64 false)
    (fun hi => Lock.Behaviour cfg (fun _ => 5) (fun _ => (0 : Nat)) hi ∧ Lock.calls hi < cfg.maxOverlap) hist := by
  obtain ⟨w, h1, h2, h3⟩ := runs
  have := over_of_run (B := fun hi => Lock.Behaviour cfg (fun _ => 5) (fun _ => (0 : Nat)) hi ∧ Lock.calls hi < cfg.maxOverlap)
    h1 (by rw [h2]; exact ⟨behaviour inner_runs, small (by decide)⟩)
  rwa [h3] at this

example : WM.Derived.Behaviour (wspec 128 false) (fun _ => 5) (fun _ => (0 : Nat)) hist :=
  intr_weak_memory_lock false ok _ _ over_lock

/-- A load of 0 on x86_64 writes 0: thread 1's `Acquire` load still gets what thread 0's `Release` stored, through
thread 2's relaxed load. -/
def inner0 : List (Lock.Cmd V Nat) :=
  [.store 0 0 7 .relaxed, .call 0 0 (.cas 0 0 .relaxed .relaxed), .go 0 0, .ret 0 (.err 5),
   .call 0 0 (.cas 5 0 .release .relaxed), .go 0 0, .ret 0 (.ok 5),
   .call 2 0 (.cas 0 0 .relaxed .relaxed), .go 2 0, .ret 2 (.ok 0),
   .call 1 0 (.cas 0 0 .acquire .acquire), .go 1 0, .ret 1 (.ok 0), .load 1 0 .relaxed 0 7]

example : WM.Derived.Behaviour (wspec 128 false) (fun _ => 5) (fun _ => (0 : Nat))
    [.client 0 (.store 0 7 .relaxed) none, .inv 0 0 (.fetchBin .and 0 .release), .ret 0 (.res (.val 5)),
     .inv 2 0 (.load .relaxed), .ret 2 (.res (.val 0)), .inv 1 0 (.load .acquire), .ret 1 (.res (.val 0)),
     .client 1 (.load 0 .relaxed) (some 7)] := by
  have hr : ∃ w, wrun (code .x86_64 false) (X := Nat) ⟨[], [], fun _ => .idle⟩
      [.client 0 (.store 0 7 .relaxed) none, .call 0 0 (.fetchBin .and 0 .release), .acc 0 false, .res 0 (.err 5),
       .acc 0 false, .res 0 (.ok 5), .ret 0, .call 2 0 (.load .relaxed), .acc 2 false, .res 2 (.ok 0), .ret 2,
       .call 1 0 (.load .acquire), .acc 1 false, .res 1 (.ok 0), .ret 1, .client 1 (.load 0 .relaxed) (some 7)] = some w ∧
      w.hi = inner0.filterMap Lock.Cmd.ev ∧ w.ho =
      [.client 0 (.store 0 7 .relaxed) none, .inv 0 0 (.fetchBin .and 0 .release), .ret 0 (.res (.val 5)),
       .inv 2 0 (.load .relaxed), .ret 2 (.res (.val 0)), .inv 1 0 (.load .acquire), .ret 1 (.res (.val 0)),
       .client 1 (.load 0 .relaxed) (some 7)] := ⟨_, rfl, rfl, rfl⟩
  obtain ⟨w, h1, h2, h3⟩ := hr
  have hb : Native.Behaviour (fun _ => (5 : V)) (fun _ => (0 : Nat)) (inner0.filterMap Lock.Cmd.ev) :=
    Native.behaviour_of_run (by decide +kernel)
  have := intr_weak_memory .x86_64 false (fun _ => 5) (fun _ => (0 : Nat)) (over_of_run h1 (by rw [h2]; exact hb))
  rwa [h3] at this

end Verif.Intr.Demo
