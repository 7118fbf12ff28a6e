/-
Programs that question the platform.

A platform probe (`_detect` in `src/imp/detect/*.rs`) is a straight-line program that executes a few
instructions and system calls and looks at the answers.  Here it is a tree: it is done, or asks one
question and continues depending on the answer.  Nothing is assumed about the answers: every
answer of the right type is possible at every question, also different answers to the same question
asked twice.
-/
set_option autoImplicit false

namespace Verif.Detect

/-- The four registers CPUID writes (`core::arch::x86_64::CpuidResult`). -/
structure Cpuid where
  eax : BitVec 32
  ebx : BitVec 32
  ecx : BitVec 32
  edx : BitVec 32

/-- The fields of NetBSD's `aarch64_sysctl_cpu_id` that are looked at
(detect/aarch64_aa64reg.rs L187-L215). -/
structure CpuId where
  isar0 : BitVec 64
  isar1 : BitVec 64
  mmfr2 : BitVec 64

/-- One pair of `riscv_hwprobe` (detect/riscv_linux.rs L21-L27): `key` is an `i64`. -/
structure HwprobePair where
  key : BitVec 64
  value : BitVec 64
deriving DecidableEq

/-- The questions: instructions, C library functions and system calls used by `src/imp/detect/`. -/
inductive Query
  /-- `cpuid` with `eax`, `ecx`: detect/x86_64.rs L30-L51 -/
  | cpuid (leaf subleaf : BitVec 32)
  /-- `xgetbv` with `ecx`: detect/x86_64.rs L75 -/
  | xgetbv (i : BitVec 32)
  /-- `dlsym(RTLD_DEFAULT, symbol)`: detect/auxv.rs L320, L470 -/
  | dlsym (symbol : String)
  /-- `getauxval(type)`, called through `fn` (`none`: the linked function): auxv.rs L329 -/
  | getauxval (fn : Option (BitVec 64)) (type : Nat)
  /-- `elf_aux_info(aux, &out, size_of(c_ulong))`: auxv.rs L479-L486 -/
  | elfAuxInfo (fn : Option (BitVec 64)) (aux : Nat)
  /-- `__system_property_get(name, buf)`: auxv.rs L571-L580 -/
  | systemProperty (name : String)
  /-- NetBSD `sysctlbyname(name, &buf: aarch64_sysctl_cpu_id)`: aarch64_aa64reg.rs L248-L278 -/
  | sysctlCpuId (name : String)
  /-- OpenBSD `sysctl(mib, &out: u64)`: aarch64_aa64reg.rs L364-L390 -/
  | sysctl64 (mib : List Nat)
  /-- Apple `sysctlbyname(name, &out: u32)`: aarch64_apple.rs L66-L89 -/
  | sysctl32 (name : String)
  /-- `riscv_hwprobe(pairs, 2, 0, null, 0)`: riscv_linux.rs L120-L125 -/
  | hwprobe (key0 key1 : BitVec 64)
  /-- AIX `getsystemcfg(name)`: powerpc64_aix.rs L46 -/
  | getsystemcfg (name : Nat)
  /-- `IsProcessorFeaturePresent(id)`: aarch64_windows.rs L54 -/
  | isProcessorFeaturePresent (id : Nat)
  /-- `zx_system_get_features(kind, &out)`: aarch64_fuchsia.rs L41-L49 -/
  | zxSystemGetFeatures (kind : Nat)
  /-- illumos `getisax(array, n)`: aarch64_illumos.rs L41-L46 -/
  | getisax (n : Nat)

/-- What an answer looks like.  Calls that return a status and fill a buffer answer with both; the
buffer is the caller's buffer after the call, whatever the status.  `c_ulong` is 64 bits (a 32-bit
one is zero-extended). -/
@[reducible] def Query.Ans : Query → Type
  | .cpuid _ _ => Cpuid
  | .xgetbv _ => BitVec 64
  | .dlsym _ => BitVec 64
  | .getauxval _ _ => BitVec 64
  | .elfAuxInfo _ _ => Int × BitVec 64
  | .systemProperty _ => Int × List (BitVec 8)
  | .sysctlCpuId _ => Int × CpuId
  | .sysctl64 _ => Int × BitVec 64
  | .sysctl32 _ => Int × BitVec 32
  | .hwprobe _ _ => Int × HwprobePair × HwprobePair
  | .getsystemcfg _ => BitVec 64
  | .isProcessorFeaturePresent _ => Int
  | .zxSystemGetFeatures _ => Int × BitVec 32
  | .getisax _ => BitVec 32 × BitVec 32

/-- A question with the answer it got. -/
structure Said where
  q : Query
  r : q.Ans

/-- A program that asks questions and ends with a value. -/
inductive Ask (α : Type) : Type
  | done (a : α)
  | ask (q : Query) (k : q.Ans → Ask α)

namespace Ask
variable {α β : Type}

/-- One after the other. -/
def bind : Ask α → (α → Ask β) → Ask β
  | .done a, f => f a
  | .ask q k, f => .ask q (fun r => (k r).bind f)

instance : Monad Ask where
  pure := .done
  bind := bind

/-- The executions: the questions asked with their answers, in order, and the result. -/
inductive Runs : Ask α → List Said → α → Prop
  | done (a : α) : Runs (.done a) [] a
  | ask {q : Query} {k : q.Ans → Ask α} {tr : List Said} {a : α} (r : q.Ans)
      (h : Runs (k r) tr a) : Runs (.ask q k) (⟨q, r⟩ :: tr) a

/-- The result on a platform with one answer per question. -/
def eval (P : (q : Query) → q.Ans) : Ask α → α
  | .done a => a
  | .ask q k => (k (P q)).eval P

theorem pure_eq (a : α) : (pure a : Ask α) = .done a := rfl

theorem done_bind (a : α) (f : α → Ask β) : (Ask.done a >>= f) = f a := rfl

theorem ask_bind (q : Query) (k : q.Ans → Ask α) (f : α → Ask β) :
    (Ask.ask q k >>= f) = .ask q (fun r => k r >>= f) := rfl

theorem runs_done {a b : α} {tr : List Said} : Runs (.done a) tr b ↔ tr = [] ∧ b = a :=
  ⟨fun h => by cases h; exact ⟨rfl, rfl⟩, by rintro ⟨rfl, rfl⟩; exact .done _⟩

theorem runs_ask {q : Query} {k : q.Ans → Ask α} {tr : List Said} {a : α} :
    Runs (.ask q k) tr a ↔ ∃ r tr', tr = ⟨q, r⟩ :: tr' ∧ Runs (k r) tr' a :=
  ⟨fun h => by cases h with | ask r h => exact ⟨r, _, rfl, h⟩,
    by rintro ⟨r, tr', rfl, h⟩; exact .ask r h⟩

/-- Every program can run to its end, whatever the answers. -/
theorem runs_eval (P : (q : Query) → q.Ans) (p : Ask α) :
    ∃ tr, Runs p tr (p.eval P) ∧ ∀ s ∈ tr, s.r = P s.q := by
  induction p with
  | done a => exact ⟨[], .done a, by simp⟩
  | ask q k ih =>
      obtain ⟨tr, h, ht⟩ := ih (P q)
      refine ⟨⟨q, P q⟩ :: tr, .ask (P q) h, ?_⟩
      intro s hs
      rcases List.mem_cons.1 hs with rfl | hs
      · rfl
      · exact ht s hs

end Ask

/-- Ask one question. -/
def ask (q : Query) : Ask q.Ans := .ask q .done

end Verif.Detect
