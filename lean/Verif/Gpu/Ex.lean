import Verif.Gpu.Props
import Verif.Env.InitProps
/-!
# C103: where the library does not respect what MPI supports; hypotheses are met
-/
namespace Verif.Gpu
open Verif.Env (MemKind RmaOp)

/-- a driver as of CUDA 11 and Level Zero -/
def exD : Driver where
  cuda := fun w => if w = .device .cuda then .success .device else if w = .managed .cuda then .success .managed
    else if w = .pinned .cuda then .success .host else .success .unregistered
  ze := fun w => if w = .device .ze then .success .device else if w = .managed .ze then .success .shared
    else if w = .pinned .ze then .success .host else .success .unknown

theorem exD_good : exD.Good where
  cdev := rfl
  cman := rfl
  cpin := rfl
  cother := fun w h1 h2 h3 => .inl (by unfold exD; simp only [if_neg h1, if_neg h2, if_neg h3])
  zdev := rfl
  zman := rfl
  zpin := rfl
  zother := fun w h1 h2 h3 => by unfold exD; simp only [if_neg h1, if_neg h2, if_neg h3]

/-- the default build for CUDA, with given features and AMO operations -/
def exC (cuda ze : Bool) (amoOps gpu : Nat) : Cfg :=
  ⟨cuda, ze, ⟨true, .auto, .auto, .auto⟩, ⟨2 ^ 27, false, false, false, false, amoOps, gpu, .auto, .auto, true, true⟩⟩

/-- a program with a CUDA space: create, put from a device buffer, get into managed memory, atomics on the heap, destroy -/
def exP : List Op := [.create 7 1, .create 8 5, .call (some 7) (.put (.device .cuda) 3), .call (some 8) (.get (.device .cuda) 1),
  .call (some 7) (.get (.managed .cuda) 2), .call none .amo, .destroy 7]

/-- the hypotheses of the theorems hold of it, the run succeeds and device memory is accessed -/
example : Correct [] exP ∧ (exC true false (2 ^ 14 - 1) 15).Auto ∧ (∀ o ∈ exP, Respects (exC true false (2 ^ 14 - 1) 15) o) := by
  refine ⟨⟨by simp, by simp, (fun n h => by cases h; simp), (fun n h => by cases h; simp), (fun n h => by cases h; simp),
    (fun n h => by cases h), by simp, trivial⟩, ⟨rfl, rfl⟩, ?_⟩
  · intro o ho
    unfold exP at ho
    simp only [List.mem_cons, List.not_mem_nil, or_false] at ho
    rcases ho with rfl | rfl | rfl | rfl | rfl | rfl | rfl
    · trivial
    · trivial
    · intro v h; cases h; rfl
    · intro v h; cases h; rfl
    · intro v h; cases h
    · trivial
    · trivial

example : ∃ s, run (exC true false (2 ^ 14 - 1) 15) exD init exP = .ok s ∧ s.spaces = [⟨8, .host, .host⟩] ∧ s.live = [(8, .host)] ∧
    s.log = [⟨.put, .device .cuda⟩, ⟨.put, .device .cuda⟩, ⟨.get, .device .cuda⟩, ⟨.get, .host⟩, ⟨.get, .managed .cuda⟩,
      ⟨.get, .device .cuda⟩, ⟨.cpu, .host⟩] := ⟨_, rfl, rfl, rfl, rfl⟩

/-- with `pt2pt` only the same program goes by messages; with no features it aborts -/
example : (∃ s, run (exC true false (2 ^ 14 - 1) 1) exD init exP = .ok s ∧ s.log.head? = some ⟨.pt2pt, .device .cuda⟩) ∧
    run (exC true false (2 ^ 14 - 1) 0) exD init exP = .abort := ⟨⟨_, rfl, rfl⟩, rfl⟩

/-- both outcomes of `C103_rma_partial`, and of `C103_create` -/
example : accesses (exC true false 0 0) exD .host .host (callOf .put (.device .cuda) 1) = .abort ∧
    accesses (exC true false 0 1) exD .host .host (callOf .put (.device .cuda) 1) = .ok [⟨.pt2pt, .device .cuda⟩, ⟨.pt2pt, .host⟩] ∧
    spaceAlloc (exC true false 0 0) 2 = .abort ∧ spaceAlloc (exC true false 0 0) (-3) = .ok (.host, .host) := ⟨rfl, rfl, rfl, rfl⟩

/-! ## Violations -/

/-- Violation. In the default build without any environment variable every atomic on a space in device memory is computed by the CPU of the
target PE on device memory (a fault), whatever MPI supports: `OSHMPI_AMO_OPS` is "all", so AMOs are active messages, and their handlers
use plain C operators. -/
theorem C103_amo_fails (cuda ze : Bool) (b : Env.Build) (hb : b.amo = .auto) (v : Env.Vals) (hv : Env.initEnv b (fun _ => none) = .ok v)
    (d : Driver) (k : MemKind) (w : Vendor) :
    accesses ⟨cuda, ze, b, v⟩ d k (.device w) .amo = .ok [⟨.cpu, .device w⟩] ∧ ∀ f, ¬ Supported f ⟨.cpu, .device w⟩ := by
  rw [Env.C100_default] at hv
  have h1 : v.amoOps = 2 ^ 14 - 1 := by cases hv; rfl
  have h2 : v.amoDbg = .auto := by cases hv; rfl
  refine ⟨?_, fun f h => h w rfl⟩
  have : directAmo ⟨cuda, ze, b, v⟩ = false := by
    unfold directAmo
    dsimp only
    rw [hb, h1, h2]
    decide +kernel
  unfold accesses
  rw [this]
  rfl

/-- Violation. Direct atomics (here: only `add` is declared) on a space in device memory are accumulate operations even if the user says that
MPI does not support those on device memory; the library does not look at the feature and does not abort. -/
theorem C103_acc_fails : ∃ s, run (exC true false (2 ^ 4) 7) exD init [.create 7 1, .call (some 7) .amo] = .ok s ∧
    s.log = [⟨.acc, .device .cuda⟩] ∧ ¬ Supported 7 ⟨.acc, .device .cuda⟩ := by
  refine ⟨_, rfl, ?_, fun h => absurd (h .cuda rfl) (by decide)⟩
  decide +kernel

/-- the calls that touch device memory with the CPU in every configuration and whatever MPI supports -/
theorem C103_cpu_fails (c : Cfg) (d : Driver) (k : MemKind) (v : Vendor) (q : Call)
    (hq : q = .setLock ∨ q = .clearLock true ∨ (∃ n, n ≠ 0 ∧ q = .calloc n) ∨ ∃ s n, n ≠ 0 ∧ q = .bcastRoot s (.device v) n) :
    ∃ l, accesses c d k (.device v) q = .ok l ∧ ∃ a ∈ l, ∀ f, ¬ Supported f a := by
  have hn : ∀ f, ¬ Supported f ⟨.cpu, .device v⟩ := fun f h => h v rfl
  rcases hq with rfl | rfl | ⟨n, h0, rfl⟩ | ⟨s, n, h0, rfl⟩
  · exact ⟨_, rfl, ⟨.cpu, .device v⟩, by simp, hn⟩
  · exact ⟨_, rfl, ⟨.cpu, .device v⟩, by simp, hn⟩
  · exact ⟨[⟨.cpu, .device v⟩], by unfold accesses; simp only [if_neg h0], ⟨.cpu, .device v⟩, by simp, hn⟩
  · exact ⟨[⟨.cpu, s⟩, ⟨.cpu, .device v⟩], by unfold accesses; simp only [if_neg h0], ⟨.cpu, .device v⟩, by simp, hn⟩

/-- Violation. Waiting on a flag in device memory uses an accumulate operation whatever MPI supports. -/
theorem C103_wait_fails (c : Cfg) (d : Driver) (k : MemKind) (v : Vendor) (hf : c.v.gpu.testBit 3 = false) :
    accesses c d k (.device v) .test = .ok [⟨.acc, .device v⟩] ∧ ¬ Supported c.v.gpu ⟨.acc, .device v⟩ :=
  ⟨rfl, fun h => by have := h v rfl; dsimp only at this; rw [hf] at this; cases this⟩

/-- Violation. In a library built for both kinds of devices a Level Zero buffer is not recognised: a put from it into the heap is made
with `MPI_Put` although MPI supports no device buffers at all. -/
theorem C103_both_fails : accesses (exC true true 0 0) exD .host .host (.put (.device .ze) 1) = .ok [⟨.put, .device .ze⟩, ⟨.put, .host⟩] ∧
    ¬ Supported 0 ⟨.put, .device .ze⟩ := ⟨rfl, fun h => absurd (h .ze rfl) (by decide)⟩

/-- Violation (documented as an assumption, space_impl.c L311): if a PE created its part of the space in host memory and the target in device
memory, the caller goes by its own kind. -/
theorem C103_mixed_fails : accesses (exC true false 0 0) exD .host (.device .cuda) (.put .host 1) = .ok [⟨.put, .host⟩, ⟨.put, .device .cuda⟩] ∧
    ¬ Supported 0 ⟨.put, .device .cuda⟩ := ⟨rfl, fun h => absurd (h .cuda rfl) (by decide)⟩

/-- Violation. `--enable-rma=direct` (recommended in README.md L60-62) ignores the features. -/
theorem C103_forced_fails (c : Cfg) (hc : c.build.rma = .direct) (d : Driver) (v : Vendor) (k : MemKind) (hf : c.v.gpu.testBit 1 = false) :
    accesses c d k (.device v) (.put .host 1) = .ok [⟨.put, .host⟩, ⟨.put, .device v⟩] ∧ ¬ Supported c.v.gpu ⟨.put, .device v⟩ := by
  refine ⟨?_, fun h => by have := h v rfl; dsimp only at this; rw [hf] at this; cases this⟩
  unfold accesses direct
  rw [hc]; rfl

end Verif.Gpu
