import Verif.Stub.Model
import Verif.P2p.Props
/-!
# Property C69: a routine that is not implemented does not pretend to have done its work
-/
namespace Verif.Stub
open Verif.P2p

/-- read `k` of element `i` satisfies the condition -/
def Vec.sat {t : CTy} (v : Vec t) (c : Cmp) (k i : Nat) : Prop := c.rel (t.val (v.obs k i)) (t.val (v.val i))

/-- `SIZE_MAX`: no element -/
def sizeMax : BitVec 64 := BitVec.allOnes 64

/-- OpenSHMEM 1.5, `wait_until_all`: returns only when all elements not excluded have satisfied the condition -/
def WaitAllOk {t : CTy} (v : Vec t) (c : Cmp) : Prop := ∀ i < v.n, v.excl i = false → ∃ k, v.sat c k i

/-- `wait_until_any`, `test_any`: returns the index of such an element, or `SIZE_MAX` (`wait`: only if all are excluded) -/
def AnyOk {t : CTy} (v : Vec t) (c : Cmp) (wait : Bool) (r : BitVec 64) : Prop :=
  (r.toNat < v.n ∧ v.excl r.toNat = false ∧ ∃ k, v.sat c k r.toNat) ∨
  (r = sizeMax ∧ (wait = true → ∀ i < v.n, v.excl i = true))

/-- `wait_until_some`, `test_some`: returns how many such elements it found, their indices are stored -/
def SomeOk {t : CTy} (v : Vec t) (c : Cmp) (idx : Nat → BitVec 64) (r : BitVec 64) : Prop :=
  r.toNat ≤ v.n ∧ ∀ j < r.toNat, (idx j).toNat < v.n ∧ v.excl (idx j).toNat = false ∧ ∃ k, v.sat c k (idx j).toNat

/-- `test_all`: nonzero only if all elements not excluded satisfy the condition -/
def TestAllOk {t : CTy} (v : Vec t) (c : Cmp) (r : Int) : Prop := r ≠ 0 → ∀ i < v.n, v.excl i = false → ∃ k, v.sat c k i

/-- put with signal: the data is there -/
def PutOk (m m' : Nat → Int → BitVec 8) (me : Nat) (dest src : Int) (nbytes : Nat) (pe : Nat) : Prop :=
  ∀ i : Nat, i < nbytes → m' pe (dest + i) = m me (src + i)

/-- C69. In full: whatever the build, a routine that returns has done what OpenSHMEM says. Proved for the default build: none of the
routines returns, whatever the arguments and the memory; all abort the program. Missing: `--enable-fast=ndebug`, where the
statement is false (`C69_ndebug_fails`). -/
theorem C69_abort_partial :
    (∀ (t : CTy) (v : Vec t), waitAll false v = .abort ∧ waitAny false v = .abort ∧ testAll false v = .abort ∧ testAny false v = .abort ∧
      ∀ idx, waitSome false v idx = .abort ∧ testSome false v idx = .abort) ∧
    (∀ m dest src n sig s add pe, putSignal false m dest src n sig s add pe = .abort) ∧
    (∀ w, signalFetch false w = .abort) ∧ (∀ obs op val, signalWait false obs op val = .abort) :=
  ⟨fun _ _ => ⟨rfl, rfl, rfl, rfl, fun _ => ⟨rfl, rfl⟩⟩, fun _ _ _ _ _ _ _ _ => rfl, fun _ => rfl, fun _ _ _ => rfl⟩

/-- a vector of `n` zeros that all wait for 1 -/
def zeros (t : CTy) (n : Nat) : Vec t := ⟨fun _ _ => 0, n, fun _ => false, Cmp.eq.code, fun _ => 1⟩

theorem zeros_not {t : CTy} (h : 1 < t.bits) (n k i : Nat) : ¬ (zeros t n).sat .eq k i := by
  show ¬ (t.val 0 = t.val 1)
  have h2 : (2 : Nat) ^ 2 ≤ 2 ^ t.bits := Nat.pow_le_pow_right (by decide) (by omega)
  have hn : (1 : BitVec t.bits).toNat = 1 := by
    have h3 : (1 : Nat) < 2 ^ t.bits := Nat.lt_of_lt_of_le (by decide) h2
    rw [BitVec.ofNat_eq_ofNat, BitVec.toNat_ofNat, Nat.mod_eq_of_lt h3]
  unfold CTy.val
  split
  · have h1 : (1 : BitVec t.bits).toInt = 1 := by
      rw [BitVec.toInt_eq_toNat_of_lt (by rw [hn]; omega), hn]
      rfl
    rw [h1]
    simp
  · rw [hn]
    simp

/-- **The code violates C69** when built with `--enable-fast=ndebug`: for every type of the interface and every number of elements from
1 on below the largest, all zero, `wait_until_all`/`any`/`some` for the value 1 return at once, `test_all` says all are 1, `any` returns the index
2^64-2 and `some` that number of elements; put with signal returns without having put anything, `signal_fetch` returns 2^64-2
whatever the signal is. -/
theorem C69_ndebug_fails (t : CTy) (ht : t ∈ types) (n : Nat) (h0 : 0 < n) (hn : n < 2 ^ 64 - 2) :
    (waitAll true (zeros t n) = .ok () ∧ ¬ WaitAllOk (zeros t n) .eq) ∧
    (∃ r, waitAny true (zeros t n) = .ok r ∧ ¬ AnyOk (zeros t n) .eq true r) ∧
    (∃ r, testAny true (zeros t n) = .ok r ∧ ¬ AnyOk (zeros t n) .eq false r) ∧
    (∀ idx, ∃ r, waitSome true (zeros t n) idx = .ok (idx, r) ∧ ¬ SomeOk (zeros t n) .eq idx r) ∧
    (∀ idx, ∃ r, testSome true (zeros t n) idx = .ok (idx, r) ∧ ¬ SomeOk (zeros t n) .eq idx r) ∧
    (∃ r, testAll true (zeros t n) = .ok r ∧ ¬ TestAllOk (zeros t n) .eq r) ∧
    (∃ m m', putSignal true m 0 0 n 8 1 false 1 = .ok m' ∧ ¬ PutOk m m' 0 0 0 n 1) ∧
    (∃ w r, signalFetch true w = .ok r ∧ r ≠ w) := by
  have hb : 1 < t.bits := by
    simp only [types, List.mem_cons, List.not_mem_nil, or_false] at ht
    rcases ht with rfl | rfl | rfl | rfl | rfl | rfl | rfl | rfl | rfl | rfl | rfl | rfl | rfl | rfl <;> decide
  have hs : ∀ k i, ¬ (zeros t n).sat .eq k i := zeros_not hb n
  have hr : (asSize otherErr).toNat = 2 ^ 64 - 2 := by decide +kernel
  have hany : ∀ w, ¬ AnyOk (zeros t n) .eq w (asSize otherErr) := by
    rintro w (⟨_, _, k, h⟩ | ⟨h, _⟩)
    · exact hs k _ h
    · revert h; decide +kernel
  have hsome : ∀ idx, ¬ SomeOk (zeros t n) .eq idx (asSize otherErr) := by
    rintro idx ⟨h, _⟩
    rw [hr] at h
    have : (zeros t n).n = n := rfl
    omega
  refine ⟨⟨rfl, fun h => ?_⟩, ⟨_, rfl, hany _⟩, ⟨_, rfl, hany _⟩, fun idx => ⟨_, rfl, hsome idx⟩, fun idx => ⟨_, rfl, hsome idx⟩,
    ⟨_, rfl, fun h => ?_⟩, ⟨fun p _ => if p = 0 then 1 else 0, _, rfl, fun h => ?_⟩, ⟨0, _, rfl, by decide +kernel⟩⟩
  · obtain ⟨k, h⟩ := h 0 h0 rfl
    exact hs k 0 h
  · obtain ⟨k, h⟩ := h (by decide) 0 h0 rfl
    exact hs k 0 h
  · have := h 0 h0
    simp at this

/-- C69. Contexts: creation never claims success and always stores the invalid handle; the team of a context is reported for the default
context only. -/
theorem C69_ctx (options : Int) (team : Team) (ctx : Ctx) :
    (ctxCreate options).2 ≠ 0 ∧ (ctxCreate options).1 = .invalid ∧ (teamCreateCtx team options).2 ≠ 0 ∧
    (teamCreateCtx team options).1 = .invalid ∧ ((ctxGetTeam ctx).2 = 0 ↔ ctx = .dflt) ∧
    ((ctxGetTeam ctx).2 = 0 → (ctxGetTeam ctx).1 = .world) ∧ ((ctxGetTeam ctx).2 ≠ 0 → (ctxGetTeam ctx).1 = .invalid) := by
  refine ⟨by unfold ctxCreate; decide, rfl, ?_, ?_, ?_, ?_, ?_⟩
  · unfold teamCreateCtx; split <;> decide
  · unfold teamCreateCtx; split <;> rfl
  · unfold ctxGetTeam
    by_cases h : ctx = .dflt <;> simp [h, otherErr]
  · unfold ctxGetTeam
    by_cases h : ctx = .dflt <;> simp [h, otherErr]
  · unfold ctxGetTeam
    by_cases h : ctx = .dflt <;> simp [h]

/-- C69. `shmem_team_sync` reports success exactly when it has synchronised. -/
theorem C69_team_sync (team : Team) : (teamSync team).1 = 0 ↔ (teamSync team).2 = true := by
  unfold teamSync; split <;> decide

/-- **The code violates C69 (full statement)**: `shmem_team_sync` does not synchronise any team but the world, not even the predefined
shared team. -/
theorem C69_team_sync_fails (team : Team) (h : team ≠ .world) : (teamSync team).2 = false ∧ (teamSync team).1 ≠ 0 := by
  unfold teamSync; rw [if_neg h]; decide

/-- hypotheses of `C69_ndebug_fails` met: three `int`s -/
example : waitAll true (zeros ⟨32, true⟩ 3) = .ok () ∧ ¬ WaitAllOk (zeros ⟨32, true⟩ 3) .eq :=
  (C69_ndebug_fails ⟨32, true⟩ (by decide) 3 (by decide) (by decide)).1

/-- hypothesis of `C69_team_sync_fails` met -/
example : (teamSync .shared).2 = false := (C69_team_sync_fails .shared (by decide)).1

end Verif.Stub
