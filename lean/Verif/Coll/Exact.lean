import Verif.Coll.ReduceProps

/-!
# Collectives for every count

The counts of OpenSHMEM are `size_t`; the code converts them to `int`. For counts below 2^31 the C35–C38 theorems say what the
calls do. Here: what they do for every other count as well, so that the behaviour is known on the whole domain.
-/

namespace Verif.Coll
open Verif.Rma

theorem toI32_mod {n : Nat} (h : n % 2 ^ 32 < 2 ^ 31) : toI32 n = ((n % 2 ^ 32 : Nat) : Int) := by
  unfold toI32
  rw [Int.bmod_def]
  omega

theorem toI32_neg {n : Nat} (h : 2 ^ 31 ≤ n % 2 ^ 32) : toI32 n < 0 := by
  unfold toI32
  rw [Int.bmod_def]
  omega

theorem toI32_wrap {n : Nat} (h : n % 2 ^ 32 < 2 ^ 31) : toI32 n = toI32 (n % 2 ^ 32) := by
  rw [toI32_mod h, toI32_mod (by rw [Nat.mod_mod]; exact h), Nat.mod_mod]

theorem mpi_abort {fl : Nat → ROp → Nat → Nat → Nat} {tr : Nat → Nat → Tree} {ms : List Nat} {calls : Nat → Call} {m : Mems}
    (h0 : ms ≠ []) (hk : ∀ r < ms.length, (calls r).kind = (calls 0).kind) (hb : (calls 0).bad ms.length = true) :
    mpi fl tr ms calls m = .abort := by
  have hpos : 0 < ms.length := List.length_pos_of_ne_nil h0
  unfold mpi
  simp only
  rw [if_neg, if_pos]
  · rw [List.any_eq_true]
    exact ⟨0, List.mem_range.2 hpos, hb⟩
  · rw [Bool.not_eq_true, List.any_eq_false]
    intro r hr
    simp [hk r (List.mem_range.1 hr)]

/-- **C35** Concatenation of equal contributions, every count: only the low 32 bits of the count matter. If they are below
2^31 the call behaves as with that count (`C35_fcollect_partial`), otherwise the program is aborted. -/
theorem C35_fcollect_counts (kb : Nat) {ms : List Nat} (h0 : ms ≠ []) (n : Nat) (src dst : Nat → Int) (m : Mems) :
    (n % 2 ^ 32 < 2 ^ 31 → fcollect kb ms n src dst m = fcollect kb ms (n % 2 ^ 32) src dst m) ∧
    (2 ^ 31 ≤ n % 2 ^ 32 → fcollect kb ms n src dst m = .abort) := by
  constructor
  · intro h
    unfold fcollect
    rw [toI32_wrap h]
  · intro h
    apply mpi_abort h0 (fun _ _ => rfl)
    simp [Call.bad, toI32_neg h]

/-- **C36** All-to-all, every count. -/
theorem C36_alltoall_counts (kb : Nat) {ms : List Nat} (h0 : ms ≠ []) (n : Nat) (src dst : Nat → Int) (m : Mems) :
    (n % 2 ^ 32 < 2 ^ 31 → alltoall kb ms n src dst m = alltoall kb ms (n % 2 ^ 32) src dst m) ∧
    (2 ^ 31 ≤ n % 2 ^ 32 → alltoall kb ms n src dst m = .abort) := by
  constructor
  · intro h
    unfold alltoall
    rw [toI32_wrap h]
  · intro h
    apply mpi_abort h0 (fun _ _ => rfl)
    simp [Call.bad, toI32_neg h]

/-- **C37** Reductions, every count, type and operator. -/
theorem C37_counts (fl : Nat → ROp → Nat → Nat → Nat) (tr : Nat → Nat → Tree) {ms : List Nat} (h0 : ms ≠ []) (ty : RTy) (op : ROp)
    (n : Nat) (src dst : Nat → Int) (m : Mems) :
    (n % 2 ^ 32 < 2 ^ 31 → reduce fl tr ms ty op src dst n m = reduce fl tr ms ty op src dst (n % 2 ^ 32) m) ∧
    (2 ^ 31 ≤ n % 2 ^ 32 → reduce fl tr ms ty op src dst n m = .abort) := by
  constructor
  · intro h
    unfold reduce
    rw [toI32_wrap h]
  · intro h
    apply mpi_abort h0 (fun _ _ => rfl)
    simp [Call.bad, toI32_neg h]

/-- **C38** Team broadcast, every count: if the low 32 bits are 2^31 or more the program is aborted; otherwise every member but
the root receives as many elements as the low 32 bits say, while the root copies all `n` elements to itself. -/
theorem C38_counts (kb : Nat) {ms : List Nat} (hn : ms.Nodup) {root : Nat} (hroot : root < ms.length) (src dst : Nat → Int)
    (n : Nat) (hs : n * kb < 2 ^ 64) (ha : overlap (src (ms.getD root 0)) (dst (ms.getD root 0)) (n * kb) = false) (m : Mems) :
    (2 ^ 31 ≤ n % 2 ^ 32 → broadcastTeam kb ms root src dst n m = .abort) ∧
    (n % 2 ^ 32 < 2 ^ 31 → ∃ m', broadcastTeam kb ms root src dst n m = .ok m' ∧
      (∀ r < ms.length, r ≠ root → ∀ x < n % 2 ^ 32 * kb,
        m' (ms.getD r 0) (dst (ms.getD r 0) + (x : Int)) = m (ms.getD root 0) (src (ms.getD root 0) + (x : Int))) ∧
      (∀ x < n * kb, m' (ms.getD root 0) (dst (ms.getD root 0) + (x : Int)) =
        m (ms.getD root 0) (src (ms.getD root 0) + (x : Int))) ∧
      (∀ r < ms.length, r ≠ root → ∀ y, (y < dst (ms.getD r 0) ∨ dst (ms.getD r 0) + ((n % 2 ^ 32 * kb : Nat) : Int) ≤ y) →
        m' (ms.getD r 0) y = m (ms.getD r 0) y) ∧
      (∀ y, (y < dst (ms.getD root 0) ∨ dst (ms.getD root 0) + ((n * kb : Nat) : Int) ≤ y) →
        m' (ms.getD root 0) y = m (ms.getD root 0) y) ∧
      ∀ p, p ∉ ms → m' p = m p) := by
  have h0 : ms ≠ [] := by intro c; rw [c] at hroot; simp at hroot
  constructor
  · intro h
    unfold broadcastTeam
    rw [mpi_abort h0 (fun _ _ => rfl) (by simp [Call.bad, toI32_neg h])]
    rfl
  · intro h
    obtain ⟨m1, e, h1, h2, h3, h4⟩ := bcast_ok (fun _ _ a _ => a) (fun _ _ => .leaf 0) kb hn hroot
      (fun r => if root = r then src (ms.getD r 0) else dst (ms.getD r 0)) (n := n % 2 ^ 32) h m
    unfold broadcastTeam
    simp only
    rw [toI32_wrap h, e]
    simp only [Res.bind_ok]
    rw [Nat.mod_eq_of_lt hs, ha]
    have inj : ∀ r < ms.length, r ≠ root → ms.getD r 0 ≠ ms.getD root 0 := by
      intro r hr hne c
      exact hne (getD_inj hn hr hroot c)
    refine ⟨_, rfl, ?_, ?_, ?_, ?_, ?_⟩
    · intro r hr hne x hx
      rw [Function.update_of_ne (inj r hr hne)]
      have := h1 r hr hne x hx
      rw [if_neg (Ne.symm hne), if_pos rfl] at this
      exact this
    · intro x hx
      rw [Function.update_self]
      rw [if_pos (by omega), h3]
      congr 1; omega
    · intro r hr hne y hy
      rw [Function.update_of_ne (inj r hr hne)]
      have := h2 r hr hne y
      rw [if_neg (Ne.symm hne)] at this
      exact this hy
    · intro y hy
      rw [Function.update_self]
      rw [if_neg (by omega), h3]
    · intro p hp
      rw [Function.update_of_ne (fun c => hp (by rw [c]; exact getD_mem hroot))]
      exact h4 p hp

/-- non-trivial cases: 2^33 + 5 elements (moves 5), 2^31 + 7 (aborts) -/
example : (2 ^ 33 + 5) % 2 ^ 32 < 2 ^ 31 ∧ 2 ^ 31 ≤ (2 ^ 31 + 7) % 2 ^ 32 ∧
    overlap (0 : Int) (2 ^ 50 : Int) ((2 ^ 33 + 5) * 8) = false := by decide

end Verif.Coll
