import Verif.MemPool.Props
import Mathlib.Data.Nat.ModEq
/-!
# Property C53: calloc and aligned allocation on a space

`/repo/src/shmemx/space.c` L49-56, `/repo/src/internal/space_impl.c` L362-380.
-/
namespace Verif.MemPool

/-- `OSHMPI_space_align`, space_impl.c L377-380 (the barrier at the end of `OSHMPI_space_malloc` is left out). -/
def spaceAlign (p : Pool) (alignment size : Nat) : Res (Pool × Option Nat) := alloc p (calignN size alignment)

/-- bytes of the process -/
abbrev Bytes := Nat → Nat

/-- `memset(ptr, 0, size)` -/
def zero (b : Bytes) (ptr size : Nat) : Bytes := fun a => if ptr ≤ a ∧ a < ptr + size then 0 else b a

/-- `shmemx_space_calloc`, space.c L49-56: `count` is not used; `memset` on NULL is UB. -/
def spaceCalloc (p : Pool) (b : Bytes) (_count size : Nat) : Res (Pool × Bytes × Nat) :=
  (alloc p size).bind fun r => match r.2 with
    | some ptr => .ok (r.1, zero b ptr size, ptr)
    | none => .ub

/-- C53 is false: `shmemx_space_calloc(space, 1024, 8)` on a space of two pages of 4096 bytes reserves one page and
clears eight bytes; the next allocation returns memory inside the 8192 bytes the caller asked for. -/
theorem C53_calloc_ignores_count :
    ∃ p0 p1 p2 b1 ptr ptr2, init 0x10000 8192 4096 = .ok p0 ∧
      spaceCalloc p0 (fun _ => 7) 1024 8 = .ok (p1, b1, ptr) ∧
      (ptr ≤ ptr + 8 ∧ ptr + 8 < ptr + 1024 * 8 ∧ b1 (ptr + 8) ≠ 0) ∧
      alloc p1 8 = .ok (p2, some ptr2) ∧ ptr ≤ ptr2 ∧ ptr2 < ptr + 1024 * 8 := by
  refine ⟨⟨0x10000, 4096, 2, [0, 0]⟩, ⟨0x10000, 4096, 2, [1, 0]⟩, ⟨0x10000, 4096, 2, [1, 1]⟩,
    zero (fun _ => 7) 0x10000 8, 0x10000, 0x11000, by decide +kernel, ?_, by decide +kernel, by decide +kernel,
    by decide, by decide⟩
  have h : alloc ⟨0x10000, 4096, 2, [0, 0]⟩ 8 = .ok (⟨0x10000, 4096, 2, [1, 0]⟩, some 0x10000) := by decide +kernel
  unfold spaceCalloc
  rw [h]
  rfl

/-- C53 is false: a failed allocation makes `shmemx_space_calloc` write through NULL instead of returning NULL. -/
theorem C53_calloc_exhausted {p p' : Pool} {size : Nat} (h : alloc p size = .ok (p', none)) (b : Bytes) (count : Nat) :
    spaceCalloc p b count size = .ub := by
  unfold spaceCalloc; rw [h]; rfl

/-- C53 is false: `shmemx_space_align(space, 8192, 100)` can return an address that is not a multiple of 8192. -/
theorem C53_align_unaligned :
    ∃ p0 p1 ptr, init 0x11000 8192 4096 = .ok p0 ∧ spaceAlign p0 8192 100 = .ok (p1, some ptr) ∧ ¬ 8192 ∣ ptr := by
  refine ⟨⟨0x11000, 4096, 2, [0, 0]⟩, ⟨0x11000, 4096, 2, [2, 0]⟩, 0x11000, by decide +kernel, by decide +kernel,
    by decide⟩

/-- C53, the part that holds. Missing: any `count` other than one, and exhaustion.
With `count = 1` a successful calloc returns a block of `size` zeroed bytes inside the space, disjoint from every live
block, and changes no byte outside it. -/
theorem C53_calloc_partial {base size chunk : Nat} (R : Region base size chunk) {p : Pool} {live : List (Nat × Nat)}
    (h : Hist base size chunk p live) {sz : Nat} (hv : Valid chunk sz) {b b' : Bytes} {p' : Pool} {ptr : Nat}
    (hc : spaceCalloc p b 1 sz = .ok (p', b', ptr)) :
    base ≤ ptr ∧ ptr + 1 * sz ≤ base + size ∧
    (∀ a, ptr ≤ a → a < ptr + 1 * sz → b' a = 0) ∧ (∀ a, (a < ptr ∨ ptr + 1 * sz ≤ a) → b' a = b a) ∧
    (∀ x ∈ live, ptr + 1 * sz ≤ x.1 ∨ x.1 + x.2 ≤ ptr) := by
  unfold spaceCalloc at hc
  cases ha : alloc p sz with
  | abort => rw [ha] at hc; cases hc
  | ub => rw [ha] at hc; cases hc
  | hang => rw [ha] at hc; cases hc
  | ok r =>
    obtain ⟨p1, o⟩ := r
    rw [ha, Res.bind_ok] at hc
    cases o with
    | none => cases hc
    | some q =>
      simp only [Res.ok.injEq, Prod.mk.injEq] at hc
      obtain ⟨rfl, rfl, rfl⟩ := hc
      have hh := Hist.alloc h hv ha
      have := C06_disjoint_in_bounds R hh
      obtain ⟨h1, h2⟩ := this
      have hb := h1 (q, sz) (by simp)
      refine ⟨hb.1, by have := hb.2; simp at this ⊢; omega, ?_, ?_, ?_⟩
      · intro a ha1 ha2
        simp only [zero]; rw [if_pos ⟨ha1, by omega⟩]
      · intro a ha1
        simp only [zero]; rw [if_neg]; omega
      · intro x hx
        rw [List.pairwise_cons] at h2
        have := h2.1 x hx
        simp at this ⊢
        omega

/-- C53, the part that holds. Missing: alignments larger than the alignment of the space's memory or than the page.
If the alignment divides the page size and the space's memory is aligned to it, then the pointer is aligned, and the
block is at least as long as requested. -/
theorem C53_align_partial {base size chunk : Nat} (R : Region base size chunk) {p : Pool} {live : List (Nat × Nat)}
    (h : Hist base size chunk p live) {sz k : Nat} (hk : 2 ^ k ∣ chunk) (hbase : 2 ^ k ∣ base)
    (hk64 : k < 64) (hsz : sz + 2 ^ k - 1 < 2 ^ 64)
    (hv : Valid chunk (calignN sz (2 ^ k))) {p' : Pool} {ptr : Nat}
    (hc : spaceAlign p (2 ^ k) sz = .ok (p', some ptr)) :
    2 ^ k ∣ ptr ∧ base ≤ ptr ∧ ptr + sz ≤ base + size ∧ ∀ x ∈ live, ptr + sz ≤ x.1 ∨ x.1 + x.2 ≤ ptr := by
  have hh := Hist.alloc h hv hc
  obtain ⟨h1, h2⟩ := C06_disjoint_in_bounds R hh
  have hb := h1 (ptr, calignN sz (2 ^ k)) (by simp)
  have hle : sz ≤ calignN sz (2 ^ k) := by
    rw [calignN_eq hk64 hsz]
    have := Nat.div_add_mod (sz + 2 ^ k - 1) (2 ^ k)
    have h3 := Nat.mod_lt (sz + 2 ^ k - 1) (Nat.two_pow_pos k)
    rw [Nat.mul_comm] at this
    omega
  obtain ⟨_, i, _, e⟩ := (hist_inv R hh).sound (ptr, calignN sz (2 ^ k)) (by simp)
  refine ⟨?_, hb.1, by have := hb.2; simp only at this; omega, ?_⟩
  · simp only at e
    rw [e]
    exact Nat.dvd_add hbase (Dvd.dvd.mul_left hk i)
  · intro x hx
    rw [List.pairwise_cons] at h2
    have := h2.1 x hx
    simp only at this
    omega

/-- hypotheses of the partial theorems: a fresh pool of four pages, and an alignment of 64 -/
example : ∃ p, Region 0x10000 16384 4096 ∧ Hist 0x10000 16384 4096 p [] ∧ Valid 4096 (calignN 100 (2 ^ 6)) ∧
    ∃ p', spaceAlign p (2 ^ 6) 100 = .ok (p', some 0x10000) :=
  ⟨⟨0x10000, 4096, 4, [0, 0, 0, 0]⟩, ⟨⟨12, by decide, by decide⟩, by decide +kernel, by decide⟩,
    .init (by decide +kernel), by unfold Valid; decide +kernel, ⟨0x10000, 4096, 4, [1, 0, 0, 0]⟩, by decide +kernel⟩

end Verif.MemPool
