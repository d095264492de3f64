import Verif.Coll.Lemmas
import Verif.Rma.Props
/-!
# C34 - C36, C38: broadcast, collect, all-to-all

`ms.getD r 0` is the PE of rank `r` in the communicator `ms`.
-/
namespace Verif.Coll
open Verif.Rma

/-- number of elements contributed by the ranks before `j` -/
def before (ns : Nat → Nat) (j : Nat) : Nat := ((List.range j).map ns).sum

theorem before_succ (ns : Nat → Nat) (j : Nat) : before ns (j + 1) = before ns j + ns j := by
  unfold before
  rw [List.range_succ, List.map_append, List.sum_append]
  simp

theorem before_mono (ns : Nat → Nat) {i j : Nat} (h : i ≤ j) : before ns i ≤ before ns j := by
  induction j with
  | zero => have : i = 0 := by omega
            subst this; exact le_refl _
  | succ j ih =>
    rcases Nat.lt_or_ge i (j + 1) with h1 | h1
    · rw [before_succ]; have := ih (by omega); omega
    · have : i = j + 1 := by omega
      subst this; exact le_refl _

/-- Block `j` of every member's destination is member `j`'s source block, blocks in rank order with nothing in between;
nothing else changes. -/
def Concat (kb : Nat) (ms : List Nat) (ns : Nat → Nat) (src dst : Nat → Int) (m m' : Mems) : Prop :=
  (∀ r < ms.length, ∀ j < ms.length, ∀ x < ns j * kb,
    m' (ms.getD r 0) (dst r + ((before ns j * kb + x : Nat) : Int)) = m (ms.getD j 0) (src j + (x : Int))) ∧
  (∀ r < ms.length, ∀ y, (y < dst r ∨ dst r + ((before ns ms.length * kb : Nat) : Int) ≤ y) →
    m' (ms.getD r 0) y = m (ms.getD r 0) y) ∧
  ∀ p, p ∉ ms → m' p = m p

/-- no member's source block lies in its own destination array -/
def Apart (kb : Nat) (ms : List Nat) (slen dlen : Nat → Nat) (src dst : Nat → Int) : Prop :=
  ∀ r < ms.length, ∀ x < slen r * kb, ∀ y < dlen r * kb, src r + (x : Int) ≠ dst r + (y : Int)

theorem before_block {ns : Nat → Nat} {n j : Nat} (hj : j < n) : before ns j + ns j ≤ before ns n := by
  rw [← before_succ]; exact before_mono ns (by omega)

/-- gathering with the given displacements -/
theorem gather_ok (kb : Nat) {ms : List Nat} (hn : ms.Nodup) (ns : Nat → Nat) (src dst : Nat → Int) {S R : Nat → Nat → List Int}
    (hS : ∀ j < ms.length, ∀ r < ms.length, S j r = addrs (src j) (ns j) (Ty.basic kb))
    (hR : ∀ r < ms.length, ∀ j < ms.length, R r j = addrs (dst r + (before ns j : Int) * kb) (ns j) (Ty.basic kb))
    (ha : Apart kb ms ns (fun _ => before ns ms.length) src dst) (m : Mems) :
    ∃ m', xchg ms S R m = .ok m' ∧ Concat kb ms ns src dst m m' := by
  have blk : ∀ j < ms.length, ∀ x < ns j * kb, before ns j * kb + x < before ns ms.length * kb := by
    intro j hj x hx
    have h1 := Nat.mul_le_mul_right kb (before_block (ns := ns) hj)
    rw [Nat.add_mul] at h1
    omega
  obtain ⟨m', e, h1, h2, h3⟩ := xchg_ok hn (S := S) (R := R) (fun _ j => List.range (ns j * kb))
    (fun j _ x => src j + (x : Int)) (fun r j x => dst r + ((before ns j * kb + x : Nat) : Int))
    (by intro j hj r hr; rw [hS j hj r hr, addrs_basic])
    (by
      intro r hr j hj
      rw [hR r hr j hj, addrs_basic]
      apply List.map_congr_left
      intro x _
      push_cast
      ring)
    (by
      intro r hr j hj j' hj' p hp p' hp' h
      rw [List.mem_range] at hp hp'
      have h : before ns j * kb + p = before ns j' * kb + p' := by omega
      rcases Nat.lt_trichotomy j j' with hlt | he | hgt
      · exfalso
        have h1 := Nat.mul_le_mul_right kb (before_block (ns := ns) hlt)
        rw [Nat.add_mul] at h1
        omega
      · subst he; exact ⟨rfl, by omega⟩
      · exfalso
        have h1 := Nat.mul_le_mul_right kb (before_block (ns := ns) hgt)
        rw [Nat.add_mul] at h1
        omega)
    (by
      intro r hr j hj q hq p hp p' hp'
      rw [List.mem_range] at hp hp'
      exact Ne.symm (ha r hr p' hp' _ (blk j hj p hp)))
    m
  refine ⟨m', e, ?_, ?_, h3⟩
  · intro r hr j hj x hx
    exact h1 r hr j hj x (List.mem_range.mpr hx)
  · intro r hr y hy
    apply h2 r hr y
    intro j hj p hp
    rw [List.mem_range] at hp
    have := blk j hj p hp
    omega

theorem toU64_toI32_small {n : Nat} (h : n < 2 ^ 31) : toU64 (toI32 n) = n := by
  rw [toI32_lt h]
  unfold toU64
  omega

theorem basic_extent (kb : Nat) : (Ty.basic kb).extent = kb := rfl

/-- **C35** `fcollect`: every member gets all members' blocks in rank order. -/
theorem C35_fcollect_partial (kb : Nat) {ms : List Nat} (hn : ms.Nodup) (nelems : Nat) (hc : nelems < 2 ^ 31)
    (src dst : Nat → Int) (ha : Apart kb ms (fun _ => nelems) (fun _ => ms.length * nelems) src dst) (m : Mems) :
    ∃ m', fcollect kb ms nelems src dst m = .ok m' ∧ Concat kb ms (fun _ => nelems) src dst m m' := by
  have hb : ∀ j, before (fun _ => nelems) j = j * nelems := by
    intro j
    induction j with
    | zero => unfold before; simp
    | succ j ih => rw [before_succ, ih]; ring
  unfold fcollect
  rw [mpi_xchg (fun _ _ => rfl) (by
    intro r _
    simp only [Call.bad, toI32_lt hc]
    simp) (fun _ _ => rfl) rfl]
  apply gather_ok kb hn
  · intro j _ r _
    simp only [Call.send, toI32_lt hc, Int.toNat_natCast]
  · intro r _ j _
    simp only [Call.recv, toI32_lt hc, Int.toNat_natCast, basic_extent, hb]
    congr 1
    push_cast
    ring
  · rw [hb]; exact ha

theorem displs_ok : ∀ (L : List Int) (d : Int), 0 ≤ d → (∀ c ∈ L, 0 ≤ c) →
    (∀ j < L.length, d + (L.take j).sum ≤ IntMax) →
    ∃ ds, displs d L = some ds ∧ ds.length = L.length ∧ ∀ j < L.length, ds.getD j 0 = d + (L.take j).sum
  | [], d, _, _, _ => ⟨[], rfl, rfl, fun j h => absurd h (by simp)⟩
  | [a], d, _, _, _ => ⟨[d], rfl, rfl, fun j h => by
      have : j = 0 := by simpa using h
      subst this; simp⟩
  | a :: b :: L, d, h0, hc, hs => by
    have ha : 0 ≤ a := hc a (by simp)
    have h1 : d + a ≤ IntMax := by
      have := hs 1 (by simp)
      simpa using this
    obtain ⟨ds, e, hl, hd⟩ := displs_ok (b :: L) (d + a) (by omega) (fun c h => hc c (List.mem_cons_of_mem _ h)) (by
      intro j hj
      have := hs (j + 1) (by simpa using hj)
      rw [List.take_succ_cons, List.sum_cons] at this
      omega)
    refine ⟨d :: ds, ?_, by simp [hl], ?_⟩
    · unfold displs
      rw [if_neg (by omega), e]
      rfl
    · intro j hj
      cases j with
      | zero => simp
      | succ j =>
        rw [List.getD_cons_succ, List.take_succ_cons, List.sum_cons, hd j (by simpa using hj)]
        omega

theorem take_sum {ns : Nat → Nat} {n : Nat} (hs : ∀ r < n, ns r < 2 ^ 31) (j : Nat) (hj : j ≤ n) :
    (((List.range n).map (fun r => toI32 (ns r))).take j).sum = before ns j := by
  rw [← List.map_take, List.take_range, Nat.min_eq_left hj]
  unfold before
  induction j with
  | zero => simp
  | succ j ih =>
    rw [List.range_succ, List.map_append, List.sum_append, List.map_append, List.sum_append, ih (by omega)]
    simp [toI32_lt (hs j (by omega))]

/-- the choice of algorithm depends on the counts only: `allgather` iff all counts are equal -/
theorem choice {ns : Nat → Nat} (n : Nat) (hs : ∀ r < n, ns r < 2 ^ 31) {r : Nat} :
    (((List.range n).map (fun q => toI32 (ns q))).all (fun c => ns r == toU64 c) = true) ↔ ∀ q < n, ns q = ns r := by
  rw [List.all_eq_true]
  constructor
  · intro h q hq
    have := h (toI32 (ns q)) (List.mem_map.mpr ⟨q, List.mem_range.mpr hq, rfl⟩)
    rw [toU64_toI32_small (hs q hq)] at this
    exact (beq_iff_eq.mp this).symm
  · intro h c hc
    obtain ⟨q, hq, rfl⟩ := List.mem_map.mp hc
    rw [List.mem_range] at hq
    rw [toU64_toI32_small (hs q hq), h q hq]
    simp

/-- **C35** All members make the same choice of algorithm, whatever the counts (below 2^31). -/
theorem C35_same_choice_partial (kb : Nat) {n : Nat} {ns : Nat → Nat} (hs : ∀ r < n, ns r < 2 ^ 31) (ds : List Int)
    (src dst : Nat → Int) {r q : Nat} (hr : r < n) (hq : q < n) :
    (collectCall kb ((List.range n).map (fun q => toI32 (ns q))) ds (ns r) (src r) (dst r)).kind =
    (collectCall kb ((List.range n).map (fun q => toI32 (ns q))) ds (ns q) (src q) (dst q)).kind := by
  unfold collectCall
  by_cases h : ∀ i < n, ns i = ns r
  · rw [if_pos ((choice n hs).mpr h), if_pos ((choice n hs).mpr (fun i hi => by rw [h i hi, h q hq]))]
    rfl
  · rw [if_neg (fun c => h ((choice n hs).mp c)), if_neg (fun c => h (fun i hi => by
      rw [(choice n hs).mp c i hi, ← (choice n hs).mp c r hr]))]
    rfl

/-- **C35** `collect`: every member gets all members' blocks in rank order, for block sizes that may differ. Missing: counts
of 2^31 and more, and displacements of 2^31 elements and more (`C35_count_fails`, `C35_displ_fails`). -/
theorem C35_collect_partial (kb : Nat) {ms : List Nat} (hn : ms.Nodup) (h0 : ms ≠ []) (ns : Nat → Nat) (hs : ∀ r < ms.length, ns r < 2 ^ 31)
    (hd : before ns (ms.length - 1) < 2 ^ 31) (src dst : Nat → Int)
    (ha : Apart kb ms ns (fun _ => before ns ms.length) src dst) (m : Mems) :
    ∃ m', collect kb ms ns src dst m = .ok m' ∧ Concat kb ms ns src dst m m' := by
  have hpos : 0 < ms.length := List.length_pos_of_ne_nil h0
  obtain ⟨ds, e, hl, hds⟩ := displs_ok ((List.range ms.length).map (fun r => toI32 (ns r))) 0 (le_refl _)
    (by
      intro c hc
      obtain ⟨q, hq, rfl⟩ := List.mem_map.mp hc
      rw [List.mem_range] at hq
      rw [toI32_lt (hs q hq)]; omega)
    (by
      intro j hj
      simp only [List.length_map, List.length_range] at hj
      rw [take_sum hs _ (by omega)]
      have := before_mono ns (i := j) (j := ms.length - 1) (by omega)
      have e : (IntMax : Int) = 2 ^ 31 - 1 := rfl
      omega)
  simp only [List.length_map, List.length_range] at hl hds
  have hds : ∀ j < ms.length, ds.getD j 0 = (before ns j : Int) := by
    intro j hj
    rw [hds j hj, take_sum hs _ (by omega)]; omega
  have hcs : ∀ j < ms.length, ((List.range ms.length).map (fun r => toI32 (ns r))).getD j 0 = (ns j : Int) := by
    intro j hj
    rw [List.getD_eq_getElem _ _ (by simpa using hj)]
    simp [toI32_lt (hs j hj)]
  unfold collect
  simp only
  rw [e]
  simp only
  have hk := fun r hr => C35_same_choice_partial kb (n := ms.length) (ns := ns) hs ds src dst (r := r) (q := 0) hr hpos
  rw [mpi_xchg hk (by
      intro r hr
      unfold collectCall
      split
      · simp [Call.bad, toI32_lt (hs r hr)]
      · simp only [Call.bad, toI32_lt (hs r hr)]
        rw [Bool.or_eq_false_iff]
        refine ⟨by simp, ?_⟩
        rw [List.any_eq_false]
        intro c hc
        obtain ⟨q, hq, rfl⟩ := List.mem_map.mp hc
        rw [List.mem_range] at hq
        simp [toI32_lt (hs q hq)]) (by
      intro r hr
      unfold collectCall
      split <;> split <;> rfl) (by
      unfold collectCall
      split <;> rfl)]
  apply gather_ok kb hn
  · intro j hj r _
    unfold collectCall
    split <;> simp only [Call.send, toI32_lt (hs j hj), Int.toNat_natCast]
  · intro r hr j hj
    unfold collectCall
    split
    · rename_i h
      have h := (choice ms.length hs).mp h
      have hb : before ns j = j * ns r := by
        clear hds hcs
        induction j with
        | zero => unfold before; simp
        | succ j ih =>
          rw [before_succ, ih (by omega), h j (by omega)]; ring
      simp only [Call.recv, toI32_lt (hs r hr), Int.toNat_natCast, basic_extent, hb]
      rw [h j hj]
      congr 1
      push_cast
      ring
    · simp only [Call.recv, basic_extent]
      rw [hds j hj, hcs j hj, Int.toNat_natCast]
  · exact ha

/-- C35 negation: counts 2^32 + 1 and 1 (the second member's view of the first is 1): the members choose different
algorithms and the call does not return. -/
theorem C35_count_fails (kb p q : Nat) (src dst : Nat → Int) (m : Mems) :
    collect kb [p, q] (fun r => if r = 0 then 2 ^ 32 + 1 else 1) src dst m = .hang := by
  have e1 : toI32 4294967297 = 1 := by decide
  have e2 : toI32 1 = 1 := by decide
  have e3 : displs 0 [1, 1] = some [0, 1] := by decide
  have e4 : toU64 1 = 1 := by decide
  simp [collect, List.range_succ, e1, e2, e3, mpi, collectCall, e4, Call.kind]

/-- C35 negation: three members with 2^30, 2^30 and 1 elements: the third displacement is 2^31, beyond `int`. -/
theorem C35_displ_fails (kb p q t : Nat) (src dst : Nat → Int) (m : Mems) :
    collect kb [p, q, t] (fun r => if r < 2 then 2 ^ 30 else 1) src dst m = .ub := by
  have e1 : toI32 (2 ^ 30) = 2 ^ 30 := by decide
  have e2 : toI32 1 = 1 := by decide
  have e3 : displs 0 [2 ^ 30, 2 ^ 30, 1] = none := by decide
  simp only [collect, List.length_cons, List.length_nil]
  have e4 : (List.range (0 + 1 + 1 + 1)).map (fun r => toI32 (if r < 2 then 2 ^ 30 else 1)) = [2 ^ 30, 2 ^ 30, 1] := by decide
  rw [e4, e3]

theorem toI32_two_pow : toI32 (2 ^ 32) = toI32 0 := by decide

/-- C35 negation: `fcollect` of 2^32 elements returns without moving anything. -/
theorem C35_fcollect_fails (kb : Nat) {ms : List Nat} (hn : ms.Nodup) (src dst : Nat → Int) (m : Mems) :
    ∃ m', fcollect kb ms (2 ^ 32) src dst m = .ok m' ∧ ∀ p, m' p = m p := by
  have e : fcollect kb ms (2 ^ 32) src dst m = fcollect kb ms 0 src dst m := by
    unfold fcollect; rw [toI32_two_pow]
  rw [e]
  obtain ⟨m', h, _, h2, h3⟩ := C35_fcollect_partial kb hn 0 (by decide) src dst (by
    intro r _ x hx; simp at hx) m
  refine ⟨m', h, ?_⟩
  intro p
  by_cases hp : p ∈ ms
  · obtain ⟨r, hr, rfl⟩ := mem_getD hp
    funext y
    apply h2 r hr y
    have : before (fun _ => 0) ms.length = 0 := by unfold before; simp
    rw [this]; omega
  · exact h3 p hp

/-- non-trivial case: three members of a set with blocks of 2, 0 and 3 four-byte elements -/
example : Apart 4 [1, 3, 5] (fun r => if r = 0 then 2 else if r = 1 then 0 else 3) (fun _ => before (fun r => if r = 0 then 2 else if r = 1 then 0 else 3) 3)
    (fun _ => 1000) (fun _ => 2000) := by
  intro r hr x hx y hy
  have : before (fun r => if r = 0 then 2 else if r = 1 then 0 else 3) 3 = 5 := by decide
  simp only [this] at hy
  have : (if r = 0 then 2 else if r = 1 then 0 else 3) ≤ 3 := by split; omega; split <;> omega
  have : (if r = 0 then 2 else if r = 1 then 0 else 3) * 4 ≤ 12 := by omega
  have hx : x < 12 := by dsimp only at hx; omega
  show (1000 : Int) + x ≠ 2000 + y
  omega

/-! ## C36: all-to-all -/

/-- Element `e` of block `j` of member `r`'s destination (stride `ds`) is element `e` of block `r` of member `j`'s source
(stride `ss`); nothing else changes, in particular nothing between the strided elements. -/
def Transposed (kb : Nat) (ms : List Nat) (n : Nat) (ss ds : Int) (src dst : Nat → Int) (m m' : Mems) : Prop :=
  (∀ r < ms.length, ∀ j < ms.length, ∀ e < n, ∀ b < kb,
    m' (ms.getD r 0) (dst r + ((j : Int) * n + e) * ds * kb + (b : Int)) =
    m (ms.getD j 0) (src j + ((r : Int) * n + e) * ss * kb + (b : Int))) ∧
  (∀ r < ms.length, ∀ y, (∀ j < ms.length, ∀ e < n, ∀ b < kb, y ≠ dst r + ((j : Int) * n + e) * ds * kb + (b : Int)) →
    m' (ms.getD r 0) y = m (ms.getD r 0) y) ∧
  ∀ p, p ∉ ms → m' p = m p

/-- no element of a member's source is an element of its own destination -/
def ApartStrided (kb : Nat) (ms : List Nat) (n : Nat) (ss ds : Int) (src dst : Nat → Int) : Prop :=
  ∀ r < ms.length, ∀ i < ms.length * n, ∀ b < kb, ∀ i' < ms.length * n, ∀ b' < kb,
    src r + (i : Int) * ss * kb + (b : Int) ≠ dst r + (i' : Int) * ds * kb + (b' : Int)

theorem block_index {N n j e : Nat} (hj : j < N) (he : e < n) : j * n + e < N * n := by
  have : (j + 1) * n ≤ N * n := Nat.mul_le_mul_right n hj
  rw [Nat.add_mul] at this
  omega

theorem block_inj {n j e j' e' : Nat} (he : e < n) (he' : e' < n) (h : j * n + e = j' * n + e') : j = j' ∧ e = e' := by
  rcases Nat.lt_trichotomy j j' with hlt | rfl | hgt
  · exfalso
    have : (j + 1) * n ≤ j' * n := Nat.mul_le_mul_right n hlt
    rw [Nat.add_mul] at this
    omega
  · exact ⟨rfl, by omega⟩
  · exfalso
    have : (j' + 1) * n ≤ j * n := Nat.mul_le_mul_right n hgt
    rw [Nat.add_mul] at this
    omega

theorem transpose_ok (kb : Nat) {ms : List Nat} (hn : ms.Nodup) (n : Nat) {ss ds : Int} (_hss : 1 ≤ ss) (hds : 1 ≤ ds)
    (src dst : Nat → Int) {S R : Nat → Nat → List Int}
    (hS : ∀ j < ms.length, ∀ r < ms.length,
      S j r = (idx n kb).map (fun p => src j + ((r : Int) * n + (p.1 : Int)) * ss * kb + (p.2 : Int)))
    (hR : ∀ r < ms.length, ∀ j < ms.length,
      R r j = (idx n kb).map (fun p => dst r + ((j : Int) * n + (p.1 : Int)) * ds * kb + (p.2 : Int)))
    (ha : ApartStrided kb ms n ss ds src dst) (m : Mems) :
    ∃ m', xchg ms S R m = .ok m' ∧ Transposed kb ms n ss ds src dst m m' := by
  obtain ⟨m', e, h1, h2, h3⟩ := xchg_ok hn (S := S) (R := R) (fun _ _ => idx n kb)
    (fun j r p => src j + ((r : Int) * n + (p.1 : Int)) * ss * kb + (p.2 : Int))
    (fun r j p => dst r + ((j : Int) * n + (p.1 : Int)) * ds * kb + (p.2 : Int)) hS hR
    (by
      intro r _ j _ j' _ p hp p' hp' h
      rw [mem_idx] at hp hp'
      obtain ⟨p1, p2⟩ := p
      obtain ⟨q1, q2⟩ := p'
      simp only at h hp hp'
      obtain ⟨h1, h2⟩ := elem_inj (i := j * n + p1) (i' := j' * n + q1) hds hp.2 hp'.2 (by push_cast; omega)
      obtain ⟨h3, h4⟩ := block_inj hp.1 hp'.1 h1
      exact ⟨h3, by rw [h4, h2]⟩)
    (by
      intro r hr j hj q hq p hp p' hp' h
      rw [mem_idx] at hp hp'
      refine ha r hr (q * n + p'.1) (block_index hq hp'.1) p'.2 hp'.2 (j * n + p.1) (block_index hj hp.1) p.2 hp.2 ?_
      push_cast
      omega)
    m
  refine ⟨m', e, ?_, ?_, h3⟩
  · intro r hr j hj e he b hb
    exact h1 r hr j hj (e, b) (mem_idx.mpr ⟨he, hb⟩)
  · intro r hr y hy
    apply h2 r hr y
    intro j hj p hp
    rw [mem_idx] at hp
    exact hy j hj p.1 hp.1 p.2 hp.2

/-- **C36** `alltoall`. Missing: counts of 2^31 and more (`C36_count_fails`). -/
theorem C36_alltoall_partial (kb : Nat) {ms : List Nat} (hn : ms.Nodup) (nelems : Nat) (hc : nelems < 2 ^ 31)
    (src dst : Nat → Int) (ha : ApartStrided kb ms nelems 1 1 src dst) (m : Mems) :
    ∃ m', alltoall kb ms nelems src dst m = .ok m' ∧ Transposed kb ms nelems 1 1 src dst m m' := by
  unfold alltoall
  rw [mpi_xchg (fun _ _ => rfl) (by
    intro r _
    simp only [Call.bad, toI32_lt hc]
    simp) (fun _ _ => rfl) rfl]
  apply transpose_ok kb hn nelems (le_refl _) (le_refl _) src dst _ _ ha
  · intro j _ r _
    simp only [Call.send, toI32_lt hc, Int.toNat_natCast, basic_extent]
    unfold addrs
    rw [flat_basic, List.map_map]
    apply List.map_congr_left
    intro p _
    simp only [Function.comp]
    ring
  · intro r _ j _
    simp only [Call.recv, toI32_lt hc, Int.toNat_natCast, basic_extent]
    unfold addrs
    rw [flat_basic, List.map_map]
    apply List.map_congr_left
    intro p _
    simp only [Function.comp]
    ring

/-- what an obtained strided datatype with the required extent covers -/
theorem fresh_flat_ext {sz : Nat → Nat} {n : Nat} {st : Int} {base cnt : Nat} {ty : Ty}
    (h : Fresh sz (stridedKey n st base) cnt ty) (hn : n < 2 ^ 31) (h0 : 1 ≤ st) (h1 : st < 2 ^ 31)
    (hx : (n : Int) * st * sz base < 2 ^ 63) :
    ¬ toI32 cnt < 0 ∧
    ty.flat (toI32 cnt).toNat = (idx n (sz base)).map (fun p => (p.2 : Int) + (p.1 : Int) * st * (sz base : Nat)) ∧
    (0 < n → toI32 cnt * ty.extent = n * st * sz base) := by
  unfold Fresh stridedKey at h
  simp only at h
  split at h
  · rename_i hs
    obtain ⟨rfl, rfl⟩ := h
    rw [toI32_lt hn]
    refine ⟨by omega, ?_, ?_⟩
    · rw [Int.toNat_natCast, flat_basic, hs]
      congr 1
      funext p
      rw [Int.mul_one]
    · intro _
      rw [hs, basic_extent, Int.mul_one]
  · obtain ⟨rfl, h⟩ := h
    have : toI32 1 = 1 := by decide
    rw [this]
    refine ⟨by omega, ?_⟩
    unfold newType at h
    simp only [toI32_lt hn, toI32s_small (x := st) (by omega) h1] at h
    rw [if_neg (by omega)] at h
    simp only [Option.some.injEq, Int.toNat_natCast] at h
    have e1 : (1 : Int).toNat = 1 := rfl
    rw [e1, flat_one, Int.one_mul]
    have hst : st = (st.toNat : Int) := by omega
    have key : toU64 ((n : Int) * st) = n * st.toNat := by
      unfold toU64
      have hb : (n * st.toNat : Nat) < 2 ^ 62 := by
        have h2 : st.toNat ≤ 2 ^ 31 := by omega
        have := Nat.mul_le_mul (Nat.le_of_lt hn) h2
        have h3 : n * st.toNat < 2 ^ 31 * 2 ^ 31 := by
          rcases Nat.eq_zero_or_pos st.toNat with h | h
          · rw [h, Nat.mul_zero]; decide
          · calc n * st.toNat < 2 ^ 31 * st.toNat := Nat.mul_lt_mul_of_pos_right hn h
              _ ≤ 2 ^ 31 * 2 ^ 31 := Nat.mul_le_mul_left _ h2
        omega
      have e2 : (n : Int) * st = ((n * st.toNat : Nat) : Int) := by push_cast; rw [← hst]
      rw [e2]
      omega
    rw [key] at h
    constructor
    · rw [← h]
      split
      · show (Ty.vector n st (Ty.basic (sz base))).map = _
        rw [vector_map]
      · rw [vector_map]
    · intro hp
      have hpos : n * st.toNat > 0 := Nat.mul_pos hp (by omega)
      rw [if_pos hpos] at h
      rw [← h]
      have he : ∀ (t : Ty) (e : Int), (t.resized e).extent = e := fun _ _ => rfl
      rw [he]
      have hb : ((n * st.toNat * sz base : Nat) : Int) < 2 ^ 63 := by
        rw [Nat.cast_mul, Nat.cast_mul, ← hst]; exact hx
      rw [Nat.mod_eq_of_lt (by omega)]
      unfold toAint
      rw [Int.bmod_eq_of_le (by omega) (by omega), Nat.cast_mul, Nat.cast_mul, ← hst]

/-- **C36** `alltoalls`, for all strides of at least 1, whatever datatypes the cache holds. Missing: counts and strides of 2^31
and more. -/
theorem C36_alltoalls_partial {c : Nat → Bool} {sz : Nat → Nat} {ms : List Nat} (hn : ms.Nodup) {n base : Nat} {ss ds : Int}
    (hc : n < 2 ^ 31) (hss : 1 ≤ ss ∧ ss < 2 ^ 31) (hds : 1 ≤ ds ∧ ds < 2 ^ 31)
    (hxs : (n : Int) * ss * sz base < 2 ^ 63) (hxd : (n : Int) * ds * sz base < 2 ^ 63)
    {sc rc : Nat → Nat} {sty rty : Nat → Ty}
    (ho : ∀ r < ms.length, Obtained (c r) sz (stridedKey n ss base) (sc r) (sty r))
    (ho' : ∀ r < ms.length, Obtained (c r) sz (stridedKey n ds base) (rc r) (rty r))
    (src dst : Nat → Int) (ha : ApartStrided (sz base) ms n ss ds src dst) (m : Mems) :
    ∃ m', alltoalls ms src dst sc sty rc rty m = .ok m' ∧ Transposed (sz base) ms n ss ds src dst m m' := by
  have fr : ∀ r < ms.length, Fresh sz (stridedKey n ss base) (sc r) (sty r) := by
    intro r hr
    obtain ⟨s, t, dt, h1, h2, h3⟩ := ho r hr
    obtain ⟨ty, h4, h5⟩ := C20_transparent h1 h2
    rw [h3] at h4; cases h4; exact h5
  have fr' : ∀ r < ms.length, Fresh sz (stridedKey n ds base) (rc r) (rty r) := by
    intro r hr
    obtain ⟨s, t, dt, h1, h2, h3⟩ := ho' r hr
    obtain ⟨ty, h4, h5⟩ := C20_transparent h1 h2
    rw [h3] at h4; cases h4; exact h5
  unfold alltoalls
  rw [mpi_xchg (fun _ _ => rfl) (by
    intro r hr
    have h1 := (fresh_flat_ext (fr r hr) hc hss.1 hss.2 hxs).1
    have h2 := (fresh_flat_ext (fr' r hr) hc hds.1 hds.2 hxd).1
    simp only [Call.bad, Bool.or_eq_false_iff, decide_eq_false_iff_not]
    exact ⟨h1, h2⟩) (fun _ _ => rfl) rfl]
  apply transpose_ok (sz base) hn n hss.1 hds.1 src dst _ _ ha
  · intro j hj r _
    obtain ⟨_, h2, h3⟩ := fresh_flat_ext (fr j hj) hc hss.1 hss.2 hxs
    simp only [Call.send]
    unfold addrs
    rw [h2, List.map_map]
    apply List.map_congr_left
    intro p hp
    rw [mem_idx] at hp
    rw [h3 (by omega)]
    simp only [Function.comp]
    ring
  · intro r hr j _
    obtain ⟨_, h2, h3⟩ := fresh_flat_ext (fr' r hr) hc hds.1 hds.2 hxd
    simp only [Call.recv]
    unfold addrs
    rw [h2, List.map_map]
    apply List.map_congr_left
    intro p hp
    rw [mem_idx] at hp
    rw [h3 (by omega)]
    simp only [Function.comp]
    ring

/-- C36 negation: an all-to-all of 2^32 elements per block returns without moving anything. -/
theorem C36_count_fails (kb : Nat) {ms : List Nat} (hn : ms.Nodup) (src dst : Nat → Int) (m : Mems) :
    ∃ m', alltoall kb ms (2 ^ 32) src dst m = .ok m' ∧ ∀ p, m' p = m p := by
  have e : alltoall kb ms (2 ^ 32) src dst m = alltoall kb ms 0 src dst m := by
    unfold alltoall; rw [toI32_two_pow]
  rw [e]
  obtain ⟨m', h, _, h2, h3⟩ := C36_alltoall_partial kb hn 0 (by decide) src dst (by
    intro r _ i hi; simp at hi) m
  refine ⟨m', h, ?_⟩
  intro p
  by_cases hp : p ∈ ms
  · obtain ⟨r, hr, rfl⟩ := mem_getD hp
    funext y
    apply h2 r hr y
    intro j _ e he
    omega
  · exact h3 p hp

/-- non-trivial case: four members, 3 elements of 4 bytes per block, source stride 2, destination stride 3 -/
example : ApartStrided 4 [0, 2, 4, 6] 3 2 3 (fun _ => 0) (fun _ => 1000) := by
  intro r _ i hi b hb i' hi' b' hb'
  simp only [List.length_cons, List.length_nil] at hi hi'
  show (0 : Int) + i * 2 * 4 + b ≠ 1000 + i' * 3 * 4 + b'
  omega

example : (∃ cnt ty, Obtained true (fun _ => 4) (stridedKey 3 2 0) cnt ty) ∧ ∃ cnt ty, Obtained true (fun _ => 4) (stridedKey 3 3 0) cnt ty :=
  ⟨obtained_exists _ _ _ (by decide), obtained_exists _ _ _ (by decide)⟩

/-! ## Broadcasts -/

theorem bcast_ok (fl : Nat → ROp → Nat → Nat → Nat) (tr : Nat → Nat → Tree) (kb : Nat) {ms : List Nat} (hn : ms.Nodup) {root : Nat}
    (hroot : root < ms.length) (buf : Nat → Int) {n : Nat} (hc : n < 2 ^ 31) (m : Mems) :
    ∃ m', mpi fl tr ms (fun r => .bcast (buf r) (toI32 n) (Ty.basic kb) root) m = .ok m' ∧
      (∀ r < ms.length, r ≠ root → ∀ x < n * kb,
        m' (ms.getD r 0) (buf r + (x : Int)) = m (ms.getD root 0) (buf root + (x : Int))) ∧
      (∀ r < ms.length, r ≠ root → ∀ y, (y < buf r ∨ buf r + ((n * kb : Nat) : Int) ≤ y) →
        m' (ms.getD r 0) y = m (ms.getD r 0) y) ∧
      m' (ms.getD root 0) = m (ms.getD root 0) ∧ ∀ p, p ∉ ms → m' p = m p := by
  rw [mpi_xchg (fun _ _ => rfl) (by
    intro r _
    simp only [Call.bad, toI32_lt hc]
    simp; omega) (fun _ _ => rfl) rfl]
  have cond : ∀ r j : Nat, ((j : Int) = (root : Int) ∧ (r : Int) ≠ (root : Int)) ↔ (j = root ∧ r ≠ root) := by
    intro r j; omega
  obtain ⟨m', e, h1, h2, h3⟩ := xchg_ok hn (S := fun j r => (Call.bcast (buf j) (toI32 n) (Ty.basic kb) root).send j r)
    (R := fun r j => (Call.bcast (buf r) (toI32 n) (Ty.basic kb) root).recv r j)
    (fun r j => if j = root ∧ r ≠ root then List.range (n * kb) else [])
    (fun j _ x => buf j + (x : Int)) (fun r _ x => buf r + (x : Int))
    (by
      intro j _ r _
      simp only [Call.send, cond, toI32_lt hc, Int.toNat_natCast]
      split
      · rw [addrs_basic]
      · rfl)
    (by
      intro r _ j _
      simp only [Call.recv, cond, toI32_lt hc, Int.toNat_natCast]
      split
      · rw [addrs_basic]
      · rfl)
    (by
      intro r _ j _ j' _ p hp p' hp' h
      split at hp
      · split at hp'
        · rename_i a b
          exact ⟨by rw [a.1, b.1], by omega⟩
        · cases hp'
      · cases hp)
    (by
      intro r _ j _ q _ p hp p' hp'
      split at hp
      · split at hp'
        · rename_i a b
          exact absurd b.1 a.2
        · cases hp'
      · cases hp)
    m
  refine ⟨m', e, ?_, ?_, ?_, h3⟩
  · intro r hr hne x hx
    exact h1 r hr root hroot x (by rw [if_pos ⟨rfl, hne⟩, List.mem_range]; exact hx)
  · intro r hr hne y hy
    apply h2 r hr y
    intro j _ p hp
    split at hp
    · rw [List.mem_range] at hp
      omega
    · cases hp
  · funext y
    apply h2 root hroot y
    intro j _ p hp
    rw [if_neg (by rintro ⟨_, h⟩; exact h rfl)] at hp
    cases hp

/-- **C38** Team broadcast: the root's source is copied into the destination of every member, the root included; nothing else
changes. `src`, `dst` give the pointers each PE passes; `root` is a team PE number. Missing: counts of 2^31 and more
(`C38_count_fails`). -/
theorem C38_partial (kb : Nat) {ms : List Nat} (hn : ms.Nodup) {root : Nat} (hroot : root < ms.length) (src dst : Nat → Int)
    {n : Nat} (hc : n < 2 ^ 31) (hl : n * kb < 2 ^ 64)
    (ha : overlap (src (ms.getD root 0)) (dst (ms.getD root 0)) (n * kb) = false) (m : Mems) :
    ∃ m', broadcastTeam kb ms root src dst n m = .ok m' ∧
      (∀ p ∈ ms, ∀ x < n * kb, m' p (dst p + (x : Int)) = m (ms.getD root 0) (src (ms.getD root 0) + (x : Int))) ∧
      (∀ p ∈ ms, ∀ y, (y < dst p ∨ dst p + ((n * kb : Nat) : Int) ≤ y) → m' p y = m p y) ∧
      ∀ p, p ∉ ms → m' p = m p := by
  obtain ⟨m1, e, h1, h2, h3, h4⟩ := bcast_ok (fun _ _ a _ => a) (fun _ _ => .leaf 0) kb hn hroot
    (fun r => if root = r then src (ms.getD r 0) else dst (ms.getD r 0)) hc m
  unfold broadcastTeam
  simp only
  rw [e, Nat.mod_eq_of_lt hl]
  simp only [Res.bind_ok]
  rw [ha]
  refine ⟨_, rfl, ?_, ?_, ?_⟩
  · intro p hp x hx
    obtain ⟨r, hr, rfl⟩ := mem_getD hp
    by_cases hne : r = root
    · subst hne
      rw [Function.update_self, if_pos (by omega), h3]
      congr 1
      omega
    · rw [Function.update_of_ne (fun c => hne (getD_inj hn hr hroot c))]
      have := h1 r hr hne x hx
      rw [if_neg (Ne.symm hne), if_pos rfl] at this
      exact this
  · intro p hp y hy
    obtain ⟨r, hr, rfl⟩ := mem_getD hp
    by_cases hne : r = root
    · subst hne
      rw [Function.update_self, if_neg (by omega), h3]
    · rw [Function.update_of_ne (fun c => hne (getD_inj hn hr hroot c))]
      have := h2 r hr hne y
      rw [if_neg (Ne.symm hne)] at this
      exact this hy
  · intro p hp
    rw [Function.update_of_ne (fun c => hp (by rw [c]; exact getD_mem hroot))]
    exact h4 p hp

/-- C38 negation: with 2^32 elements the members other than the root receive nothing. -/
theorem C38_count_fails (kb : Nat) {ms : List Nat} (hn : ms.Nodup) {root : Nat} (hroot : root < ms.length) (src dst : Nat → Int)
    (ha : overlap (src (ms.getD root 0)) (dst (ms.getD root 0)) (2 ^ 32 * kb % 2 ^ 64) = false) (m : Mems) :
    ∃ m', broadcastTeam kb ms root src dst (2 ^ 32) m = .ok m' ∧ ∀ p, p ≠ ms.getD root 0 → m' p = m p := by
  obtain ⟨m1, e, _, h2, _, h4⟩ := bcast_ok (fun _ _ a _ => a) (fun _ _ => .leaf 0) kb hn hroot
    (fun r => if root = r then src (ms.getD r 0) else dst (ms.getD r 0)) (n := 0) (by decide) m
  unfold broadcastTeam
  simp only
  rw [toI32_two_pow, e]
  simp only [Res.bind_ok]
  rw [ha]
  refine ⟨_, rfl, ?_⟩
  intro p hp
  rw [Function.update_of_ne hp]
  by_cases hm : p ∈ ms
  · obtain ⟨r, hr, rfl⟩ := mem_getD hm
    funext y
    apply h2 r hr (fun c => hp (by rw [c])) y
    omega
  · exact h4 p hm

/-- non-trivial case: members 4, 2, 7 in this order, root 2 (PE 7), three 8-byte elements -/
example : overlap ((fun p : Nat => 100 * (p : Int)) ([4, 2, 7].getD 2 0)) ((fun p : Nat => 5000 + 100 * (p : Int)) ([4, 2, 7].getD 2 0)) (3 * 8) = false := by
  decide

/-! ## C34: active-set broadcast -/

theorem pes_getD {k : ASet} {i : Nat} (h : i < k.size) : k.pes.getD i 0 = k.start + i * 2 ^ k.lg := by
  unfold ASet.pes
  rw [List.getD_eq_getElem _ _ (by simpa using h)]
  simp

theorem pes_length (k : ASet) : k.pes.length = k.size := by unfold ASet.pes; simp

theorem pes_nodup (k : ASet) : k.pes.Nodup := by
  unfold ASet.pes
  apply List.Nodup.map _ List.nodup_range
  intro a b h
  have h : a * 2 ^ k.lg = b * 2 ^ k.lg := by simp only at h; omega
  exact Nat.eq_of_mul_eq_mul_right (Nat.two_pow_pos _) h

/-- **C34** Active-set broadcast, where the root's index in the set is also its PE number (the set starts at PE 0 with stride 1,
or the root is PE 0): the root's source is copied to the destination of every other member, the root's destination is not
touched. Missing: all other roots and sets (`C34_fails`, `C34_get_fails`), counts of 2^31 and more. -/
theorem C34_partial (procs : Nat → Sobj.Proc) (mode : Sobj.Mode) (kb : Nat) (k : ASet) {root : Nat} (hroot : root < k.size)
    (h0 : k.start = 0) (h1 : k.lg = 0 ∨ root = 0) (src dst : Nat → BitVec 64) {n : Nat} (hc : n < 2 ^ 31) (m : Mems) :
    ∃ m', broadcast procs mode kb k k.pes root src dst n m = .ok m' ∧
      (∀ p ∈ k.pes, p ≠ root → ∀ x < n * kb, m' p ((dst p).toInt + (x : Int)) = m root ((src root).toInt + (x : Int))) ∧
      (∀ p ∈ k.pes, p ≠ root → ∀ y, (y < (dst p).toInt ∨ (dst p).toInt + ((n * kb : Nat) : Int) ≤ y) → m' p y = m p y) ∧
      m' root = m root ∧ ∀ p, p ∉ k.pes → m' p = m p := by
  have hr : k.start + root * 2 ^ k.lg = root := by
    rcases h1 with h1 | h1 <;> rw [h0, h1] <;> simp
  have hin : rootIn root k = true := by
    unfold rootIn
    rw [List.any_eq_true]
    exact ⟨root, List.mem_range.mpr hroot, by rw [beq_iff_eq]; exact hr.symm⟩
  have hg : k.pes.getD root 0 = root := by rw [pes_getD hroot, hr]
  have hl : root < k.pes.length := by rw [pes_length]; exact hroot
  obtain ⟨m', e, g1, g2, g3, g4⟩ := bcast_ok (fun _ _ a _ => a) (fun _ _ => .leaf 0) kb (pes_nodup k) hl
    (fun r => (if root = k.pes.getD r 0 then src (k.pes.getD r 0) else dst (k.pes.getD r 0)).toInt) hc m
  refine ⟨m', ?_, ?_, ?_, ?_, g4⟩
  · unfold broadcast
    rw [if_pos hin]
    exact e
  · intro p hp hne x hx
    obtain ⟨r, hr', rfl⟩ := mem_getD hp
    have := g1 r hr' (fun c => hne (by rw [c, hg])) x hx
    rw [if_neg (Ne.symm hne), hg, if_pos rfl] at this
    exact this
  · intro p hp hne y hy
    obtain ⟨r, hr', rfl⟩ := mem_getD hp
    have := g2 r hr' (fun c => hne (by rw [c, hg])) y
    rw [if_neg (Ne.symm hne)] at this
    exact this hy
  · rw [hg] at g3; exact g3

/-- C34 negation. For every root index whose PE number differs from the index, when that index is also the PE number of some
member of the set: the members receive what was in the *destination* of the root, and the member whose PE number is the root
index gets it into its *source* array. -/
theorem C34_fails (procs : Nat → Sobj.Proc) (mode : Sobj.Mode) (kb : Nat) (k : ASet) {root i : Nat} (hroot : root < k.size)
    (hne : k.start + root * 2 ^ k.lg ≠ root) (hi : i < k.size) (hroot' : root = k.start + i * 2 ^ k.lg)
    (src dst : Nat → BitVec 64) {n : Nat} (hc : n < 2 ^ 31) (m : Mems) :
    ∃ m', broadcast procs mode kb k k.pes root src dst n m = .ok m' ∧
      (∀ p ∈ k.pes, p ≠ k.start + root * 2 ^ k.lg → p ≠ root → ∀ x < n * kb,
        m' p ((dst p).toInt + (x : Int)) =
        m (k.start + root * 2 ^ k.lg) ((dst (k.start + root * 2 ^ k.lg)).toInt + (x : Int))) ∧
      ∀ x < n * kb, m' root ((src root).toInt + (x : Int)) =
        m (k.start + root * 2 ^ k.lg) ((dst (k.start + root * 2 ^ k.lg)).toInt + (x : Int)) := by
  have hin : rootIn root k = true := by
    unfold rootIn
    rw [List.any_eq_true]
    exact ⟨i, List.mem_range.mpr hi, by rw [beq_iff_eq]; exact hroot'⟩
  have hg : k.pes.getD root 0 = k.start + root * 2 ^ k.lg := pes_getD hroot
  have hgi : k.pes.getD i 0 = root := by rw [pes_getD hi, hroot']
  have hl : root < k.pes.length := by rw [pes_length]; exact hroot
  obtain ⟨m', e, g1, g2, g3, g4⟩ := bcast_ok (fun _ _ a _ => a) (fun _ _ => .leaf 0) kb (pes_nodup k) hl
    (fun r => (if root = k.pes.getD r 0 then src (k.pes.getD r 0) else dst (k.pes.getD r 0)).toInt) hc m
  refine ⟨m', ?_, ?_, ?_⟩
  · unfold broadcast
    rw [if_pos hin]
    exact e
  · intro p hp hn1 hn2 x hx
    obtain ⟨r, hr', rfl⟩ := mem_getD hp
    have := g1 r hr' (fun c => hn1 (by rw [c, hg])) x hx
    rw [if_neg (Ne.symm hn2), hg, if_neg (Ne.symm hne)] at this
    exact this
  · intro x hx
    have := g1 i (by rw [pes_length]; exact hi) (by rintro rfl; exact hne (by rw [← hroot'])) x hx
    simp only [hgi, if_true] at this
    rw [hg, if_neg (Ne.symm hne)] at this
    exact this

/-- the case of the set {1, 2, 3} and root index 1 -/
example : (1 : Nat) < (⟨1, 0, 3⟩ : ASet).size ∧ (⟨1, 0, 3⟩ : ASet).start + 1 * 2 ^ (⟨1, 0, 3⟩ : ASet).lg ≠ 1 ∧
    1 = (⟨1, 0, 3⟩ : ASet).start + 0 * 2 ^ (⟨1, 0, 3⟩ : ASet).lg := by decide

/-- PE 2's source has 7s, PE 0's source has 5s -/
def exMem : Mems := fun p a => if a = 0x80010 ∧ p = 2 then 7#8 else if a = 0x80010 ∧ p = 0 then 5#8 else 0#8

/-- C34 negation, the other path: set {2, 3}, root index 0 (PE 2). No member has PE number 0, so the members fetch from PE 0,
which is not in the set: PE 3 gets PE 0's data, and PE 2's own destination is overwritten. -/
theorem C34_get_fails : ∃ m', broadcast (fun _ => ⟨Sobj.setupAttr true .heap 0 4 (fun _ => 0x10000#64) 4096 0,
      Sobj.setupAttr true .data 0 4 (fun _ => 0x80000#64) 4096 0, []⟩) .abs 1 ⟨2, 0, 2⟩ (⟨2, 0, 2⟩ : ASet).pes 0
      (fun _ => 0x80010#64) (fun _ => 0x80020#64) 1 exMem = .ok m' ∧
    m' 3 0x80020 = 5#8 ∧ m' 2 0x80020 = 5#8 ∧ exMem 2 0x80010 = 7#8 := by
  refine ⟨_, rfl, ?_, ?_, ?_⟩ <;> decide +kernel

end Verif.Coll
