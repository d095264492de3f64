import Verif.Coll.Exact
/-!
# Strided routines for every count and every stride

The strided puts and gets (C18) and the strided all-to-all (C36) convert the number of elements and the strides to `int`
(strided_impl.h L143) and leave the distance of blocks as it is (L150-166). Here: what they do for every count and every
stride.
-/

namespace Verif.Coll
open Verif.Rma Verif.Sobj

/-- Element `e < n` of block `j` of member `r`'s destination (elements `ds` apart, blocks `ed` apart, both in elements) is
element `e` of block `r` of member `j`'s source (elements `ss`, blocks `es` apart); nothing else changes. -/
def TransposedAt (kb : Nat) (ms : List Nat) (n : Nat) (ss ds es ed : Int) (src dst : Nat → Int) (m m' : Mems) : Prop :=
  (∀ r < ms.length, ∀ j < ms.length, ∀ e < n, ∀ b < kb,
    m' (ms.getD r 0) (dst r + ((j : Int) * ed + (e : Int) * ds) * kb + (b : Int)) =
    m (ms.getD j 0) (src j + ((r : Int) * es + (e : Int) * ss) * kb + (b : Int))) ∧
  (∀ r < ms.length, ∀ y, (∀ j < ms.length, ∀ e < n, ∀ b < kb, y ≠ dst r + ((j : Int) * ed + (e : Int) * ds) * kb + (b : Int)) →
    m' (ms.getD r 0) y = m (ms.getD r 0) y) ∧
  ∀ p, p ∉ ms → m' p = m p

/-- different elements of a destination are different bytes -/
def DistinctAt (kb : Nat) (ms : List Nat) (n : Nat) (ds ed : Int) : Prop :=
  ∀ j < ms.length, ∀ e < n, ∀ b < kb, ∀ j' < ms.length, ∀ e' < n, ∀ b' < kb,
    ((j : Int) * ed + (e : Int) * ds) * kb + (b : Int) = ((j' : Int) * ed + (e' : Int) * ds) * kb + (b' : Int) → j = j' ∧ e = e' ∧ b = b'

/-- no element of a member's source is an element of its own destination -/
def ApartAt (kb : Nat) (ms : List Nat) (n : Nat) (ss ds es ed : Int) (src dst : Nat → Int) : Prop :=
  ∀ r < ms.length, ∀ q < ms.length, ∀ e < n, ∀ b < kb, ∀ j < ms.length, ∀ e' < n, ∀ b' < kb,
    src r + ((q : Int) * es + (e : Int) * ss) * kb + (b : Int) ≠ dst r + ((j : Int) * ed + (e' : Int) * ds) * kb + (b' : Int)

/-- how far apart the blocks of a call with `N` elements per block are: with stride 1 the code passes the converted count to MPI, otherwise it makes a
datatype with an extent of `N` times the stride (strided_impl.h L119-122, L150-166) -/
def gap (N : Nat) (st : Int) : Int := if st = 1 then ((N % 2 ^ 32 : Nat) : Int) else (N : Int) * st

/-! ## Proof -/

theorem fresh_of {c : Bool} {sz : Nat → Nat} {k : Key} {cnt : Nat} {ty : Ty} (h : Obtained c sz k cnt ty) : Fresh sz k cnt ty := by
  obtain ⟨s, t, dt, h1, h2, h3⟩ := h
  obtain ⟨ty', h4, h5⟩ := C20_transparent h1 h2
  rw [h3] at h4; cases h4; exact h5

/-- what an obtained datatype covers -/
theorem fresh_flat_any {sz : Nat → Nat} {N : Nat} {st : Int} {base ext cnt : Nat} {ty : Ty} (h : Fresh sz ⟨N, st, base, ext⟩ cnt ty)
    (hN : N % 2 ^ 32 < 2 ^ 31) :
    ¬ toI32 cnt < 0 ∧ ty.flat (toI32 cnt).toNat =
      (idx (N % 2 ^ 32) (sz base)).map (fun p => (p.2 : Int) + (p.1 : Int) * toI32s st * (sz base : Nat)) := by
  unfold Fresh at h
  simp only at h
  split at h
  · rename_i hs
    obtain ⟨rfl, rfl⟩ := h
    rw [toI32_mod hN]
    refine ⟨by omega, ?_⟩
    rw [Int.toNat_natCast, flat_basic, hs, show toI32s 1 = 1 by decide]
    congr 1
    funext p
    rw [Int.mul_one]
  · obtain ⟨rfl, h⟩ := h
    have : toI32 1 = 1 := by decide
    rw [this]
    refine ⟨by omega, ?_⟩
    unfold newType at h
    simp only [toI32_mod hN] at h
    rw [if_neg (by omega)] at h
    simp only [Option.some.injEq, Int.toNat_natCast] at h
    have e1 : (1 : Int).toNat = 1 := rfl
    rw [e1, flat_one, ← h]
    generalize N % 2 ^ 32 = n
    split
    · show (Ty.vector n (toI32s st) (Ty.basic (sz base))).map = _
      rw [vector_map]
    · rw [vector_map]

/-- a negative `int` count: only stride 1 gets a datatype, and then the count handed to MPI is negative -/
theorem fresh_neg {sz : Nat → Nat} {k : Key} {cnt : Nat} {ty : Ty} (h : Fresh sz k cnt ty) (hN : 2 ^ 31 ≤ k.nelems % 2 ^ 32) :
    k.stride = 1 ∧ toI32 cnt < 0 := by
  unfold Fresh at h
  split at h
  · rename_i hs
    obtain ⟨rfl, _⟩ := h
    exact ⟨hs, toI32_neg hN⟩
  · obtain ⟨_, h⟩ := h
    unfold newType at h
    rw [if_pos (toI32_neg hN)] at h
    cases h

/-- the extent of what is obtained for the all-to-all -/
theorem fresh_gap {sz : Nat → Nat} {N : Nat} {st : Int} {base cnt : Nat} {ty : Ty} (h : Fresh sz (stridedKey N st base) cnt ty)
    (hN : N % 2 ^ 32 < 2 ^ 31) (hs1 : 1 ≤ st) (hz : 1 ≤ sz base) (hx : (N : Int) * st * sz base < 2 ^ 63) (hp : 0 < N % 2 ^ 32) :
    toI32 cnt * ty.extent = gap N st * sz base := by
  unfold Fresh stridedKey at h
  unfold gap
  simp only at h
  split at h
  · rename_i hs
    obtain ⟨rfl, rfl⟩ := h
    rw [toI32_mod hN, if_pos hs, basic_extent]
  · rename_i hs
    obtain ⟨rfl, h⟩ := h
    rw [if_neg hs]
    have : toI32 1 = 1 := by decide
    rw [this, Int.one_mul]
    unfold newType at h
    simp only [toI32_mod hN] at h
    rw [if_neg (by omega)] at h
    simp only [Option.some.injEq] at h
    have hst : st = (st.toNat : Int) := by omega
    have hb : ((N * st.toNat * sz base : Nat) : Int) < 2 ^ 63 := by
      rw [Nat.cast_mul, Nat.cast_mul, ← hst]; exact hx
    have hle : N * st.toNat ≤ N * st.toNat * sz base := Nat.le_mul_of_pos_right _ (by omega)
    have key : toU64 ((N : Int) * st) = N * st.toNat := by
      unfold toU64
      have e2 : (N : Int) * st = ((N * st.toNat : Nat) : Int) := by push_cast; rw [← hst]
      rw [e2]
      omega
    rw [key] at h
    have hpos : N * st.toNat > 0 := Nat.mul_pos (by omega) (by omega)
    rw [if_pos hpos] at h
    rw [← h]
    have he : ∀ (t : Ty) (e : Int), (t.resized e).extent = e := fun _ _ => rfl
    rw [he, Nat.mod_eq_of_lt (by omega)]
    unfold toAint
    rw [Int.bmod_eq_of_le (by omega) (by omega), Nat.cast_mul, Nat.cast_mul, ← hst]

theorem transpose_at (kb : Nat) {ms : List Nat} (hn : ms.Nodup) (n : Nat) {ss ds es ed : Int} (src dst : Nat → Int) {S R : Nat → Nat → List Int}
    (hS : ∀ j < ms.length, ∀ r < ms.length, S j r = (idx n kb).map (fun p => src j + ((r : Int) * es + (p.1 : Int) * ss) * kb + (p.2 : Int)))
    (hR : ∀ r < ms.length, ∀ j < ms.length, R r j = (idx n kb).map (fun p => dst r + ((j : Int) * ed + (p.1 : Int) * ds) * kb + (p.2 : Int)))
    (hd : DistinctAt kb ms n ds ed) (ha : ApartAt kb ms n ss ds es ed src dst) (m : Mems) :
    ∃ m', xchg ms S R m = .ok m' ∧ TransposedAt kb ms n ss ds es ed src dst m m' := by
  obtain ⟨m', e, h1, h2, h3⟩ := xchg_ok hn (S := S) (R := R) (fun _ _ => idx n kb)
    (fun j r p => src j + ((r : Int) * es + (p.1 : Int) * ss) * kb + (p.2 : Int))
    (fun r j p => dst r + ((j : Int) * ed + (p.1 : Int) * ds) * kb + (p.2 : Int)) hS hR
    (by
      intro r _ j hj j' hj' p hp p' hp' h
      rw [mem_idx] at hp hp'
      obtain ⟨p1, p2⟩ := p
      obtain ⟨q1, q2⟩ := p'
      simp only at h hp hp'
      obtain ⟨g1, g2, g3⟩ := hd j hj p1 hp.1 p2 hp.2 j' hj' q1 hp'.1 q2 hp'.2 (by omega)
      exact ⟨g1, by rw [g2, g3]⟩)
    (by
      intro r hr j hj q hq p hp p' hp' h
      rw [mem_idx] at hp hp'
      exact ha r hr q hq p'.1 hp'.1 p'.2 hp'.2 j hj p.1 hp.1 p.2 hp.2 h.symm)
    m
  refine ⟨m', e, ?_, ?_, h3⟩
  · intro r hr j hj e he b hb
    exact h1 r hr j hj (e, b) (mem_idx.mpr ⟨he, hb⟩)
  · intro r hr y hy
    apply h2 r hr y
    intro j hj p hp
    rw [mem_idx] at hp
    exact hy j hj p.1 hp.1 p.2 hp.2

/-! ## Theorems -/

/-- **C36** The strided all-to-all, every count and every stride of at least 1, whatever datatypes the cache holds. Only the low 32 bits of the count
and of the strides (as `int`) matter for the elements of a block; with stride 1 the blocks are as far apart as the converted count says, otherwise as
far as the caller said. If the low 32 bits of the count are 2^31 or more no datatype can be made (the program is aborted there), except for strides 1,
where MPI aborts the program. -/
theorem C36_alltoalls_counts {c : Nat → Bool} {sz : Nat → Nat} {ms : List Nat} (hn : ms.Nodup) (h0 : ms ≠ []) {N base : Nat} {ss ds : Int}
    (hz : 1 ≤ sz base) (hss : 1 ≤ ss) (hds : 1 ≤ ds) (hxs : (N : Int) * ss * sz base < 2 ^ 63) (hxd : (N : Int) * ds * sz base < 2 ^ 63)
    {sc rc : Nat → Nat} {sty rty : Nat → Ty} (ho : ∀ r < ms.length, Obtained (c r) sz (stridedKey N ss base) (sc r) (sty r))
    (ho' : ∀ r < ms.length, Obtained (c r) sz (stridedKey N ds base) (rc r) (rty r)) (src dst : Nat → Int) (m : Mems) :
    (N % 2 ^ 32 < 2 ^ 31 → DistinctAt (sz base) ms (N % 2 ^ 32) (toI32s ds) (gap N ds) →
      ApartAt (sz base) ms (N % 2 ^ 32) (toI32s ss) (toI32s ds) (gap N ss) (gap N ds) src dst →
      ∃ m', alltoalls ms src dst sc sty rc rty m = .ok m' ∧
        TransposedAt (sz base) ms (N % 2 ^ 32) (toI32s ss) (toI32s ds) (gap N ss) (gap N ds) src dst m m') ∧
    (2 ^ 31 ≤ N % 2 ^ 32 → ss = 1 ∧ ds = 1 ∧ alltoalls ms src dst sc sty rc rty m = .abort) := by
  have hpos : 0 < ms.length := List.length_pos_of_ne_nil h0
  constructor
  · intro hN hd ha
    unfold alltoalls
    rw [mpi_xchg (fun _ _ => rfl) (by
      intro r hr
      have h1 := (fresh_flat_any (fresh_of (ho r hr)) hN).1
      have h2 := (fresh_flat_any (fresh_of (ho' r hr)) hN).1
      simp only [Call.bad, Bool.or_eq_false_iff, decide_eq_false_iff_not]
      exact ⟨h1, h2⟩) (fun _ _ => rfl) rfl]
    apply transpose_at (sz base) hn (N % 2 ^ 32) src dst _ _ hd ha
    · intro j hj r _
      have h2 := (fresh_flat_any (fresh_of (ho j hj)) hN).2
      simp only [Call.send]
      unfold addrs
      rw [h2, List.map_map]
      apply List.map_congr_left
      intro p hp
      rw [mem_idx] at hp
      have h3 := fresh_gap (fresh_of (ho j hj)) hN hss hz hxs (by omega)
      rw [h3]
      simp only [Function.comp]
      ring
    · intro r hr j _
      have h2 := (fresh_flat_any (fresh_of (ho' r hr)) hN).2
      simp only [Call.recv]
      unfold addrs
      rw [h2, List.map_map]
      apply List.map_congr_left
      intro p hp
      rw [mem_idx] at hp
      have h3 := fresh_gap (fresh_of (ho' r hr)) hN hds hz hxd (by omega)
      rw [h3]
      simp only [Function.comp]
      ring
  · intro hN
    obtain ⟨h1, h2⟩ := fresh_neg (fresh_of (ho 0 hpos)) hN
    obtain ⟨h3, _⟩ := fresh_neg (fresh_of (ho' 0 hpos)) hN
    refine ⟨h1, h3, mpi_abort h0 (fun _ _ => rfl) ?_⟩
    simp [Call.bad, h2]

/-- a strided transfer, every count and every stride -/
theorem strided_any {c c' : Bool} {sz : Nat → Nat} (src dst : IMem) (sa da : Int) {N base sc dc : Nat} {sty dty : Ty} {ss ds : Int}
    (hs : Obtained c sz ⟨N, ss, base, 0⟩ sc sty) (hd : Obtained c' sz ⟨N, ds, base, 0⟩ dc dty) (hN : N % 2 ^ 32 < 2 ^ 31) (h0 : toI32s ds ≠ 0) :
    ∃ r, mpiXfer src dst sa (toI32 sc) sty da (toI32 dc) dty = .ok r ∧ mpiMsg src dst sa (toI32 sc) sty da (toI32 dc) dty = .ok r ∧
      CopiedStrided src dst r sa da (N % 2 ^ 32) (sz base) (toI32s ss) (toI32s ds) := by
  obtain ⟨n1, e1⟩ := fresh_flat_any (fresh_of hs) hN
  obtain ⟨n2, e2⟩ := fresh_flat_any (fresh_of hd) hN
  obtain ⟨x1, x2⟩ := xfer_eq src dst sa _ _ da _ _ (N % 2 ^ 32) (sz base) _ _ n1 n2 e1 e2
  refine ⟨_, x1, x2, ?_⟩
  generalize N % 2 ^ 32 = n
  generalize toI32s ds = d at h0 ⊢
  have hinj : ∀ p ∈ idx n (sz base), ∀ q ∈ idx n (sz base),
      (p.2 : Int) + (p.1 : Int) * d * (sz base : Nat) = (q.2 : Int) + (q.1 : Int) * d * (sz base : Nat) → p = q := by
    intro p hp q hq h
    rcases Int.lt_or_gt_of_ne h0 with hneg | hpos
    · -- the same elements from the other end
      have hb := (mem_idx.1 hp).2
      have hb' := (mem_idx.1 hq).2
      obtain ⟨h1, h2⟩ := elem_inj (st := -d) (k := sz base) (i := q.1) (i' := p.1) (b := p.2) (b' := q.2) (by omega) hb hb' (by linarith)
      exact Prod.ext h1.symm h2
    · have := elem_inj (by omega) (mem_idx.1 hp).2 (mem_idx.1 hq).2 h
      exact Prod.ext this.1 this.2
  have h := writes_idx src dst sa da n (sz base) (fun p => (p.2 : Int) + (p.1 : Int) * toI32s ss * (sz base : Nat)) _ hinj
  simp only at h
  constructor
  · intro i hi b hb
    have := h.1 (i, b) (mem_idx.2 ⟨hi, hb⟩)
    simp only at this
    rw [show da + (i : Int) * d * (sz base : Nat) + b = da + (b + (i : Int) * d * (sz base : Nat)) by ring,
      show sa + (i : Int) * toI32s ss * (sz base : Nat) + b = sa + (b + (i : Int) * toI32s ss * (sz base : Nat)) by ring]
    exact this
  · intro x hx
    apply h.2
    intro p hp
    have := hx p.1 (mem_idx.1 hp).1 p.2 (mem_idx.1 hp).2
    intro c
    apply this
    rw [c]; ring

/-- **C18** iput, every count and every stride, both paths: as with the count's low 32 bits and the strides converted to `int`; if these low bits are
2^31 or more no datatype can be made (the program is aborted there), except for strides 1, where MPI aborts the program. -/
theorem C18_iput_counts {c c' : Bool} {sz : Nat → Nat} (procs : Nat → Proc) (path : Path) (ctx : Option (Obj × Attr)) (me pe : Nat)
    (origin target r : BitVec 64) (m : Mems) {N base oc tc : Nat} {oty tty : Ty} {sst tst : Int} (ho : Obtained c sz ⟨N, sst, base, 0⟩ oc oty)
    (ht : Obtained c' sz ⟨N, tst, base, 0⟩ tc tty) (hr : resolve procs path ctx me pe target = .ok r) :
    (N % 2 ^ 32 < 2 ^ 31 → toI32s tst ≠ 0 → ∃ m', ctxIput procs path ctx me pe origin target N oc oty tc tty m = .ok m' ∧
      CopiedStrided (m me) (m pe) (m' pe) origin.toInt r.toInt (N % 2 ^ 32) (sz base) (toI32s sst) (toI32s tst) ∧ ∀ q, q ≠ pe → m' q = m q) ∧
    (2 ^ 31 ≤ N % 2 ^ 32 → sst = 1 ∧ tst = 1 ∧ ctxIput procs path ctx me pe origin target N oc oty tc tty m = .abort) := by
  unfold ctxIput
  constructor
  · intro hN h1
    by_cases h0 : N = 0
    · subst h0
      rw [if_pos rfl]
      exact ⟨m, rfl, ⟨fun i hi => absurd hi (by omega), fun _ _ => rfl⟩, fun _ _ => rfl⟩
    rw [if_neg h0, hr]
    simp only [Res.bind_ok]
    obtain ⟨x, e1, e2, hc⟩ := strided_any (m me) (m pe) origin.toInt r.toInt ho ht hN h1
    cases path with
    | direct mode =>
      simp only
      rw [e1]
      exact ⟨_, rfl, by rw [Function.update_self]; exact hc, fun q hq => Function.update_of_ne hq _ _⟩
    | am =>
      simp only
      rw [e2]
      exact ⟨_, rfl, by rw [Function.update_self]; exact hc, fun q hq => Function.update_of_ne hq _ _⟩
  · intro hN
    obtain ⟨h1, h2⟩ := fresh_neg (fresh_of ho) hN
    obtain ⟨h3, _⟩ := fresh_neg (fresh_of ht) hN
    refine ⟨h1, h3, ?_⟩
    rw [if_neg (by omega), hr]
    simp only [Res.bind_ok]
    cases path with
    | direct mode =>
      simp only
      unfold mpiXfer
      rw [if_pos (Or.inl h2)]; rfl
    | am =>
      simp only
      unfold mpiMsg
      rw [if_pos (Or.inl h2)]; rfl

/-- **C18** iget, every count and every stride. -/
theorem C18_iget_counts {c c' : Bool} {sz : Nat → Nat} (procs : Nat → Proc) (path : Path) (ctx : Option (Obj × Attr)) (me pe : Nat)
    (origin target r : BitVec 64) (m : Mems) {N base oc tc : Nat} {oty tty : Ty} {dst sst : Int} (ho : Obtained c sz ⟨N, dst, base, 0⟩ oc oty)
    (ht : Obtained c' sz ⟨N, sst, base, 0⟩ tc tty) (hr : resolve procs path ctx me pe target = .ok r) :
    (N % 2 ^ 32 < 2 ^ 31 → toI32s dst ≠ 0 → ∃ m', ctxIget procs path ctx me pe origin target N oc oty tc tty m = .ok m' ∧
      CopiedStrided (m pe) (m me) (m' me) r.toInt origin.toInt (N % 2 ^ 32) (sz base) (toI32s sst) (toI32s dst) ∧ ∀ q, q ≠ me → m' q = m q) ∧
    (2 ^ 31 ≤ N % 2 ^ 32 → dst = 1 ∧ sst = 1 ∧ ctxIget procs path ctx me pe origin target N oc oty tc tty m = .abort) := by
  unfold ctxIget
  constructor
  · intro hN h1
    by_cases h0 : N = 0
    · subst h0
      rw [if_pos rfl]
      exact ⟨m, rfl, ⟨fun i hi => absurd hi (by omega), fun _ _ => rfl⟩, fun _ _ => rfl⟩
    rw [if_neg h0, hr]
    simp only [Res.bind_ok]
    obtain ⟨x, e1, e2, hc⟩ := strided_any (m pe) (m me) r.toInt origin.toInt ht ho hN h1
    cases path with
    | direct mode =>
      simp only
      rw [e1]
      exact ⟨_, rfl, by rw [Function.update_self]; exact hc, fun q hq => Function.update_of_ne hq _ _⟩
    | am =>
      simp only
      rw [e2]
      exact ⟨_, rfl, by rw [Function.update_self]; exact hc, fun q hq => Function.update_of_ne hq _ _⟩
  · intro hN
    obtain ⟨h1, h2⟩ := fresh_neg (fresh_of ho) hN
    obtain ⟨h3, _⟩ := fresh_neg (fresh_of ht) hN
    refine ⟨h1, h3, ?_⟩
    rw [if_neg (by omega), hr]
    simp only [Res.bind_ok]
    cases path with
    | direct mode =>
      simp only
      unfold mpiXfer
      rw [if_pos (Or.inr h2)]; rfl
    | am =>
      simp only
      unfold mpiMsg
      rw [if_pos (Or.inr h2)]; rfl

/-- a datatype can be obtained for every key whose count is a non-negative `int` after the conversion, and for stride 1 always -/
theorem obtained_any (cacheOn : Bool) (sz : Nat → Nat) (k : Key) (hn : k.stride = 1 ∨ k.nelems % 2 ^ 32 < 2 ^ 31) :
    ∃ cnt ty, Obtained cacheOn sz k cnt ty := by
  by_cases h1 : k.stride = 1
  · exact ⟨k.nelems, Ty.basic (sz k.base), _, 0, .base k.base,
      DReach.step DReach.init (DStep.contig _ 0 k rfl h1), by simp, rfl⟩
  · have : ∃ ty, newType sz k = some ty := by
      unfold newType
      rw [if_neg (by rw [toI32_mod (by tauto)]; omega)]
      exact ⟨_, rfl⟩
    obtain ⟨ty, hty⟩ := this
    have s1 := DReach.step (cacheOn := cacheOn) (sz := sz) DReach.init (DStep.call _ 0 k rfl h1)
    have s2 := DReach.step s1 (DStep.miss _ 0 k (by simp) (by
      unfold findCache; cases cacheOn <;> rfl))
    have s3 := DReach.step s2 (DStep.make _ 0 k 0 ty (by simp) hty rfl)
    have s4 := DReach.step s3 (DStep.enter _ 0 k 0 (by simp))
    exact ⟨1, ty, _, 0, .derived 0, s4, by simp, by simp [layoutOf]⟩

/-- The hypotheses are met: four members, 2^32 + 2 elements of 4 bytes per block, source stride 2, destination stride 3. Of every block two elements
move. -/
example (m : Mems) : ∃ sc sty rc rty m', alltoalls [0, 2, 4, 6] (fun _ => 0) (fun _ => 2 ^ 40) sc sty rc rty m = .ok m' ∧
    TransposedAt 4 [0, 2, 4, 6] 2 2 3 ((2 ^ 32 + 2) * 2) ((2 ^ 32 + 2) * 3) (fun _ => 0) (fun _ => 2 ^ 40) m m' := by
  obtain ⟨sc, sty, ho⟩ := obtained_any true (fun _ => 4) (stridedKey (2 ^ 32 + 2) 2 0) (by decide)
  obtain ⟨rc, rty, ho'⟩ := obtained_any true (fun _ => 4) (stridedKey (2 ^ 32 + 2) 3 0) (by decide)
  have h := (C36_alltoalls_counts (c := fun _ => true) (sz := fun _ => 4) (ms := [0, 2, 4, 6]) (by decide) (by decide) (N := 2 ^ 32 + 2) (base := 0)
    (ss := 2) (ds := 3) (by decide) (by decide) (by decide) (by decide) (by decide) (sc := fun _ => sc) (rc := fun _ => rc) (sty := fun _ => sty)
    (rty := fun _ => rty) (fun _ _ => ho) (fun _ _ => ho') (fun _ => 0) (fun _ => 2 ^ 40) m).1 (by decide)
  have e1 : toI32s 2 = 2 := by decide
  have e2 : toI32s 3 = 3 := by decide
  have e3 : gap (2 ^ 32 + 2) 2 = (2 ^ 32 + 2) * 2 := by decide
  have e4 : gap (2 ^ 32 + 2) 3 = (2 ^ 32 + 2) * 3 := by decide
  have e5 : (2 ^ 32 + 2) % 2 ^ 32 = 2 := by decide
  rw [e1, e2, e3, e4, e5] at h
  obtain ⟨m', h1, h2⟩ := h (by
      intro j hj e he b hb j' hj' e' he' b' hb' h
      simp only [List.length_cons, List.length_nil] at hj hj'
      try dsimp only at hb hb' h
      omega) (by
      intro r _ q hq e he b hb j hj e' he' b' hb' h
      simp only [List.length_cons, List.length_nil] at hj hq
      try dsimp only at hb hb' h
      omega)
  exact ⟨_, _, _, _, m', h1, h2⟩

/-- hypotheses of `C18_iput_counts`: 2^32 + 5 elements with strides 2^32 + 2 and 3 -/
example : (∃ oc oty, Obtained true (fun _ => 4) ⟨2 ^ 32 + 5, 2 ^ 32 + 2, 0, 0⟩ oc oty) ∧ (∃ tc tty, Obtained true (fun _ => 4) ⟨2 ^ 32 + 5, 3, 0, 0⟩ tc tty) ∧
    (2 ^ 32 + 5) % 2 ^ 32 < 2 ^ 31 ∧ toI32s 3 ≠ 0 ∧ toI32s (2 ^ 32 + 2) = 2 :=
  ⟨obtained_any _ _ _ (by decide), obtained_any _ _ _ (by decide), by decide, by decide, by decide⟩

end Verif.Coll
