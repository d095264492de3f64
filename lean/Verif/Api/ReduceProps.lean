import Verif.Api.Reduce
import Mathlib.Algebra.Ring.Parity
/-!
# Property C77: a typed reduction computes what its name says
-/
namespace Verif.Api
open Verif.Rma Verif.Coll
open Verif.Amo (TyIdx)

/-! ## Specification -/

/-- integer types of C: signedness and size (LP64, `char` signed as on x86-64); `none` for floating types -/
def CT.intTy : CT → Option (Bool × Nat)
  | .float => none | .double => none | .longdouble => none
  | .char => some (true, 1) | .schar => some (true, 1) | .short => some (true, 2) | .int => some (true, 4)
  | .long => some (true, 8) | .longlong => some (true, 8)
  | .uchar => some (false, 1) | .ushort => some (false, 2) | .uint => some (false, 4) | .ulong => some (false, 8)
  | .ulonglong => some (false, 8)
  | .int8 => some (true, 1) | .int16 => some (true, 2) | .int32 => some (true, 4) | .int64 => some (true, 8)
  | .uint8 => some (false, 1) | .uint16 => some (false, 2) | .uint32 => some (false, 4) | .uint64 => some (false, 8)
  | .size => some (false, 8) | .ptrdiff => some (true, 8)

/-- number of the arithmetic (float, double, long double, complex) of a C type that is not an integer type, and its size -/
def RC.fpTy : RC → Option (Nat × Nat)
  | .base .float => some (0, 4) | .base .double => some (1, 8) | .base .longdouble => some (2, 16)
  | .fcomplex => some (3, 8) | .dcomplex => some (4, 16)
  | .base .char => none | .base .schar => none | .base .short => none | .base .int => none | .base .long => none
  | .base .longlong => none | .base .uchar => none | .base .ushort => none | .base .uint => none | .base .ulong => none
  | .base .ulonglong => none | .base .int8 => none | .base .int16 => none | .base .int32 => none | .base .int64 => none
  | .base .uint8 => none | .base .uint16 => none | .base .uint32 => none | .base .uint64 => none
  | .base .size => none | .base .ptrdiff => none

/-- the number that `k` bytes with value `x` stand for -/
def num (signed : Bool) (k x : Nat) : Int := if signed then (x : Int).bmod (256 ^ k) else x

/-- `r` is the result of the operator on the `n` contributions `v`, for an integer type of `k` bytes -/
def Means (signed : Bool) (k : Nat) (op : OpName) (v : Nat → Nat) (n r : Nat) : Prop := match op with
  | .sum => r = ((List.range n).map v).sum % 256 ^ k
  | .prod => r = ((List.range n).map v).prod % 256 ^ k
  | .min => (∃ q < n, r = v q) ∧ ∀ q < n, num signed k r ≤ num signed k (v q)
  | .max => (∃ q < n, r = v q) ∧ ∀ q < n, num signed k (v q) ≤ num signed k r
  | .and => ∀ i, r.testBit i = true ↔ ∀ q < n, (v q).testBit i = true
  | .or => ∀ i, r.testBit i = true ↔ ∃ q < n, (v q).testBit i = true
  | .xor => ∀ i, r.testBit i = true ↔ Odd ((List.range n).countP (fun q => (v q).testBit i))

/-! ## Proof -/

theorem foldRanks_one (f : Nat → Nat → Nat) (v : Nat → Nat) : foldRanks f v 1 = v 0 := rfl

theorem foldRanks_succ (f : Nat → Nat → Nat) (v : Nat → Nat) (n : Nat) :
    foldRanks f v (n + 2) = f (foldRanks f v (n + 1)) (v (n + 1)) := by
  unfold foldRanks
  rw [show n + 2 - 1 = n + 1 by omega, show n + 1 - 1 = n by omega, List.range_succ, List.foldl_append]
  rfl

theorem fold_means {signed : Bool} {k : Nat} {v : Nat → Nat} (op : OpName) (hv : ∀ q, v q < 256 ^ k) (n : Nat) :
    Means signed k op v (n + 1) (foldRanks (op.mpi.int signed k) v (n + 1)) := by
  induction n with
  | zero =>
    rw [foldRanks_one]
    cases op with
    | sum => simp [Means, Nat.mod_eq_of_lt (hv 0)]
    | prod => simp [Means, Nat.mod_eq_of_lt (hv 0)]
    | min => exact ⟨⟨0, by omega, rfl⟩, fun q hq => by rw [show q = 0 by omega]⟩
    | max => exact ⟨⟨0, by omega, rfl⟩, fun q hq => by rw [show q = 0 by omega]⟩
    | and => intro i; exact ⟨fun h q hq => by rw [show q = 0 by omega]; exact h, fun h => h 0 (by omega)⟩
    | or =>
      intro i
      refine ⟨fun h => ⟨0, by omega, h⟩, fun ⟨q, hq, h⟩ => ?_⟩
      rw [show q = 0 by omega] at h; exact h
    | xor =>
      intro i
      rw [List.range_succ, List.range_zero, List.nil_append, List.countP_cons, List.countP_nil]
      cases (v 0).testBit i <;> decide
  | succ n ih =>
    rw [foldRanks_succ]
    generalize foldRanks (op.mpi.int signed k) v (n + 1) = z at ih ⊢
    cases op with
    | sum =>
      simp only [Means, OpName.mpi, ROp.int] at ih ⊢
      rw [ih, Nat.mod_add_mod, List.range_succ (n := n + 1), List.map_append, List.sum_append]
      simp
    | prod =>
      simp only [Means, OpName.mpi, ROp.int] at ih ⊢
      rw [ih, Nat.mod_mul_mod, List.range_succ (n := n + 1), List.map_append, List.prod_append]
      simp
    | min =>
      obtain ⟨⟨q0, h0, rfl⟩, h1⟩ := ih
      have key : ∀ a b : Nat, (num signed k a ≤ num signed k b → OpName.min.mpi.int signed k a b = a) ∧
          (¬ num signed k a ≤ num signed k b → OpName.min.mpi.int signed k a b = b) := by
        intro a b
        cases signed <;> simp only [num, OpName.mpi, ROp.int, Coll.sval, if_true, if_false, Bool.false_eq_true, Int.ofNat_le] <;>
          exact ⟨fun h => if_pos h, fun h => if_neg h⟩
      by_cases h : num signed k (v q0) ≤ num signed k (v (n + 1))
      · rw [(key _ _).1 h]
        refine ⟨⟨q0, by omega, rfl⟩, fun q hq => ?_⟩
        by_cases e : q = n + 1
        · rw [e]; exact h
        · exact h1 q (by omega)
      · rw [(key _ _).2 h]
        refine ⟨⟨n + 1, by omega, rfl⟩, fun q hq => ?_⟩
        by_cases e : q = n + 1
        · rw [e]
        · have := h1 q (by omega)
          omega
    | max =>
      obtain ⟨⟨q0, h0, rfl⟩, h1⟩ := ih
      have key : ∀ a b : Nat, (num signed k a ≤ num signed k b → OpName.max.mpi.int signed k a b = b) ∧
          (¬ num signed k a ≤ num signed k b → OpName.max.mpi.int signed k a b = a) := by
        intro a b
        cases signed <;> simp only [num, OpName.mpi, ROp.int, Coll.sval, if_true, if_false, Bool.false_eq_true, Int.ofNat_le] <;>
          exact ⟨fun h => if_pos h, fun h => if_neg h⟩
      by_cases h : num signed k (v q0) ≤ num signed k (v (n + 1))
      · rw [(key _ _).1 h]
        refine ⟨⟨n + 1, by omega, rfl⟩, fun q hq => ?_⟩
        by_cases e : q = n + 1
        · rw [e]
        · have := h1 q (by omega)
          omega
      · rw [(key _ _).2 h]
        refine ⟨⟨q0, by omega, rfl⟩, fun q hq => ?_⟩
        by_cases e : q = n + 1
        · rw [e]; omega
        · exact h1 q (by omega)
    | and =>
      intro i
      simp only [OpName.mpi, ROp.int]
      rw [Nat.testBit_and, Bool.and_eq_true, ih i]
      refine ⟨fun ⟨h1, h2⟩ q hq => ?_, fun h => ⟨fun q hq => h q (by omega), h (n + 1) (by omega)⟩⟩
      by_cases e : q = n + 1
      · rw [e]; exact h2
      · exact h1 q (by omega)
    | or =>
      intro i
      simp only [OpName.mpi, ROp.int]
      rw [Nat.testBit_or, Bool.or_eq_true, ih i]
      constructor
      · rintro (⟨q, hq, h⟩ | h)
        · exact ⟨q, by omega, h⟩
        · exact ⟨n + 1, by omega, h⟩
      · rintro ⟨q, hq, h⟩
        by_cases e : q = n + 1
        · rw [e] at h; exact Or.inr h
        · exact Or.inl ⟨q, by omega, h⟩
    | xor =>
      intro i
      simp only [OpName.mpi, ROp.int]
      have h1 := ih i
      rw [Nat.testBit_xor, List.range_succ, List.countP_append, List.countP_cons, List.countP_nil]
      generalize List.countP (fun q => (v q).testBit i) (List.range (n + 1)) = c at h1 ⊢
      cases h2 : (v (n + 1)).testBit i with
      | false => simpa using h1
      | true =>
        simp only [Bool.xor_true, Bool.not_eq_true', if_true, Nat.zero_add]
        rw [Nat.odd_add_one, ← h1, Bool.not_eq_true]

theorem int_row {aset : Bool} {op : OpName} {r : RRow} (hr : r ∈ rows aset op) {c : CT} (hc : r.ty = .base c) (h : c ≠ .char)
    {s : Bool} {k : Nat} (hk : c.intTy = some (s, k)) : r.mpi.cls = some (.cint, .int s k) := by
  have : ∀ aset op, ∀ r ∈ rows aset op, ∀ c, r.ty = .base c → c ≠ .char → ∀ x, c.intTy = some x → r.mpi.cls = some (.cint, .int x.1 x.2) := by
    intro aset op r hr c hc h x hx
    have : ∀ r ∈ minmaxTeam ++ sumprodTeam ++ bitwsTeam ++ minmaxAset ++ sumprodAset ++ bitwsAset,
        (match r.ty with
        | .base c => decide (c = .char ∨ c.intTy = none ∨ (c.intTy.map fun x => (MClass.cint, RTy.int x.1 x.2)) = r.mpi.cls)
        | .fcomplex => true
        | .dcomplex => true) = true := by decide
    have hm : r ∈ minmaxTeam ++ sumprodTeam ++ bitwsTeam ++ minmaxAset ++ sumprodAset ++ bitwsAset := by
      cases op <;> cases aset <;> simp only [rows, if_true, if_false, Bool.false_eq_true] at hr <;> simp [hr]
    have := this r hm
    rw [hc] at this
    rcases of_decide_eq_true this with h1 | h1 | h1
    · exact absurd h1 h
    · rw [hx] at h1; cases h1
    · rw [← h1, hx]; rfl
  exact this aset op r hr c hc h (s, k) hk

theorem fp_row {aset : Bool} {op : OpName} {r : RRow} (hr : r ∈ rows aset op) {id k : Nat} (hk : r.ty.fpTy = some (id, k)) :
    ∃ c, r.mpi.cls = some (c, .other id k) ∧ allowed op.mpi c = true := by
  have a1 : ∀ r ∈ minmaxTeam ++ minmaxAset, r.ty.fpTy = none ∨ (r.ty.fpTy.map fun x => (MClass.float, RTy.other x.1 x.2)) = r.mpi.cls := by
    decide
  have a2 : ∀ r ∈ sumprodTeam ++ sumprodAset, r.ty.fpTy = none ∨ (r.ty.fpTy.map fun x => (MClass.float, RTy.other x.1 x.2)) = r.mpi.cls ∨
      (r.ty.fpTy.map fun x => (MClass.complex, RTy.other x.1 x.2)) = r.mpi.cls := by decide
  have a3 : ∀ r ∈ bitwsTeam ++ bitwsAset, r.ty.fpTy = none := by decide
  have b1 : r ∈ minmaxTeam ++ minmaxAset → (op = .min ∨ op = .max) →
      ∃ c, r.mpi.cls = some (c, .other id k) ∧ allowed op.mpi c = true := by
    intro hm ho
    rcases a1 r hm with h | h
    · rw [hk] at h; cases h
    · rw [hk] at h
      refine ⟨.float, h.symm, ?_⟩
      rcases ho with rfl | rfl <;> rfl
  have b2 : r ∈ sumprodTeam ++ sumprodAset → (op = .sum ∨ op = .prod) →
      ∃ c, r.mpi.cls = some (c, .other id k) ∧ allowed op.mpi c = true := by
    intro hm ho
    rcases a2 r hm with h | h | h
    · rw [hk] at h; cases h
    · rw [hk] at h
      refine ⟨.float, h.symm, ?_⟩
      rcases ho with rfl | rfl <;> rfl
    · rw [hk] at h
      refine ⟨.complex, h.symm, ?_⟩
      rcases ho with rfl | rfl <;> rfl
  have b3 : r ∈ bitwsTeam ++ bitwsAset → ∃ c, r.mpi.cls = some (c, .other id k) ∧ allowed op.mpi c = true := by
    intro hm
    have := a3 r hm
    rw [hk] at this; cases this
  cases op <;> simp only [rows] at hr
  · exact b3 (by split at hr <;> simp [hr])
  · exact b3 (by split at hr <;> simp [hr])
  · exact b3 (by split at hr <;> simp [hr])
  · exact b1 (by split at hr <;> simp [hr]) (Or.inl rfl)
  · exact b1 (by split at hr <;> simp [hr]) (Or.inr rfl)
  · exact b2 (by split at hr <;> simp [hr]) (Or.inl rfl)
  · exact b2 (by split at hr <;> simp [hr]) (Or.inr rfl)

/-- C77. Every typed reduction routine on an integer type, of teams and of active sets: every member gets, for each element, the
sum/product (modulo the type's range), the smallest/largest (as numbers of the type), or the bitwise and/or/exclusive or of all
members' elements; nothing else changes. Missing: `char` (`C77_char_fails`), counts of 2^31 and more (`C37_count_fails`). -/
theorem C77_int_partial {aset : Bool} {op : OpName} {r : RRow} (hr : r ∈ rows aset op) {c : CT} (hc : r.ty = .base c)
    (h : c ≠ .char) {s : Bool} {k : Nat} (hk : c.intTy = some (s, k))
    (fl : Nat → ROp → Nat → Nat → Nat) (tr : Nat → Nat → Tree) {ms : List Nat} (hn : ms.Nodup)
    (src dst : Nat → Int) {n : Nat} (hcnt : n < 2 ^ 31)
    (ha : SameOrApart ms (n * k) src dst) (htr : ∀ r e, Complete ms.length (tr r e)) (m : Mems) :
    ∃ m', reduceFn r op fl tr ms src dst n m = .ok m' ∧
      (∀ p < ms.length, ∀ e < n, Means s k op (fun q => ld (m (ms.getD q 0)) (src q + (e : Int) * k) k) ms.length
        (ld (m' (ms.getD p 0)) (dst p + (e : Int) * k) k)) ∧
      (∀ p < ms.length, ∀ y, (y < dst p ∨ dst p + ((n * k : Nat) : Int) ≤ y) →
        m' (ms.getD p 0) y = m (ms.getD p 0) y) ∧
      ∀ p, p ∉ ms → m' p = m p := by
  obtain ⟨m', h1, h2, h3, h4⟩ := C37_int_partial fl tr hn s k op.mpi src dst hcnt ha htr m
  refine ⟨m', ?_, ?_, h3, h4⟩
  · unfold reduceFn
    rw [int_row hr hc h hk]
    simp only
    rw [if_pos (by cases op <;> rfl)]
    exact h1
  · intro p hp e he
    rw [h2 p hp e he]
    obtain ⟨l, hl⟩ : ∃ l, ms.length = l + 1 := ⟨ms.length - 1, by omega⟩
    rw [hl]
    exact fold_means op (fun q => ld_lt _ _ _) l

/-- C77. Every typed reduction on a floating or complex type (there are none for the bitwise operators): every member gets, for
each element, the members' elements combined by the operator of that type, each exactly once. -/
theorem C77_fp_partial {aset : Bool} {op : OpName} {r : RRow} (hr : r ∈ rows aset op) {id k : Nat} (hk : r.ty.fpTy = some (id, k))
    (fl : Nat → ROp → Nat → Nat → Nat) (hcl : ∀ a b, a < 256 ^ k → b < 256 ^ k → fl id op.mpi a b < 256 ^ k)
    (tr : Nat → Nat → Tree) {ms : List Nat} (hn : ms.Nodup)
    (src dst : Nat → Int) {n : Nat} (hcnt : n < 2 ^ 31)
    (ha : SameOrApart ms (n * k) src dst) (htr : ∀ r e, Complete ms.length (tr r e)) (m : Mems) :
    ∃ m', reduceFn r op fl tr ms src dst n m = .ok m' ∧
      (∀ p < ms.length, ∀ e < n, ∃ t : Tree, t.leaves.Perm (List.range ms.length) ∧
        ld (m' (ms.getD p 0)) (dst p + (e : Int) * k) k =
          t.eval (fl id op.mpi) (fun q => ld (m (ms.getD q 0)) (src q + (e : Int) * k) k)) ∧
      (∀ p < ms.length, ∀ y, (y < dst p ∨ dst p + ((n * k : Nat) : Int) ≤ y) →
        m' (ms.getD p 0) y = m (ms.getD p 0) y) ∧
      ∀ p, p ∉ ms → m' p = m p := by
  obtain ⟨c, h1, h2⟩ := fp_row hr hk
  obtain ⟨m', h3, h4⟩ := C37_other_partial fl tr hn id k op.mpi hcl src dst hcnt ha htr m
  refine ⟨m', ?_, h4⟩
  unfold reduceFn
  rw [h1]
  simp only
  rw [if_pos h2]
  exact h3

/-- C77 fails: `shmem_char_{min,max,sum,prod}_reduce` pass `MPI_CHAR`, on which MPI defines no reduction: whatever the arguments,
an MPI library that follows the standard reports an error and the program aborts. -/
theorem C77_char_fails : ∀ op ∈ [OpName.min, .max, .sum, .prod], ∃ r ∈ rows false op, r.ty = .base .char ∧
    ∀ fl tr ms src dst n m, reduceFn r op fl tr ms src dst n m = .abort := by
  intro op hop
  refine ⟨⟨.base .char, .base .char⟩, ?_, rfl, fun _ _ _ _ _ _ _ => rfl⟩
  revert op
  decide

/-- every routine is covered: an integer type, `char`, or a floating type -/
theorem C77_all {aset : Bool} {op : OpName} {r : RRow} (_ : r ∈ rows aset op) :
    (∃ c s k, r.ty = .base c ∧ c.intTy = some (s, k)) ∨ ∃ id k, r.ty.fpTy = some (id, k) := by
  obtain ⟨ty, mpi⟩ := r
  cases ty with
  | fcomplex => exact Or.inr ⟨_, _, rfl⟩
  | dcomplex => exact Or.inr ⟨_, _, rfl⟩
  | base c =>
    cases c <;> first
      | exact Or.inl ⟨_, _, _, rfl, rfl⟩
      | exact Or.inr ⟨_, _, rfl⟩

/-- non-trivial case: `shmem_short_min_to_all` of three members in place, combined in an order MPI chooses -/
example : ⟨.base .short, .base .short⟩ ∈ rows true .min ∧ CT.intTy .short = some (true, 2) ∧
    SameOrApart [1, 3, 5] (5 * 2) (fun _ => 1000) (fun _ => 1000) ∧ Complete 3 (.node (.leaf 0) (.node (.leaf 2) (.leaf 1))) := by
  refine ⟨by decide, rfl, Or.inl (fun _ _ => rfl), ?_⟩
  unfold Complete
  decide

/-- the smallest of 3, 65535 and 7 is 65535 as `short` (-1) and 3 as `unsigned short` -/
example : Means true 2 .min (fun q => if q = 0 then 3 else if q = 1 then 65535 else 7) 3 65535 ∧
    Means false 2 .min (fun q => if q = 0 then 3 else if q = 1 then 65535 else 7) 3 3 := by
  refine ⟨⟨⟨1, by decide, rfl⟩, by decide⟩, ⟨⟨0, by decide, rfl⟩, by decide⟩⟩

/-- `shmem_complexf_prod_reduce` exists and multiplies pairs of 4-byte floats -/
example : ⟨.fcomplex, .cfloatcomplex⟩ ∈ rows false .prod ∧ RC.fcomplex.fpTy = some (3, 8) := by decide

end Verif.Api
