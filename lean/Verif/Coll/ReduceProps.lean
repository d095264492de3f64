import Verif.Coll.Props
import Mathlib.Tactic.Ring
/-!
# C37: reductions
-/
namespace Verif.Coll
open Verif.Rma

theorem ld_lt (m : IMem) : ∀ (k : Nat) (a : Int), ld m a k < 256 ^ k
  | 0, _ => by unfold ld; decide
  | k + 1, a => by
    unfold ld
    have h1 := (m a).isLt
    have h2 := ld_lt m k (a + 1)
    rw [Nat.pow_succ]
    omega

theorem bytesOf_eq : ∀ (k v : Nat), bytesOf v k = (List.range k).map (fun b => BitVec.ofNat 8 (v / 256 ^ b))
  | 0, _ => rfl
  | k + 1, v => by
    unfold bytesOf
    rw [List.range_succ_eq_map, List.map_cons, List.map_map, bytesOf_eq k]
    simp only [Nat.pow_zero, Nat.div_one]
    congr 1
    apply List.map_congr_left
    intro b _
    simp only [Function.comp]
    rw [Nat.div_div_eq_div_mul, Nat.pow_succ, Nat.mul_comm]

theorem ld_bytes (m : IMem) : ∀ (k v : Nat) (a : Int), (∀ b < k, m (a + (b : Int)) = BitVec.ofNat 8 (v / 256 ^ b)) →
    ld m a k = v % 256 ^ k
  | 0, v, a, _ => by unfold ld; rw [Nat.pow_zero, Nat.mod_one]
  | k + 1, v, a, h => by
    unfold ld
    have h0 := h 0 (by omega)
    simp only [Nat.pow_zero, Nat.div_one, Int.natCast_zero, Int.add_zero] at h0
    rw [ld_bytes m k (v / 256) (a + 1) (by
      intro b hb
      have := h (b + 1) (by omega)
      rw [Nat.div_div_eq_div_mul, ← Nat.pow_succ', ← this]
      congr 1
      push_cast
      ring), h0, BitVec.toNat_ofNat, Nat.pow_succ 256 k, Nat.mul_comm (256 ^ k) 256, Nat.mod_mul]

/-- Contributions are folded from rank 0 to rank `n - 1`. -/
def foldRanks (f : Nat → Nat → Nat) (v : Nat → Nat) (n : Nat) : Nat :=
  (List.range (n - 1)).foldl (fun acc q => f acc (v (q + 1))) (v 0)

/-- MPI combines every rank's contribution exactly once, in any order and bracketing. -/
def Complete (n : Nat) (t : Tree) : Prop := t.leaves.Perm (List.range n)

/-- fold without a start value -/
def step1 (f : Nat → Nat → Nat) : Option Nat → Nat → Option Nat
  | none, x => some x
  | some z, x => some (f z x)

theorem eval_fold (f : Nat → Nat → Nat) (v : Nat → Nat) (ha : ∀ a b c, f (f a b) c = f a (f b c)) (t : Tree) :
    (∀ z, (t.leaves.map v).foldl (step1 f) (some z) = some (f z (t.eval f v))) ∧
    (t.leaves.map v).foldl (step1 f) none = some (t.eval f v) := by
  induction t with
  | leaf r => exact ⟨fun z => rfl, rfl⟩
  | node l r ihl ihr =>
    simp only [Tree.leaves, Tree.eval, List.map_append, List.foldl_append]
    refine ⟨fun z => ?_, ?_⟩
    · rw [ihl.1, ihr.1, ha]
    · rw [ihl.2, ihr.1]

theorem fold_range (f : Nat → Nat → Nat) (v : Nat → Nat) (n : Nat) :
    ((List.range (n + 1)).map v).foldl (step1 f) none = some (foldRanks f v (n + 1)) := by
  have : ∀ (l : List Nat) (z : Nat), (l.map v).foldl (step1 f) (some z) = some (l.foldl (fun acc q => f acc (v q)) z) := by
    intro l
    induction l with
    | nil => intro z; rfl
    | cons a l ih => intro z; exact ih _
  unfold foldRanks
  rw [List.range_succ_eq_map, List.map_cons, List.foldl_cons]
  show List.foldl (step1 f) (some (v 0)) _ = _
  rw [this, List.foldl_map]
  rfl

/-- For an associative operator that is commutative on the contributions the order does not matter. -/
theorem eval_eq_fold {f : Nat → Nat → Nat} {v : Nat → Nat} (ha : ∀ a b c, f (f a b) c = f a (f b c)) {n : Nat} (hn : 0 < n)
    (hc : ∀ p < n, ∀ q < n, f (v p) (v q) = f (v q) (v p)) {t : Tree} (ht : Complete n t) :
    t.eval f v = foldRanks f v n := by
  obtain ⟨n, rfl⟩ : ∃ k, n = k + 1 := ⟨n - 1, by omega⟩
  have h1 := (eval_fold f v ha t).2
  have h2 := fold_range f v n
  have hp : (t.leaves.map v).Perm ((List.range (n + 1)).map v) := ht.map v
  have : (t.leaves.map v).foldl (step1 f) none = ((List.range (n + 1)).map v).foldl (step1 f) none := by
    apply hp.foldl_eq'
    intro x hx y hy z
    obtain ⟨p, hp, rfl⟩ := List.mem_map.mp hx
    obtain ⟨q, hq, rfl⟩ := List.mem_map.mp hy
    have hp : p < n + 1 := List.mem_range.mp (ht.subset hp)
    have hq : q < n + 1 := List.mem_range.mp (ht.subset hq)
    cases z with
    | none => simp only [step1]; rw [hc _ hp _ hq]
    | some z => simp only [step1]; rw [ha, ha, hc _ hp _ hq]
  rw [h1, h2] at this
  exact Option.some.inj this

theorem pow256 (k : Nat) : 256 ^ k = 2 ^ (8 * k) := by
  rw [Nat.pow_mul]

theorem sval_inj {k a b : Nat} (ha : a < 256 ^ k) (hb : b < 256 ^ k) (h : sval k a = sval k b) : a = b := by
  unfold sval at h
  have h1 := congrArg (fun x => x % ((256 ^ k : Nat) : Int)) h
  simp only [Int.bmod_emod] at h1
  rw [Int.emod_eq_of_lt (by omega) (by exact_mod_cast ha), Int.emod_eq_of_lt (by omega) (by exact_mod_cast hb)] at h1
  exact_mod_cast h1

/-- integer operators are associative -/
theorem int_assoc (s : Bool) (k : Nat) (op : ROp) (a b c : Nat) : op.int s k (op.int s k a b) c = op.int s k a (op.int s k b c) := by
  cases op with
  | sum => simp only [ROp.int]; rw [Nat.mod_add_mod, Nat.add_mod_mod, Nat.add_assoc]
  | prod => simp only [ROp.int]; rw [Nat.mod_mul_mod, Nat.mul_mod_mod, Nat.mul_assoc]
  | min => simp only [ROp.int]; split_ifs <;> first | rfl | omega
  | max => simp only [ROp.int]; split_ifs <;> first | rfl | omega
  | band => exact Nat.and_assoc ..
  | bor => exact Nat.or_assoc ..
  | bxor => exact Nat.xor_assoc ..

/-- and commutative on values of their type -/
theorem int_comm (s : Bool) (k : Nat) (op : ROp) {a b : Nat} (ha : a < 256 ^ k) (hb : b < 256 ^ k) :
    op.int s k a b = op.int s k b a := by
  cases op with
  | sum => simp only [ROp.int]; rw [Nat.add_comm]
  | prod => simp only [ROp.int]; rw [Nat.mul_comm]
  | min =>
    simp only [ROp.int]
    split_ifs <;> first | rfl | omega | exact sval_inj ha hb (by omega)
  | max =>
    simp only [ROp.int]
    split_ifs <;> first | rfl | omega | exact sval_inj hb ha (by omega)
  | band => exact Nat.and_comm ..
  | bor => exact Nat.or_comm ..
  | bxor => exact Nat.xor_comm ..

/-- and stay within the type -/
theorem int_closed (s : Bool) (k : Nat) (op : ROp) {a b : Nat} (ha : a < 256 ^ k) (hb : b < 256 ^ k) :
    op.int s k a b < 256 ^ k := by
  have hp : 0 < 256 ^ k := Nat.pow_pos (by decide)
  cases op with
  | sum => exact Nat.mod_lt _ hp
  | prod => exact Nat.mod_lt _ hp
  | min => simp only [ROp.int]; split_ifs <;> assumption
  | max => simp only [ROp.int]; split_ifs <;> assumption
  | band => rw [pow256] at *; exact Nat.and_lt_two_pow _ hb
  | bor => rw [pow256] at *; exact Nat.or_lt_two_pow ha hb
  | bxor => rw [pow256] at *; exact Nat.xor_lt_two_pow ha hb

theorem eval_closed {f : Nat → Nat → Nat} {v : Nat → Nat} {B : Nat} (hf : ∀ a b, a < B → b < B → f a b < B) {t : Tree}
    (hv : ∀ q, v q < B) : t.eval f v < B := by
  induction t with
  | leaf r => exact hv r
  | node l r ihl ihr => exact hf _ _ ihl ihr

/-- The contribution of rank `q` for element `e`: the `k`-byte element `e` of its source array. -/
def contrib (ms : List Nat) (m : Mems) (src : Nat → Int) (k e q : Nat) : Nat :=
  ld (m (ms.getD q 0)) (src q + (e : Int) * k) k

/-- Source and destination are the same array, or do not overlap; the choice is the same on all members (they are symmetric
objects). -/
def SameOrApart (ms : List Nat) (len : Nat) (src dst : Nat → Int) : Prop :=
  (∀ r < ms.length, src r = dst r) ∨ ∀ r < ms.length, src r ≠ dst r ∧ overlap (src r) (dst r) len = false

theorem elems_inj {k e e' b b' : Nat} (hb : b < k) (hb' : b' < k) (h : (e : Int) * k + b = (e' : Int) * k + b') :
    e = e' ∧ b = b' := by
  have h : e * k + b = e' * k + b' := by exact_mod_cast h
  exact block_inj hb hb' h

/-- The bytes every member finds: element by element some combination of all contributions, in an order and bracketing MPI
chooses. For any type and operator (floating point included). -/
theorem reduce_ok (fl : Nat → ROp → Nat → Nat → Nat) (tr : Nat → Nat → Tree) {ms : List Nat} (hn : ms.Nodup)
    (ty : RTy) (op : ROp) (src dst : Nat → Int) {n : Nat} (hc : n < 2 ^ 31)
    (ha : SameOrApart ms (n * ty.size) src dst)
    (hcl : ∀ a b, a < 256 ^ ty.size → b < 256 ^ ty.size → ev fl ty op a b < 256 ^ ty.size) (m : Mems) :
    ∃ m', reduce fl tr ms ty op src dst n m = .ok m' ∧
      (∀ r < ms.length, ∀ e < n, ld (m' (ms.getD r 0)) (dst r + (e : Int) * ty.size) ty.size =
        (tr r e).eval (ev fl ty op) (contrib ms m src ty.size e)) ∧
      (∀ r < ms.length, ∀ y, (y < dst r ∨ dst r + ((n * ty.size : Nat) : Int) ≤ y) →
        m' (ms.getD r 0) y = m (ms.getD r 0) y) ∧
      ∀ p, p ∉ ms → m' p = m p := by
  have hsrc : ∀ q : Nat, (Red.src ⟨if src q = dst q then none else some (src q), dst q, (n : Int), ty, op⟩) = src q := by
    intro q
    unfold Red.src
    split
    · rename_i h; exact h.symm
    · rfl
  have k1 : (List.range ms.length).any (fun r => (Call.allreduce (if src r = dst r then none else some (src r)) (dst r) n ty op).kind
      != (Call.allreduce (if src 0 = dst 0 then none else some (src 0)) (dst 0) n ty op).kind) = false := by
    rw [List.any_eq_false]; intro r _; simp [Call.kind]
  have k2 : (List.range ms.length).any (fun r => (Call.allreduce (if src r = dst r then none else some (src r)) (dst r) n ty op).bad
      ms.length) = false := by
    rw [List.any_eq_false]; intro r _; simp [Call.bad]
  have k3 : (List.range ms.length).any (fun r => decide ((Call.allreduce (if src r = dst r then none else some (src r)) (dst r) n ty op).root
      ≠ (Call.allreduce (if src 0 = dst 0 then none else some (src 0)) (dst 0) n ty op).root)) = false := by
    rw [List.any_eq_false]; intro r _; simp [Call.root]
  have k4 : (List.range ms.length).any (fun r => decide ((n : Int) ≠ (n : Int)) || decide (ty ≠ ty) ||
      decide (op ≠ op) || decide ((if src r = dst r then none else some (src r)).isSome ≠
        (if src 0 = dst 0 then none else some (src 0)).isSome)) = false := by
    rw [List.any_eq_false]; intro r hr
    rw [List.mem_range] at hr
    have h0 : 0 < ms.length := by omega
    rcases ha with h | h
    · simp [h r hr, h 0 h0]
    · simp [(h r hr).1, (h 0 h0).1]
  have k5 : (List.range ms.length).any (fun r => (if src r = dst r then none else some (src r)).any
      (fun s => overlap s (dst r) (n * ty.size))) = false := by
    rw [List.any_eq_false]; intro r hr
    rw [List.mem_range] at hr
    rcases ha with h | h
    · simp [h r hr]
    · simp [(h r hr).1, (h r hr).2]
  have main : reduce fl tr ms ty op src dst n m = .ok (onMembers ms (fun r => writes (m (ms.getD r 0))
      ((List.range n).flatMap fun (e : Nat) =>
        ((List.range ty.size).map (fun (b : Nat) => dst r + (e : Int) * ty.size + (b : Int))).zip
        (bytesOf ((tr r e).eval (ev fl ty op) (contrib ms m src ty.size e)) ty.size))) m) := by
    unfold reduce mpi
    simp only [toI32_lt hc]
    rw [k1, k2, k3]
    simp only [Bool.false_eq_true, if_false, Call.red]
    unfold allreduce
    simp only [Option.getD_some, Int.toNat_natCast, hsrc]
    rw [k4, k5]
    rfl
  have hw : ∀ r, ((List.range n).flatMap fun (e : Nat) =>
        ((List.range ty.size).map (fun (b : Nat) => dst r + (e : Int) * ty.size + (b : Int))).zip
        (bytesOf ((tr r e).eval (ev fl ty op) (contrib ms m src ty.size e)) ty.size)) =
      (idx n ty.size).map (fun p => (dst r + (p.1 : Int) * ty.size + (p.2 : Int),
        BitVec.ofNat 8 ((tr r p.1).eval (ev fl ty op) (contrib ms m src ty.size p.1) / 256 ^ p.2))) := by
    intro r
    rw [map_idx]
    apply List.flatMap_congr
    intro e _
    rw [bytesOf_eq, List.zip_map']
  refine ⟨_, main, ?_, ?_, ?_⟩
  · intro r hr e he
    rw [onMembers_mem hn hr, hw]
    rw [ld_bytes _ ty.size ((tr r e).eval (ev fl ty op) (contrib ms m src ty.size e)), Nat.mod_eq_of_lt]
    · exact eval_closed hcl (fun q => ld_lt _ _ _)
    · intro b hb
      apply writes_mem
      · exact ⟨_, List.mem_map.mpr ⟨(e, b), mem_idx.mpr ⟨he, hb⟩, rfl⟩, rfl⟩
      · intro x hx h
        obtain ⟨p, hp, rfl⟩ := List.mem_map.mp hx
        rw [mem_idx] at hp
        simp only at h
        obtain ⟨h1, h2⟩ := elems_inj hp.2 hb (by omega : (p.1 : Int) * ty.size + (p.2 : Int) = (e : Int) * ty.size + b)
        simp only [h1, h2]
  · intro r hr y hy
    rw [onMembers_mem hn hr, hw]
    apply writes_not_mem
    intro x hx
    obtain ⟨p, hp, rfl⟩ := List.mem_map.mp hx
    rw [mem_idx] at hp
    simp only
    have : p.1 * ty.size + p.2 < n * ty.size := block_index hp.1 hp.2
    have : (p.1 : Int) * ty.size + p.2 < ((n * ty.size : Nat) : Int) := by exact_mod_cast this
    have h0 : 0 ≤ (p.1 : Int) * ty.size := by positivity
    omega
  · intro p hp
    exact onMembers_not hp

/-- **C37** Integer reductions (sum, product, minimum, maximum, and, or, exclusive or; signed and unsigned; of any width): every
member gets, for each element, the operator folded over all members' contributions in rank order, whatever order MPI uses;
also when source and destination are the same array. Nothing else changes. Missing: counts of 2^31 and more
(`C37_count_fails`). -/
theorem C37_int_partial (fl : Nat → ROp → Nat → Nat → Nat) (tr : Nat → Nat → Tree) {ms : List Nat} (hn : ms.Nodup)
    (signed : Bool) (k : Nat) (op : ROp) (src dst : Nat → Int) {n : Nat} (hc : n < 2 ^ 31)
    (ha : SameOrApart ms (n * k) src dst) (htr : ∀ r e, Complete ms.length (tr r e)) (m : Mems) :
    ∃ m', reduce fl tr ms (.int signed k) op src dst n m = .ok m' ∧
      (∀ r < ms.length, ∀ e < n, ld (m' (ms.getD r 0)) (dst r + (e : Int) * k) k =
        foldRanks (op.int signed k) (contrib ms m src k e) ms.length) ∧
      (∀ r < ms.length, ∀ y, (y < dst r ∨ dst r + ((n * k : Nat) : Int) ≤ y) →
        m' (ms.getD r 0) y = m (ms.getD r 0) y) ∧
      ∀ p, p ∉ ms → m' p = m p := by
  obtain ⟨m', e, h1, h2, h3⟩ := reduce_ok fl tr hn (.int signed k) op src dst hc ha
    (fun a b ha hb => int_closed signed k op ha hb) m
  refine ⟨m', e, ?_, h2, h3⟩
  intro r hr x hx
  have := h1 r hr x hx
  refine Eq.trans this ?_
  exact eval_eq_fold (f := op.int signed k) (int_assoc signed k op) (by omega)
    (fun p _ q _ => int_comm signed k op (ld_lt _ _ _) (ld_lt _ _ _)) (htr r x)

/-- **C37** Floating-point and complex reductions: every member gets, for each element, a combination by the operator in which
every member's contribution occurs exactly once. (The order is MPI's; OpenSHMEM does not fix it either.) -/
theorem C37_other_partial (fl : Nat → ROp → Nat → Nat → Nat) (tr : Nat → Nat → Tree) {ms : List Nat} (hn : ms.Nodup)
    (id k : Nat) (op : ROp) (hcl : ∀ a b, a < 256 ^ k → b < 256 ^ k → fl id op a b < 256 ^ k)
    (src dst : Nat → Int) {n : Nat} (hc : n < 2 ^ 31)
    (ha : SameOrApart ms (n * k) src dst) (htr : ∀ r e, Complete ms.length (tr r e)) (m : Mems) :
    ∃ m', reduce fl tr ms (.other id k) op src dst n m = .ok m' ∧
      (∀ r < ms.length, ∀ e < n, ∃ t : Tree, t.leaves.Perm (List.range ms.length) ∧
        ld (m' (ms.getD r 0)) (dst r + (e : Int) * k) k = t.eval (fl id op) (contrib ms m src k e)) ∧
      (∀ r < ms.length, ∀ y, (y < dst r ∨ dst r + ((n * k : Nat) : Int) ≤ y) →
        m' (ms.getD r 0) y = m (ms.getD r 0) y) ∧
      ∀ p, p ∉ ms → m' p = m p := by
  obtain ⟨m', e, h1, h2, h3⟩ := reduce_ok fl tr hn (.other id k) op src dst hc ha hcl m
  refine ⟨m', e, ?_, h2, h3⟩
  intro r hr x hx
  exact ⟨tr r x, htr r x, h1 r hr x hx⟩

/-- C37 negation: 2^32 elements: the call returns without reducing anything; 2^31 elements: the program is aborted. -/
theorem C37_count_fails (fl : Nat → ROp → Nat → Nat → Nat) (tr : Nat → Nat → Tree) {ms : List Nat} (hn : ms.Nodup)
    (signed : Bool) (k : Nat) (op : ROp) (src dst : Nat → Int) (ha : SameOrApart ms 0 src dst) (m : Mems) :
    (∃ m', reduce fl tr ms (.int signed k) op src dst (2 ^ 32) m = .ok m' ∧ ∀ p, m' p = m p) ∧
    (ms ≠ [] → reduce fl tr ms (.int signed k) op src dst (2 ^ 31) m = .abort) := by
  constructor
  · have e : reduce fl tr ms (.int signed k) op src dst (2 ^ 32) m = reduce fl tr ms (.int signed k) op src dst 0 m := by
      unfold reduce; rw [toI32_two_pow]
    rw [e]
    obtain ⟨m', h, _, h2, h3⟩ := reduce_ok fl tr hn (.int signed k) op src dst (n := 0) (by decide) (by
      rw [Nat.zero_mul]; exact ha) (fun a b ha hb => int_closed signed k op ha hb) m
    refine ⟨m', h, ?_⟩
    intro p
    by_cases hp : p ∈ ms
    · obtain ⟨r, hr, rfl⟩ := mem_getD hp
      funext y
      apply h2 r hr y
      rw [Nat.zero_mul]; omega
    · exact h3 p hp
  · intro h0
    have hpos : 0 < ms.length := List.length_pos_of_ne_nil h0
    have e : toI32 (2 ^ 31) = -(2 ^ 31) := by decide
    unfold reduce mpi
    simp only [e]
    have k1 : (List.range ms.length).any (fun r => (Call.allreduce (if src r = dst r then none else some (src r)) (dst r) (-(2 ^ 31)) (.int signed k) op).kind
        != (Call.allreduce (if src 0 = dst 0 then none else some (src 0)) (dst 0) (-(2 ^ 31)) (.int signed k) op).kind) = false := by
      rw [List.any_eq_false]; intro r _; simp [Call.kind]
    have k2 : (List.range ms.length).any (fun r => (Call.allreduce (if src r = dst r then none else some (src r)) (dst r) (-(2 ^ 31)) (.int signed k) op).bad
        ms.length) = true := by
      rw [List.any_eq_true]; exact ⟨0, List.mem_range.mpr hpos, by simp [Call.bad]⟩
    rw [k1, k2]
    rfl

/-- non-trivial case: three members, in-place, 5 elements of 4 bytes; MPI combines 1 with 2 first -/
example : SameOrApart [1, 3, 5] (5 * 4) (fun _ => 1000) (fun _ => 1000) ∧ Complete 3 (.node (.leaf 0) (.node (.leaf 2) (.leaf 1))) := by
  refine ⟨Or.inl (fun _ _ => rfl), ?_⟩
  unfold Complete
  decide

/-- contributions 200, 100, 7 as unsigned and signed bytes: sum 51, minimum as signed -56 (200) -/
example : foldRanks (ROp.sum.int false 1) (fun q => if q = 0 then 200 else if q = 1 then 100 else 7) 3 = 51 ∧
    foldRanks (ROp.min.int true 1) (fun q => if q = 0 then 200 else if q = 1 then 100 else 7) 3 = 200 ∧
    foldRanks (ROp.min.int false 1) (fun q => if q = 0 then 200 else if q = 1 then 100 else 7) 3 = 7 := by decide

end Verif.Coll
