import Verif.Dl.Tree
/-!
# Bins hold exactly the free chunks
-/
namespace Verif.Dl
open Heap

/-- The bins describe the free chunks `F` (offset ↦ size): each is `dv`, or in the smallbin of its size, or in the trie of its size,
and nowhere else; bitmaps mark the bins that are not empty. -/
structure BInv (F : Nat → Option Nat) (b : Bins) : Prop where
  size : ∀ p s, F p = some s → 16 ∣ s ∧ 32 ≤ s
  small_mem : ∀ i p, p ∈ b.small i ↔ F p = some (8 * i) ∧ i < 32 ∧ b.dv ≠ some p
  small_nodup : ∀ i, (b.small i).Nodup
  smallmap : ∀ i < 32, (b.smallmap.getLsbD i = true ↔ b.small i ≠ [])
  tree_mem : ∀ i p s, (b.tree i).mem p s ↔ F p = some s ∧ isSmall s = false ∧ treeIndex s = i ∧ b.dv ≠ some p
  tree_path : ∀ i, (b.tree i).Path (keyBits i)
  treemap : ∀ i < 32, (b.treemap.getLsbD i = true ↔ b.tree i ≠ .leaf)
  dv : ∀ p, b.dv = some p → F p = some b.dvsize
  nodv : b.dv = none → b.dvsize = 0

theorem treeIndex_lt (s : Nat) : treeIndex s < 32 := by
  unfold treeIndex
  simp only
  split
  · omega
  · split
    · omega
    · rename_i h1 h2
      have h3 : Nat.log2 (s / 2 ^ 8 % 2 ^ 32) < 16 := by
        rw [Nat.log2_lt h1]
        omega
      omega

theorem BInv.empty : BInv (fun _ => none) .init := by
  constructor <;> simp [Bins.init, Tree.mem, Tree.Path]

variable {F : Nat → Option Nat} {b : Bins}

theorem BInv.uniq (i : BInv F b) (j : Nat) : (b.tree j).Uniq := by
  intro x s s' h h'
  have h1 := ((i.tree_mem j x s).1 h).1
  have h2 := ((i.tree_mem j x s').1 h').1
  rw [h1] at h2
  injection h2

theorem BInv.insertSmall (i : BInv F b) {p s : Nat} (hp : F p = none) (hs : isSmall s = true) (h16 : 16 ∣ s) (h32 : 32 ≤ s) :
    BInv (Function.update F p (some s)) (b.insertSmall p s) := by
  have hdv : b.dv ≠ some p := fun h => by rw [i.dv p h] at hp; cases hp
  have hlt : s / 8 < 32 := by simpa [isSmall] using hs
  have h8 : 8 * (s / 8) = s := by omega
  constructor
  · intro q t h
    by_cases hq : q = p
    · subst hq
      rw [Function.update_self] at h
      injection h with h
      exact h ▸ ⟨h16, h32⟩
    · rw [Function.update_of_ne hq] at h
      exact i.size q t h
  · intro j q
    simp only [Bins.insertSmall]
    by_cases hj : j = s / 8
    · subst hj
      rw [Function.update_self, List.mem_cons, i.small_mem]
      by_cases hq : q = p
      · subst hq
        simp only [true_or, Function.update_self, h8, true_and, true_iff]
        exact ⟨hlt, hdv⟩
      · simp only [hq, false_or, Function.update_of_ne hq]
    · rw [Function.update_of_ne hj, i.small_mem]
      by_cases hq : q = p
      · subst hq
        rw [Function.update_self, hp]
        have : ¬s = 8 * j := by omega
        simp [this]
      · rw [Function.update_of_ne hq]
  · intro j
    simp only [Bins.insertSmall]
    by_cases hj : j = s / 8
    · subst hj
      rw [Function.update_self, List.nodup_cons]
      refine ⟨fun h => ?_, i.small_nodup _⟩
      have := ((i.small_mem _ _).1 h).1
      rw [hp] at this; cases this
    · rw [Function.update_of_ne hj]; exact i.small_nodup _
  · intro j hj'
    simp only [Bins.insertSmall, BitVec.getLsbD_or, idx2bit_get hj', Bool.or_eq_true, i.smallmap j hj', decide_eq_true_eq]
    by_cases hj : s / 8 = j
    · subst hj; simp
    · rw [Function.update_of_ne (Ne.symm hj)]; simp [hj]
  · intro j q t
    simp only [Bins.insertSmall, i.tree_mem]
    by_cases hq : q = p
    · subst hq
      rw [Function.update_self, hp]
      simp only [reduceCtorEq, false_and, Option.some.injEq, false_iff, not_and]
      rintro rfl h
      rw [hs] at h; cases h
    · rw [Function.update_of_ne hq]
  · exact i.tree_path
  · exact i.treemap
  · intro q hq
    have : q ≠ p := fun h => hdv (h ▸ hq)
    rw [Function.update_of_ne this]
    exact i.dv q hq
  · exact i.nodv

theorem BInv.insertLarge (i : BInv F b) {p s : Nat} (hp : F p = none) (hs : isSmall s = false) (h16 : 16 ∣ s) (h32 : 32 ≤ s) :
    BInv (Function.update F p (some s)) (b.insertLarge p s) := by
  have hdv : b.dv ≠ some p := fun h => by rw [i.dv p h] at hp; cases hp
  constructor
  · intro q t h
    by_cases hq : q = p
    · subst hq
      rw [Function.update_self] at h
      injection h with h
      exact h ▸ ⟨h16, h32⟩
    · rw [Function.update_of_ne hq] at h
      exact i.size q t h
  · intro j q
    simp only [Bins.insertLarge, i.small_mem]
    by_cases hq : q = p
    · subst hq
      rw [Function.update_self, hp]
      simp only [reduceCtorEq, false_and, Option.some.injEq, false_iff, not_and]
      rintro rfl h
      simp only [isSmall, decide_eq_false_iff_not] at hs
      omega
    · rw [Function.update_of_ne hq]
  · exact i.small_nodup
  · exact i.smallmap
  · intro j q t
    simp only [Bins.insertLarge]
    by_cases hj : j = treeIndex s
    · subst hj
      rw [Function.update_self, Tree.insert_mem, i.tree_mem]
      by_cases hq : q = p
      · subst hq
        rw [Function.update_self, hp]
        simp only [reduceCtorEq, false_and, true_and, false_or, Option.some.injEq]
        constructor
        · rintro rfl; exact ⟨rfl, hs, rfl, hdv⟩
        · rintro ⟨rfl, -⟩; rfl
      · simp only [hq, false_and, or_false, Function.update_of_ne hq]
    · rw [Function.update_of_ne hj, i.tree_mem]
      by_cases hq : q = p
      · subst hq
        rw [Function.update_self, hp]
        simp only [reduceCtorEq, false_and, Option.some.injEq, false_iff, not_and]
        rintro rfl _ h
        exact absurd h.symm hj
      · rw [Function.update_of_ne hq]
  · intro j
    simp only [Bins.insertLarge]
    by_cases hj : j = treeIndex s
    · subst hj
      rw [Function.update_self]
      refine Tree.insert_path (i.tree_path _) (fun t h => ?_)
      have := ((i.tree_mem _ _ _).1 h).1
      rw [hp] at this; cases this
    · rw [Function.update_of_ne hj]; exact i.tree_path _
  · intro j hj'
    simp only [Bins.insertLarge, BitVec.getLsbD_or, idx2bit_get hj', Bool.or_eq_true, i.treemap j hj', decide_eq_true_eq]
    by_cases hj : treeIndex s = j
    · subst hj
      simp only [or_true, Function.update_self, ne_eq, true_iff]
      intro h
      exact Tree.leaf_iff.1 h p s ((Tree.insert_mem _ _).2 (.inr ⟨rfl, rfl⟩))
    · rw [Function.update_of_ne (Ne.symm hj)]; simp [hj]
  · intro q hq
    have : q ≠ p := fun h => hdv (h ▸ hq)
    rw [Function.update_of_ne this]
    exact i.dv q hq
  · exact i.nodv

theorem BInv.insert (i : BInv F b) {p s : Nat} (hp : F p = none) (h16 : 16 ∣ s) (h32 : 32 ≤ s) :
    BInv (Function.update F p (some s)) (b.insert p s) := by
  unfold Bins.insert
  cases hs : isSmall s with
  | true => exact i.insertSmall hp hs h16 h32
  | false => exact i.insertLarge hp hs h16 h32

theorem BInv.unlinkSmall (i : BInv F b) {p s : Nat} (hp : F p = some s) (hs : isSmall s = true) (hdv : b.dv ≠ some p) :
    BInv (Function.update F p none) (b.unlinkSmall p s) := by
  have hlt : s / 8 < 32 := by simpa [isSmall] using hs
  have h8 : 8 * (s / 8) = s := by have := (i.size p s hp).1; omega
  have hmem : p ∈ b.small (s / 8) := (i.small_mem _ _).2 ⟨by rw [h8]; exact hp, hlt, hdv⟩
  have hnd := i.small_nodup (s / 8)
  constructor
  · intro q t h
    by_cases hq : q = p
    · subst hq
      rw [Function.update_self] at h
      cases h
    · rw [Function.update_of_ne hq] at h
      exact i.size q t h
  · intro j q
    simp only [Bins.unlinkSmall]
    by_cases hj : j = s / 8
    · subst hj
      rw [Function.update_self, hnd.mem_erase_iff, i.small_mem]
      by_cases hq : q = p
      · subst hq
        simp
      · simp only [hq, ne_eq, not_false_eq_true, true_and, Function.update_of_ne hq]
    · rw [Function.update_of_ne hj, i.small_mem]
      by_cases hq : q = p
      · subst hq
        rw [Function.update_self, hp]
        have : ¬s = 8 * j := by omega
        simp [this]
      · rw [Function.update_of_ne hq]
  · intro j
    simp only [Bins.unlinkSmall]
    by_cases hj : j = s / 8
    · subst hj
      rw [Function.update_self]
      exact hnd.erase _
    · rw [Function.update_of_ne hj]; exact i.small_nodup _
  · intro j hj'
    have hone : b.small (s / 8) = [p] ↔ (b.small (s / 8)).erase p = [] := by
      constructor
      · intro h; rw [h]; simp
      · intro h
        rcases List.erase_eq_nil_iff.1 h with h | h
        · rw [h] at hmem; cases hmem
        · exact h
    simp only [Bins.unlinkSmall]
    by_cases hj : s / 8 = j
    · subst hj
      rw [Function.update_self]
      by_cases h1 : b.small (s / 8) = [p]
      · rw [if_pos h1]
        simp [idx2bit_get hj', h1]
      · rw [if_neg h1, i.smallmap _ hj']
        constructor
        · intro _ h; exact h1 (hone.2 h)
        · intro _ h; rw [h] at hmem; cases hmem
    · rw [Function.update_of_ne (Ne.symm hj), ← i.smallmap _ hj']
      split
      · rw [BitVec.getLsbD_and, BitVec.getLsbD_not, idx2bit_get hj']; simp [hj, hj']
      · rfl
  · intro j q t
    simp only [Bins.unlinkSmall, i.tree_mem]
    by_cases hq : q = p
    · subst hq
      rw [Function.update_self, hp]
      simp only [reduceCtorEq, false_and, Option.some.injEq, iff_false, not_and]
      rintro rfl h
      rw [hs] at h; cases h
    · rw [Function.update_of_ne hq]
  · exact i.tree_path
  · exact i.treemap
  · intro q hq
    have : q ≠ p := fun h => hdv (h ▸ hq)
    rw [Function.update_of_ne this]
    exact i.dv q hq
  · exact i.nodv

theorem BInv.unlinkLarge (i : BInv F b) {p s : Nat} (hp : F p = some s) (hs : isSmall s = false) (hdv : b.dv ≠ some p) :
    BInv (Function.update F p none) (b.unlinkLarge p s) := by
  have hu := i.uniq (treeIndex s)
  have hpa := i.tree_path (treeIndex s)
  have hmem : (b.tree (treeIndex s)).mem p s := (i.tree_mem _ _ _).2 ⟨hp, hs, rfl, hdv⟩
  constructor
  · intro q t h
    by_cases hq : q = p
    · subst hq
      rw [Function.update_self] at h
      cases h
    · rw [Function.update_of_ne hq] at h
      exact i.size q t h
  · intro j q
    simp only [Bins.unlinkLarge, i.small_mem]
    by_cases hq : q = p
    · subst hq
      rw [Function.update_self, hp]
      simp only [reduceCtorEq, false_and, Option.some.injEq, iff_false, not_and]
      rintro rfl h
      simp only [isSmall, decide_eq_false_iff_not] at hs
      omega
    · rw [Function.update_of_ne hq]
  · exact i.small_nodup
  · exact i.smallmap
  · intro j q t
    simp only [Bins.unlinkLarge]
    by_cases hj : j = treeIndex s
    · subst hj
      rw [Function.update_self, Tree.unlink_mem hpa hu, i.tree_mem]
      by_cases hq : q = p
      · subst hq
        simp
      · simp only [hq, ne_eq, not_false_eq_true, and_true, Function.update_of_ne hq]
    · rw [Function.update_of_ne hj, i.tree_mem]
      by_cases hq : q = p
      · subst hq
        rw [Function.update_self, hp]
        simp only [reduceCtorEq, false_and, Option.some.injEq, iff_false, not_and]
        rintro rfl _ h
        exact absurd h.symm hj
      · rw [Function.update_of_ne hq]
  · intro j
    simp only [Bins.unlinkLarge]
    by_cases hj : j = treeIndex s
    · subst hj
      rw [Function.update_self]
      exact Tree.unlink_path hpa hu
    · rw [Function.update_of_ne hj]; exact i.tree_path _
  · intro j hj'
    simp only [Bins.unlinkLarge]
    by_cases hj : treeIndex s = j
    · subst hj
      rw [Function.update_self]
      cases hl : ((b.tree (treeIndex s)).unlink p).isLeaf with
      | true =>
        rw [Tree.isLeaf_iff] at hl
        simp [idx2bit_get hj', hl]
      | false =>
        rw [if_neg (by simp), i.treemap _ hj']
        constructor
        · intro _ h; rw [h] at hl; cases hl
        · intro _ h; rw [h] at hmem; exact hmem
    · rw [Function.update_of_ne (Ne.symm hj), ← i.treemap _ hj']
      split
      · rw [BitVec.getLsbD_and, BitVec.getLsbD_not, idx2bit_get hj']; simp [hj, hj']
      · rfl
  · intro q hq
    have : q ≠ p := fun h => hdv (h ▸ hq)
    rw [Function.update_of_ne this]
    exact i.dv q hq
  · exact i.nodv

theorem BInv.unlink (i : BInv F b) {p s : Nat} (hp : F p = some s) (hdv : b.dv ≠ some p) :
    BInv (Function.update F p none) (b.unlink p s) := by
  unfold Bins.unlink
  cases hs : isSmall s with
  | true => exact i.unlinkSmall hp hs hdv
  | false => exact i.unlinkLarge hp hs hdv

theorem unlink_dv (b : Bins) (p s : Nat) : (b.unlink p s).dv = b.dv ∧ (b.unlink p s).dvsize = b.dvsize := by
  unfold Bins.unlink; split <;> exact ⟨rfl, rfl⟩

/-- `dv` is used up -/
def Bins.dropDv (b : Bins) : Bins := { b with dv := none, dvsize := 0 }

/-- a free chunk becomes `dv` -/
def Bins.newDv (b : Bins) (p s : Nat) : Bins := { b with dv := some p, dvsize := s }

theorem BInv.dropDv (i : BInv F b) {d : Nat} (hd : b.dv = some d) : BInv (Function.update F d none) b.dropDv := by
  have hF := i.dv d hd
  constructor
  · intro q t h
    by_cases hq : q = d
    · subst hq
      rw [Function.update_self] at h
      cases h
    · rw [Function.update_of_ne hq] at h
      exact i.size q t h
  · intro j q
    simp only [Bins.dropDv, i.small_mem, hd]
    by_cases hq : q = d
    · subst hq; simp
    · have hq' : d ≠ q := Ne.symm hq
      simp [Function.update_of_ne hq, hq']
  · exact i.small_nodup
  · exact i.smallmap
  · intro j q t
    simp only [Bins.dropDv, i.tree_mem, hd]
    by_cases hq : q = d
    · subst hq; simp
    · have hq' : d ≠ q := Ne.symm hq
      simp [Function.update_of_ne hq, hq']
  · exact i.tree_path
  · exact i.treemap
  · intro q h; cases h
  · intro _; rfl

theorem BInv.newDv (i : BInv F b) {p s : Nat} (hd : b.dv = none) (hp : F p = none) (h16 : 16 ∣ s) (h32 : 32 ≤ s) :
    BInv (Function.update F p (some s)) (b.newDv p s) := by
  constructor
  · intro q t h
    by_cases hq : q = p
    · subst hq
      rw [Function.update_self] at h
      injection h with h
      exact h ▸ ⟨h16, h32⟩
    · rw [Function.update_of_ne hq] at h
      exact i.size q t h
  · intro j q
    simp only [Bins.newDv, i.small_mem, hd]
    by_cases hq : q = p
    · subst hq; simp [hp]
    · have hq' : p ≠ q := Ne.symm hq
      simp [Function.update_of_ne hq, hq']
  · exact i.small_nodup
  · exact i.smallmap
  · intro j q t
    simp only [Bins.newDv, i.tree_mem, hd]
    by_cases hq : q = p
    · subst hq; simp [hp]
    · have hq' : p ≠ q := Ne.symm hq
      simp [Function.update_of_ne hq, hq']
  · exact i.tree_path
  · exact i.treemap
  · intro q h
    simp only [Bins.newDv, Option.some.injEq] at h
    subst h
    rw [Function.update_self]; rfl
  · intro h; cases h

/-- the `dv` chunk is replaced by another one of any place and size -/
theorem BInv.moveDv (i : BInv F b) {d p s : Nat} (hd : b.dv = some d) (hp : p = d ∨ F p = none) (h16 : 16 ∣ s) (h32 : 32 ≤ s) :
    BInv (Function.update (Function.update F d none) p (some s)) { b with dv := some p, dvsize := s } := by
  refine (i.dropDv hd).newDv (b := b.dropDv) rfl ?_ h16 h32
  by_cases h : p = d
  · subst h; simp
  · rw [Function.update_of_ne h]
    rcases hp with hp | hp
    · exact absurd hp h
    · exact hp

theorem BInv.replaceDv (i : BInv F b) {p s : Nat} (hsm : b.dv ≠ none → isSmall b.dvsize = true) (hp : F p = none) (h16 : 16 ∣ s) (h32 : 32 ≤ s) :
    BInv (Function.update F p (some s)) (b.replaceDv p s) := by
  unfold Bins.replaceDv
  cases hd : b.dv with
  | none => exact i.newDv hd hp h16 h32
  | some d =>
    have hF := i.dv d hd
    have hsz := i.size d _ hF
    have h0 : b.dvsize ≠ 0 := by omega
    simp only [ne_eq, h0, not_false_eq_true, if_true]
    have k := (i.dropDv hd).insertSmall (p := d) (Function.update_self ..) (hsm (by simp [hd])) hsz.1 hsz.2
    have hF' : Function.update (Function.update F d none) d (some b.dvsize) = F := by
      funext q
      by_cases hq : q = d
      · subst hq; rw [Function.update_self, hF]
      · rw [Function.update_of_ne hq, Function.update_of_ne hq]
    rw [hF'] at k
    exact k.newDv rfl hp h16 h32

end Verif.Dl
