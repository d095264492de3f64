import Verif.Dl.Search
/-!
# `mspace_malloc` takes a free chunk that is large enough, and finds one if there is one
-/
namespace Verif.Dl
open Heap

/-! ## Bins of large sizes -/

theorem treeIndex_bin {s : Nat} (h1 : 256 ≤ s) (h2 : s < 2 ^ 40) :
    (treeIndex s < 31 → s / 2 ^ (treeIndex s / 2 + 7) = 2 + treeIndex s % 2) ∧ (treeIndex s = 31 → 3 * 2 ^ 22 ≤ s) := by
  unfold treeIndex
  have hx : s / 2 ^ 8 % 2 ^ 32 = s / 2 ^ 8 := Nat.mod_eq_of_lt (by omega)
  simp only [hx]
  rw [if_neg (by omega)]
  by_cases hb : 0xFFFF < s / 2 ^ 8
  · rw [if_pos hb]; omega
  · rw [if_neg hb]
    have hne : s / 2 ^ 8 ≠ 0 := by omega
    have k1 := Nat.log2_self_le hne
    have k2 := Nat.lt_log2_self (n := s / 2 ^ 8)
    have k3 : Nat.log2 (s / 2 ^ 8) < 16 := by rw [Nat.log2_lt hne]; omega
    generalize Nat.log2 (s / 2 ^ 8) = k at *
    have e1 : 2 ^ (k + 7) = 2 ^ k * 128 := by rw [Nat.pow_add]
    have e2 : 2 ^ (k + 1) = 2 ^ k * 2 := by rw [Nat.pow_add]
    have d1 : 2 ≤ s / 2 ^ (k + 7) := by
      rw [Nat.le_div_iff_mul_le (Nat.two_pow_pos _), e1]
      omega
    have d2 : s / 2 ^ (k + 7) < 4 := by
      rw [Nat.div_lt_iff_lt_mul (Nat.two_pow_pos _), e1]
      omega
    have hi : (2 * k + s / 2 ^ (k + 7) % 2) / 2 = k := by omega
    have hm : (2 * k + s / 2 ^ (k + 7) % 2) % 2 = s / 2 ^ (k + 7) % 2 := by omega
    rw [hi, hm]
    refine ⟨fun _ => by omega, fun h => ?_⟩
    have hk : k = 15 := by omega
    subst hk
    omega

theorem treeIndex_mono {s s' : Nat} (h1 : 256 ≤ s) (h2 : s < 2 ^ 40) (h1' : 256 ≤ s') (h2' : s' < 2 ^ 40) (h : treeIndex s < treeIndex s') :
    s < s' := by
  obtain ⟨a1, a2⟩ := treeIndex_bin h1 h2
  obtain ⟨b1, b2⟩ := treeIndex_bin h1' h2'
  have hlt := treeIndex_lt s'
  generalize treeIndex s = i at *
  generalize treeIndex s' = j at *
  have a1 := a1 (by omega)
  have hw : s < 2 ^ (i / 2 + 7) * (3 + i % 2) := by
    have hp := Nat.two_pow_pos (i / 2 + 7)
    have := Nat.lt_mul_div_succ s hp
    rw [a1] at this
    have e : 2 + i % 2 + 1 = 3 + i % 2 := by omega
    rw [e] at this
    exact this
  by_cases hj : j = 31
  · have hb := b2 hj
    have hi : i ≤ 30 := by omega
    by_cases h30 : i = 30
    · subst h30
      have e : 2 ^ (30 / 2 + 7) * (3 + 30 % 2) = 3 * 2 ^ 22 := by decide
      omega
    · have hq : i / 2 ≤ 14 := by omega
      have hpow : 2 ^ (i / 2 + 7) ≤ 2 ^ 21 := Nat.pow_le_pow_right (by omega) (by omega)
      have : 2 ^ (i / 2 + 7) * (3 + i % 2) ≤ 2 ^ 21 * 4 := Nat.mul_le_mul hpow (by omega)
      omega
  · have b1 := b1 (by omega)
    have hw' : 2 ^ (j / 2 + 7) * (2 + j % 2) ≤ s' := by
      rw [← b1]; exact Nat.mul_div_le _ _
    by_cases hq : i / 2 = j / 2
    · rw [← hq] at hw'
      have : 2 ^ (i / 2 + 7) * (3 + i % 2) ≤ 2 ^ (i / 2 + 7) * (2 + j % 2) := Nat.mul_le_mul_left _ (by omega)
      omega
    · have hpow : 2 ^ (i / 2 + 8) ≤ 2 ^ (j / 2 + 7) := Nat.pow_le_pow_right (by omega) (by omega)
      have e : 2 ^ (i / 2 + 8) = 2 ^ (i / 2 + 7) * 2 := by rw [← Nat.pow_succ]
      have : 2 ^ (i / 2 + 7) * (3 + i % 2) ≤ 2 ^ (i / 2 + 7) * 4 := Nat.mul_le_mul_left _ (by omega)
      have : 2 ^ (j / 2 + 7) * 2 ≤ 2 ^ (j / 2 + 7) * (2 + j % 2) := Nat.mul_le_mul_left _ (by omega)
      omega

variable {F : Nat → Option Nat} {b : Bins}

/-- a chunk in one of the tries -/
def InTree (F : Nat → Option Nat) (b : Bins) (p s : Nat) : Prop := F p = some s ∧ isSmall s = false ∧ b.dv ≠ some p

theorem BInv.inTree (i : BInv F b) {j p s : Nat} (h : (b.tree j).mem p s) : InTree F b p s ∧ treeIndex s = j := by
  obtain ⟨a, b, c, d⟩ := (i.tree_mem j p s).1 h
  exact ⟨⟨a, b, d⟩, c⟩

theorem BInv.mem (i : BInv F b) {p s : Nat} (h : InTree F b p s) : (b.tree (treeIndex s)).mem p s :=
  (i.tree_mem _ p s).2 ⟨h.1, h.2.1, rfl, h.2.2⟩

theorem large_ge {s : Nat} (h : isSmall s = false) : 256 ≤ s := by simp [isSmall] at h; omega

/-- sizes in one bin agree above the bits that the trie looks at -/
theorem BInv.low (i : BInv F b) (h40 : ∀ p s, F p = some s → s < 2 ^ 40) (j : Nat) (hj : j < 32) {n : Nat} (hn1 : 256 ≤ n) (hn2 : n < 2 ^ 40)
    (hn : treeIndex n = j) : (b.tree j).Low (keyBits j) (n / 2 ^ keyBits j) := by
  intro x s hm
  obtain ⟨h1, rfl⟩ := i.inTree hm
  obtain ⟨a1, -⟩ := treeIndex_bin (large_ge h1.2.1) (h40 x s h1.1)
  obtain ⟨b1, -⟩ := treeIndex_bin hn1 hn2
  have := h40 x s h1.1
  unfold keyBits
  by_cases h31 : treeIndex s = 31
  · rw [if_pos h31, Nat.div_eq_of_lt (by omega), Nat.div_eq_of_lt (by omega)]
  · rw [if_neg h31]
    rw [hn] at b1
    rw [a1 (by omega), b1 (by omega)]

theorem BInv.low' (i : BInv F b) (h40 : ∀ p s, F p = some s → s < 2 ^ 40) (j : Nat) : ∃ pre, (b.tree j).Low (keyBits j) pre := by
  by_cases h : b.tree j = .leaf
  · exact ⟨0, fun x s hm => by rw [h] at hm; exact hm.elim⟩
  · rw [Tree.leaf_iff] at h
    simp only [not_forall, not_not] at h
    obtain ⟨x, s, hm⟩ := h
    obtain ⟨h1, rfl⟩ := i.inTree hm
    exact ⟨_, i.low h40 _ (treeIndex_lt s) (large_ge h1.2.1) (h40 x s h1.1) rfl⟩

/-! ## `tmalloc_large` -/

/-- the two loops of `tmalloc_large` -/
def tsearch (b : Bins) (nb : Nat) : Cand × Nat :=
  let idx := treeIndex nb
  let x := descend nb (keyBits idx) (b.tree idx) none (sub64 0 nb) .leaf
  let lb := leftBits (idx2bit idx) &&& b.treemap
  let t := if x.1.isLeaf && x.2.1.isNone then (if lb ≠ 0 then b.tree (bit2idx (leastBit lb)) else x.1) else x.1
  scan nb t x.2.1 x.2.2

theorem tlarge_eq (b : Bins) (nb : Nat) : tlarge b nb = match (tsearch b nb).1 with
    | some v => if (tsearch b nb).2 < sub64 b.dvsize nb then some v else none
    | none => none := rfl

theorem tsearch_ok (i : BInv F b) (h64 : ∀ p s, F p = some s → s < 2 ^ 64) {nb : Nat} (h0 : 0 < nb) (hn : nb < 2 ^ 64) :
    Ok (InTree F b) nb (tsearch b nb).1 (tsearch b nb).2 := by
  have htree : ∀ j x s, (b.tree j).mem x s → InTree F b x s ∧ s < 2 ^ 64 := fun j x s hm =>
    ⟨(i.inTree hm).1, h64 x s (i.inTree hm).1.1⟩
  have hz : Ok (InTree F b) nb none (sub64 0 nb) := by
    show sub64 0 nb = 2 ^ 64 - nb
    rw [sub64_lt hn h0]; omega
  obtain ⟨k1, k2, -⟩ := descend_ok (b := keyBits (treeIndex nb)) (rst := .leaf) hn hz (htree (treeIndex nb)) (fun x s h => h.elim)
  refine (scan_ok hn k1 ?_).1
  split
  · split
    · exact htree _
    · exact k2
  · exact k2

/-- the search finds the smallest chunk of the tries that is large enough -/
theorem tsearch_best (i : BInv F b) (h40 : ∀ p s, F p = some s → s < 2 ^ 40) {nb : Nat} (h256 : 256 ≤ nb) {x s : Nat} (hx : InTree F b x s)
    (hge : nb ≤ s) : (tsearch b nb).2 ≤ s - nb := by
  have hs40 := h40 x s hx.1
  have hn40 : nb < 2 ^ 40 := by omega
  have hn : nb < 2 ^ 64 := by omega
  have h64 : ∀ p s, F p = some s → s < 2 ^ 64 := fun p s h => by have := h40 p s h; omega
  have htree : ∀ j x s, (b.tree j).mem x s → InTree F b x s ∧ s < 2 ^ 64 := fun j x s hm =>
    ⟨(i.inTree hm).1, h64 x s (i.inTree hm).1.1⟩
  have hz : Ok (InTree F b) nb none (sub64 0 nb) := by
    show sub64 0 nb = 2 ^ 64 - nb
    rw [sub64_lt hn (by omega)]; omega
  have hleafP : ∀ x s, Tree.leaf.mem x s → InTree F b x s ∧ s < 2 ^ 64 := fun x s h => h.elim
  obtain ⟨k1, k2, -⟩ := descend_ok (b := keyBits (treeIndex nb)) (rst := .leaf) hn hz (htree (treeIndex nb)) hleafP
  obtain ⟨d1, d2⟩ := descend_best (b := keyBits (treeIndex nb)) (rst := .leaf) hn hz (htree (treeIndex nb)) hleafP (i.tree_path _)
    (i.low h40 _ (treeIndex_lt nb) h256 hn40 rfl) ⟨⟨0, 0, trivial, fun x s h => h.elim⟩, fun x s h => h.elim⟩ (fun x s y s' _ h => h.elim)
  -- what remains after the first loop comes from the trie of this size
  have hP2 : Ok (fun x s => (b.tree (treeIndex nb)).mem x s) nb
        (descend nb (keyBits (treeIndex nb)) (b.tree (treeIndex nb)) none (sub64 0 nb) .leaf).2.1
        (descend nb (keyBits (treeIndex nb)) (b.tree (treeIndex nb)) none (sub64 0 nb) .leaf).2.2 ∧
      ∀ x s, (descend nb (keyBits (treeIndex nb)) (b.tree (treeIndex nb)) none (sub64 0 nb) .leaf).1.mem x s →
        (b.tree (treeIndex nb)).mem x s := by
    obtain ⟨a1, a2, -⟩ := descend_ok (P := fun x s => (b.tree (treeIndex nb)).mem x s) (b := keyBits (treeIndex nb)) (rst := .leaf)
      (v := none) (rs := sub64 0 nb) (t := b.tree (treeIndex nb)) hn (by exact hz) (fun x s hm => ⟨hm, (htree _ x s hm).2⟩) (fun x s h => h.elim)
    exact ⟨a1, fun x s hm => (a2 x s hm).1⟩
  have hm := i.mem hx
  have key : ∀ (y c : Nat), (b.tree (treeIndex nb)).mem y c → treeIndex nb < treeIndex s → c < s := by
    intro y c hy hlt
    obtain ⟨q1, q2⟩ := i.inTree hy
    exact treeIndex_mono (large_ge q1.2.1) (h40 y c q1.1) (large_ge hx.2.1) hs40 (by omega)
  unfold tsearch
  simp only
  generalize hX : descend nb (keyBits (treeIndex nb)) (b.tree (treeIndex nb)) none (sub64 0 nb) .leaf = X at *
  obtain ⟨t', v', rs'⟩ := X
  simp only at *
  -- a bound from the part searched next
  have hscan : ∀ {t : Tree}, (∀ x s, t.mem x s → InTree F b x s ∧ s < 2 ^ 64) → t.Above nb → ∀ y c, t.mem y c →
      (scan nb t v' rs').2 ≤ c - nb := by
    intro t hP ha y c hy
    obtain ⟨⟨b', pre, p1, p2⟩, p3⟩ := ha
    exact scan_best hn k1 hP p1 p2 p3 y c hy
  have hmono : ∀ {t : Tree}, (∀ x s, t.mem x s → InTree F b x s ∧ s < 2 ^ 64) → (scan nb t v' rs').2 ≤ rs' := fun hP => (scan_ok hn k1 hP).2
  by_cases hcase : (t'.isLeaf && v'.isNone) = true
  · rw [if_pos hcase]
    simp only [Bool.and_eq_true, Option.isNone_iff_eq_none] at hcase
    obtain ⟨hl, rfl⟩ := hcase
    rw [Tree.isLeaf_iff] at hl
    subst hl
    have hrs : rs' = 2 ^ 64 - nb := hP2.1
    have hlt : treeIndex nb < treeIndex s := by
      rcases Nat.lt_trichotomy (treeIndex nb) (treeIndex s) with h | h | h
      · exact h
      · exfalso
        rcases d2 x s (.inl (h ▸ hm)) hge with h' | ⟨y, c, hy, -⟩
        · omega
        · exact hy.elim
      · have := treeIndex_mono (large_ge hx.2.1) hs40 h256 hn40 h
        omega
    have hbit : (leftBits (idx2bit (treeIndex nb)) &&& b.treemap).getLsbD (treeIndex s) = true := by
      rw [BitVec.getLsbD_and, leftBits_get (treeIndex_lt s), (i.treemap _ (treeIndex_lt s)).2 (fun h => by rw [h] at hm; exact hm)]
      simp [hlt]
    have hne : (leftBits (idx2bit (treeIndex nb)) &&& b.treemap) ≠ 0 := ne_zero_iff.2 ⟨_, treeIndex_lt s, hbit⟩
    rw [if_pos hne]
    obtain ⟨b1, b2, b3⟩ := bit2idx_least hne
    generalize bit2idx (leastBit (leftBits (idx2bit (treeIndex nb)) &&& b.treemap)) = j at *
    rw [BitVec.getLsbD_and, leftBits_get b1] at b2
    simp only [Bool.and_eq_true, decide_eq_true_eq] at b2
    have hjs : j ≤ treeIndex s := by
      by_contra hc
      rw [b3 _ (by omega)] at hbit; cases hbit
    have hnl := (i.treemap j b1).1 b2.2
    have hgej : ∀ y c, (b.tree j).mem y c → nb ≤ c := by
      intro y c hy
      obtain ⟨q1, q2⟩ := i.inTree hy
      have := treeIndex_mono h256 hn40 (large_ge q1.2.1) (h40 y c q1.1) (by omega)
      omega
    obtain ⟨pre, hpre⟩ := i.low' h40 j
    have hab : (b.tree j).Above nb := ⟨⟨_, pre, i.tree_path j, hpre⟩, hgej⟩
    by_cases hjeq : j = treeIndex s
    · subst hjeq
      exact hscan (htree _) hab x s hm
    · rw [ne_eq, Tree.leaf_iff] at hnl
      simp only [not_forall, not_not] at hnl
      obtain ⟨y, c, hy⟩ := hnl
      have := hscan (htree _) hab y c hy
      obtain ⟨q1, q2⟩ := i.inTree hy
      have := treeIndex_mono (large_ge q1.2.1) (h40 y c q1.1) (large_ge hx.2.1) hs40 (by omega)
      have := hgej y c hy
      omega
  · rw [if_neg hcase]
    rcases d1 with hzero | habove
    · have := hmono (t := t') k2
      omega
    · rcases Nat.lt_trichotomy (treeIndex nb) (treeIndex s) with hlt | heq | hgt
      · -- something was found in the trie of this size, whose chunks are smaller
        cases hl : t'.isLeaf with
        | false =>
          obtain ⟨y, c, hy⟩ := Tree.nonleaf hl
          have := hscan k2 habove y c hy
          have := key y c (hP2.2 y c hy) hlt
          have := habove.2 y c hy
          omega
        | true =>
          rw [hl, Bool.true_and, Option.isNone_iff_eq_none] at hcase
          cases v' with
          | none => exact absurd rfl hcase
          | some w =>
            obtain ⟨y, c⟩ := w
            obtain ⟨q1, q2, q3, q4⟩ := hP2.1
            have := key y c q1 hlt
            have := hmono (t := t') k2
            omega
      · rcases d2 x s (.inl (heq ▸ hm)) hge with h' | ⟨y, c, hy, hc⟩
        · exact (hmono (t := t') k2).trans h'
        · have := hscan k2 habove y c hy
          omega
      · have := treeIndex_mono (large_ge hx.2.1) hs40 h256 hn40 hgt
        omega

theorem tlarge_ok (i : BInv F b) (h64 : ∀ p s, F p = some s → s < 2 ^ 64) {nb : Nat} (h0 : 0 < nb) (hn : nb < 2 ^ 64) {p s : Nat}
    (h : tlarge b nb = some (p, s)) : InTree F b p s ∧ nb ≤ s ∧ (nb ≤ b.dvsize → b.dvsize < 2 ^ 64 → s < b.dvsize) := by
  have hok := tsearch_ok i h64 h0 hn
  rw [tlarge_eq] at h
  generalize tsearch b nb = y at *
  obtain ⟨v, rs⟩ := y
  cases v with
  | none => simp at h
  | some w =>
    simp only at h hok
    split at h
    · rename_i hlt
      injection h with h
      subst h
      obtain ⟨a1, a2, a3, a4⟩ := hok
      refine ⟨a1, a2, fun h1 h2 => ?_⟩
      rw [sub64_ge h2 h1] at hlt
      omega
    · cases h

/-- `tmalloc_large` takes the smallest chunk of the tries that is large enough, unless `dv` is at least as good -/
theorem tlarge_best (i : BInv F b) (h40 : ∀ p s, F p = some s → s < 2 ^ 40) {nb : Nat} (h256 : 256 ≤ nb) {x c : Nat} (hx : InTree F b x c)
    (hge : nb ≤ c) : (∃ p s, tlarge b nb = some (p, s) ∧ s ≤ c) ∨ (tlarge b nb = none ∧ nb ≤ b.dvsize ∧ b.dvsize ≤ c) := by
  have hc := h40 x c hx.1
  have hok := tsearch_ok i (fun p s h => by have := h40 p s h; omega) (show 0 < nb by omega) (by omega)
  have hbest := tsearch_best i h40 h256 hx hge
  rw [tlarge_eq]
  generalize tsearch b nb = y at *
  obtain ⟨v, rs⟩ := y
  have hdv : b.dvsize < 2 ^ 40 := by
    cases hd : b.dv with
    | none => rw [i.nodv hd]; omega
    | some d => exact h40 d _ (i.dv d hd)
  cases v with
  | none =>
    have : rs = 2 ^ 64 - nb := hok
    simp only at hbest
    omega
  | some w =>
    obtain ⟨p, s⟩ := w
    obtain ⟨a1, a2, a3, a4⟩ := hok
    simp only at *
    by_cases hlt : rs < sub64 b.dvsize nb
    · left
      rw [if_pos hlt]
      exact ⟨p, s, rfl, by omega⟩
    · right
      rw [if_neg hlt]
      refine ⟨rfl, ?_⟩
      by_cases hd : nb ≤ b.dvsize
      · rw [sub64_ge (by omega) hd] at hlt
        omega
      · rw [sub64_lt (by omega) (by omega)] at hlt
        omega

/-! ## `tmalloc_small` -/

theorem tsmall_ok (i : BInv F b) (h64 : ∀ p s, F p = some s → s < 2 ^ 64) {nb : Nat} (h256 : nb ≤ 256) (hne : b.treemap ≠ 0) :
    ∃ p s, tsmall b nb = some (p, s) ∧ InTree F b p s ∧ nb ≤ s := by
  obtain ⟨b1, b2, -⟩ := bit2idx_least hne
  have hnl := (i.treemap _ b1).1 b2
  unfold tsmall
  generalize bit2idx (leastBit b.treemap) = j at *
  have hP : ∀ x s, (b.tree j).mem x s → InTree F b x s ∧ s < 2 ^ 64 := fun x s hm => ⟨(i.inTree hm).1, h64 x s (i.inTree hm).1.1⟩
  cases ht : b.tree j with
  | leaf => exact absurd ht hnl
  | node s p q l r =>
    rw [ht] at hP
    simp only
    obtain ⟨h1, h2⟩ := hP p s (.inl ⟨rfl, by simp⟩)
    have hs := large_ge h1.2.1
    have hok : Ok (InTree F b) nb (some (p, s)) (sub64 s nb) := ⟨h1, by omega, h2, sub64_ge h2 (by omega)⟩
    obtain ⟨k1, k2⟩ := scan_ok (t := if l.isLeaf then r else l) (nb := nb) (by omega) hok (by
      intro x s hm
      split at hm
      · exact hP x s (.inr (.inr hm))
      · exact hP x s (.inr (.inl hm)))
    generalize scan nb (if l.isLeaf then r else l) (some (p, s)) (sub64 s nb) = y at *
    obtain ⟨v, rs⟩ := y
    cases v with
    | none =>
      have e : rs = 2 ^ 64 - nb := k1
      have := sub64_ge h2 (show nb ≤ s by omega)
      simp only at k2
      omega
    | some w =>
      obtain ⟨p', s'⟩ := w
      exact ⟨p', s', rfl, k1.1, k1.2.1⟩

end Verif.Dl
