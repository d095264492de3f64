import Verif.Dl.Model
import Mathlib.Data.Nat.Find
/-!
# The bit tricks on bitmaps do what they should
-/
namespace Verif.Dl

theorem idx2bit_get {i j : Nat} (hj : j < 32) : (idx2bit i).getLsbD j = decide (i = j) := by
  unfold idx2bit
  rw [BitVec.getLsbD_shiftLeft]
  simp only [hj, decide_true, Bool.true_and, BitVec.getLsbD_one]
  by_cases h : i = j
  · subst h; simp
  · by_cases h2 : j < i
    · simp [h2, h]
    · simp only [h2, decide_false, Bool.not_false, Bool.true_and, h]
      simp; omega

theorem leastBit_get {x : BitVec 32} {j : Nat} (hj : j < 32) :
    (leastBit x).getLsbD j = true ↔ x.getLsbD j = true ∧ ∀ k < j, x.getLsbD k = false := by
  unfold leastBit
  rw [BitVec.getLsbD_and, BitVec.getLsbD_neg]
  simp only [hj, decide_true, Bool.true_and, Bool.and_eq_true]
  constructor
  · rintro ⟨h1, h2⟩
    refine ⟨h1, fun k hk => ?_⟩
    simp only [h1, Bool.true_bne, Bool.not_eq_eq_eq_not, Bool.not_true, decide_eq_false_iff_not, not_exists, not_and] at h2
    simpa using h2 k hk
  · rintro ⟨h1, h2⟩
    refine ⟨h1, ?_⟩
    simp only [h1, Bool.true_bne, Bool.not_eq_eq_eq_not, Bool.not_true, decide_eq_false_iff_not, not_exists, not_and]
    intro k hk
    simp [h2 k hk]

theorem leftBits_get {i j : Nat} (hj : j < 32) : (leftBits (idx2bit i)).getLsbD j = decide (i < j) := by
  have hs : ∀ k, k < 32 → (idx2bit i <<< 1).getLsbD k = decide (i + 1 = k) := by
    intro k hk
    have : idx2bit i <<< 1 = idx2bit (i + 1) := by
      unfold idx2bit; rw [← BitVec.shiftLeft_add]
    rw [this, idx2bit_get hk]
  unfold leftBits
  rw [BitVec.getLsbD_or, BitVec.getLsbD_neg, hs j hj]
  simp only [hj, decide_true, Bool.true_and]
  by_cases h : i < j
  · simp only [h, decide_true, Bool.or_eq_true]
    by_cases h2 : i + 1 = j
    · left; simp [h2]
    · right
      simp only [h2, decide_false, Bool.false_bne, decide_eq_true_eq]
      exact ⟨i + 1, by omega, by rw [hs _ (by omega)]; simp⟩
  · have h2 : ¬i + 1 = j := by omega
    simp only [h2, decide_false, Bool.false_bne, h, Bool.or_eq_false_iff, true_and, decide_eq_false_iff_not, not_exists, not_and]
    intro k hk
    rw [hs k (by omega)]
    simp; omega

/-- `compute_bit2idx(least_bit(x), i)`: the lowest bit that is set -/
theorem bit2idx_least {x : BitVec 32} (hx : x ≠ 0) :
    bit2idx (leastBit x) < 32 ∧ x.getLsbD (bit2idx (leastBit x)) = true ∧ ∀ k < bit2idx (leastBit x), x.getLsbD k = false := by
  have hex : ∃ i < 32, x.getLsbD i = true := by
    by_contra hc
    apply hx
    apply BitVec.eq_of_getLsbD_eq
    intro i hi
    simp only [not_exists, not_and] at hc
    have := hc i hi
    simpa using this
  have hleast : ∃ i < 32, x.getLsbD i = true ∧ ∀ k < i, x.getLsbD k = false := by
    have hp : ∃ i, x.getLsbD i = true := let ⟨i, _, h⟩ := hex; ⟨i, h⟩
    refine ⟨Nat.find hp, ?_, Nat.find_spec hp, fun k hk => ?_⟩
    · obtain ⟨i, hi, h⟩ := hex
      exact lt_of_le_of_lt (Nat.find_min' hp h) hi
    · simpa using Nat.find_min hp hk
  obtain ⟨i, hi, h1, h2⟩ := hleast
  have hb : bit2idx (leastBit x) = i := by
    unfold bit2idx
    have : (List.range 32).find? (fun k => (leastBit x).getLsbD k) = some i := by
      rw [List.find?_eq_some_iff_getElem]
      refine ⟨(leastBit_get hi).2 ⟨h1, h2⟩, i, by simpa using hi, by simp, ?_⟩
      intro j hj
      rw [List.getElem_range]
      by_contra hc
      have := ((leastBit_get (x := x) (j := j) (by omega)).1 (by simpa using hc)).1
      rw [h2 j hj] at this
      cases this
    rw [this]; rfl
  rw [hb]
  exact ⟨hi, h1, h2⟩

theorem ne_zero_iff {x : BitVec 32} : x ≠ 0 ↔ ∃ i < 32, x.getLsbD i = true := by
  constructor
  · intro h
    exact ⟨_, (bit2idx_least h).1, (bit2idx_least h).2.1⟩
  · rintro ⟨i, _, h⟩ rfl
    simp at h

theorem eq_zero_iff {x : BitVec 32} : x = 0 ↔ ∀ i < 32, x.getLsbD i = false := by
  constructor
  · rintro rfl; simp
  · intro h
    by_contra hc
    obtain ⟨i, hi, h2⟩ := ne_zero_iff.1 hc
    rw [h i hi] at h2
    cases h2

end Verif.Dl
