import Verif.Base.CInt
/-!
# Property C11: size rounding
-/
namespace Verif

/-- C11. For a power of two `a = 2^k` and a value that does not overflow, `OSHMPI_ALIGN` gives the least multiple
of `a` that is at least the value. -/
theorem C11_align_least {v k : Nat} (hk : k < 64) (hv : v + 2 ^ k - 1 < 2 ^ 64) :
    2 ^ k ∣ calignN v (2 ^ k) ∧ v ≤ calignN v (2 ^ k) ∧
    ∀ m, 2 ^ k ∣ m → v ≤ m → calignN v (2 ^ k) ≤ m := by
  have h2 : 1 ≤ 2 ^ k := Nat.one_le_two_pow
  rw [calignN_eq hk hv]
  refine ⟨Nat.dvd_mul_left _ _, ?_, ?_⟩
  · have := Nat.div_add_mod (v + 2 ^ k - 1) (2 ^ k)
    have h3 := Nat.mod_lt (v + 2 ^ k - 1) (y := 2 ^ k) (by omega)
    rw [Nat.mul_comm] at this
    omega
  · rintro m ⟨c, rfl⟩ hvm
    rw [Nat.mul_comm]
    apply Nat.mul_le_mul_left
    have : (v + 2 ^ k - 1) / 2 ^ k < c + 1 := by
      rw [Nat.div_lt_iff_lt_mul (by omega), Nat.add_mul, Nat.one_mul, Nat.mul_comm c]
      omega
    omega

/-- C11, the boundary: rounding wraps to 0 when the value is larger than the last multiple of `a`. -/
theorem C11_align_wraps {v k : Nat} (hk : k < 64) (hv : v < 2 ^ 64) (ho : 2 ^ 64 ≤ v + 2 ^ k - 1) :
    calignN v (2 ^ k) = 0 := by
  have h1 : 2 ^ k < 2 ^ 64 := Nat.pow_lt_pow_right (by omega) hk
  rw [calignN_wrap hk]
  have : (v + 2 ^ k - 1) % 2 ^ 64 < 2 ^ k := by omega
  rw [Nat.div_eq_of_lt this]; simp

/-- C11: the alignment is idempotent (heap sizes that are page multiples are kept). -/
theorem C11_align_multiple {c k : Nat} (hk : k < 64) (hv : c * 2 ^ k + 2 ^ k - 1 < 2 ^ 64) :
    calignN (c * 2 ^ k) (2 ^ k) = c * 2 ^ k := by
  obtain ⟨_, h2, h3⟩ := C11_align_least hk hv
  exact Nat.le_antisymm (h3 _ (Nat.dvd_mul_left _ _) (Nat.le_refl _)) h2

/-- Hypotheses met: 5000 bytes rounded to 4096-byte pages. -/
example : 12 < 64 ∧ 5000 + 2 ^ 12 - 1 < 2 ^ 64 ∧ calignN 5000 (2 ^ 12) = 8192 := by decide
/-- Wrap-around case exists. -/
example : (2 ^ 64 - 1 : Nat) < 2 ^ 64 ∧ 2 ^ 64 ≤ (2 ^ 64 - 1) + 2 ^ 12 - 1 ∧ calignN (2 ^ 64 - 1) (2 ^ 12) = 0 := by
  decide
example : 3 * 2 ^ 12 + 2 ^ 12 - 1 < 2 ^ 64 ∧ calignN (3 * 2 ^ 12) (2 ^ 12) = 3 * 2 ^ 12 := by decide

end Verif
