/-!
# C integers and outcomes

LP64 C: `int`/`unsigned` 32 bit, `long`/`size_t`/`MPI_Aint`/pointers 64 bit, two's complement; converting to a
narrower signed type keeps the low bits (implementation-defined in C, this is what gcc/clang do).
-/
namespace Verif

/-- Outcome of a C function: a value, a failed `OSHMPI_ASSERT`/`OSHMPI_ERR_ABORT`
(/repo/src/include/oshmpi_util.h L72-90), undefined behaviour, or an endless loop. -/
inductive Res (α : Type) where
  | ok (a : α)
  | abort
  | ub
  | hang
deriving DecidableEq, Repr

namespace Res
/-- Sequencing of outcomes. -/
def bind {α β : Type} : Res α → (α → Res β) → Res β
  | .ok a, f => f a
  | .abort, _ => .abort
  | .ub, _ => .ub
  | .hang, _ => .hang

/-- Value of a successful outcome. -/
def toOption {α : Type} : Res α → Option α
  | .ok a => some a
  | .abort => none
  | .ub => none
  | .hang => none

@[simp] theorem bind_ok {α β : Type} (a : α) (f : α → Res β) : (Res.ok a).bind f = f a := rfl
@[simp] theorem bind_abort {α β : Type} (f : α → Res β) : (Res.abort : Res α).bind f = .abort := rfl
@[simp] theorem bind_ub {α β : Type} (f : α → Res β) : (Res.ub : Res α).bind f = .ub := rfl
@[simp] theorem bind_hang {α β : Type} (f : α → Res β) : (Res.hang : Res α).bind f = .hang := rfl
end Res

/-- `(int) x` for an unsigned `x`. -/
def toI32 (x : Nat) : Int := (x : Int).bmod (2 ^ 32)

/-- Value of a signed expression converted to `size_t`. -/
def toU64 (x : Int) : Nat := (x % (2 ^ 64 : Int)).toNat

/-- Value converted to `unsigned int`. -/
def toU32 (x : Int) : Nat := (x % (2 ^ 32 : Int)).toNat

/-- Largest `int`. -/
def IntMax : Nat := 2 ^ 31 - 1

theorem toI32_small {x : Nat} (h : x ≤ IntMax) : toI32 x = x := by
  unfold toI32 IntMax at *
  apply Int.bmod_eq_of_le <;> omega

theorem toU32_small {x : Nat} (h : x < 2 ^ 32) : toU32 (x : Int) = x := by
  unfold toU32; omega

theorem toU64_small {x : Nat} (h : x < 2 ^ 64) : toU64 (x : Int) = x := by
  unfold toU64; omega

/-- `OSHMPI_ALIGN(val, align)`, /repo/src/include/oshmpi_util.h L52: all arithmetic on `unsigned long`. -/
def calign (v a : BitVec 64) : BitVec 64 := (v + a - 1#64) &&& ~~~(a - 1#64)

/-- The same on numbers. -/
def calignN (v a : Nat) : Nat := (calign (BitVec.ofNat 64 v) (BitVec.ofNat 64 a)).toNat

theorem two_pow_sub_one_toNat {k : Nat} (hk : k < 64) :
    (BitVec.ofNat 64 (2 ^ k) - 1#64).toNat = 2 ^ k - 1 := by
  have h1 : 2 ^ k < 2 ^ 64 := Nat.pow_lt_pow_right (by omega) hk
  have h2 : 1 ≤ 2 ^ k := Nat.one_le_two_pow
  simp only [BitVec.toNat_sub, BitVec.toNat_ofNat]
  omega

theorem and_not_mask (x : BitVec 64) {k : Nat} (hk : k < 64) :
    (x &&& ~~~(BitVec.ofNat 64 (2 ^ k) - 1#64)).toNat = x.toNat / 2 ^ k * 2 ^ k := by
  have e : x &&& ~~~(BitVec.ofNat 64 (2 ^ k) - 1#64) = BitVec.ofNat 64 (x.toNat / 2 ^ k * 2 ^ k) := by
    apply BitVec.eq_of_getLsbD_eq
    intro i hi
    have hm : (BitVec.ofNat 64 (2 ^ k) - 1#64).getLsbD i = decide (i < k) := by
      rw [BitVec.getLsbD, two_pow_sub_one_toNat hk, Nat.testBit_two_pow_sub_one]
    rw [BitVec.getLsbD_and, BitVec.getLsbD_not, hm, BitVec.getLsbD_ofNat, ← Nat.shiftLeft_eq,
      ← Nat.shiftRight_eq_div_pow, Nat.testBit_shiftLeft, Nat.testBit_shiftRight]
    by_cases hik : i < k
    · simp [hik]
      intro _ _; omega
    · have : k + (i - k) = i := by omega
      simp [hik, hi, this, BitVec.getLsbD]
      intro; omega
  rw [e, BitVec.toNat_ofNat]
  have := x.isLt
  have h2 := Nat.div_mul_le_self x.toNat (2 ^ k)
  exact Nat.mod_eq_of_lt (by omega)

theorem calignN_eq {v k : Nat} (hk : k < 64) (hv : v + 2 ^ k - 1 < 2 ^ 64) :
    calignN v (2 ^ k) = (v + 2 ^ k - 1) / 2 ^ k * 2 ^ k := by
  have h1 : 2 ^ k < 2 ^ 64 := Nat.pow_lt_pow_right (by omega) hk
  have h2 : 1 ≤ 2 ^ k := Nat.one_le_two_pow
  unfold calignN calign
  rw [and_not_mask _ hk]
  have : (BitVec.ofNat 64 v + BitVec.ofNat 64 (2 ^ k) - 1#64).toNat = v + 2 ^ k - 1 := by
    simp only [BitVec.toNat_sub, BitVec.toNat_add, BitVec.toNat_ofNat]
    omega
  rw [this]

/-- The general form, including wrap-around. -/
theorem calignN_wrap {v k : Nat} (hk : k < 64) :
    calignN v (2 ^ k) = ((v + 2 ^ k - 1) % 2 ^ 64) / 2 ^ k * 2 ^ k := by
  have h1 : 2 ^ k < 2 ^ 64 := Nat.pow_lt_pow_right (by omega) hk
  have h2 : 1 ≤ 2 ^ k := Nat.one_le_two_pow
  unfold calignN calign
  rw [and_not_mask _ hk]
  have : (BitVec.ofNat 64 v + BitVec.ofNat 64 (2 ^ k) - 1#64).toNat = (v + 2 ^ k - 1) % 2 ^ 64 := by
    simp only [BitVec.toNat_sub, BitVec.toNat_add, BitVec.toNat_ofNat]
    omega
  rw [this]

end Verif
