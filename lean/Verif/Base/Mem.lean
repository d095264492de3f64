import Mathlib.Logic.Function.Basic
/-!
# Byte memory

A PE's memory: address → byte. Scalars are stored little-endian (x86-64, AArch64).
-/
namespace Verif

/-- memory of one process -/
abbrev Mem := Nat → BitVec 8

namespace Mem

/-- load of a `k`-byte scalar: the number its bytes represent -/
def load (m : Mem) (a : Nat) : Nat → Nat
  | 0 => 0
  | k + 1 => (m a).toNat + 256 * load m (a + 1) k

/-- store of a `k`-byte scalar (the low `8k` bits of `v`) -/
def store (m : Mem) (a : Nat) : Nat → Nat → Mem
  | 0, _ => m
  | k + 1, v => store (Function.update m a (BitVec.ofNat 8 v)) (a + 1) k (v / 256)

/-- `memcpy` of `k` bytes between (possibly different) memories -/
def copy (dst : Mem) (d : Nat) (src : Mem) (s k : Nat) : Mem :=
  fun x => if d ≤ x ∧ x < d + k then src (s + (x - d)) else dst x

theorem load_lt (m : Mem) (a k : Nat) : load m a k < 256 ^ k := by
  induction k generalizing a with
  | zero => simp [load]
  | succ k ih =>
    have h := ih (a + 1)
    have hb := (m a).isLt
    simp only [load, Nat.pow_succ]
    omega

theorem store_frame (m : Mem) (a k v x : Nat) (h : x < a ∨ a + k ≤ x) : store m a k v x = m x := by
  induction k generalizing m a v with
  | zero => rfl
  | succ k ih =>
    simp only [store]
    rw [ih _ _ _ (by omega), Function.update_of_ne (by omega)]

theorem load_congr {m m' : Mem} {a k : Nat} (h : ∀ x, a ≤ x → x < a + k → m x = m' x) : load m a k = load m' a k := by
  induction k generalizing a with
  | zero => rfl
  | succ k ih =>
    simp only [load]
    rw [h a (by omega) (by omega), ih (fun x h1 h2 => h x (by omega) (by omega))]

theorem load_store (m : Mem) (a k v : Nat) : load (store m a k v) a k = v % 256 ^ k := by
  induction k generalizing m a v with
  | zero => simp [load, Nat.mod_one]
  | succ k ih =>
    simp only [store, load]
    rw [ih, store_frame _ _ _ _ _ (by omega), Function.update_self, BitVec.toNat_ofNat,
      show (256 : Nat) ^ (k + 1) = 256 * 256 ^ k by rw [Nat.pow_succ, Nat.mul_comm], Nat.mod_mul]

theorem load_shift {m m' : Mem} {a b k : Nat} (h : ∀ i < k, m (a + i) = m' (b + i)) : load m a k = load m' b k := by
  induction k generalizing a b with
  | zero => rfl
  | succ k ih =>
    simp only [load]
    rw [ih (a := a + 1) (b := b + 1) (fun i hi => by have := h (i + 1) (by omega); rwa [Nat.add_assoc, Nat.add_assoc,
      Nat.add_comm 1 i])]
    have := h 0 (by omega)
    rw [Nat.add_zero, Nat.add_zero] at this
    rw [this]

theorem load_copy (dst : Mem) (d : Nat) (src : Mem) (s k : Nat) : load (copy dst d src s k) d k = load src s k := by
  apply load_shift
  intro i hi
  unfold copy
  rw [if_pos (by omega)]
  congr 1
  omega

theorem copy_frame (dst : Mem) (d : Nat) (src : Mem) (s k x : Nat) (h : x < d ∨ d + k ≤ x) :
    copy dst d src s k x = dst x := by
  unfold copy; rw [if_neg (by omega)]

/-- storing what is there changes nothing -/
theorem store_load (m : Mem) (a k : Nat) : store m a k (load m a k) = m := by
  induction k generalizing a with
  | zero => rfl
  | succ k ih =>
    have hb := (m a).isLt
    simp only [store, load]
    have e1 : BitVec.ofNat 8 ((m a).toNat + 256 * load m (a + 1) k) = m a := by
      apply BitVec.eq_of_toNat_eq
      rw [BitVec.toNat_ofNat]; omega
    have e2 : ((m a).toNat + 256 * load m (a + 1) k) / 256 = load m (a + 1) k := by omega
    rw [e1, e2, Function.update_eq_self, ih]

end Mem
end Verif
