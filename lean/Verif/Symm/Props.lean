import Verif.Symm.Model
import Mathlib.Tactic.Linarith
/-!
# C50: symmetric allocation is all-or-nothing, at one address, over unused memory only
-/
namespace Verif.Symm

theorem mapPointer_aligned {k : Nat} (hk : k ≤ 45) (r : BitVec 64) :
    2 ^ k ∣ (mapPointer (BitVec.ofNat 64 (2 ^ k)) r).toNat := by
  have h64 : k < 64 := by omega
  apply Nat.dvd_of_mod_eq_zero
  apply Nat.eq_of_testBit_eq
  intro i
  rw [Nat.testBit_mod_two_pow, Nat.zero_testBit]
  by_cases hi : i < k
  · have hm : (BitVec.ofNat 64 (2 ^ k) - 1#64).getLsbD i = true := by
      rw [BitVec.getLsbD, two_pow_sub_one_toNat h64, Nat.testBit_two_pow_sub_one]
      simp [hi]
    have hc : (0x0000600000000000#64).getLsbD i = false := by
      have : i < 45 := by omega
      have hall : ∀ j : Fin 45, (0x0000600000000000#64).getLsbD j.val = false := by decide
      exact hall ⟨i, this⟩
    have : (mapPointer (BitVec.ofNat 64 (2 ^ k)) r).toNat.testBit i = false := by
      change (mapPointer (BitVec.ofNat 64 (2 ^ k)) r).getLsbD i = false
      simp only [mapPointer, BitVec.getLsbD_and, BitVec.getLsbD_or, BitVec.getLsbD_not, hm, hc]
      simp
    simp [this]
  · simp [hi]

theorem genLoop_some {pg : BitVec 64} {s : Pages} {size : Nat} {rnd : Nat → BitVec 64} :
    ∀ {n i a}, genLoop pg s size rnd i n = some a → rangeOk pg.toNat s a size = true ∧ ∃ j, a = (mapPointer pg (rnd j)).toNat := by
  intro n
  induction n with
  | zero => intro i a h; simp [genLoop] at h
  | succ n ih =>
    intro i a h
    simp only [genLoop] at h
    by_cases hr : rangeOk pg.toNat s (mapPointer pg (rnd i)).toNat size = true
    · rw [if_pos hr] at h
      injection h with h
      exact ⟨h ▸ hr, i, h.symm⟩
    · rw [if_neg hr] at h
      exact ih h

theorem pages_of_dvd {pg size : Nat} (h0 : 0 < pg) (h : pg ∣ size) : (size + pg - 1) / pg = size / pg := by
  obtain ⟨m, rfl⟩ := h
  rw [Nat.mul_div_cancel_left _ h0]
  have : pg * m + pg - 1 = pg - 1 + pg * m := by omega
  rw [this, Nat.add_mul_div_left _ _ h0, Nat.div_eq_of_lt (by omega)]
  omega

theorem inRange_iff {pg a size x : Nat} (h0 : 0 < pg) (ha : pg ∣ a) (hs : pg ∣ size) :
    inRange pg a size (x / pg) = true ↔ a ≤ x ∧ x < a + size := by
  unfold inRange
  rw [pages_of_dvd h0 hs]
  obtain ⟨m, rfl⟩ := ha
  obtain ⟨w, rfl⟩ := hs
  rw [Nat.mul_div_cancel_left _ h0, Nat.mul_div_cancel_left _ h0]
  simp only [Bool.and_eq_true, decide_eq_true_eq]
  rw [Nat.le_div_iff_mul_le h0, Nat.div_lt_iff_lt_mul h0]
  constructor
  · rintro ⟨h1, h2⟩
    exact ⟨by rw [Nat.mul_comm]; exact h1, by rw [← Nat.mul_add, Nat.mul_comm]; exact h2⟩
  · rintro ⟨h1, h2⟩
    exact ⟨by rw [Nat.mul_comm]; exact h1, by rw [Nat.mul_comm, Nat.mul_add]; exact h2⟩

theorem rangeOk_iff {pg a size : Nat} {s : Pages} (h0 : 0 < pg) (ha : pg ∣ a) (hs : pg ∣ size) :
    rangeOk pg s a size = true ↔ ∀ x, a ≤ x → x < a + size → s (x / pg) = false := by
  unfold rangeOk
  rw [List.all_eq_true]
  constructor
  · intro h x hx1 hx2
    have hr := (inRange_iff (x := x) h0 ha hs).2 ⟨hx1, hx2⟩
    unfold inRange at hr
    rw [pages_of_dvd h0 hs] at hr
    simp only [Bool.and_eq_true, decide_eq_true_eq] at hr
    have := h (x / pg - a / pg) (List.mem_range.2 (by omega))
    rw [show a / pg + (x / pg - a / pg) = x / pg by omega] at this
    simpa using this
  · intro h i hi
    have hi := List.mem_range.1 hi
    have h1 := h (a + i * pg) (Nat.le_add_right _ _) (by
      have : (i + 1) * pg ≤ size / pg * pg := Nat.mul_le_mul_right _ hi
      have h2 : size / pg * pg = size := Nat.div_mul_cancel hs
      have h3 : (i + 1) * pg = i * pg + pg := Nat.succ_mul i pg
      omega)
    rw [Nat.add_mul_div_right _ _ h0] at h1
    simp [h1]

theorem cleanup_tryMap {pg size a : Nat} {fail : Bool} {s : Pages} (h0 : 0 < pg) (ha : pg ∣ a) (hs : pg ∣ size) :
    cleanup pg size (tryMap pg size fail a s) = s := by
  unfold tryMap
  by_cases hr : rangeOk pg s a size = true
  · rw [if_pos hr]
    cases fail
    · simp only [Bool.false_eq_true, if_false, cleanup]
      funext q
      simp only [unmapAt, mapAt]
      by_cases hq : inRange pg a size q = true
      · have hq' := hq
        rw [show q = (q * pg) / pg from (Nat.mul_div_cancel _ h0).symm, inRange_iff h0 ha hs] at hq'
        have := (rangeOk_iff h0 ha hs).1 hr _ hq'.1 hq'.2
        rw [Nat.mul_div_cancel _ h0] at this
        simp [hq, this]
      · simp [hq]
    · rfl
  · rw [if_neg hr]
    rfl

/-- **C50.** For any number of processes, memory layouts, random choices and refusals of the operating system: either every
process reports failure and has exactly the memory it had before, or every process gets the same page-aligned address, the
region there was unused on every process, and afterwards exactly the region has been added to the memory of each. -/
theorem C50_all_or_nothing {n k size : Nat} (hn : 0 < n) (hk : k ≤ 45) (hs : 2 ^ k ∣ size) (env : Env) (s : Nat → Pages) :
    let out := alloc n (BitVec.ofNat 64 (2 ^ k)) size env s
    (∀ p, p < n → out.1 p = none ∧ ∀ x, out.2 p (x / 2 ^ k) = s p (x / 2 ^ k)) ∨
    (∃ a, 2 ^ k ∣ a ∧ ∀ p, p < n → out.1 p = some a ∧
      (∀ x, a ≤ x → x < a + size → s p (x / 2 ^ k) = false) ∧
      (∀ x, out.2 p (x / 2 ^ k) = true ↔ (s p (x / 2 ^ k) = true ∨ (a ≤ x ∧ x < a + size)))) := by
  have hpg : (BitVec.ofNat 64 (2 ^ k)).toNat = 2 ^ k := by
    rw [BitVec.toNat_ofNat]
    exact Nat.mod_eq_of_lt (Nat.pow_lt_pow_right (by omega) (by omega))
  have h0 : 0 < 2 ^ k := Nat.two_pow_pos k
  unfold alloc
  generalize hfuel : (100 : Nat) = fuel
  clear hfuel
  generalize (0 : Nat) = i
  induction fuel generalizing i with
  | zero => intro out; exact Or.inl (fun p _ => ⟨rfl, fun _ => rfl⟩)
  | succ fuel ih =>
    simp only [allocLoop]
    cases hg : genAddr (BitVec.ofNat 64 (2 ^ k)) (s 0) size (env.rnd i) with
    | none => exact Or.inl (fun p _ => ⟨rfl, fun _ => rfl⟩)
    | some a =>
      obtain ⟨_, j, hj⟩ := genLoop_some hg
      have ha : 2 ^ k ∣ a := hj ▸ mapPointer_aligned hk _
      simp only [hpg]
      split
      · have : (fun p => cleanup (2 ^ k) size (tryMap (2 ^ k) size (env.fail i p) a (s p))) = s := by
          funext p
          exact cleanup_tryMap h0 ha hs
        rw [this]
        exact ih (i + 1)
      · rename_i hany
        refine Or.inr ⟨a, ha, fun p hp => ?_⟩
        have hp' : (tryMap (2 ^ k) size (env.fail i p) a (s p)).1.isNone = false := by
          cases hc : (tryMap (2 ^ k) size (env.fail i p) a (s p)).1.isNone with
          | false => rfl
          | true => exact absurd (List.any_eq_true.2 ⟨p, List.mem_range.2 hp, hc⟩) hany
        dsimp only
        unfold tryMap at hp' ⊢
        by_cases hr : rangeOk (2 ^ k) (s p) a size = true
        · rw [if_pos hr] at hp' ⊢
          cases hf : env.fail i p
          · simp only [Bool.false_eq_true, if_false]
            refine ⟨trivial, (rangeOk_iff h0 ha hs).1 hr, fun x => ?_⟩
            simp only [mapAt, Bool.or_eq_true]
            rw [inRange_iff h0 ha hs]
            exact or_comm
          · rw [hf] at hp'
            simp at hp'
        · rw [if_neg hr] at hp'
          simp at hp'

/-- Success is reached: if the first address drawn is unused everywhere and the operating system refuses nothing, the first
round gives it to every process. -/
theorem C50_success {n k size : Nat} (hk : k ≤ 45) (hs : 2 ^ k ∣ size) (env : Env) (s : Nat → Pages) (hn : 0 < n)
    (hfree : ∀ p, p < n → ∀ x, (mapPointer (BitVec.ofNat 64 (2 ^ k)) (env.rnd 0 0)).toNat ≤ x →
      x < (mapPointer (BitVec.ofNat 64 (2 ^ k)) (env.rnd 0 0)).toNat + size → s p (x / 2 ^ k) = false)
    (hok : ∀ p, p < n → env.fail 0 p = false) (p : Nat) (hp : p < n) :
    (alloc n (BitVec.ofNat 64 (2 ^ k)) size env s).1 p = some (mapPointer (BitVec.ofNat 64 (2 ^ k)) (env.rnd 0 0)).toNat := by
  have hpg : (BitVec.ofNat 64 (2 ^ k)).toNat = 2 ^ k := by
    rw [BitVec.toNat_ofNat]
    exact Nat.mod_eq_of_lt (Nat.pow_lt_pow_right (by omega) (by omega))
  have h0 : 0 < 2 ^ k := Nat.two_pow_pos k
  have hr : ∀ q, q < n → rangeOk (2 ^ k) (s q) (mapPointer (BitVec.ofNat 64 (2 ^ k)) (env.rnd 0 0)).toNat size = true :=
    fun q hq => (rangeOk_iff h0 (mapPointer_aligned hk _) hs).2 (hfree q hq)
  have hg : genAddr (BitVec.ofNat 64 (2 ^ k)) (s 0) size (env.rnd 0) =
      some (mapPointer (BitVec.ofNat 64 (2 ^ k)) (env.rnd 0 0)).toNat := by
    unfold genAddr
    generalize hf : (99 : Nat) = f
    rw [show (100 : Nat) = f + 1 by omega]
    simp only [genLoop, hpg]
    rw [if_pos (hr 0 hn)]
  unfold alloc
  generalize hf : (99 : Nat) = f
  rw [show (100 : Nat) = f + 1 by omega]
  simp only [allocLoop, hg, hpg]
  have ht : ∀ q, q < n → tryMap (2 ^ k) size (env.fail 0 q) (mapPointer (BitVec.ofNat 64 (2 ^ k)) (env.rnd 0 0)).toNat (s q) =
      (some (mapPointer (BitVec.ofNat 64 (2 ^ k)) (env.rnd 0 0)).toNat,
        mapAt (2 ^ k) (s q) (mapPointer (BitVec.ofNat 64 (2 ^ k)) (env.rnd 0 0)).toNat size) := by
    intro q hq
    unfold tryMap
    rw [if_pos (hr q hq), hok q hq]
    rfl
  rw [if_neg]
  · simp only [ht p hp]
  · intro hany
    obtain ⟨q, hq, hq'⟩ := List.any_eq_true.1 hany
    rw [ht q (List.mem_range.1 hq)] at hq'
    simp at hq'

/-! A concrete case: two processes with 4 KiB pages, two megabytes; the first draw hits memory of process 1, the second not. -/

abbrev exEnv : Env := ⟨fun i _ => if i = 0 then 0x0000600000000000#64 else 0x0000600000400000#64, fun _ _ => false⟩
abbrev exPages : Nat → Pages := fun p q => decide (p = 1 ∧ q = 0x0000600000000000 / 4096)

example : 2 ^ 12 ∣ 8192 := by decide
example : (alloc 2 (BitVec.ofNat 64 (2 ^ 12)) 8192 exEnv exPages).1 0 = some 0x0000600000400000 := by decide +kernel
example : (alloc 2 (BitVec.ofNat 64 (2 ^ 12)) 8192 exEnv exPages).1 1 = some 0x0000600000400000 := by decide +kernel
/-- failure is possible too: the operating system always refuses on process 1 -/
example : (alloc 2 (BitVec.ofNat 64 (2 ^ 12)) 8192 ⟨exEnv.rnd, fun _ p => p == 1⟩ exPages).1 0 = none := by decide +kernel

/-! ## Release of the heap region

A region obtained by `OSHMPIU_allocate_symm_mem` must be given back with `munmap`, one obtained by `malloc` with `free`. -/

/-- the release function that belongs to an origin -/
def rightRelease : Origin → Release
  | .mapped => .munmap
  | .malloced => .free

/-- **C58 (partial).** With dynamic windows every process releases its heap region with the function that belongs to its
allocation, provided the symmetric allocation succeeded or two processes got different addresses from `malloc`. Missing: the
fall-back to `malloc` giving the same address everywhere (always so with one process), see `C58_fails`. -/
theorem C58_release_partial {n : Nat} (al : Nat → Option Nat) (mal : Nat → Nat)
    (hall : (∃ a, ∀ p, p < n → al p = some a) ∨
      ((∀ p, p < n → al p = none) ∧ ∃ p q, p < n ∧ q < n ∧ mal p ≠ mal q)) (p : Nat) (hp : p < n) :
    releaseOf (symmFlag n (fun q => (heapRegion al mal q).1) p) = rightRelease (heapRegion al mal p).2 := by
  rcases hall with ⟨a, ha⟩ | ⟨hno, i, j, hi, hj, hne⟩
  · have hb : ∀ q, q < n → heapRegion al mal q = (a, .mapped) := by
      intro q hq; unfold heapRegion; rw [ha q hq]
    have : symmFlag n (fun q => (heapRegion al mal q).1) p = true := by
      unfold symmFlag
      rw [List.all_eq_true]
      intro q hq
      dsimp only
      rw [hb q (List.mem_range.1 hq), hb p hp]
      simp
    rw [this, hb p hp]; rfl
  · have hb : ∀ q, q < n → heapRegion al mal q = (mal q, .malloced) := by
      intro q hq; unfold heapRegion; rw [hno q hq]
    have : symmFlag n (fun q => (heapRegion al mal q).1) p = false := by
      cases hc : symmFlag n (fun q => (heapRegion al mal q).1) p with
      | false => rfl
      | true =>
        unfold symmFlag at hc
        rw [List.all_eq_true] at hc
        have h1 := hc i (List.mem_range.2 hi)
        have h2 := hc j (List.mem_range.2 hj)
        dsimp only at h1 h2
        rw [hb i hi, hb p hp, beq_iff_eq] at h1
        rw [hb j hj, hb p hp, beq_iff_eq] at h2
        exact absurd (h1.trans h2.symm) hne
    rw [this, hb p hp]; rfl

example : (∃ a, ∀ p, p < 2 → (fun _ => some 4096 : Nat → Option Nat) p = some a) := ⟨4096, fun _ _ => rfl⟩
example : (∀ p, p < 2 → (fun _ => none : Nat → Option Nat) p = none) ∧
    ∃ p q, p < 2 ∧ q < 2 ∧ (fun p => 1000 * p : Nat → Nat) p ≠ (fun p => 1000 * p) q :=
  ⟨fun _ _ => rfl, 0, 1, by decide⟩

/-- **C58 fails.** A single process whose symmetric allocation failed (or a build without it) has its heap from `malloc`, and
finalize calls `munmap` on it: with one process the addresses are always "the same on all processes". -/
theorem C58_fails (mal : Nat → Nat) :
    (heapRegion (fun _ => none) mal 0).2 = .malloced ∧
    releaseOf (symmFlag 1 (fun q => (heapRegion (fun _ => none) mal q).1) 0) = .munmap := by
  refine ⟨rfl, ?_⟩
  have : symmFlag 1 (fun q => (heapRegion (fun _ => none) mal q).1) 0 = true := by
    simp [symmFlag]
  rw [this]; rfl

end Verif.Symm
