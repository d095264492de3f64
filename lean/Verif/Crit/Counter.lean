import Verif.Crit.Fair
import Verif.Vis.Props
/-!
# C109: a counter behind a lock

Every PE increments a counter in the memory of PE `h` some number of times, each time under a lock: get, add one, put, quiet.
-/
namespace Verif.Crit
open Verif.Rma Verif.Lock
open Verif.Vis (NoWriter Only)

/-! ## The program -/

/-- byte `b` of the number -/
def byteOf (v b : Nat) : BitVec 8 := BitVec.ofNat 8 (v / 256 ^ b)

/-- the 8-byte number at address `a` -/
def word8 (m : IMem) (a : Int) : Nat :=
  (m a).toNat + (m (a + 1)).toNat * 256 + (m (a + 2)).toNat * 256 ^ 2 + (m (a + 3)).toNat * 256 ^ 3 + (m (a + 4)).toNat * 256 ^ 4 +
    (m (a + 5)).toNat * 256 ^ 5 + (m (a + 6)).toNat * 256 ^ 6 + (m (a + 7)).toNat * 256 ^ 7

/-- 8 bytes from `b` to `a` -/
def eight (a b : Int) : List (Int × Int) := (List.range 8).map fun i => (a + (i : Nat), b + (i : Nat))

/-- one round: `shmem_set_lock(&lock)`, get the counter at `c` of PE `h` to `tm`, store its value plus one (8 bytes) at `nw`, put that to the
counter, `shmem_quiet`, `shmem_clear_lock(&lock)` -/
def round (h : Nat) (c tm nw : Int) : List PAct :=
  [.set 0, .data fun _ => .get h false (eight tm c)] ++
    ((List.range 8).map fun i => PAct.data fun m => .store (nw + (i : Nat)) (byteOf (word8 m tm + 1) i)) ++
    [.data fun _ => .put h false (eight c nw), .quiet, .clear 0]

/-- the program: `K` rounds on each PE -/
def counter (h : Nat) (c : Int) (tm nw : Nat → Int) (K : Nat) : Prog := fun p => (List.replicate K (round h c (tm p) (nw p))).flatten

/-- the counter and the local variables are different bytes, and in no lock -/
structure Spot (T : Sys) (h : Nat) (c : Int) (tm nw : Nat → Int) : Prop where
  home : h < T.lk.n
  one : 0 < T.lk.m
  ctm : ∀ b < 8, ∀ b' < 8, c + (b : Nat) ≠ tm h + (b' : Nat)
  cnw : ∀ b < 8, ∀ b' < 8, c + (b : Nat) ≠ nw h + (b' : Nat)
  tnw : ∀ p < T.lk.n, ∀ b < 8, ∀ b' < 8, tm p + (b : Nat) ≠ nw p + (b' : Nat)
  cl : ∀ b < 8, ∀ x, T.lk.InLock h x → x.toInt ≠ c + (b : Nat)
  tl : ∀ p < T.lk.n, ∀ b < 8, ∀ x, T.lk.InLock p x → x.toInt ≠ tm p + (b : Nat)
  nl : ∀ p < T.lk.n, ∀ b < 8, ∀ x, T.lk.InLock p x → x.toInt ≠ nw p + (b : Nat)

/-! ## Numbers -/

theorem byte_digit (v b : Nat) : (byteOf v b).toNat = v / 256 ^ b % 256 := by
  unfold byteOf
  rw [BitVec.toNat_ofNat]

theorem word8_bytes {m : IMem} {a : Int} {v : Nat} (h : ∀ b < 8, m (a + (b : Nat)) = byteOf v b) : word8 m a = v % 2 ^ 64 := by
  have h0 := h 0 (by omega)
  have h1 := h 1 (by omega)
  have h2 := h 2 (by omega)
  have h3 := h 3 (by omega)
  have h4 := h 4 (by omega)
  have h5 := h 5 (by omega)
  have h6 := h 6 (by omega)
  have h7 := h 7 (by omega)
  simp only [Nat.cast_zero, Int.add_zero, Nat.cast_one, Nat.cast_ofNat] at h0 h1 h2 h3 h4 h5 h6 h7
  unfold word8
  rw [h0, h1, h2, h3, h4, h5, h6, h7]
  simp only [byte_digit]
  norm_num
  omega

theorem byte_mod {v b : Nat} (hb : b < 8) : byteOf (v % 2 ^ 64 + 1) b = byteOf (v + 1) b := by
  apply BitVec.eq_of_toNat_eq
  rw [byte_digit, byte_digit]
  interval_cases b <;> norm_num <;> omega

theorem eight_mem {a b : Int} {x : Int × Int} (h : x ∈ eight a b) : ∃ i < 8, x = (a + (i : Nat), b + (i : Nat)) := by
  unfold eight at h
  obtain ⟨i, hi, rfl⟩ := List.mem_map.1 h
  exact ⟨i, List.mem_range.1 hi, rfl⟩

theorem mem_eight (a b : Int) {i : Nat} (h : i < 8) : (a + (i : Nat), b + (i : Nat)) ∈ eight a b :=
  List.mem_map.2 ⟨i, List.mem_range.2 h, rfl⟩

theorem eight_inj {a b : Int} {i : Nat} : ∀ y ∈ eight a b, y.1 = (a + (i : Nat), b + (i : Nat)).1 → y = (a + (i : Nat), b + (i : Nat)) := by
  intro y hy e
  obtain ⟨j, _, rfl⟩ := eight_mem hy
  dsimp only at e
  have : j = i := by omega
  rw [this]

/-! ## The actions -/

/-- action number `k` of a round -/
def roundAct (h : Nat) (c tm nw : Int) (k : Nat) : PAct :=
  if k = 0 then .set 0 else if k = 1 then .data fun _ => .get h false (eight tm c)
  else if k < 10 then .data fun m => .store (nw + ((k - 2 : Nat) : Nat)) (byteOf (word8 m tm + 1) (k - 2))
  else if k = 10 then .data fun _ => .put h false (eight c nw) else if k = 11 then .quiet else .clear 0

theorem round_len (h : Nat) (c tm nw : Int) : (round h c tm nw).length = 13 := rfl

theorem round_get {h : Nat} {c tm nw : Int} {k : Nat} (hk : k < 13) : (round h c tm nw)[k]? = some (roundAct h c tm nw k) := by
  interval_cases k <;> rfl

theorem counter_len (h : Nat) (c : Int) (tm nw : Nat → Int) (K p : Nat) : (counter h c tm nw K p).length = 13 * K := by
  unfold counter
  induction K with
  | zero => rfl
  | succ K ih => rw [List.replicate_succ, List.flatten_cons, List.length_append, ih, round_len]; omega

theorem counter_get {h : Nat} {c : Int} {tm nw : Nat → Int} {K p i : Nat} (hi : i < 13 * K) :
    (counter h c tm nw K p)[i]? = some (roundAct h c (tm p) (nw p) (i % 13)) := by
  unfold counter
  induction K generalizing i with
  | zero => omega
  | succ K ih =>
    rw [List.replicate_succ, List.flatten_cons]
    rcases Nat.lt_or_ge i 13 with h | h
    · rw [List.getElem?_append_left (by rw [round_len]; exact h), round_get h, Nat.mod_eq_of_lt h]
    · rw [List.getElem?_append_right (by rw [round_len]; exact h), round_len, ih (by omega)]
      congr 2
      omega

theorem counter_get' {h : Nat} {c : Int} {tm nw : Nat → Int} {K p i : Nat} {a : PAct} (hi : (counter h c tm nw K p)[i]? = some a) :
    i < 13 * K ∧ a = roundAct h c (tm p) (nw p) (i % 13) := by
  have hl : i < 13 * K := by
    have := (List.getElem?_eq_some_iff.1 hi).1
    rwa [counter_len] at this
  refine ⟨hl, ?_⟩
  rw [counter_get hl] at hi
  cases hi; rfl

/-- which action it is, by the place in the round -/
theorem act_set {h : Nat} {c tm nw : Int} {k l : Nat} (e : PAct.set l = roundAct h c tm nw k) : k = 0 ∧ l = 0 := by
  unfold roundAct at e
  split at e
  · cases e; exact ⟨by assumption, rfl⟩
  · split at e
    · cases e
    · split at e
      · cases e
      · split at e
        · cases e
        · split at e <;> cases e

theorem act_clear {h : Nat} {c tm nw : Int} {k l : Nat} (hk : k < 13) (e : PAct.clear l = roundAct h c tm nw k) : k = 12 ∧ l = 0 := by
  unfold roundAct at e
  split at e
  · cases e
  · split at e
    · cases e
    · split at e
      · cases e
      · split at e
        · cases e
        · split at e
          · cases e
          · cases e; exact ⟨by omega, rfl⟩

theorem act_quiet {h : Nat} {c tm nw : Int} {k : Nat} (e : PAct.quiet = roundAct h c tm nw k) : k = 11 := by
  unfold roundAct at e
  split at e
  · cases e
  · split at e
    · cases e
    · split at e
      · cases e
      · split at e
        · cases e
        · split at e
          · assumption
          · cases e

theorem act_data {h : Nat} {c tm nw : Int} {k : Nat} {f : IMem → Call} (e : PAct.data f = roundAct h c tm nw k) :
    (k = 1 ∧ f = fun _ => .get h false (eight tm c)) ∨
    (∃ j < 8, k = j + 2 ∧ f = fun m => .store (nw + (j : Nat)) (byteOf (word8 m tm + 1) j)) ∨
    (k = 10 ∧ f = fun _ => .put h false (eight c nw)) := by
  unfold roundAct at e
  split at e
  · cases e
  · split at e
    · cases e; exact Or.inl ⟨by assumption, rfl⟩
    · split at e
      · cases e; exact Or.inr (Or.inl ⟨k - 2, by omega, by omega, rfl⟩)
      · split at e
        · cases e; exact Or.inr (Or.inr ⟨by assumption, rfl⟩)
        · split at e <;> cases e

theorem counter_holds {h : Nat} {c : Int} {tm nw : Nat → Int} {K p i l : Nat} (hi : i ≤ 13 * K) :
    Holds (counter h c tm nw K p) i l ↔ l = 0 ∧ i % 13 ≠ 0 := by
  constructor
  · rintro ⟨j, hj, h1, h2⟩
    obtain ⟨hjK, he⟩ := counter_get' h1
    obtain ⟨hj0, rfl⟩ := act_set he
    refine ⟨rfl, fun h0 => ?_⟩
    -- the clear of that round
    refine h2 (j + 12) (by omega) (by omega) ?_
    rw [counter_get (by omega)]
    have : (j + 12) % 13 = 12 := by omega
    rw [this]
    rfl
  · rintro ⟨rfl, h0⟩
    refine ⟨i - i % 13, by omega, ?_, fun k h1 h2 hk => ?_⟩
    · rw [counter_get (by omega)]
      have : (i - i % 13) % 13 = 0 := by omega
      rw [this]
      rfl
    · obtain ⟨_, he⟩ := counter_get' hk
      have := (act_clear (by omega) he).1
      omega

theorem counter_proper {T : Sys} {h : Nat} {c : Int} {tm nw : Nat → Int} (sp : Spot T h c tm nw) (K : Nat) : Proper T (counter h c tm nw K) := by
  refine ⟨?_, ?_, ?_, ?_⟩
  · intro p hp i l ha
    obtain ⟨hi, he⟩ := counter_get' ha
    obtain ⟨h0, rfl⟩ := act_set he
    refine ⟨sp.one, fun k hk => ?_⟩
    exact absurd h0 ((counter_holds (by omega)).1 hk).2
  · intro p hp i l ha
    obtain ⟨hi, he⟩ := counter_get' ha
    obtain ⟨h0, rfl⟩ := act_clear (by omega) he
    exact (counter_holds (by omega)).2 ⟨rfl, by omega⟩
  · intro p hp l hh
    rw [counter_len] at hh
    have := ((counter_holds (Nat.le_refl _)).1 hh).2
    omega
  · intro p hp f hf m t ht x hx hw
    obtain ⟨i, hi⟩ := List.getElem?_of_mem hf
    obtain ⟨_, he⟩ := counter_get' hi
    rcases act_data he with ⟨_, rfl⟩ | ⟨j, hj, _, rfl⟩ | ⟨_, rfl⟩
    · obtain ⟨h1, y, hy, h2⟩ := hw
      obtain ⟨b, hb, rfl⟩ := eight_mem hy
      dsimp only at h1 h2
      subst h1
      exact sp.tl t ht b hb x hx h2.symm
    · have hw : (t, x.toInt) = (p, nw p + (j : Nat)) := hw
      have h1 := congrArg Prod.fst hw
      have h2 := congrArg Prod.snd hw
      dsimp only at h1 h2
      subst h1
      exact sp.nl t ht j hj x hx h2
    · obtain ⟨h1, y, hy, h2⟩ := hw
      obtain ⟨b, hb, rfl⟩ := eight_mem hy
      dsimp only at h1 h2
      subst h1
      exact sp.cl b hb x hx h2.symm

end Verif.Crit
