import Verif.Bsp.Count
/-!
# C115: the repository's test `int_put` passes in every execution

tests/int_put.c, in the version with memory of the symmetric heap (USE_SYMM_HEAP), for every SIZE, every ITER and every number of PEs.
-/
namespace Verif.Bsp
open Verif.Sobj Verif.Rma Verif.Vis Verif.Api Verif.Flow
open Verif.Amo (TyIdx)
open Verif.Heap (heapSize trueSize Call)

/-! ## The program -/

/-- byte `j % 4` of the `int` with value `v` (little endian) -/
def cell (v j : Nat) : BitVec 8 := BitVec.ofNat 8 (v / 256 ^ (j % 4))

/-- tests/int_put.c L33-36: `src[i] = mype + i; dst[i] = 0` (`f` is what is added to `i`), byte by byte; `x` is the block `dst`, `y` the block `src`, `T` = SIZE * ITER -/
def tFill (f : Nat → Nat) (B : Nat → Nat) (x y : Nat × Nat) (T p : Nat) : List NAct :=
  (List.range (4 * T)).flatMap fun j => [.store (adr B p y j : Nat) (cell (f p + j / 4) j), .store (adr B p x j : Nat) 0]

/-- arguments of `shmem_int_put(&dst[off], &src[off], SIZE, 1)` with `off` = `w` * SIZE (tests/int_put.c L40-42) -/
def tArgs (B : Nat → Nat) (x y : Nat × Nat) (n w : Nat) : RArgs :=
  ⟨BitVec.ofNat 64 (adr B 0 x (4 * (w * n))), BitVec.ofNat 64 (adr B 0 y (4 * (w * n))), 0, fun _ => 0, 1, 1, n⟩

/-- tests/int_put.c L39-45: `K` times put and quiet -/
def tSend (B : Nat → Nat) (x y : Nat × Nat) (n K : Nat) : List NAct :=
  (List.range (2 * K)).map fun i => if i % 2 = 0 then .rma .put (.typed ⟨.int, .int⟩) false (tArgs B x y n (i / 2)) 1 else .quiet

/-- what PE `p` does before the first barrier, between the two (PE 0 only), and afterwards: tests/int_put.c L33-47 -/
def tActs (B : Nat → Nat) (x y : Nat × Nat) (n K : Nat) : Nat → Nat → List NAct
  | 0, p => tFill (fun p => p) B x y (n * K) p
  | 1, p => if p = 0 then tSend B x y n K else []
  | _ + 2, _ => []

/-- the program; its check after the second barrier (tests/int_put.c L49-57) is what the theorems are about -/
def tProg (B : Nat → Nat) (x y : Nat × Nat) (n K : Nat) : NProg where
  next p k i _ := (tActs B x y n K k p)[i]?
  looks _ _ _ _ := False
  dep _ _ _ _ _ _ := rfl

/-- address `a` of PE `q` is in the first `4 * T` bytes of the block `x` -/
def InArr (B : Nat → Nat) (x : Nat × Nat) (T q : Nat) (a : Int) : Prop := (adr B q x 0 : Int) ≤ a ∧ a < (adr B q x (4 * T) : Nat)

instance (B : Nat → Nat) (x : Nat × Nat) (T q : Nat) (a : Int) : Decidable (InArr B x T q a) := by unfold InArr; infer_instance

/-- the bytes the program works on: both arrays, on every PE -/
def tD (np : Nat) (B : Nat → Nat) (x y : Nat × Nat) (T : Nat) (b : Nat × Int) : Prop :=
  b.1 < np ∧ (InArr B x T b.1 b.2 ∨ InArr B y T b.1 b.2)

/-! ## Proof -/

/-- the memory after the first barrier -/
def tM1 (f : Nat → Nat) (B : Nat → Nat) (x y : Nat × Nat) (T : Nat) (m : Mems) : Mems :=
  fun q a => if InArr B x T q a then 0
    else if InArr B y T q a then cell (f q + (a - (adr B q y 0 : Nat)).toNat / 4) (a - (adr B q y 0 : Nat)).toNat else m q a

/-- the memory after the second, from that after the first -/
def tM2 (B : Nat → Nat) (x y : Nat × Nat) (T : Nat) (m : Mems) : Mems :=
  fun q a => if q = 1 ∧ InArr B x T 1 a then m 0 (a - (adr B 1 x 0 : Nat) + (adr B 0 y 0 : Nat)) else m q a

/-- the memory at the barriers -/
def tM (B : Nat → Nat) (x y : Nat × Nat) (T : Nat) (m : Mems) : Nat → Mems
  | 0 => m
  | 1 => tM1 (fun p => p) B x y T m
  | _ + 2 => tM2 B x y T (tM1 (fun p => p) B x y T m)

theorem word_cell {m : IMem} {a : Int} {v : Nat} (h : ∀ b < 4, m (a + (b : Nat)) = cell v b) : wordAt m a .int = BitVec.ofNat 32 v := by
  have e : Mem.load (fun n => m (a + n)) 0 4 = v % 2 ^ 32 := by
    simp only [Mem.load]
    rw [h 0 (by omega), h (0 + 1) (by omega), h (0 + 1 + 1) (by omega), h (0 + 1 + 1 + 1) (by omega)]
    unfold cell
    simp only [BitVec.toNat_ofNat]
    norm_num
    omega
  show BitVec.ofNat 32 (Mem.load (fun n => m (a + n)) 0 4) = _
  rw [e]
  apply BitVec.eq_of_toNat_eq
  simp

theorem fold_stores {p : Nat} {f : Int → BitVec 8} {m : Mems} {l : List Act} (hl : ∀ a ∈ l, ∃ z, a = .store z (f z)) {z : Int} (hz : .store z (f z) ∈ l) :
    l.foldl (Act.apply p) m p z = f z := by
  induction l using List.reverseRecOn with
  | nil => cases hz
  | append_singleton l a ih =>
    rw [List.foldl_append]
    obtain ⟨z', rfl⟩ := hl a (by simp)
    show (if p = p ∧ z = z' then f z' else _) = _
    split
    · rename_i h; rw [h.2]
    · rename_i h
      refine ih (fun a ha => hl a (List.mem_append_left _ ha)) ?_
      rcases List.mem_append.1 hz with h1 | h1
      · exact h1
      · have := List.mem_singleton.1 h1
        injection this with e
        exact absurd ⟨rfl, e⟩ h

theorem fold_puts {g : Int → Int} {m : Mems} {l : List Act} (hl : ∀ a ∈ l, a = .quiet ∨ ∃ xs : List (Int × Int), a = .put 1 false xs ∧ ∀ z ∈ xs, z.2 = g z.1) :
    (∀ q, q ≠ 1 → l.foldl (Act.apply 0) m q = m q) ∧
    ∀ z, (∃ xs : List (Int × Int), .put 1 false xs ∈ l ∧ ∃ t ∈ xs, t.1 = z) → l.foldl (Act.apply 0) m 1 z = m 0 (g z) := by
  induction l using List.reverseRecOn with
  | nil => exact ⟨fun _ _ => rfl, fun z ⟨xs, h, _⟩ => by cases h⟩
  | append_singleton l a ih =>
    obtain ⟨h1, h2⟩ := ih (fun a ha => hl a (List.mem_append_left _ ha))
    rw [List.foldl_append]
    rcases hl a (by simp) with rfl | ⟨xs, rfl, hx⟩
    · refine ⟨h1, ?_⟩
      rintro z ⟨xs, h, ht⟩
      refine h2 z ⟨xs, ?_, ht⟩
      rcases List.mem_append.1 h with h | h
      · exact h
      · cases List.mem_singleton.1 h
    · constructor
      · intro q hq
        funext y
        show (if q = 1 then _ else _) = _
        rw [if_neg hq, h1 q hq]
      · rintro z ⟨ys, h, t, ht, hz⟩
        show (if 1 = 1 then ((pick xs z).map fun x => l.foldl (Act.apply 0) m 0 x.2).getD (l.foldl (Act.apply 0) m 1 z) else l.foldl (Act.apply 0) m 1 z) = _
        rw [if_pos rfl]
        cases hp : pick xs z with
        | some u =>
          have hu := List.mem_of_find?_eq_some hp
          have hu1 := List.find?_some hp
          have : u.1 = z := by simpa using hu1
          show l.foldl (Act.apply 0) m 0 u.2 = _
          rw [hx u hu, this, h1 0 (by decide)]
        | none =>
          show l.foldl (Act.apply 0) m 1 z = _
          refine h2 z ⟨ys, ?_, t, ht, hz⟩
          rcases List.mem_append.1 h with h | h
          · exact h
          · have := List.mem_singleton.1 h
            injection this with _ _ e
            subst e
            have := List.find?_eq_none.1 hp t ht
            simp [hz] at this

section
variable {S : Sys} {k Z : Nat} {B : Nat → Nat} {s : Dl.St} {x y : Nat × Nat} {n K : Nat} {m : Mems}

theorem mem_tFill {f : Nat → Nat} {T p : Nat} {a : Act} : a ∈ (tFill f B x y T p).map (NAct.act B p) ↔
    ∃ j < 4 * T, a = .store (adr B p y j : Nat) (cell (f p + j / 4) j) ∨ a = .store (adr B p x j : Nat) 0 := by
  unfold tFill
  simp only [List.mem_map, List.mem_flatMap, List.mem_range, List.mem_cons, List.not_mem_nil, or_false]
  constructor
  · rintro ⟨c, ⟨j, hj, rfl | rfl⟩, rfl⟩
    · exact ⟨j, hj, Or.inl rfl⟩
    · exact ⟨j, hj, Or.inr rfl⟩
  · rintro ⟨j, hj, rfl | rfl⟩
    · exact ⟨_, ⟨j, hj, Or.inl rfl⟩, rfl⟩
    · exact ⟨_, ⟨j, hj, Or.inr rfl⟩, rfl⟩

/-- the bytes of put `w` -/
def tXs (B : Nat → Nat) (x y : Nat × Nat) (n w : Nat) : List (Int × Int) := pairs (adr B 1 x (4 * (w * n)) : Nat) (adr B 0 y (4 * (w * n)) : Nat) n 4 1 1

theorem tput_act (J : Job S k Z B) (hp : 0 < S.npes) (hix : 960 + x.1 + x.2 ≤ heapSize k Z) (hiy : 960 + y.1 + y.2 ≤ heapSize k Z)
    (hx : 4 * (n * K) ≤ x.2) (hy : 4 * (n * K) ≤ y.2) (hn : 0 < n) {w : Nat} (hw : w < K) :
    (NAct.rma .put (.typed ⟨.int, .int⟩) false (tArgs B x y n w) 1).act B 0 = .put 1 false (tXs B x y n w) := by
  have hlt : w * n + n ≤ n * K := by
    have := Nat.mul_le_mul_right n (Nat.succ_le_of_lt hw)
    rw [Nat.succ_mul, Nat.mul_comm K n] at this
    exact this
  have e : (BitVec.ofNat 64 (adr B 0 x (4 * (w * n)))).toInt - B 0 + B 1 = (adr B 1 x (4 * (w * n)) : Nat) := by
    rw [adr_int J hix (by omega) hp]
    unfold adr
    omega
  show Act.put 1 false (pairs ((BitVec.ofNat 64 (adr B 0 x (4 * (w * n)))).toInt - B 0 + B 1) (BitVec.ofNat 64 (adr B 0 y (4 * (w * n)))).toInt n 4 1 1) = _
  rw [e, adr_int J hiy (by omega) hp]
  rfl

theorem mem_tXs {w : Nat} {z : Int × Int} : z ∈ tXs B x y n w ↔ (adr B 1 x (4 * (w * n)) : Int) ≤ z.1 ∧ z.1 < (adr B 1 x (4 * (w * n + n)) : Nat) ∧
    z.2 = z.1 - (adr B 1 x 0 : Nat) + (adr B 0 y 0 : Nat) := by
  unfold tXs pairs byteOf adr
  generalize w * n = c
  constructor
  · intro h
    obtain ⟨i, hi, rfl⟩ := List.mem_map.1 h
    obtain ⟨h1, h2⟩ := mem_idx.1 hi
    dsimp only
    omega
  · rintro ⟨h1, h2, h3⟩
    refine List.mem_map.2 ⟨((z.1 - (B 1 + 960 + x.1 + 4 * c : Nat)).toNat / 4, (z.1 - (B 1 + 960 + x.1 + 4 * c : Nat)).toNat % 4),
      mem_idx.2 ⟨by dsimp only; omega, by dsimp only; omega⟩, Prod.ext ?_ ?_⟩
    all_goals
      dsimp only
      omega

/-- the calls of PE 0 between the barriers -/
def tSent (B : Nat → Nat) (x y : Nat × Nat) (n K : Nat) : List Act :=
  (List.range (2 * K)).map fun i => if i % 2 = 0 then .put 1 false (tXs B x y n (i / 2)) else .quiet

theorem tSend_act (J : Job S k Z B) (hp : 0 < S.npes) (hix : 960 + x.1 + x.2 ≤ heapSize k Z) (hiy : 960 + y.1 + y.2 ≤ heapSize k Z)
    (hx : 4 * (n * K) ≤ x.2) (hy : 4 * (n * K) ≤ y.2) (hn : 0 < n) : (tSend B x y n K).map (NAct.act B 0) = tSent B x y n K := by
  unfold tSend tSent
  rw [List.map_map]
  refine List.map_congr_left fun i hi => ?_
  have hi := List.mem_range.1 hi
  show NAct.act B 0 (if i % 2 = 0 then _ else _) = _
  split
  · exact tput_act J hp hix hiy hx hy hn (by omega)
  · rfl

theorem tSent_mem {a : Act} (h : a ∈ tSent B x y n K) : a = .quiet ∨ ∃ w < K, a = .put 1 false (tXs B x y n w) := by
  obtain ⟨i, hi, rfl⟩ := List.mem_map.1 h
  have hi := List.mem_range.1 hi
  split
  · exact Or.inr ⟨i / 2, by omega, rfl⟩
  · exact Or.inl rfl

theorem tSent_has {w : Nat} (hw : w < K) : .put 1 false (tXs B x y n w) ∈ tSent B x y n K := by
  refine List.mem_map.2 ⟨2 * w, List.mem_range.2 (by omega), ?_⟩
  rw [if_pos (by omega), Nat.mul_div_cancel_left _ (by decide)]

/-- the bytes the puts write are the array -/
theorem tSent_in {w : Nat} (hw : w < K) {z : Int × Int} (h : z ∈ tXs B x y n w) : InArr B x (n * K) 1 z.1 ∧ InArr B y (n * K) 0 z.2 := by
  have hlt : w * n + n ≤ n * K := by
    have := Nat.mul_le_mul_right n (Nat.succ_le_of_lt hw)
    rw [Nat.succ_mul, Nat.mul_comm K n] at this
    exact this
  have := mem_tXs.1 h
  unfold InArr adr at *
  generalize w * n = c at *
  generalize n * K = t at *
  omega

theorem tSent_all (hn : 0 < n) {a : Int} (h : InArr B x (n * K) 1 a) : ∃ w < K, (a, a - (adr B 1 x 0 : Nat) + (adr B 0 y 0 : Nat)) ∈ tXs B x y n w := by
  obtain ⟨h1, h2⟩ := h
  obtain ⟨d, hd⟩ : ∃ d : Nat, a = (adr B 1 x 0 : Nat) + (d : Int) := ⟨(a - (adr B 1 x 0 : Nat)).toNat, by omega⟩
  have hd4 : d / 4 < n * K := by
    unfold adr at *
    omega
  refine ⟨d / 4 / n, Nat.div_lt_of_lt_mul hd4, mem_tXs.2 ⟨?_, ?_, rfl⟩⟩
  · have := Nat.div_mul_le_self (d / 4) n
    unfold adr at *
    dsimp only
    omega
  · have h3 := Nat.div_add_mod (d / 4) n
    have h4 := Nat.mod_lt (d / 4) hn
    rw [Nat.mul_comm] at h3
    unfold adr at *
    dsimp only
    generalize d / 4 / n * n = c at *
    omega

/-- the arrays have no byte in common -/
def Apart (B : Nat → Nat) (x y : Nat × Nat) (T : Nat) : Prop := ∀ q a, InArr B x T q a → ¬ InArr B y T q a

/-- the phase of the stores -/
theorem t_phase0 {f : Nat → Nat} {np T : Nat} {P : Prog} {acts : Nat → List Act} (hxy : Apart B x y T) (ha : ∀ p, acts p = (tFill f B x y T p).map (NAct.act B p))
    (hf : ∀ p i y, P.next p 0 i y = (acts p)[i]?) (hl : ∀ p k i a, ¬ P.looks p k i a) : Phase np (tD np B x y T) P 0 m acts (tM1 f B x y T m) := by
  have hst : ∀ p, ∀ a ∈ acts p, ∃ z, a = .store z (tM1 f B x y T m p z) ∧ (InArr B x T p z ∨ InArr B y T p z) := by
    intro p a h
    rw [ha p] at h
    obtain ⟨j, hj, rfl | rfl⟩ := mem_tFill.1 h
    · have hy : InArr B y T p (adr B p y j : Nat) := by unfold InArr adr; omega
      refine ⟨_, ?_, Or.inr hy⟩
      unfold tM1
      rw [if_neg (fun h => hxy _ _ h hy), if_pos hy]
      have : ((adr B p y j : Nat) - (adr B p y 0 : Nat) : Int).toNat = j := by unfold adr; omega
      rw [this]
    · have hx : InArr B x T p (adr B p x j : Nat) := by unfold InArr adr; omega
      refine ⟨_, ?_, Or.inl hx⟩
      unfold tM1
      rw [if_pos hx]
  have hall : ∀ p z, InArr B x T p z ∨ InArr B y T p z → .store z (tM1 f B x y T m p z) ∈ acts p := by
    have key : ∀ p z v, Act.store z v ∈ acts p → Act.store z (tM1 f B x y T m p z) ∈ acts p := by
      intro p z v h
      obtain ⟨z', e, _⟩ := hst p _ h
      injection e with e1 e2
      subst e1
      rw [← e2]
      exact h
    intro p z h
    rcases h with h | h
    · obtain ⟨h1, h2⟩ := h
      refine key p z 0 ?_
      rw [ha p]
      refine mem_tFill.2 ⟨(z - (adr B p x 0 : Nat)).toNat, by unfold adr at *; omega, Or.inr ?_⟩
      congr 1
      unfold adr at *
      omega
    · obtain ⟨h1, h2⟩ := h
      have e : z = (adr B p y (z - (adr B p y 0 : Nat)).toNat : Nat) := by unfold adr at *; omega
      refine key p z (cell (f p + (z - (adr B p y 0 : Nat)).toNat / 4) (z - (adr B p y 0 : Nat)).toNat) ?_
      rw [ha p]
      refine mem_tFill.2 ⟨(z - (adr B p y 0 : Nat)).toNat, by unfold adr at *; omega, Or.inl ?_⟩
      congr 1
  refine Phase.plain ?_ ?_ ?_ ?_ ?_ ?_ ?_ ?_ ?_
  · intro p _ a h
    obtain ⟨z, rfl, _⟩ := hst p a h
    rfl
  · intro p _ i _
    rw [hf]
  · rintro p _ b ⟨a, h, hb⟩
    obtain ⟨z, rfl, _⟩ := hst p a h
    have hb : b = (p, z) := hb
    subst hb
    unfold alone
    rw [List.take_length]
    exact (fold_stores (fun a ha => (hst p a ha).imp fun _ h => h.1) h).symm
  · intro b hD hno
    exact absurd (rfl : b = (b.1, b.2)) (hno b.1 hD.1 _ (hall b.1 b.2 hD.2))
  · intro p hp a h b hb
    obtain ⟨z, rfl, hz⟩ := hst p a h
    rcases hb with hb | hb
    · have hb : b = (p, z) := hb
      subst hb
      exact ⟨hp, hz⟩
    · exact absurd hb id
  · intro p _ i _ a h
    exact absurd h (hl _ _ _ _)
  · intro p _ q _ hpq a h b hb
    obtain ⟨z, rfl, _⟩ := hst p a h
    have hb : b = (p, z) := hb
    subst hb
    refine ⟨fun c hc => ?_, fun _ _ _ => hl _ _ _ _⟩
    obtain ⟨z', rfl, _⟩ := hst q c hc
    exact ⟨fun h => hpq (congrArg Prod.fst (show (p, z) = (q, z') from h)), fun h => h⟩
  · intro p _ i j _ _ _ a h
    obtain ⟨z, rfl, _⟩ := hst p a (List.mem_of_getElem? h)
    exact ⟨fun b h => absurd h id, fun b h => absurd h id⟩
  · intro p _ a h
    obtain ⟨z, rfl, _⟩ := hst p a h
    exact ⟨fun b _ h => h, trivial⟩

/-- the phase of the puts -/
theorem t_phase1 {np : Nat} {P : Prog} {acts : Nat → List Act} (hn : 0 < n) (hnp : 1 < np)
    (ha : ∀ p, acts p = if p = 0 then tSent B x y n K else [])
    (hf : ∀ p i y, P.next p 1 i y = (acts p)[i]?) (hl : ∀ p k i a, ¬ P.looks p k i a) :
    Phase np (tD np B x y (n * K)) P 1 m acts (tM2 B x y (n * K) m) := by
  have hmem : ∀ p a, a ∈ acts p → p = 0 ∧ (a = .quiet ∨ ∃ w < K, a = .put 1 false (tXs B x y n w)) := by
    intro p a h
    rw [ha p] at h
    split at h
    · exact ⟨by assumption, tSent_mem h⟩
    · cases h
  have hwr : ∀ p a, a ∈ acts p → ∀ b, a.writes p b → p = 0 ∧ b.1 = 1 ∧ InArr B x (n * K) 1 b.2 ∧ ∃ w < K, a = .put 1 false (tXs B x y n w) := by
    intro p a h b hb
    obtain ⟨rfl, rfl | ⟨w, hw, rfl⟩⟩ := hmem p a h
    · exact absurd hb id
    · obtain ⟨h1, z, hz, h2⟩ := hb
      have := (tSent_in hw hz).1
      rw [h2] at this
      exact ⟨rfl, h1, this, w, hw, rfl⟩
  refine Phase.plain ?_ ?_ ?_ ?_ ?_ ?_ ?_ ?_ ?_
  · intro p _ a h
    obtain ⟨_, rfl | ⟨w, _, rfl⟩⟩ := hmem p a h <;> rfl
  · intro p _ i _
    rw [hf]
  · rintro p _ b ⟨a, h, hb⟩
    obtain ⟨rfl, h1, h2, w, hw, rfl⟩ := hwr p a h b hb
    obtain ⟨_, z, hz, h3⟩ := hb
    unfold alone
    rw [List.take_length, h1]
    refine Eq.trans ?_ ((fold_puts (g := fun a => a - (adr B 1 x 0 : Nat) + (adr B 0 y 0 : Nat)) ?_).2 b.2 ⟨_, h, z, hz, h3⟩).symm
    · exact if_pos ⟨rfl, h2⟩
    · intro a ha
      obtain ⟨_, rfl | ⟨w, _, rfl⟩⟩ := hmem 0 a ha
      · exact Or.inl rfl
      · exact Or.inr ⟨_, rfl, fun z hz => (mem_tXs.1 hz).2.2⟩
  · intro b hD hno
    unfold tM2
    rw [if_neg]
    rintro ⟨h1, h2⟩
    obtain ⟨w, hw, hz⟩ := tSent_all (y := y) hn h2
    exact hno 0 (by omega) (.put 1 false (tXs B x y n w)) (by rw [ha 0, if_pos rfl]; exact tSent_has hw) ⟨h1, _, hz, rfl⟩
  · intro p hp a h b hb
    rcases hb with hb | hb
    · obtain ⟨_, h1, h2, _⟩ := hwr p a h b hb
      exact ⟨by omega, Or.inl (by rw [h1]; exact h2)⟩
    · obtain ⟨rfl, rfl | ⟨w, hw, rfl⟩⟩ := hmem p a h
      · exact absurd hb id
      · obtain ⟨h1, z, hz, h2⟩ := hb
        have := (tSent_in hw hz).2
        rw [h2] at this
        exact ⟨by omega, Or.inr (by rw [h1]; exact this)⟩
  · intro p _ i _ a h
    exact absurd h (hl _ _ _ _)
  · intro p _ q _ hpq a h b hb
    obtain ⟨rfl, _⟩ := hmem p a h
    refine ⟨fun c hc => ?_, fun _ _ _ => hl _ _ _ _⟩
    exact absurd (hmem q c hc).1 (fun e => hpq e.symm)
  · intro p _ i j hij hj hq a h
    obtain ⟨rfl, _⟩ := hmem p a (List.mem_of_getElem? h)
    have hget : ∀ i : Nat, (acts 0)[i]? = if i < 2 * K then some (if i % 2 = 0 then .put 1 false (tXs B x y n (i / 2)) else .quiet) else none := by
      intro i
      rw [ha 0, if_pos rfl]
      unfold tSent
      rw [List.getElem?_map]
      split
      · rename_i h; rw [List.getElem?_range h]; rfl
      · rename_i h; rw [List.getElem?_eq_none (by rw [List.length_range]; omega)]; rfl
    rw [hget i] at h
    split at h
    swap
    · cases h
    rename_i hi
    cases h
    split
    · rename_i he
      have hq1 : (acts 0)[i + 1]? = some .quiet := by
        rw [hget, if_pos (by omega), if_neg (by omega)]
      refine ⟨fun b _ hb => ⟨fun c hc => ?_, fun _ => hl _ _ _ _⟩, fun b h => by cases h⟩
      by_cases hji : j = i + 1
      · subst hji
        rw [hq1] at hc
        cases hc
        exact ⟨fun h => h, fun h => h⟩
      · exact absurd ⟨i + 1, by omega, by omega, hq1⟩ hq
    · exact ⟨fun b h => absurd h id, fun b h => absurd h id⟩
  · intro p _ a h
    obtain ⟨rfl, rfl | ⟨w, hw, rfl⟩⟩ := hmem p a h
    · exact ⟨fun b _ h => h, trivial⟩
    · refine ⟨fun b h1 h2 => ?_, fun z hz u hu e => ?_⟩
      · have h1 := h1.1
        have h2 := h2.1
        omega
      · exact Prod.ext e (by rw [(mem_tXs.1 hz).2.2, (mem_tXs.1 hu).2.2, e])

theorem t_apart (J : Job S k Z B) {q : Nat} (hq : q < S.npes) {cs : List (Call × Bool)} {os : List (Option Nat)} (h : Made k Z B q cs s os)
    (hx : x ∈ s.live) (hy : y ∈ s.live) (hne : x ≠ y) {T : Nat} (hxT : 4 * T ≤ x.2) (hyT : 4 * T ≤ y.2) : Apart B x y T := by
  rintro p a ⟨h1, h2⟩ ⟨h3, h4⟩
  refine apart J hq h hx hy hne p (i := (a - (adr B p x 0 : Nat)).toNat) (j := (a - (adr B p y 0 : Nat)).toNat) ?_ ?_ ?_
  all_goals
    unfold adr at *
    omega

/-- what the program needs: two different blocks of the heap (two calls of `shmem_malloc` that succeeded on all PEs) with room for SIZE * ITER ints; two
PEs or more; SIZE positive and not beyond the limits of a put -/
structure TOk (S : Sys) (k Z : Nat) (B : Nat → Nat) (s : Dl.St) (x y : Nat × Nat) (n K : Nat) : Prop where
  job : Job S k Z B
  made : ∃ q cs os, q < S.npes ∧ Made k Z B q cs s os
  liveX : x ∈ s.live
  liveY : y ∈ s.live
  ne : x ≠ y
  inX : 960 + x.1 + x.2 ≤ heapSize k Z
  inY : 960 + y.1 + y.2 ≤ heapSize k Z
  roomX : 4 * (n * K) ≤ x.2
  roomY : 4 * (n * K) ≤ y.2
  pes : 2 ≤ S.npes
  pos : 0 < n
  limit : 4 * n < 2 ^ 31

theorem TOk.means (h : TOk S k Z B s x y n K) (m : Mems) :
    NMeans S k Z B s (tD S.npes B x y (n * K)) (tProg B x y n K) (tM B x y (n * K) m) (tActs B x y n K) := by
  have hfol : ∀ j p i u, ((tProg B x y n K).prog B).next p j i u = ((tActs B x y n K j p).map (NAct.act B p))[i]? := by
    intro j p i u
    show Option.map _ (tActs B x y n K j p)[i]? = _
    rw [List.getElem?_map]
  have hl : ∀ p k i a, ¬ ((tProg B x y n K).prog B).looks p k i a := fun p k i a h => h
  have hpes := h.pes
  refine ⟨fun j => ?_, fun j p _ i _ => rfl, ?_⟩
  · match j with
    | 0 =>
      obtain ⟨q, cs, os, hq, hm⟩ := h.made
      exact t_phase0 (t_apart h.job hq hm h.liveX h.liveY h.ne h.roomX h.roomY) (fun p => rfl) (hfol 0) hl
    | 1 =>
      refine t_phase1 h.pos (by omega) (fun p => ?_) (hfol 1) hl
      show (if p = 0 then _ else _ : List NAct).map _ = _
      split
      · rename_i hp
        subst hp
        exact tSend_act h.job (by omega) h.inX h.inY h.roomX h.roomY h.pos
      · rfl
    | j + 2 => exact idle_phase (fun p => rfl) (hfol (j + 2)) hl
  · intro j p hp a ha
    match j with
    | 0 =>
      obtain ⟨i, _, hi⟩ := List.mem_flatMap.1 ha
      rcases List.mem_cons.1 hi with rfl | hi
      · trivial
      · cases List.mem_singleton.1 hi
        trivial
    | 1 =>
      have ha : a ∈ (if p = 0 then tSend B x y n K else []) := ha
      split at ha
      swap
      · cases ha
      rename_i hp0
      subst hp0
      obtain ⟨i, hi, rfl⟩ := List.mem_map.1 ha
      have hi := List.mem_range.1 hi
      split
      swap
      · trivial
      have hlt : i / 2 * n + n ≤ n * K := by
        have := Nat.mul_le_mul_right n (Nat.succ_le_of_lt (show i / 2 < K by omega))
        rw [Nat.succ_mul, Nat.mul_comm K n] at this
        exact this
      have h1 := h.roomX
      have h2 := h.pos
      have h3 := h.limit
      refine ⟨rfl, x, 4 * (i / 2 * n), fun gpu mode hmode => ⟨(by show _ ∈ rmaRows; decide), hp, by omega, h.liveX, h.inX, by omega, ?_, rfl, fun _ => rfl,
        ⟨(by show n < 2 ^ 31; omega), fun _ => h3⟩⟩⟩
      intro e he b hb
      have he : e < n := he
      have hb : b < 4 := hb
      show 0 ≤ byteOf (4 * (i / 2 * n) : Nat) 4 1 e b ∧ byteOf (4 * (i / 2 * n) : Nat) 4 1 e b < x.2
      unfold byteOf
      generalize i / 2 * n = c at *
      omega

/-- the array in the memory after the second barrier -/
theorem t_word (h : Apart B x y (n * K)) {m mem : Mems} (hm : ∀ a, InArr B x (n * K) 1 a → mem 1 a = tM B x y (n * K) m 2 1 a) {i : Nat} (hi : i < n * K) :
    wordAt (mem 1) (adr B 1 x (4 * i) : Nat) .int = BitVec.ofNat 32 i := by
  refine word_cell fun b hb => ?_
  have h1 : InArr B x (n * K) 1 ((adr B 1 x (4 * i) : Nat) + (b : Int)) := by unfold InArr adr; omega
  have e : ((adr B 1 x (4 * i) : Nat) + (b : Int)) - (adr B 1 x 0 : Nat) + (adr B 0 y 0 : Nat) = (adr B 0 y (4 * i + b) : Nat) := by unfold adr; omega
  have h2 : InArr B y (n * K) 0 (adr B 0 y (4 * i + b) : Nat) := by unfold InArr adr; omega
  rw [hm _ h1]
  show tM2 B x y (n * K) (tM1 (fun p => p) B x y (n * K) m) 1 _ = _
  unfold tM2
  rw [if_pos ⟨rfl, h1⟩, e]
  unfold tM1
  rw [if_neg (fun h' => h _ _ h' h2), if_pos h2]
  have e2 : ((adr B 0 y (4 * i + b) : Nat) - (adr B 0 y 0 : Nat) : Int).toNat = 4 * i + b := by unfold adr; omega
  rw [e2]
  have e3 : (4 * i + b) / 4 = i := by omega
  have e4 : (4 * i + b) % 4 = b % 4 := by omega
  unfold cell
  rw [e3, e4, Nat.zero_add]

/-- **C115 (partial)** The check of the test: in every execution, when PE 1 has come out of the second barrier, whatever the other PEs do and whatever the
memory was before, it finds `dst[i] == i` for all `i` below SIZE * ITER. -/
theorem C115_check_partial (h : TOk S k Z B s x y n K) {m : Mems} {l : List Ev} {X : X}
    (r : NRun S (tD S.npes B x y (n * K)) (tProg B x y n K) (start m) l X) (hf : Free S X.g 1) (h2 : X.g.arr 1 = 2) (h0 : X.pos 1 = 0) {i : Nat} (hi : i < n * K) :
    wordAt (X.g.mem 1) (adr B 1 x (4 * i) : Nat) .int = BitVec.ofNat 32 i := by
  obtain ⟨q, cs, os, hq, hm⟩ := h.made
  have hpes := h.pes
  refine t_word (m := m) (t_apart h.job hq hm h.liveX h.liveY h.ne h.roomX h.roomY) (fun a ha => ?_) hi
  have := C106_barrier_partial h.job (h.means m) r hf h0 (b := (1, a)) ⟨by show 1 < S.npes; omega, Or.inl ha⟩ (by
    rw [h2]
    intro q _ _ a ha
    cases ha)
  rw [h2] at this
  exact this

/-- **C115 (partial)** In every fair execution all PEs get through both barriers, and from some time on for good PE 1 has the values. -/
theorem C115_passes_partial (h : TOk S k Z B s x y n K) {R : Inf S} {pos : Nat → Nat → Nat} (F : R.Fair)
    (E : NExec (tD S.npes B x y (n * K)) (tProg B x y n K) 2 R pos) :
    (∃ i, ∀ p < S.npes, 2 ≤ (R.st i).lv p) ∧
    ∃ i, ∀ j, i ≤ j → ∀ e < n * K, wordAt ((R.st j).mem 1) (adr B 1 x (4 * e) : Nat) .int = BitVec.ofNat 32 e := by
  obtain ⟨q, cs, os, hq, hm⟩ := h.made
  have hpes := h.pes
  refine ⟨C106_completes_partial h.job (h.means R.mem) rfl F E, ?_⟩
  obtain ⟨i, hi⟩ := C106_result_partial h.job (h.means R.mem) (by omega) rfl F E (by
    intro j hj p _ a ha
    obtain ⟨j, rfl⟩ := Nat.exists_eq_add_of_le' hj
    cases ha)
  refine ⟨i, fun j hj e he => ?_⟩
  exact t_word (m := R.mem) (t_apart h.job hq hm h.liveX h.liveY h.ne h.roomX h.roomY)
    (fun a ha => (hi j hj (1, a) ⟨by show 1 < S.npes; omega, Or.inl ha⟩).2) he

/-- **C115** Such executions exist, from every memory. -/
theorem C115_exists (h : TOk S k Z B s x y n K) (m : Mems) :
    ∃ (R : Inf S) (pos : Nat → Nat → Nat), R.Fair ∧ R.mem = m ∧ NExec (tD S.npes B x y (n * K)) (tProg B x y n K) 2 R pos := by
  refine C107_exists_partial h.job (h.means m) ?_ 2
  intro j p _ c hc
  match j with
  | 0 =>
    obtain ⟨i, _, hi⟩ := List.mem_flatMap.1 hc
    rcases List.mem_cons.1 hi with hi | hi
    · cases hi
    · cases List.mem_singleton.1 hi
  | 1 =>
    have hc : NAct.add c ∈ (if p = 0 then tSend B x y n K else []) := hc
    split at hc
    swap
    · cases hc
    obtain ⟨i, _, hi⟩ := List.mem_map.1 hc
    split at hi <;> cases hi
  | j + 2 => cases hc

end

/-! ## Non-vacuity -/

/-- both PEs call `shmem_malloc(24)` twice -/
def tCalls : List (Call × Bool) := [(.malloc 24, false), (.malloc 24, false)]

theorem t_made : ∃ s, Made 12 4096 exB 0 tCalls s [some 0, some 32] ∧ s.live = [(32, 24), (0, 24)] := by
  have h : Dl.seen (Dl.run (exB 0 + 960) (Dl.new (trueSize 12 4096)) tCalls) =
      some (⟨[⟨32, .user 24⟩, ⟨32, .user 24⟩], some 7104⟩, [(32, 24), (0, 24)], [some 0, some 32]) := by decide +kernel
  obtain ⟨b, e, _⟩ := Dl.reach_seen (by decide) h
  exact ⟨_, e, rfl⟩

/-- two PEs, SIZE 2, ITER 3: the test's conditions hold, it has a fair execution, and in the end `dst[5]` of PE 1 is 5 -/
example : ∃ s, TOk (exS true) 12 4096 exB s (0, 24) (32, 24) 2 3 ∧ ∃ (R : Inf (exS true)) (pos : Nat → Nat → Nat), R.Fair ∧
    NExec (tD 2 exB (0, 24) (32, 24) 6) (tProg exB (0, 24) (32, 24) 2 3) 2 R pos ∧
    ∃ i, ∀ j, i ≤ j → wordAt ((R.st j).mem 1) (adr exB 1 (0, 24) 20 : Nat) .int = 5 := by
  obtain ⟨s, hm, hl⟩ := t_made
  have h : TOk (exS true) 12 4096 exB s (0, 24) (32, 24) 2 3 := ⟨ex_job, ⟨0, _, _, by decide, hm⟩, by rw [hl]; decide, by rw [hl]; decide, by decide, by decide,
    by decide, by decide, by decide, by decide, by decide, by decide⟩
  obtain ⟨R, pos, F, _, E⟩ := C115_exists h fun _ _ => 0
  obtain ⟨_, i, hi⟩ := C115_passes_partial h F E
  exact ⟨s, h, R, pos, F, E, i, fun j hj => hi j hj 5 (by decide)⟩

end Verif.Bsp
