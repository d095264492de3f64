import Verif.Bsp.Exists
/-!
# C107: counters in programs that work in phases; adding up a number of every PE
-/
namespace Verif.Bsp
open Verif.Sobj Verif.Rma Verif.Vis Verif.Api Verif.Flow
open Verif.Amo (TyIdx)
open Verif.Heap (heapSize trueSize Call)

/-! ## Specification -/

/-- the calls with which PE `p` adds its number to the counter of PE 0, `shmem_ulong_atomic_add(x, v, 0)`; the counter is the first `unsigned long` of
the block `x` (amo_std_typed.c.tpl L76-80) -/
def sumAdd (B : Nat → Nat) (x : Nat × Nat) (v : Nat → Nat) (p : Nat) : AName :=
  ⟨.add, ⟨.ulong, .ulong⟩, false, none, BitVec.ofNat 64 (adr B p x 0), 0, 0, v p, 0⟩

/-- and gets it back, `shmem_ulong_get(x + 1, x, 1, 0)` (rma_typed.c.tpl L29-33) -/
def sumGet (B : Nat → Nat) (x : Nat × Nat) (p : Nat) : RArgs :=
  ⟨BitVec.ofNat 64 (adr B p x 8), BitVec.ofNat 64 (adr B p x 0), 0, fun _ => 0, 1, 1, 1⟩

/-- what PE `p` calls before the first barrier, between the first and the second, and afterwards -/
def sumActs (B : Nat → Nat) (x : Nat × Nat) (v : Nat → Nat) : Nat → Nat → List NAct
  | 0, p => [.add (sumAdd B x v p)]
  | 1, p => [.rma .get (.typed ⟨.ulong, .ulong⟩) false (sumGet B x p) 0]
  | _ + 2, _ => []

/-- The program: every PE adds its number `v p` to the counter of PE 0, calls `shmem_barrier_all`, gets the counter, calls `shmem_barrier_all`. -/
def sumN (B : Nat → Nat) (x : Nat × Nat) (v : Nat → Nat) : NProg where
  next p k i _ := (sumActs B x v k p)[i]?
  looks _ _ _ _ := False
  dep _ _ _ _ _ _ := rfl

/-- the bytes it works on: the first two words of the block of every PE -/
def sumD (n : Nat) (B : Nat → Nat) (x : Nat × Nat) (b : Nat × Int) : Prop :=
  b.1 < n ∧ (adr B b.1 x 0 : Int) ≤ b.2 ∧ b.2 < (adr B b.1 x 16 : Nat)

/-! ## Proof -/

/-- the memory after the first barrier -/
def sumM1 (n : Nat) (B : Nat → Nat) (x : Nat × Nat) (v : Nat → Nat) (m : Mems) : Mems :=
  fun q y => if q = 0 then addTo (m 0) (adr B 0 x 0 : Nat) .ulong (∑ p ∈ Finset.range n, v p) y else m q y

/-- the memory after the second barrier, from that after the first -/
def sumM2 (B : Nat → Nat) (x : Nat × Nat) (m : Mems) : Mems :=
  fun q y => if (adr B q x 8 : Int) ≤ y ∧ y < (adr B q x 16 : Nat) then m 0 (y - (adr B q x 8 : Nat) + (adr B 0 x 0 : Nat)) else m q y

/-- the memory at the barriers -/
def sumM (n : Nat) (B : Nat → Nat) (x : Nat × Nat) (v : Nat → Nat) (m : Mems) : Nat → Mems
  | 0 => m
  | 1 => sumM1 n B x v m
  | _ + 2 => sumM2 B x (sumM1 n B x v m)

theorem sum_ofNat (w n : Nat) (v : Nat → Nat) : BitVec.ofNat w (∑ p ∈ Finset.range n, v p) = ∑ p ∈ Finset.range n, BitVec.ofNat w (v p) := by
  induction n with
  | zero => rfl
  | succ n ih => rw [Finset.sum_range_succ, Finset.sum_range_succ, ← ih, BitVec.ofNat_add]

theorem sumM1_zero (n : Nat) (B : Nat → Nat) (x : Nat × Nat) (v : Nat → Nat) (m : Mems) :
    sumM1 n B x v m 0 = addTo (m 0) (adr B 0 x 0 : Nat) .ulong (∑ p ∈ Finset.range n, v p) := by
  funext y
  exact if_pos rfl

section
variable {S : Sys} {k Z : Nat} {B : Nat → Nat} {s : Dl.St} {x : Nat × Nat} {v : Nat → Nat} {m : Mems}

theorem adr_int (J : Job S k Z B) (hin : 960 + x.1 + x.2 ≤ heapSize k Z) {d : Nat} (hd : d < x.2) {p : Nat} (hp : p < S.npes) :
    (BitVec.ofNat 64 (adr B p x d)).toInt = (adr B p x d : Nat) := by
  have := job_space J hp
  exact ofNat_int (by unfold adr; omega)

theorem sum_add_act (J : Job S k Z B) (hin : 960 + x.1 + x.2 ≤ heapSize k Z) (hx : 16 ≤ x.2) {p : Nat} (hp : p < S.npes) :
    (NAct.add (sumAdd B x v p)).act B p = .add 0 (adr B 0 x 0 : Nat) .ulong (v p) := by
  have e : (BitVec.ofNat 64 (adr B p x 0)).toInt - B p + B 0 = (adr B 0 x 0 : Nat) := by
    rw [adr_int J hin (by omega) hp]
    unfold adr
    omega
  show Act.add 0 ((BitVec.ofNat 64 (adr B p x 0)).toInt - B p + B 0) .ulong (v p) = _
  rw [e]

/-- the bytes that are got -/
def sumXs (B : Nat → Nat) (x : Nat × Nat) (p : Nat) : List (Int × Int) := pairs (adr B p x 8 : Nat) (adr B 0 x 0 : Nat) 1 8 1 1

theorem mem_sumXs {p : Nat} {y : Int × Int} :
    y ∈ sumXs B x p ↔ (adr B p x 8 : Int) ≤ y.1 ∧ y.1 < (adr B p x 16 : Nat) ∧ y.2 = y.1 - (adr B p x 8 : Nat) + (adr B 0 x 0 : Nat) := by
  unfold sumXs pairs byteOf
  constructor
  · intro h
    obtain ⟨z, hz, rfl⟩ := List.mem_map.1 h
    obtain ⟨h1, h2⟩ := mem_idx.1 hz
    have : z.1 = 0 := by omega
    rw [this]
    unfold adr
    dsimp only
    omega
  · rintro ⟨h1, h2, h3⟩
    unfold adr at *
    refine List.mem_map.2 ⟨(0, (y.1 - (B p + 960 + x.1 + 8 : Nat)).toNat), mem_idx.2 ⟨Nat.zero_lt_one, by dsimp only; omega⟩, Prod.ext ?_ ?_⟩
    all_goals
      dsimp only
      omega

theorem sum_get_act (J : Job S k Z B) (hin : 960 + x.1 + x.2 ≤ heapSize k Z) (hx : 16 ≤ x.2) {p : Nat} (hp : p < S.npes) :
    (NAct.rma .get (.typed ⟨.ulong, .ulong⟩) false (sumGet B x p) 0).act B p = .get 0 false (sumXs B x p) := by
  have e : (BitVec.ofNat 64 (adr B p x 0)).toInt - B p + B 0 = (adr B 0 x 0 : Nat) := by
    rw [adr_int J hin (by omega) hp]
    unfold adr
    omega
  show Act.get 0 false (pairs (BitVec.ofNat 64 (adr B p x 8)).toInt ((BitVec.ofNat 64 (adr B p x 0)).toInt - B p + B 0) 1 8 1 1) = _
  rw [e, adr_int J hin (by omega) hp]
  rfl

/-- the phase of the additions -/
theorem sum_phase0 {n : Nat} {P : Prog} {acts : Nat → List Act} (hn : 0 < n) (hx2 : 16 ≤ x.2)
    (ha : ∀ p < n, acts p = [.add 0 (adr B 0 x 0 : Nat) .ulong (v p)]) (hf : ∀ p i y, P.next p 0 i y = (acts p)[i]?)
    (hl : ∀ p k i a, ¬ P.looks p k i a) : Phase n (sumD n B x) P 0 m acts (sumM1 n B x v m) := by
  have hmem : ∀ p < n, ∀ a, a ∈ acts p → a = .add 0 (adr B 0 x 0 : Nat) .ulong (v p) := by
    intro p hp a h
    rw [ha p hp] at h
    exact List.mem_singleton.1 h
  refine ⟨?_, ?_, ?_, ?_, ?_, ?_, ?_, ?_, ?_, ?_⟩
  · intro p _ i _
    rw [hf]
  · rintro p hp b ⟨a, ha, h1, _⟩
    rw [hmem p hp a ha] at h1
    cases h1
  · intro p hp t a ty u h
    obtain ⟨rfl, rfl, rfl, rfl⟩ := Act.add.inj (hmem p hp _ h)
    have e2 : ∀ q ∈ Finset.range n, addends 0 (adr B 0 x 0 : Nat) .ulong (acts q) = BitVec.ofNat (8 * TyIdx.bytes .ulong) (v q) := by
      intro q hq
      rw [ha q (Finset.mem_range.1 hq)]
      unfold addends
      rw [List.map_singleton, List.sum_singleton]
      exact if_pos ⟨rfl, rfl, rfl⟩
    rw [sumM1_zero, wordAt_addTo, Finset.sum_congr rfl e2, sum_ofNat]
  · intro b hD hno
    unfold sumM1
    split
    · rename_i h0
      unfold addTo
      rw [if_neg, h0]
      intro h
      exact hno 0 hn (.add 0 (adr B 0 x 0 : Nat) .ulong (v 0)) (by rw [ha 0 hn]; exact List.mem_singleton.2 rfl) ⟨h0, h⟩
    · rfl
  · intro p hp a ha b hb
    rw [hmem p hp a ha] at hb
    rcases hb with ⟨h0, h1, h2⟩ | h
    · have h2 : b.2 < (adr B 0 x 0 : Nat) + (8 : Nat) := h2
      refine ⟨by rw [h0]; exact hn, ?_, ?_⟩
      · rw [h0]; exact h1
      · rw [h0]
        unfold adr at *
        omega
    · exact absurd h id
  · intro p _ i _ a h
    exact absurd h (hl _ _ _ _)
  · intro p hp q _ _ a ha h
    rw [hmem p hp a ha] at h
    cases h
  · intro p hp i j _ _ _ a ha h
    rw [hmem p hp a (List.mem_of_getElem? ha)] at h
    cases h
  · intro p hp t a ty u h
    obtain ⟨rfl, rfl, rfl, rfl⟩ := Act.add.inj (hmem p hp _ h)
    exact ⟨by decide, fun b h0 h1 h2 => ⟨fun q hq c hc _ => ⟨v q, hmem q hq c hc⟩, fun _ i _ => hl _ _ _ _⟩⟩
  · intro p hp a ha
    rw [hmem p hp a ha]
    exact ⟨fun b _ h => h, trivial⟩

theorem sum_writes {p : Nat} {b : Nat × Int} :
    Act.writes p b (.get 0 false (sumXs B x p)) ↔ b.1 = p ∧ (adr B p x 8 : Int) ≤ b.2 ∧ b.2 < (adr B p x 16 : Nat) := by
  constructor
  · rintro ⟨h1, y, hy, h2⟩
    have := mem_sumXs.1 hy
    rw [h2] at this
    exact ⟨h1, this.1, this.2.1⟩
  · rintro ⟨h1, h2, h3⟩
    exact ⟨h1, (b.2, b.2 - (adr B p x 8 : Nat) + (adr B 0 x 0 : Nat)), mem_sumXs.2 ⟨h2, h3, rfl⟩, rfl⟩

theorem sum_reads {p : Nat} {b : Nat × Int} (h : Act.reads p b (.get 0 false (sumXs B x p))) :
    b.1 = 0 ∧ (adr B 0 x 0 : Int) ≤ b.2 ∧ b.2 < (adr B 0 x 8 : Nat) := by
  obtain ⟨h1, y, hy, h2⟩ := h
  have := mem_sumXs.1 hy
  rw [h2] at this
  refine ⟨h1, ?_⟩
  unfold adr at *
  omega

theorem sumXs_inj {p : Nat} : ∀ y ∈ sumXs B x p, ∀ z ∈ sumXs B x p, y.1 = z.1 → y = z := by
  intro y hy z hz e
  have h1 := mem_sumXs.1 hy
  have h2 := mem_sumXs.1 hz
  exact Prod.ext e (by rw [h1.2.2, h2.2.2, e])

/-- the phase of the gets -/
theorem sum_phase1 {n : Nat} {P : Prog} {acts : Nat → List Act} (hn : 0 < n) (ha : ∀ p < n, acts p = [.get 0 false (sumXs B x p)])
    (hf : ∀ p i y, P.next p 1 i y = (acts p)[i]?) (hl : ∀ p k i a, ¬ P.looks p k i a) :
    Phase n (sumD n B x) P 1 m acts (sumM2 B x m) := by
  have hmem : ∀ p < n, ∀ a, a ∈ acts p → a = .get 0 false (sumXs B x p) := by
    intro p hp a h
    rw [ha p hp] at h
    exact List.mem_singleton.1 h
  refine Phase.plain ?_ ?_ ?_ ?_ ?_ ?_ ?_ ?_ ?_
  · intro p hp a ha
    rw [hmem p hp a ha]
    rfl
  · intro p _ i _
    rw [hf]
  · rintro p hp b ⟨a, h, hb⟩
    obtain rfl := hmem p hp a h
    obtain ⟨h1, h2, h3⟩ := sum_writes.1 hb
    rw [ha p hp]
    show (if _ then _ else _) = if b.1 = p then _ else _
    rw [h1, if_pos ⟨h2, h3⟩, if_pos rfl, pick_some sumXs_inj (mem_sumXs.2 ⟨h2, h3, rfl⟩ : (b.2, b.2 - (adr B p x 8 : Nat) + (adr B 0 x 0 : Nat)) ∈ _)]
    rfl
  · intro b hD hno
    unfold sumM2
    rw [if_neg]
    intro h
    exact hno b.1 hD.1 _ (by rw [ha _ hD.1]; exact List.mem_singleton.2 rfl) (sum_writes.2 ⟨rfl, h⟩)
  · intro p hp a ha b hb
    rw [hmem p hp a ha] at hb
    rcases hb with hb | hb
    · obtain ⟨rfl, h2, h3⟩ := sum_writes.1 hb
      refine ⟨hp, ?_, h3⟩
      unfold adr at *
      omega
    · obtain ⟨h1, h2, h3⟩ := sum_reads hb
      refine ⟨by rw [h1]; exact hn, by rw [h1]; exact h2, ?_⟩
      rw [h1]
      unfold adr at *
      omega
  · intro p _ i _ a h
    exact absurd h (hl _ _ _ _)
  · intro p hp q hq hpq a ha b hb
    rw [hmem p hp a ha] at hb
    obtain ⟨rfl, h2, h3⟩ := sum_writes.1 hb
    refine ⟨fun c hc => ?_, fun _ _ _ => hl _ _ _ _⟩
    rw [hmem q hq c hc]
    refine ⟨fun h => hpq (sum_writes.1 h).1, fun h => ?_⟩
    obtain ⟨h4, h5, h6⟩ := sum_reads h
    rw [h4] at h2
    unfold adr at *
    omega
  · intro p hp i j hij hj _ a h
    rw [hmem p hp a (List.mem_of_getElem? h)]
    exact ⟨fun b h => (by cases h), fun b h => (by cases h)⟩
  · intro p hp a ha
    rw [hmem p hp a ha]
    refine ⟨fun b h1 h2 => ?_, sumXs_inj⟩
    obtain ⟨rfl, h3, _⟩ := sum_writes.1 h1
    obtain ⟨h4, _, h5⟩ := sum_reads h2
    rw [h4] at h3
    unfold adr at *
    omega

/-- a phase without calls -/
theorem idle_phase {n : Nat} {D : Nat × Int → Prop} {P : Prog} {k : Nat} {acts : Nat → List Act} (ha : ∀ p, acts p = [])
    (hf : ∀ p i y, P.next p k i y = (acts p)[i]?) (hl : ∀ p k i a, ¬ P.looks p k i a) : Phase n D P k m acts m := by
  have hno : ∀ p a, a ∉ acts p := by
    intro p a h
    rw [ha p] at h
    cases h
  refine Phase.plain ?_ ?_ ?_ ?_ ?_ ?_ ?_ ?_ ?_
  · intro p _ a ha; exact absurd ha (hno p a)
  · intro p _ i _; rw [hf]
  · rintro p _ b ⟨a, ha, _⟩; exact absurd ha (hno p a)
  · intro b _ _; rfl
  · intro p _ a ha; exact absurd ha (hno p a)
  · intro p _ i _ a h; exact absurd h (hl _ _ _ _)
  · intro p _ q _ _ a ha; exact absurd ha (hno p a)
  · intro p _ i j' _ hj' _ a ha; exact absurd (List.mem_of_getElem? ha) (hno p a)
  · intro p _ a ha; exact absurd ha (hno p a)

theorem sumMeans (J : Job S k Z B) (hx : x ∈ s.live) (hin : 960 + x.1 + x.2 ≤ heapSize k Z) (hx2 : 16 ≤ x.2) (hn : 0 < S.npes) :
    NMeans S k Z B s (sumD S.npes B x) (sumN B x v) (sumM S.npes B x v m) (sumActs B x v) := by
  have hfol : ∀ j p i y, ((sumN B x v).prog B).next p j i y = ((sumActs B x v j p).map (NAct.act B p))[i]? := by
    intro j p i y
    show Option.map _ (sumActs B x v j p)[i]? = _
    rw [List.getElem?_map]
  have hl : ∀ p k i a, ¬ ((sumN B x v).prog B).looks p k i a := fun p k i a h => h
  refine ⟨fun j => ?_, fun j p _ i _ => rfl, ?_⟩
  · match j with
    | 0 => exact sum_phase0 hn hx2 (fun p hp => congrArg (fun y => [y]) (sum_add_act J hin hx2 hp)) (hfol 0) hl
    | 1 => exact sum_phase1 hn (fun p hp => congrArg (fun y => [y]) (sum_get_act J hin hx2 hp)) (hfol 1) hl
    | j + 2 => exact idle_phase (fun p => rfl) (hfol (j + 2)) hl
  · intro j p hp a ha
    match j with
    | 0 =>
      rw [List.mem_singleton.1 ha]
      exact ⟨x, 0, ⟨by simp [sumAdd, ARt.operand], rfl, (fun h => by cases h), (by show (⟨.ulong, .ulong⟩ : Row) ∈ ARt.rows .add; decide), hp, hn, hx, hin, (by show 0 + 8 ≤ x.2; omega), rfl, fun _ => rfl⟩⟩
    | 1 =>
      rw [List.mem_singleton.1 ha]
      refine ⟨rfl, x, 0, fun gpu mode hmode => ⟨(by show _ ∈ rmaRows; decide), hp, hn, hx, hin, by omega, ?_, rfl, fun _ => rfl, ⟨(by show 1 < 2 ^ 31; decide), fun _ => ⟨(fun _ h => by cases h), (by show 8 * 1 < 2 ^ 31; decide)⟩⟩⟩⟩
      intro i hi b hb
      have hi : i < 1 := hi
      have hb : b < 8 := hb
      have : i = 0 := by omega
      subst this
      show 0 ≤ byteOf (0 : Nat) 8 1 0 b ∧ byteOf (0 : Nat) 8 1 0 b < x.2
      unfold byteOf
      omega

/-- **C107** (worked example): every PE adds its number to a counter of PE 0, and after a barrier gets it. Whatever the number of PEs, the numbers
and the first content of the counter; in every fair execution, in the end every PE has the sum, for good. -/
theorem C107_sum_partial (J : Job S k Z B) (hx : x ∈ s.live) (hin : 960 + x.1 + x.2 ≤ heapSize k Z) (hx2 : 16 ≤ x.2) {R : Inf S}
    {pos : Nat → Nat → Nat} (F : R.Fair) (E : NExec (sumD S.npes B x) (sumN B x v) 2 R pos) :
    ∃ i, ∀ j, i ≤ j → ∀ p < S.npes, Vis.wordAt ((R.st j).mem p) (adr B p x 8 : Nat) .ulong =
      Vis.wordAt (R.mem 0) (adr B 0 x 0 : Nat) .ulong + ∑ q ∈ Finset.range S.npes, BitVec.ofNat (8 * TyIdx.bytes .ulong) (v q) := by
  by_cases hn : 0 < S.npes
  swap
  · exact ⟨0, fun j _ p hp => absurd hp (by omega)⟩
  have hm : NMeans S k Z B s (sumD S.npes B x) (sumN B x v) (sumM S.npes B x v R.mem) (sumActs B x v) := sumMeans J hx hin hx2 hn
  obtain ⟨i, hi⟩ := C106_result_partial J hm hn rfl F E (by
    intro j hj p _ a ha
    obtain ⟨j, rfl⟩ := Nat.exists_eq_add_of_le' hj
    cases ha)
  refine ⟨i, fun j hj p hp => ?_⟩
  have e2 : Vis.wordAt ((R.st j).mem p) (adr B p x 8 : Nat) .ulong = Vis.wordAt (sumM1 S.npes B x v R.mem 0) (adr B 0 x 0 : Nat) .ulong := by
    unfold Vis.wordAt
    congr 1
    refine Mem.load_congr fun y _ hy => ?_
    have hy : y < 0 + 8 := hy
    have h1 : (adr B p x 8 : Int) ≤ (adr B p x 8 : Nat) + (y : Int) ∧ (adr B p x 8 : Nat) + (y : Int) < (adr B p x 16 : Nat) := by
      unfold adr
      omega
    have h2 := (hi j hj (p, (adr B p x 8 : Nat) + (y : Int)) ⟨hp, by unfold adr; dsimp only; omega, h1.2⟩).2
    have h3 : sumM S.npes B x v R.mem 2 p ((adr B p x 8 : Nat) + (y : Int)) =
        sumM1 S.npes B x v R.mem 0 ((adr B p x 8 : Nat) + (y : Int) - (adr B p x 8 : Nat) + (adr B 0 x 0 : Nat)) := if_pos h1
    refine (h2.trans h3).trans ?_
    congr 1
    omega
  rw [e2, sumM1_zero, wordAt_addTo, sum_ofNat]

/-- there are such executions, from every memory -/
theorem C107_sum_exists (J : Job S k Z B) (hx : x ∈ s.live) (hin : 960 + x.1 + x.2 ≤ heapSize k Z) (hx2 : 16 ≤ x.2) (hn : 0 < S.npes) (m : Mems) :
    ∃ (R : Inf S) (pos : Nat → Nat → Nat), R.Fair ∧ R.mem = m ∧ NExec (sumD S.npes B x) (sumN B x v) 2 R pos := by
  refine C107_exists_partial J (sumMeans J hx hin hx2 hn) ?_ 2
  intro j p _ c hc
  match j with
  | 0 =>
    cases List.mem_singleton.1 hc
    exact Or.inr (by show TyIdx.kind .ulong ≠ .sint (TyIdx.bytes .ulong); decide)
  | 1 => cases List.mem_singleton.1 hc
  | j + 2 => cases hc

end

/-- **C107** (counters): when all PEs have come to barrier `j + 1` and none has done anything since, a word to which some PE has added in phase `j` is
what it was at the beginning of the phase plus all that all PEs have added to it. -/
theorem C107_counts_partial {S : Sys} {k Z : Nat} {B : Nat → Nat} {s : Dl.St} {D : Nat × Int → Prop} {N : NProg} {M : Nat → Mems}
    {acts : Nat → Nat → List NAct} (J : Job S k Z B) (hm : NMeans S k Z B s D N M acts) {l : List Ev} {x : X} (r : NRun S D N (start (M 0)) l x)
    {j : Nat} (hj : ∀ p < S.npes, x.g.arr p = j + 1 ∧ x.pos p = 0) {p : Nat} (hp : p < S.npes) {c : AName} (hc : NAct.add c ∈ acts j p) {a : Int}
    (ha : a = c.dest.toInt - B p + B c.tgt) :
    Vis.wordAt (x.g.mem c.tgt) a c.row.mpi = Vis.wordAt (M j c.tgt) a c.row.mpi +
      ∑ q ∈ Finset.range S.npes, addends c.tgt a c.row.mpi ((acts j q).map (NAct.act B q)) := by
  subst ha
  have hmem : (NAct.add c).act B p ∈ (acts j p).map (NAct.act B p) := List.mem_map.2 ⟨_, hc, rfl⟩
  rw [← (hm.means j).counts p hp _ _ _ _ hmem]
  refine Vis.wordAt_congr fun y h1 h2 => ?_
  exact (C106_phase_partial J hm r (by omega) hj ((hm.means j).inside p hp _ hmem (c.tgt, y) (Or.inl ⟨rfl, h1, h2⟩))).2

/-! ## Non-vacuity -/

/-- The job of `Flow/BlocksEx.lean`: two PEs, both have allocated 40 and 4 bytes; PE 0 adds 5, PE 1 adds 7 to the first word of the block of PE 0, which
is 0 at the beginning. There is a fair execution, and in it both PEs have got 12 in the end. -/
example : ∃ (R : Inf (exS true)) (pos : Nat → Nat → Nat), R.Fair ∧ NExec (sumD 2 exB (0, 40)) (sumN exB (0, 40) fun p => 5 + 2 * p) 2 R pos ∧
    ∃ i, ∀ j, i ≤ j → ∀ p < 2, Vis.wordAt ((R.st j).mem p) (adr exB p (0, 40) 8 : Nat) .ulong = 12 := by
  obtain ⟨s, _, hl⟩ := ex_made
  have hx : ((0, 40) : Nat × Nat) ∈ s.live := by rw [hl]; decide
  have hin : 960 + 0 + 40 ≤ heapSize 12 4096 := by decide
  obtain ⟨R, pos, F, hm, E⟩ := C107_sum_exists (v := fun p => 5 + 2 * p) ex_job hx hin (by decide) (by decide) (fun _ _ => 0)
  obtain ⟨i, hi⟩ := C107_sum_partial ex_job hx hin (by decide) F E
  refine ⟨R, pos, F, E, i, fun j hj p hp => ?_⟩
  rw [hi j hj p hp, hm]
  decide

end Verif.Bsp
