import Verif.Team.Model
import Mathlib.Data.List.Nodup
import Mathlib.Data.List.Range
import Mathlib.Data.List.Sort
import Mathlib.Tactic.Ring
import Mathlib.Tactic.Linarith
/-!
# Properties C39, C40, C41, C55: teams
-/
namespace Verif.Team

theorem sorted_ext {a b : List Nat} (ha : a.Pairwise (· < ·)) (hb : b.Pairwise (· < ·)) (h : ∀ x, x ∈ a ↔ x ∈ b) :
    a = b := by
  have na : a.Nodup := ha.imp (fun h => Nat.ne_of_lt h)
  have nb : b.Nodup := hb.imp (fun h => Nat.ne_of_lt h)
  have hp : a.Perm b := (List.perm_ext_iff_of_nodup na nb).2 h
  exact hp.eq_of_pairwise (fun x y _ _ h1 h2 => absurd h1 (by omega)) ha hb

theorem range_filter_sorted (n : Nat) (p : Nat → Bool) : ((List.range n).filter p).Pairwise (· < ·) :=
  List.Pairwise.filter _ List.pairwise_lt_range

theorem sort_id {l : List Nat} (h : l.Pairwise (· < ·)) :
    l.insertionSort (fun (a b : Nat) => (a : Int) ≤ (b : Int)) = l := by
  apply List.Pairwise.insertionSort_eq
  exact h.imp (fun hab => by omega)

/-- the split in closed form: if `ranks` lists in increasing order the members with my colour, then those are the new
team and my position in that list is my rank -/
theorem teamSplit_eq {comm : List Nat} {color : Nat → Option Int} {r : Nat} {c : Int} (hc : color r = some c)
    {ranks : List Nat} (hs : ranks.Pairwise (· < ·))
    (hm : ∀ q, q ∈ ranks ↔ q < comm.length ∧ color q = some c) :
    teamSplit comm color r = some ⟨ranks.map (fun q => comm.getD q 0), (ranks.idxOf r : Nat), (ranks.length : Nat)⟩ := by
  have e : ((List.range comm.length).filter (fun q => color q == some c)) = ranks := by
    apply sorted_ext (range_filter_sorted _ _) hs
    intro x
    rw [hm, List.mem_filter, List.mem_range]
    simp
  unfold teamSplit commSplit
  rw [hc]
  simp only [e, sort_id hs, Option.map_some, List.length_map]

theorem row_div {k i xr : Nat} (h : i < xr) : (k * xr + i) / xr = k := by
  rw [Nat.mul_comm, Nat.mul_add_div (by omega), Nat.div_eq_of_lt h, Nat.add_zero]

theorem teamSplit_none {comm : List Nat} {color : Nat → Option Int} {r : Nat} (hc : color r = none) :
    teamSplit comm color r = none := by
  unfold teamSplit commSplit
  rw [hc]; rfl

theorem collect_ok {α : Type} {f : Nat → Res α} {g : Nat → α} {n : Nat} (h : ∀ q < n, f q = .ok (g q)) :
    collect f n = .ok ((List.range n).map g) := by
  induction n with
  | zero => rfl
  | succ n ih =>
    simp only [collect]
    rw [ih (fun q hq => h q (by omega)), Res.bind_ok, h n (by omega), Res.bind_ok, List.range_succ, List.map_append]
    rfl

theorem getD_map_range {g : Nat → Bool} {n q : Nat} (h : q < n) : ((List.range n).map g).getD q false = g q := by
  rw [List.getD_eq_getElem?_getD, List.getElem?_map, List.getElem?_range h]
  rfl

/-- arithmetic progression -/
def prog (start stride size : Nat) : List Nat := (List.range size).map (fun i => start + i * stride)

theorem prog_sorted {start stride size : Nat} (hs : 1 ≤ stride) : (prog start stride size).Pairwise (· < ·) := by
  unfold prog
  rw [List.pairwise_map]
  refine List.pairwise_lt_range.imp ?_
  intro a b hab
  have := Nat.mul_lt_mul_of_pos_right hab hs
  omega

theorem idxOf_prog {start stride size i : Nat} (hs : 1 ≤ stride) (hi : i < size) :
    (prog start stride size).idxOf (start + i * stride) = i := by
  have hnd : (prog start stride size).Nodup := (prog_sorted hs).imp (fun h => Nat.ne_of_lt h)
  have hl : i < (prog start stride size).length := by simpa [prog] using hi
  have := hnd.idxOf_getElem i hl
  simpa [prog] using this

theorem mem_prog {start stride size q : Nat} : q ∈ prog start stride size ↔ ∃ i < size, q = start + i * stride := by
  unfold prog
  rw [List.mem_map]
  constructor
  · rintro ⟨i, hi, rfl⟩; exact ⟨i, List.mem_range.1 hi, rfl⟩
  · rintro ⟨i, hi, rfl⟩; exact ⟨i, List.mem_range.2 hi, rfl⟩

theorem prog_map {start stride size : Nat} (P : List Nat) :
    (prog start stride size).map (fun q => P.getD q 0) =
      (List.range size).map (fun i => P.getD (start + i * stride) 0) := by
  unfold prog
  rw [List.map_map]
  rfl

/-- a triplet that names members of a parent of `n` PEs -/
def ValidTriplet (n : Nat) (start stride size : Int) : Prop :=
  0 ≤ start ∧ 1 ≤ stride ∧ 1 ≤ size ∧ start + stride * (size - 1) < n

theorem stridedCheck_valid {n : Nat} (hn : n ≤ IntMax) {start stride size : Nat} (hs : 1 ≤ stride) (h1 : 1 ≤ size)
    (he : start + (size - 1) * stride < n) :
    stridedCheck n start stride size = .ok (some ((start + (size - 1) * stride : Nat) : Int)) := by
  have hmul : (stride : Int) * ((size : Int) - 1) = (((size - 1) * stride : Nat) : Int) := by
    push_cast [h1]; ring
  have hle : size - 1 ≤ (size - 1) * stride := Nat.le_mul_of_pos_right _ hs
  unfold IntMax at hn
  unfold stridedCheck endPe fitsInt
  rw [if_neg (by omega), hmul, if_pos]
  · simp only [Res.bind_ok]
    rw [if_neg (by omega)]
    norm_cast
  · simp only [Bool.and_eq_true, decide_eq_true_eq]
    omega

/-- C39. With a valid triplet the call succeeds on every member of the parent; the new team consists of the parent
ranks `start + i*stride`, `i < size`, in that order; member `i` gets rank `i` and team size `size`; everybody else
gets `SHMEM_TEAM_INVALID`. -/
theorem C39_exact {P : List Nat} (hn : P.length ≤ IntMax) {start stride size : Int}
    (hv : ValidTriplet P.length start stride size) {r : Nat} (hr : r < P.length) :
    (∀ i : Nat, (i : Int) < size → (r : Int) = start + i * stride →
      splitStrided P start stride size r = .ok ⟨0, some
        { comm := (List.range size.toNat).map (fun (j : Nat) => P.getD (start + j * stride).toNat 0)
          my_pe := i, n_pes := size }⟩) ∧
    ((∀ i : Nat, (i : Int) < size → (r : Int) ≠ start + i * stride) →
      splitStrided P start stride size r = .ok ⟨0, none⟩) := by
  obtain ⟨h0, h1, h2, h3⟩ := hv
  lift start to Nat using h0
  lift stride to Nat using (by omega)
  lift size to Nat using (by omega)
  have hs : 1 ≤ stride := by omega
  have hsz : 1 ≤ size := by omega
  have he : start + (size - 1) * stride < P.length := by
    have : (stride : Int) * ((size : Int) - 1) = (((size - 1) * stride : Nat) : Int) := by push_cast [hsz]; ring
    rw [this] at h3; omega
  -- what each member decides
  have hsel : ∀ q < P.length, selected (q : Nat) start stride ((start + (size - 1) * stride : Nat) : Int) =
      .ok (decide (∃ i < size, q = start + i * stride)) := by
    intro q _
    unfold selected
    by_cases hq : start ≤ q ∧ q ≤ start + (size - 1) * stride
    · rw [if_pos (by omega), if_neg (by omega)]
      congr 1
      rw [decide_eq_decide]
      have e : ((q : Int) - start) = ((q - start : Nat) : Int) := by omega
      rw [e, ← Int.ofNat_tmod]
      constructor
      · intro h
        have h : (q - start) % stride = 0 := by exact_mod_cast h
        have hdiv := Nat.div_add_mod (q - start) stride
        rw [h, Nat.add_zero] at hdiv
        refine ⟨(q - start) / stride, ?_, by rw [Nat.mul_comm]; omega⟩
        have : (q - start) / stride ≤ size - 1 := by
          apply Nat.le_of_mul_le_mul_right _ hs
          rw [Nat.mul_comm ((q - start) / stride)]
          omega
        omega
      · rintro ⟨i, _, rfl⟩
        have : (start + i * stride - start) % stride = 0 := by
          rw [Nat.add_sub_cancel_left]; exact Nat.mul_mod_left _ _
        exact_mod_cast this
    · rw [if_neg (by omega)]
      congr 1
      symm
      rw [decide_eq_false_iff_not]
      rintro ⟨i, hi, rfl⟩
      apply hq
      have : i * stride ≤ (size - 1) * stride := Nat.mul_le_mul_right _ (by omega)
      omega
  have hrun : ∀ t, splitStrided P start stride size t = .ok ⟨0, teamSplit P
      (fun q => if ((List.range P.length).map (fun q => decide (∃ i < size, q = start + i * stride))).getD q false
        then some 1 else none) t⟩ := by
    intro t
    unfold splitStrided
    rw [stridedCheck_valid hn hs hsz he, Res.bind_ok]
    simp only
    rw [collect_ok hsel, Res.bind_ok]
  have hcol : ∀ q < P.length, (if ((List.range P.length).map
      (fun q => decide (∃ i < size, q = start + i * stride))).getD q false then some (1 : Int) else none) =
      if ∃ i < size, q = start + i * stride then some 1 else none := by
    intro q hq
    rw [getD_map_range hq]
    simp
  constructor
  · intro i hi hri
    have hi' : i < size := by omega
    have hri' : r = start + i * stride := by exact_mod_cast hri
    rw [hrun, teamSplit_eq (c := 1) (ranks := prog start stride size) _ (prog_sorted hs)]
    · rw [prog_map]
      have : (prog start stride size).idxOf r = i := by rw [hri']; exact idxOf_prog hs hi'
      rw [this]
      have hl : (prog start stride size).length = size := by simp [prog]
      rw [hl]
      simp only [Int.toNat_natCast]
      have : (fun j : Nat => P.getD ((start : Int) + j * stride).toNat 0) =
          fun j : Nat => P.getD (start + j * stride) 0 := by
        funext j
        congr 1
      rw [this]
    · intro q
      rw [mem_prog]
      constructor
      · rintro ⟨j, hj, rfl⟩
        have hlt : start + j * stride < P.length := by
          have : j * stride ≤ (size - 1) * stride := Nat.mul_le_mul_right _ (by omega)
          omega
        refine ⟨hlt, ?_⟩
        rw [hcol _ hlt, if_pos ⟨j, hj, rfl⟩]
      · rintro ⟨hq, hc⟩
        rw [hcol q hq] at hc
        split at hc
        · assumption
        · cases hc
    · rw [hcol r hr, if_pos ⟨i, hi', hri'⟩]
  · intro hno
    rw [hrun, teamSplit_none]
    rw [hcol r hr, if_neg]
    rintro ⟨i, hi, e⟩
    exact hno i (by omega) (by rw [e]; push_cast; ring)

/-- C39. A triplet whose first or last rank is not in the parent fails on every member alike (no `int` overflow). -/
theorem C39_invalid_fails_partial {P : List Nat} {start stride size : Int}
    (ho : fitsInt (size - 1) = true ∧ fitsInt (stride * (size - 1)) = true ∧
      fitsInt (start + stride * (size - 1)) = true)
    (hbad : start < 0 ∨ (P.length : Int) ≤ start ∨ start + stride * (size - 1) < 0 ∨
      (P.length : Int) ≤ start + stride * (size - 1)) (r : Nat) :
    splitStrided P start stride size r = .ok ⟨-2, none⟩ := by
  unfold splitStrided stridedCheck endPe
  by_cases h : start < 0 ∨ start ≥ (P.length : Int)
  · rw [if_pos h]; rfl
  · rw [if_neg h, if_pos ho]
    simp only [Res.bind_ok]
    rw [if_pos (by omega)]
    rfl

/-- C39 is false in the corner cases: a triplet of size 0 creates a team of two PEs and reports success. -/
theorem C39_size_zero_accepted :
    splitStrided [0, 1, 2, 3] 0 (-1) 0 0 = .ok ⟨0, some ⟨[0, 1], 0, 2⟩⟩ ∧
    splitStrided [0, 1, 2, 3] 0 (-1) 0 1 = .ok ⟨0, some ⟨[0, 1], 1, 2⟩⟩ := by
  decide +kernel

theorem collect_ub {α : Type} [Inhabited α] {f : Nat → Res α} {n k : Nat} (hk : k < n) (h : f k = .ub)
    (ho : ∀ q < k, ∃ a, f q = .ok a) : collect f n = .ub := by
  induction n with
  | zero => omega
  | succ n ih =>
    simp only [collect]
    by_cases e : k < n
    · rw [ih e]; rfl
    · have : k = n := by omega
      subst this
      have : ∃ g : Nat → α, ∀ q < k, f q = .ok (g q) := by
        refine ⟨fun q => match f q with | .ok a => a | .abort => default | .ub => default | .hang => default, ?_⟩
        intro q hq
        obtain ⟨a, ha⟩ := ho q hq
        simp [ha]
      obtain ⟨g, hg⟩ := this
      rw [collect_ok hg, Res.bind_ok, h]; rfl

/-- C39 is false in the corner cases: stride 0 (even with size 1) divides by zero on the PE of rank `start`. -/
theorem C39_zero_stride_ub {P : List Nat} (hn : P.length ≤ IntMax) {start size : Nat} (hs : start < P.length)
    (hz : size ≤ IntMax) (r : Nat) : splitStrided P start 0 size r = .ub := by
  unfold IntMax at *
  unfold splitStrided stridedCheck endPe fitsInt
  rw [if_neg (by omega), if_pos]
  · simp only [Res.bind_ok, Int.zero_mul, Int.add_zero]
    rw [if_neg (by omega), Res.bind_ok]
    simp only
    have : collect (fun q => selected (q : Nat) start 0 start) P.length = .ub := by
      apply collect_ub hs
      · unfold selected; rw [if_pos (by omega), if_pos rfl]
      · intro q hq
        exact ⟨false, by unfold selected; rw [if_neg (by omega)]⟩
    rw [this]; rfl
  · simp only [Int.zero_mul, Bool.and_eq_true, decide_eq_true_eq]; omega

/-! ## C40 -/

/-- C40. `shmem_team_split_2d` with `xrange > 0` puts the PE of parent rank `r` in row `r / xrange` and column
`r % xrange`: its x-team is that row, in which it has rank `r % xrange`; its y-team is that column, in which it has
rank `r / xrange`; both in parent order. -/
theorem C40_grid {P : List Nat} {xr : Nat} (hx : 1 ≤ xr) {r : Nat} (hr : r < P.length) :
    split2d P xr r = .ok
      (some { comm := (List.range (min xr (P.length - r / xr * xr))).map (fun j => P.getD (r / xr * xr + j) 0)
              my_pe := (r % xr : Nat), n_pes := (min xr (P.length - r / xr * xr) : Nat) },
       some { comm := (List.range ((P.length - r % xr + xr - 1) / xr)).map (fun j => P.getD (r % xr + j * xr) 0)
              my_pe := (r / xr : Nat), n_pes := ((P.length - r % xr + xr - 1) / xr : Nat) }) := by
  have hmod : r % xr < xr := Nat.mod_lt _ hx
  have hdm : xr * (r / xr) + r % xr = r := Nat.div_add_mod r xr
  have hdm' : r / xr * xr + r % xr = r := by rw [Nat.mul_comm]; exact hdm
  unfold split2d
  rw [if_neg (by omega)]
  simp only
  rw [if_neg]
  · congr 2
    · -- row
      rw [teamSplit_eq (c := ((r / xr : Nat) : Int))
        (ranks := prog (r / xr * xr) 1 (min xr (P.length - r / xr * xr))) _ (prog_sorted (by omega))]
      · rw [prog_map]
        have hl : (prog (r / xr * xr) 1 (min xr (P.length - r / xr * xr))).length =
          min xr (P.length - r / xr * xr) := by simp [prog]
        have hi : (prog (r / xr * xr) 1 (min xr (P.length - r / xr * xr))).idxOf r = r % xr := by
          have := idxOf_prog (start := r / xr * xr) (stride := 1) (size := min xr (P.length - r / xr * xr))
            (i := r % xr) (by omega) (by omega)
          rwa [Nat.mul_one, hdm'] at this
        rw [hl, hi]
        simp only [Nat.mul_one]
      · intro q
        rw [mem_prog]
        simp only [Nat.mul_one, ← Int.ofNat_tdiv, Option.some.injEq]
        constructor
        · rintro ⟨i, hi, rfl⟩
          refine ⟨by omega, ?_⟩
          norm_cast
          exact row_div (lt_of_lt_of_le hi (Nat.min_le_left _ _))
        · rintro ⟨hq, hd⟩
          have hd : q / xr = r / xr := by exact_mod_cast hd
          have h1 : q / xr * xr + q % xr = q := by rw [Nat.mul_comm]; exact Nat.div_add_mod q xr
          have h2 : q % xr < xr := Nat.mod_lt _ hx
          rw [hd] at h1
          exact ⟨q % xr, by omega, by omega⟩
      · simp only [← Int.ofNat_tdiv]
    · -- column
      have hcount : ∀ j, j < (P.length - r % xr + xr - 1) / xr ↔ r % xr + j * xr < P.length := by
        intro j
        rw [Nat.lt_iff_add_one_le, Nat.le_div_iff_mul_le hx, Nat.add_mul, Nat.one_mul]
        omega
      rw [teamSplit_eq (c := ((r % xr : Nat) : Int))
        (ranks := prog (r % xr) xr ((P.length - r % xr + xr - 1) / xr)) _ (prog_sorted hx)]
      · rw [prog_map]
        have hl : (prog (r % xr) xr ((P.length - r % xr + xr - 1) / xr)).length =
          (P.length - r % xr + xr - 1) / xr := by simp [prog]
        have hi : (prog (r % xr) xr ((P.length - r % xr + xr - 1) / xr)).idxOf r = r / xr := by
          have := idxOf_prog (start := r % xr) (stride := xr) (size := (P.length - r % xr + xr - 1) / xr)
            (i := r / xr) hx ((hcount _).2 (by omega))
          rwa [show r % xr + r / xr * xr = r by omega] at this
        rw [hl, hi]
      · intro q
        rw [mem_prog]
        simp only [← Int.ofNat_tmod, Option.some.injEq]
        constructor
        · rintro ⟨i, hi, rfl⟩
          refine ⟨(hcount i).1 hi, ?_⟩
          norm_cast
          rw [Nat.add_mul_mod_self_right, Nat.mod_mod]
        · rintro ⟨hq, hd⟩
          have hd : q % xr = r % xr := by exact_mod_cast hd
          have h1 : q / xr * xr + q % xr = q := by rw [Nat.mul_comm]; exact Nat.div_add_mod q xr
          refine ⟨q / xr, (hcount _).2 (by omega), by omega⟩
      · simp only [← Int.ofNat_tmod]
  · rintro ⟨q, _, h | h⟩
    · have : (0 : Int) ≤ (q : Int).tdiv xr := Int.tdiv_nonneg (by omega) (by omega)
      omega
    · have : (0 : Int) ≤ (q : Int).tmod xr := Int.tmod_nonneg _ (by omega)
      omega

/-- C40. The x-teams partition the parent: two PEs are in the same x-team exactly if one's x-team is the other's, and
every PE is in its own; the same for the y-teams; and an x-team and a y-team never share two PEs. -/
theorem C40_partition {P : List Nat} (hnd : P.Nodup) {xr : Nat} (hx : 1 ≤ xr) {r s : Nat} (hr : r < P.length)
    (hs : s < P.length) {xa ya xb yb : Obj} (h1 : split2d P xr r = .ok (some xa, some ya))
    (h2 : split2d P xr s = .ok (some xb, some yb)) :
    (P[r] ∈ xa.comm ∧ P[r] ∈ ya.comm) ∧ (P[s] ∈ xa.comm → xa.comm = xb.comm) ∧ (P[s] ∈ ya.comm → ya.comm = yb.comm) ∧
    (∀ u v, u ∈ xa.comm → u ∈ yb.comm → v ∈ xa.comm → v ∈ yb.comm → u = v) := by
  rw [C40_grid hx hr] at h1
  rw [C40_grid hx hs] at h2
  simp only [Res.ok.injEq, Prod.mk.injEq, Option.some.injEq] at h1 h2
  obtain ⟨rfl, rfl⟩ := h1
  obtain ⟨rfl, rfl⟩ := h2
  have dm : ∀ q, q / xr * xr + q % xr = q := fun q => by rw [Nat.mul_comm]; exact Nat.div_add_mod q xr
  have hml : ∀ q, q % xr < xr := fun q => Nat.mod_lt _ hx
  have getD_eq : ∀ q (hq : q < P.length), P.getD q 0 = P[q] := fun q hq => by simp [List.getD_eq_getElem?_getD, hq]
  have inj : ∀ a b (ha : a < P.length) (hb : b < P.length), P.getD a 0 = P.getD b 0 → a = b := by
    intro a b ha hb e
    rw [getD_eq a ha, getD_eq b hb] at e
    exact (hnd.getElem_inj_iff).1 e
  have memx : ∀ t u, u ∈ (List.range (min xr (P.length - t / xr * xr))).map (fun j => P.getD (t / xr * xr + j) 0) →
      ∃ q, q < P.length ∧ u = P.getD q 0 ∧ q / xr = t / xr := by
    intro t u hu
    rw [List.mem_map] at hu
    obtain ⟨j, hj, rfl⟩ := hu
    rw [List.mem_range] at hj
    refine ⟨_, by omega, rfl, ?_⟩
    exact row_div (lt_of_lt_of_le hj (Nat.min_le_left _ _))
  have memy : ∀ t u, u ∈ (List.range ((P.length - t % xr + xr - 1) / xr)).map (fun j => P.getD (t % xr + j * xr) 0) →
      ∃ q, q < P.length ∧ u = P.getD q 0 ∧ q % xr = t % xr := by
    intro t u hu
    rw [List.mem_map] at hu
    obtain ⟨j, hj, rfl⟩ := hu
    rw [List.mem_range, Nat.lt_iff_add_one_le, Nat.le_div_iff_mul_le hx, Nat.add_mul, Nat.one_mul] at hj
    refine ⟨_, by omega, rfl, ?_⟩
    rw [Nat.add_mul_mod_self_right, Nat.mod_mod]
  refine ⟨⟨?_, ?_⟩, ?_, ?_, ?_⟩
  · rw [List.mem_map]
    refine ⟨r % xr, ?_, ?_⟩
    · rw [List.mem_range]; have := dm r; have := hml r; omega
    · rw [dm r, getD_eq r hr]
  · rw [List.mem_map]
    refine ⟨r / xr, ?_, ?_⟩
    · rw [List.mem_range, Nat.lt_iff_add_one_le, Nat.le_div_iff_mul_le hx, Nat.add_mul, Nat.one_mul]
      have := dm r; omega
    · rw [show r % xr + r / xr * xr = r by have := dm r; omega, getD_eq r hr]
  · intro hm
    obtain ⟨q, hq, e, hd⟩ := memx r _ hm
    rw [← getD_eq s hs] at e
    have := inj s q hs hq e
    subst this
    simp only [hd]
  · intro hm
    obtain ⟨q, hq, e, hd⟩ := memy r _ hm
    rw [← getD_eq s hs] at e
    have := inj s q hs hq e
    subst this
    simp only [hd]
  · intro u v hu1 hu2 hv1 hv2
    obtain ⟨a, ha, rfl, da⟩ := memx r u hu1
    obtain ⟨b, hb, eb, db⟩ := memy s _ hu2
    obtain ⟨c, hc, rfl, dc⟩ := memx r v hv1
    obtain ⟨d, hd, ed, dd⟩ := memy s _ hv2
    have := inj a b ha hb eb; subst this
    have := inj c d hc hd ed; subst this
    have e1 := dm a; have e2 := dm c
    rw [da, db] at e1
    rw [dc, dd] at e2
    rw [← e1, ← e2]

/-- C40, corner case: `xrange = 0` divides by zero. -/
theorem C40_zero_ub (P : List Nat) (r : Nat) : split2d P 0 r = .ub := by
  unfold split2d; rw [if_pos rfl]

/-! ## Teams obtained by any history of splits -/

/-- the teams a PE with world rank `me` can hold in a job of `n` PEs -/
inductive Reach (cts n me : Nat) : Obj → Prop where
  | world : Reach cts n me (worldObj n me)
  | shared {o} : sharedObj cts n me = some o → Reach cts n me o
  | strided {p o : Obj} {start stride size : Int} {rc : Int} : Reach cts n me p →
      splitStrided p.comm start stride size p.my_pe.toNat = .ok ⟨rc, some o⟩ → Reach cts n me o
  | xaxis {p o : Obj} {y : Option Obj} {xr : Int} : Reach cts n me p →
      split2d p.comm xr p.my_pe.toNat = .ok (some o, y) → Reach cts n me o
  | yaxis {p o : Obj} {x : Option Obj} {xr : Int} : Reach cts n me p →
      split2d p.comm xr p.my_pe.toNat = .ok (x, some o) → Reach cts n me o

/-- what every team object satisfies: distinct world PEs, and my rank is my position -/
structure Good (n me : Nat) (o : Obj) : Prop where
  nodup : o.comm.Nodup
  bound : ∀ w ∈ o.comm, w < n
  size : o.n_pes = o.comm.length
  rank : ∃ r : Nat, o.my_pe = r ∧ o.comm[r]? = some me

theorem good_split {n me : Nat} {comm : List Nat} {color : Nat → Option Int} {r : Nat} (hnd : comm.Nodup)
    (hb : ∀ w ∈ comm, w < n) (hr : comm[r]? = some me) {o : Obj} (h : teamSplit comm color r = some o) :
    Good n me o := by
  have hrl : r < comm.length := by
    by_contra hc
    rw [List.getElem?_eq_none (by omega)] at hr; cases hr
  cases hc : color r with
  | none => rw [teamSplit_none hc] at h; cases h
  | some c =>
    have hs := range_filter_sorted comm.length (fun q => color q == some c)
    rw [teamSplit_eq hc hs (by intro q; rw [List.mem_filter, List.mem_range]; simp)] at h
    simp only [Option.some.injEq] at h
    subst h
    have hrm : r ∈ (List.range comm.length).filter (fun q => color q == some c) := by
      rw [List.mem_filter, List.mem_range]; exact ⟨hrl, by simp [hc]⟩
    refine ⟨?_, ?_, by simp, ?_⟩
    · apply List.Nodup.map_on
      · intro a ha b hb' e
        rw [List.mem_filter, List.mem_range] at ha hb'
        simp only [List.getD_eq_getElem?_getD, List.getElem?_eq_getElem ha.1, List.getElem?_eq_getElem hb'.1,
          Option.getD_some] at e
        exact (hnd.getElem_inj_iff).1 e
      · exact hs.imp (fun h => Nat.ne_of_lt h)
    · intro w hw
      rw [List.mem_map] at hw
      obtain ⟨q, hq, rfl⟩ := hw
      rw [List.mem_filter, List.mem_range] at hq
      simp only [List.getD_eq_getElem?_getD, List.getElem?_eq_getElem hq.1, Option.getD_some]
      exact hb _ (List.getElem_mem _)
    · refine ⟨_, rfl, ?_⟩
      rw [List.getElem?_map, List.getElem?_eq_getElem (List.idxOf_lt_length_of_mem hrm), List.getElem_idxOf]
      simp only [Option.map_some, List.getD_eq_getElem?_getD, hr, Option.getD_some]

theorem reach_good {cts n me : Nat} (hme : me < n) {o : Obj} (h : Reach cts n me o) : Good n me o := by
  induction h with
  | world =>
    refine ⟨List.nodup_range, fun w hw => List.mem_range.1 hw, by simp [worldObj], me, rfl, ?_⟩
    simp [worldObj, hme]
  | shared hs =>
    exact good_split List.nodup_range (fun w hw => List.mem_range.1 hw) (by simp [hme]) hs
  | strided _ hs ih =>
    obtain ⟨r, e, hr⟩ := ih.rank
    rw [e, Int.toNat_natCast] at hs
    unfold splitStrided at hs
    cases hc : stridedCheck _ _ _ _ with
    | abort => rw [hc] at hs; cases hs
    | ub => rw [hc] at hs; cases hs
    | hang => rw [hc] at hs; cases hs
    | ok c =>
      rw [hc, Res.bind_ok] at hs
      cases c with
      | none => simp at hs
      | some e' =>
        simp only at hs
        cases hk : collect _ _ with
        | abort => rw [hk] at hs; cases hs
        | ub => rw [hk] at hs; cases hs
        | hang => rw [hk] at hs; cases hs
        | ok l =>
          rw [hk, Res.bind_ok] at hs
          simp only [Res.ok.injEq, SplitRes.mk.injEq] at hs
          exact good_split ih.nodup ih.bound hr hs.2
  | xaxis _ hs ih =>
    obtain ⟨r, e, hr⟩ := ih.rank
    rw [e, Int.toNat_natCast] at hs
    unfold split2d at hs
    split at hs
    · cases hs
    · simp only at hs
      split at hs
      · cases hs
      · simp only [Res.ok.injEq, Prod.mk.injEq] at hs
        exact good_split ih.nodup ih.bound hr hs.1
  | yaxis _ hs ih =>
    obtain ⟨r, e, hr⟩ := ih.rank
    rw [e, Int.toNat_natCast] at hs
    unfold split2d at hs
    split at hs
    · cases hs
    · simp only at hs
      split at hs
      · cases hs
      · simp only [Res.ok.injEq, Prod.mk.injEq] at hs
        exact good_split ih.nodup ih.bound hr hs.2

/-- handles a program can pass -/
def ReachH (cts n me : Nat) : Handle → Prop
  | .invalid => True
  | .world => True
  | .shared => True
  | .obj o => Reach cts n me o

theorem reachH_good {cts n me : Nat} (hme : me < n) {h : Handle} (hr : ReachH cts n me h) {o : Obj}
    (ho : getObj cts n me h = some o) : Good n me o := by
  cases h with
  | invalid => cases ho
  | world => cases ho; exact reach_good hme (cts := cts) .world
  | shared => exact reach_good hme (.shared ho)
  | obj p => cases ho; exact reach_good hme hr

theorem shared_eq (cts : Nat) {n me : Nat} (hme : me < n) : sharedObj cts n me = some (worldObj n me) := by
  unfold sharedObj
  rw [teamSplit_eq (c := (cts : Int)) (ranks := List.range n) rfl List.pairwise_lt_range
    (by intro q; simp)]
  have h1 : (List.range n).map (fun q => (List.range n).getD q 0) = List.range n := by
    apply List.ext_getElem
    · simp
    · intro i h1 h2
      simp at h1
      simp [List.getD_eq_getElem?_getD, h1]
  have h2 : (List.range n).idxOf me = me := by
    have := (List.nodup_range (n := n)).idxOf_getElem me (by simpa using hme)
    simpa using this
  rw [h1, h2]
  simp [worldObj]

/-- members of the team behind a handle, in rank order -/
def members (cts n me : Nat) (h : Handle) : List Nat := match getObj cts n me h with
  | none => []
  | some o => o.comm

/-- C41. `my_pe`/`n_pes` of any handle a program can hold: -1 for the invalid handle, otherwise the caller's position
in the team and the team's size. -/
theorem C41_my_pe {cts n me : Nat} (hme : me < n) {h : Handle} (hr : ReachH cts n me h) :
    (h = .invalid → myPe cts n me h = -1 ∧ nPes cts n me h = -1) ∧
    (h ≠ .invalid → nPes cts n me h = (members cts n me h).length ∧
      0 ≤ myPe cts n me h ∧ (members cts n me h)[(myPe cts n me h).toNat]? = some me) := by
  constructor
  · rintro rfl; exact ⟨rfl, rfl⟩
  · intro hne
    have : ∃ o, getObj cts n me h = some o := by
      cases h with
      | invalid => exact absurd rfl hne
      | world => exact ⟨_, rfl⟩
      | shared => exact ⟨_, shared_eq cts hme⟩
      | obj p => exact ⟨_, rfl⟩
    obtain ⟨o, ho⟩ := this
    have g := reachH_good hme hr ho
    obtain ⟨r, e, hr⟩ := g.rank
    unfold nPes myPe members
    rw [ho]
    simp only
    refine ⟨g.size, by omega, ?_⟩
    rw [e, Int.toNat_natCast]; exact hr

/-- C41, partial (missing: numbers that are not a rank of the source team, see `C41_out_of_range_violation`). For ranks of
the source team `translate_pe` returns the rank of the same PE in the destination team, -1
exactly when it is not a member of it or a handle is invalid; translating back returns the original rank. -/
theorem C41_translate_partial {cts n me : Nat} (pnull : Int) (hme : me < n) {a b : Handle} (ha : ReachH cts n me a) (hb : ReachH cts n me b)
    {pe : Nat} (hpe : pe < (members cts n me a).length) :
    (∃ v : Int, translatePe cts n me pnull a pe b = .ok v ∧
      (v = -1 ∧ (members cts n me a)[pe] ∉ members cts n me b ∨
       ∃ q : Nat, v = q ∧ (members cts n me b)[q]? = some (members cts n me a)[pe] ∧
         translatePe cts n me pnull b q a = .ok pe)) := by
  cases hoa : getObj cts n me a with
  | none => simp [members, hoa] at hpe
  | some oa =>
    have ga := reachH_good hme ha hoa
    have hma : members cts n me a = oa.comm := by simp only [members, hoa]
    simp only [hma] at hpe ⊢
    unfold members
    cases hob : getObj cts n me b with
    | none =>
      refine ⟨-1, ?_, Or.inl ⟨rfl, by simp⟩⟩
      unfold translatePe; rw [hoa, hob]
    | some ob =>
      have gb := reachH_good hme hb hob
      simp only
      by_cases hm : oa.comm[pe] ∈ ob.comm
      · have hq : ob.comm.idxOf oa.comm[pe] < ob.comm.length := List.idxOf_lt_length_of_mem hm
        refine ⟨(ob.comm.idxOf oa.comm[pe] : Nat), ?_, Or.inr ⟨_, rfl, ?_, ?_⟩⟩
        · unfold translatePe; rw [hoa, hob]
          simp only
          rw [if_pos (by omega)]
          simp only [Int.toNat_natCast, List.getD_eq_getElem?_getD, List.getElem?_eq_getElem hpe, Option.getD_some]
          rw [if_pos hm]
        · rw [List.getElem?_eq_getElem hq, List.getElem_idxOf]
        · unfold translatePe; rw [hoa, hob]
          simp only
          rw [if_pos (by omega)]
          simp only [Int.toNat_natCast, List.getD_eq_getElem?_getD, List.getElem?_eq_getElem hq, Option.getD_some,
            List.getElem_idxOf]
          rw [if_pos (List.getElem_mem _), ga.nodup.idxOf_getElem]
      · refine ⟨-1, ?_, Or.inl ⟨rfl, hm⟩⟩
        unfold translatePe; rw [hoa, hob]
        simp only
        rw [if_pos (by omega)]
        simp only [Int.toNat_natCast, List.getD_eq_getElem?_getD, List.getElem?_eq_getElem hpe, Option.getD_some]
        rw [if_neg hm]

/-- C41. An invalid handle on either side gives -1. -/
theorem C41_invalid (cts n me : Nat) (pnull pe : Int) (h : Handle) :
    translatePe cts n me pnull .invalid pe h = .ok (-1) ∧
    ((getObj cts n me h).isSome → translatePe cts n me pnull h pe .invalid = .ok (-1)) := by
  constructor
  · unfold translatePe; rfl
  · intro hs
    unfold translatePe
    cases ho : getObj cts n me h with
    | none => simp [ho] at hs
    | some o => rfl

/-- C41 is FALSE of the code for numbers that are not a rank of the source team, whatever the two teams are: the job
aborts instead of returning -1, except that `MPI_PROC_NULL` is returned as it is (-1 only in some MPI libraries). -/
theorem C41_out_of_range_violation {cts n me : Nat} (hme : me < n) (pnull : Int) {a b : Handle}
    (na : a ≠ .invalid) (nb : b ≠ .invalid)
    {pe : Int} (hpe : pe < 0 ∨ ((members cts n me a).length : Int) ≤ pe) :
    translatePe cts n me pnull a pe b = (if pe = pnull then .ok pnull else .abort) := by
  have obj : ∀ h : Handle, h ≠ .invalid → ∃ o, getObj cts n me h = some o := by
    intro h hne
    cases h with
    | invalid => exact absurd rfl hne
    | world => exact ⟨_, rfl⟩
    | shared => exact ⟨_, shared_eq cts hme⟩
    | obj p => exact ⟨_, rfl⟩
  obtain ⟨oa, hoa⟩ := obj a na
  obtain ⟨ob, hob⟩ := obj b nb
  have hma : members cts n me a = oa.comm := by simp only [members, hoa]
  rw [hma] at hpe
  unfold translatePe
  rw [hoa, hob]
  simp only
  rw [if_neg (by omega)]

/-! ## C55 -/

/-- C55 is false: whatever PEs share memory, the shared team is the whole world; with two PEs on different nodes it
contains one that does not share memory with the caller. -/
theorem C55_shared_is_world (cts : Nat) {n me : Nat} (hme : me < n) :
    getObj cts n me .shared = getObj cts n me .world := shared_eq cts hme

/-- see `C55_shared_is_world` -/
theorem C55_fails : ∃ (node : Nat → Nat) (cts n me w : Nat), me < n ∧ w ∈ members cts n me .shared ∧
    node w ≠ node me :=
  ⟨id, 1, 2, 0, 1, by decide, by
    unfold members; rw [C55_shared_is_world 1 (by decide)]; simp [getObj, worldObj], by decide⟩

/-- C55, what holds: when all PEs share memory, the shared team is right. Missing: jobs on several nodes. -/
theorem C55_one_node_partial {node : Nat → Nat} (cts : Nat) {n me : Nat} (hme : me < n)
    (h1 : ∀ w < n, node w = node me) :
    members cts n me .shared = (List.range n).filter (fun w => node w == node me) := by
  unfold members
  rw [C55_shared_is_world cts hme]
  symm
  simp only [getObj, worldObj]
  rw [List.filter_eq_self]
  intro a ha
  simpa using h1 a (List.mem_range.1 ha)

/-! ## Non-vacuity -/

example : ValidTriplet 10 1 3 3 ∧ splitStrided (List.range 10) 1 3 3 4 = .ok ⟨0, some ⟨[1, 4, 7], 1, 3⟩⟩ := by
  exact ⟨by unfold ValidTriplet; simp, by decide +kernel⟩

example : split2d (List.range 10) 4 5 = .ok (some ⟨[4, 5, 6, 7], 1, 4⟩, some ⟨[1, 5, 9], 1, 3⟩) := by decide +kernel

/-- a team made by two splits and a translation that is not the identity -/
example : ∃ o, Reach 1 10 7 o ∧ o.comm = [1, 7] ∧
    translatePe 1 10 7 (-1) (.obj o) 1 .world = .ok 7 :=
  ⟨⟨[1, 7], 1, 2⟩,
    .strided (start := 0) (stride := 2) (size := 2) (rc := 0)
      (.strided (start := 1) (stride := 3) (size := 3) (rc := 0) (o := ⟨[1, 4, 7], 2, 3⟩) .world (by decide +kernel))
      (by decide +kernel),
    rfl, by decide +kernel⟩

end Verif.Team
