import Verif.Coll.Exact

/-!
# `collect` for every count

Each member of `OSHMPI_collect_team` / `OSHMPI_collect` compares its own `size_t` count with all members' counts as `int`s to choose the
algorithm (coll_impl.h L86-100, coll_activeset_impl.h L227-240). Here: what comes of it for all counts.
-/

namespace Verif.Coll
open Verif.Rma

/-! ## Specification -/

/-- the count is the same as `size_t` and as `int` -/
def Same (n : Nat) : Prop := n < 2 ^ 31 ∨ 2 ^ 64 - 2 ^ 31 ≤ n

/-- all counts have the same low 32 bits -/
def Alike (n : Nat) (ns : Nat → Nat) : Prop := ∀ r < n, ∀ q < n, ns r % 2 ^ 32 = ns q % 2 ^ 32

/-- the counts of the members before `j`, as `int`s, added up -/
def sumBefore (ns : Nat → Nat) (j : Nat) : Int := ((List.range j).map fun r => toI32 (ns r)).sum

/-- no running displacement leaves `int` -/
def DisplsFit (n : Nat) (ns : Nat → Nat) : Prop := ∀ j < n, -(2 ^ 31) ≤ sumBefore ns j ∧ sumBefore ns j < 2 ^ 31

/-! ## Proof -/

theorem displs_iff : ∀ (cs : List Int) (d : Int), (∃ ds, displs d cs = some ds) ↔
    ∀ j, 0 < j → j < cs.length → -(2 ^ 31) ≤ d + (cs.take j).sum ∧ d + (cs.take j).sum < 2 ^ 31
  | [], d => by simp [displs]
  | [c], d => by
    simp only [displs, List.length_singleton]
    exact ⟨fun _ j h1 h2 => by omega, fun _ => ⟨_, rfl⟩⟩
  | c :: c2 :: cs, d => by
    have ih := displs_iff (c2 :: cs) (d + c)
    have e : (IntMax : Int) = 2 ^ 31 - 1 := rfl
    unfold displs
    constructor
    · rintro ⟨ds, h⟩ j h1 h2
      split at h
      · cases h
      · rename_i hb
        obtain ⟨j, rfl⟩ : ∃ i, j = i + 1 := ⟨j - 1, by omega⟩
        rw [List.take_succ_cons, List.sum_cons]
        rcases Nat.eq_zero_or_pos j with h0 | h0
        · subst h0
          simp only [List.take_zero, List.sum_nil, Int.add_zero]
          omega
        · cases hd : displs (d + c) (c2 :: cs) with
          | none => rw [hd] at h; cases h
          | some l =>
            have := ih.1 ⟨l, hd⟩ j h0 (by simpa using h2)
            omega
    · intro h
      have h1 := h 1 (by omega) (by simp)
      simp only [List.take_succ_cons, List.take_zero, List.sum_cons, List.sum_nil, Int.add_zero] at h1
      rw [if_neg (by omega)]
      obtain ⟨l, hl⟩ := ih.2 (by
        intro j h2 h3
        have := h (j + 1) (by omega) (by simpa using h3)
        rw [List.take_succ_cons, List.sum_cons] at this
        omega)
      exact ⟨d :: l, by rw [hl]; rfl⟩

theorem displs_fit {n : Nat} {ns : Nat → Nat} : (∃ ds, displs 0 ((List.range n).map fun r => toI32 (ns r)) = some ds) ↔ DisplsFit n ns := by
  rw [displs_iff]
  unfold DisplsFit sumBefore
  constructor
  · intro h j hj
    rcases Nat.eq_zero_or_pos j with h0 | h0
    · subst h0; simp
    · have := h j h0 (by simpa using hj)
      rw [← List.map_take, List.take_range, Nat.min_eq_left (by omega)] at this
      omega
  · intro h j h0 hj
    have hj : j < n := by simpa using hj
    have := h j hj
    rw [← List.map_take, List.take_range, Nat.min_eq_left (by omega)]
    omega

theorem toU64_eq {n q : Nat} (hn : n < 2 ^ 64) : n = toU64 (toI32 q) ↔ Same n ∧ n % 2 ^ 32 = q % 2 ^ 32 := by
  unfold toU64 toI32 Same
  rw [Int.bmod_def]
  omega

theorem picks {n : Nat} {ns : Nat → Nat} (hs : ∀ r < n, ns r < 2 ^ 64) {r : Nat} (hr : r < n) :
    (((List.range n).map fun q => toI32 (ns q)).all (fun c => ns r == toU64 c) = true) ↔ Same (ns r) ∧ Alike n ns := by
  rw [List.all_eq_true]
  constructor
  · intro h
    have key : ∀ q < n, Same (ns r) ∧ ns r % 2 ^ 32 = ns q % 2 ^ 32 := by
      intro q hq
      have := h (toI32 (ns q)) (List.mem_map.2 ⟨q, List.mem_range.2 hq, rfl⟩)
      exact (toU64_eq (hs r hr)).1 (beq_iff_eq.1 this)
    exact ⟨(key r hr).1, fun p hp q hq => (key p hp).2.symm.trans (key q hq).2⟩
  · rintro ⟨h1, h2⟩ c hc
    obtain ⟨q, hq, rfl⟩ := List.mem_map.1 hc
    exact beq_iff_eq.2 ((toU64_eq (hs r hr)).2 ⟨h1, h2 r hr q (List.mem_range.1 hq)⟩)

theorem toI32_nonneg {n : Nat} (h : ¬ toI32 n < 0) : n % 2 ^ 32 < 2 ^ 31 := by
  by_contra c
  exact h (toI32_neg (by omega))

theorem xchg_congr {ms : List Nat} {S S' R R' : Nat → Nat → List Int} {m : Mems} (hS : ∀ j < ms.length, ∀ r < ms.length, S j r = S' j r)
    (hR : ∀ r < ms.length, ∀ j < ms.length, R r j = R' r j) : xchg ms S R m = xchg ms S' R' m := by
  have e1 : (List.range ms.length).any (fun r => (List.range ms.length).any fun j => (S j r).length != (R r j).length) =
      (List.range ms.length).any (fun r => (List.range ms.length).any fun j => (S' j r).length != (R' r j).length) := by
    rw [Bool.eq_iff_iff, List.any_eq_true, List.any_eq_true]
    refine exists_congr fun r => and_congr_right fun hr => ?_
    rw [List.any_eq_true, List.any_eq_true]
    refine exists_congr fun j => and_congr_right fun hj => ?_
    rw [hS j (List.mem_range.1 hj) r (List.mem_range.1 hr), hR r (List.mem_range.1 hr) j (List.mem_range.1 hj)]
  have e2 : (List.range ms.length).any (fun r => (List.range ms.length).any fun j => (List.range ms.length).any fun q =>
      (R r j).any fun a => (S r q).contains a) = (List.range ms.length).any (fun r => (List.range ms.length).any fun j =>
      (List.range ms.length).any fun q => (R' r j).any fun a => (S' r q).contains a) := by
    rw [Bool.eq_iff_iff, List.any_eq_true, List.any_eq_true]
    refine exists_congr fun r => and_congr_right fun hr => ?_
    rw [List.any_eq_true, List.any_eq_true]
    refine exists_congr fun j => and_congr_right fun hj => ?_
    rw [List.any_eq_true, List.any_eq_true]
    refine exists_congr fun q => and_congr_right fun hq => ?_
    rw [hS r (List.mem_range.1 hr) q (List.mem_range.1 hq), hR r (List.mem_range.1 hr) j (List.mem_range.1 hj)]
  have e3 : onMembers ms (fun r => writes (m (ms.getD r 0))
      ((List.range ms.length).flatMap fun j => (R r j).zip ((S j r).map (m (ms.getD j 0))))) m =
      onMembers ms (fun r => writes (m (ms.getD r 0))
      ((List.range ms.length).flatMap fun j => (R' r j).zip ((S' j r).map (m (ms.getD j 0))))) m := by
    funext p
    unfold onMembers
    split
    · rename_i hp
      have hr : ms.idxOf p < ms.length := List.idxOf_lt_length_of_mem hp
      dsimp only
      congr 1
      refine List.flatMap_congr fun j hj => ?_
      rw [hS j (List.mem_range.1 hj) _ hr, hR _ hr j (List.mem_range.1 hj)]
    · rfl
  unfold xchg
  simp only
  rw [e1, e2, e3]

theorem collect_low (kb : Nat) {ms : List Nat} {ns c : Nat → Nat} {ds : List Int}
    (hc : ∀ r < ms.length, toI32 (ns r) = (c r : Int)) (hc' : ∀ r < ms.length, toI32 (c r) = (c r : Int))
    (hd : displs 0 ((List.range ms.length).map fun r => toI32 (ns r)) = some ds) (hf : ∀ j < ms.length, sumBefore ns j < 2 ^ 31)
    (hall : (∀ r < ms.length, ((List.range ms.length).map fun q => toI32 (ns q)).all (fun c => ns r == toU64 c) = true) ∨
      ∀ r < ms.length, ¬ ((List.range ms.length).map fun q => toI32 (ns q)).all (fun c => ns r == toU64 c) = true)
    (hA : ∀ r < ms.length, ((List.range ms.length).map fun q => toI32 (ns q)).all (fun c => ns r == toU64 c) = true →
      ∀ j < ms.length, ∀ q < ms.length, c j = c q)
    (hp : ∀ r < ms.length, ((List.range ms.length).map fun q => toI32 (ns q)).all (fun d => c r == toU64 d) = true ↔
      ∀ j < ms.length, ∀ q < ms.length, c j = c q)
    (src dst : Nat → Int) (m : Mems) : collect kb ms ns src dst m = collect kb ms c src dst m := by
  have hcs : ((List.range ms.length).map fun r => toI32 (c r)) = (List.range ms.length).map fun r => toI32 (ns r) :=
    List.map_congr_left fun r hr => by rw [hc' r (List.mem_range.1 hr), hc r (List.mem_range.1 hr)]
  have hcn : ((List.range ms.length).map fun r => toI32 (ns r)) = (List.range ms.length).map fun r => (c r : Int) :=
    List.map_congr_left fun r hr => hc r (List.mem_range.1 hr)
  unfold collect
  simp only
  rw [hcs, hd]
  simp only
  have hsum : ∀ j ≤ ms.length, (((List.range ms.length).map fun r => toI32 (ns r)).take j).sum = before c j := by
    intro j hj
    rw [hcn, ← List.map_take, List.take_range, Nat.min_eq_left hj]
    unfold before
    clear hf
    induction j with
    | zero => rfl
    | succ j ih =>
      rw [List.range_succ, List.map_append, List.sum_append, List.map_append, List.sum_append, ih (by omega)]
      simp
  have hsb : ∀ j ≤ ms.length, sumBefore ns j = before c j := by
    intro j hj
    rw [← hsum j hj, ← List.map_take, List.take_range, Nat.min_eq_left hj]
    rfl
  generalize hL : ((List.range ms.length).map fun r => toI32 (ns r)) = L at *
  have hlen : L.length = ms.length := by rw [← hL]; simp
  have hmemL : ∀ x ∈ L, 0 ≤ x := by
    intro x hx
    rw [hcn] at hx
    obtain ⟨q, _, rfl⟩ := List.mem_map.mp hx
    omega
  obtain ⟨ds', e', _, hds⟩ := displs_ok L 0 (le_refl _) hmemL (by
    intro j hj
    rw [hlen] at hj
    have h1 := hf j hj
    rw [hsb j (by omega)] at h1
    rw [hsum j (by omega)]
    have e : (IntMax : Int) = 2 ^ 31 - 1 := rfl
    omega)
  rw [hd] at e'
  cases e'
  have hdj : ∀ j < ms.length, ds.getD j 0 = before c j := by
    intro j hj
    rw [hds j (by rw [hlen]; exact hj), hsum j (by omega)]
    omega
  have hcj : ∀ j < ms.length, L.getD j 0 = c j := by
    intro j hj
    rw [List.getD_eq_getElem _ _ (by rw [hlen]; exact hj)]
    subst hL
    simp only [List.getElem_map, List.getElem_range]
    exact hc j hj
  have hany : L.any (fun d => decide (d < 0)) = false := by
    rw [List.any_eq_false]
    intro x hx
    have := hmemL x hx
    simpa using this
  have hbad : ∀ r, ∀ n, toI32 n = (c r : Int) → ∀ a b, (collectCall kb L ds n a b).bad ms.length = false := by
    intro r n hn a b
    unfold collectCall
    split
    · simp [Call.bad, hn]
    · simp only [Call.bad, hany, Bool.or_false, hn]
      simp
  have hroot : ∀ n a b n' a' b', (collectCall kb L ds n a b).root = (collectCall kb L ds n' a' b').root := by
    intro n a b n' a' b'
    unfold collectCall
    split <;> split <;> rfl
  have hred : ∀ n a b, (collectCall kb L ds n a b).red = none := by
    intro n a b
    unfold collectCall
    split <;> rfl
  have hsend : ∀ n a b j r, (collectCall kb L ds n a b).send j r = addrs a (toI32 n).toNat (Ty.basic kb) := by
    intro n a b j r
    unfold collectCall
    split <;> rfl
  have hbj : (∀ j < ms.length, ∀ q < ms.length, c j = c q) → ∀ r < ms.length, ∀ j ≤ ms.length, before c j = j * c r := by
    intro ha r hr j hj
    induction j with
    | zero => unfold before; simp
    | succ j ih => rw [before_succ, ih (by omega), ha j (by omega) r hr]; ring
  have hrecv : ∀ r < ms.length, ∀ n, toI32 n = (c r : Int) → (L.all (fun d => n == toU64 d) = true → ∀ j < ms.length, ∀ q < ms.length, c j = c q) →
      ∀ a b, ∀ j < ms.length, (collectCall kb L ds n a b).recv r j = addrs (b + (before c j : Int) * kb) (c j) (Ty.basic kb) := by
    intro r hr n hn hp a b j hj
    unfold collectCall
    split
    · rename_i h
      have ha := hp h
      simp only [Call.recv, basic_extent]
      rw [hn, Int.toNat_natCast, hbj ha r hr j (by omega), ha j hj r hr]
      exact congrArg (fun z => addrs z (c r) (Ty.basic kb)) (by push_cast; ring)
    · simp only [Call.recv, basic_extent]
      rw [hdj j hj, hcj j hj, Int.toNat_natCast]
  rw [mpi_xchg (calls := fun r => collectCall kb L ds (ns r) (src r) (dst r)) ?_
      (fun r hr => hbad r _ (hc r hr) _ _) (fun r _ => hroot _ _ _ _ _ _) (hred _ _ _),
    mpi_xchg (calls := fun r => collectCall kb L ds (c r) (src r) (dst r)) ?_
      (fun r hr => hbad r _ (hc' r hr) _ _) (fun r _ => hroot _ _ _ _ _ _) (hred _ _ _)]
  · refine xchg_congr ?_ ?_
    · intro j hj r _
      rw [hsend, hsend, hc j hj, hc' j hj]
    · intro r hr j hj
      rw [hrecv r hr _ (hc r hr) (hA r hr) _ _ j hj, hrecv r hr _ (hc' r hr) (fun h => (hp r hr).1 h) _ _ j hj]
  · intro r hr
    unfold collectCall
    by_cases ha : ∀ j < ms.length, ∀ q < ms.length, c j = c q
    · rw [if_pos ((hp r hr).2 ha), if_pos ((hp 0 (by omega)).2 ha)]
      rfl
    · rw [if_neg (fun c => ha ((hp r hr).1 c)), if_neg (fun c => ha ((hp 0 (by omega)).1 c))]
      rfl
  · intro r hr
    unfold collectCall
    rcases hall with h | h
    · rw [if_pos (h r hr), if_pos (h 0 (by omega))]
      rfl
    · rw [if_neg (h r hr), if_neg (h 0 (by omega))]
      rfl

/-- **C35** `collect`, all counts that fit a `size_t`: if a displacement leaves `int` the behaviour is undefined. Otherwise, if all counts agree in
their low 32 bits but some are the same as `int`s and some are not, the members call different MPI routines and hang. Otherwise the program is
aborted if the low 32 bits of some count are 2^31 or more, and if not the call does what it does with the low 32 bits as counts
(`C35_collect_partial`). -/
theorem C35_collect_counts (kb : Nat) {ms : List Nat} (hn : ms.Nodup) {ns : Nat → Nat} (hs : ∀ r < ms.length, ns r < 2 ^ 64)
    (src dst : Nat → Int) (m : Mems) :
    (¬ DisplsFit ms.length ns → collect kb ms ns src dst m = .ub) ∧
    (DisplsFit ms.length ns → Alike ms.length ns ∧ (∃ r < ms.length, Same (ns r)) ∧ (∃ r < ms.length, ¬ Same (ns r)) →
      collect kb ms ns src dst m = .hang) ∧
    (DisplsFit ms.length ns → ¬ (Alike ms.length ns ∧ (∃ r < ms.length, Same (ns r)) ∧ (∃ r < ms.length, ¬ Same (ns r))) →
      ((∃ r < ms.length, 2 ^ 31 ≤ ns r % 2 ^ 32) → collect kb ms ns src dst m = .abort) ∧
      ((∀ r < ms.length, ns r % 2 ^ 32 < 2 ^ 31) → collect kb ms ns src dst m = collect kb ms (fun r => ns r % 2 ^ 32) src dst m)) := by
  refine ⟨fun h => ?_, fun hf => ?_, fun hf hmix => ?_⟩
  · unfold collect
    simp only
    cases hd : displs 0 ((List.range ms.length).map fun r => toI32 (ns r)) with
    | none => rfl
    | some ds => exact absurd (displs_fit.1 ⟨ds, hd⟩) h
  all_goals obtain ⟨ds, hd⟩ := displs_fit.2 hf
  · rintro ⟨ha, ⟨r, hr, h1⟩, q, hq, h2⟩
    unfold collect
    simp only
    rw [hd]
    simp only
    unfold mpi
    simp only
    rw [if_pos]
    have kr : (collectCall kb ((List.range ms.length).map fun r => toI32 (ns r)) ds (ns r) (src r) (dst r)).kind = 1 := by
      unfold collectCall
      rw [if_pos ((picks hs hr).2 ⟨h1, ha⟩)]
      rfl
    have kq : (collectCall kb ((List.range ms.length).map fun r => toI32 (ns r)) ds (ns q) (src q) (dst q)).kind = 2 := by
      unfold collectCall
      rw [if_neg (fun c => h2 ((picks hs hq).1 c).1)]
      rfl
    rw [List.any_eq_true]
    by_cases h0 : (collectCall kb ((List.range ms.length).map fun r => toI32 (ns r)) ds (ns 0) (src 0) (dst 0)).kind = 1
    · exact ⟨q, List.mem_range.2 hq, by rw [kq, h0]; rfl⟩
    · exact ⟨r, List.mem_range.2 hr, by rw [kr, bne_iff_ne]; exact fun c => h0 c.symm⟩
  · -- all members make the same choice
    have hall : (Alike ms.length ns ∧ ∀ r < ms.length, Same (ns r)) ∨ ∀ r < ms.length, ¬ (Same (ns r) ∧ Alike ms.length ns) := by
      by_cases ha : Alike ms.length ns
      · by_cases h1 : ∀ r < ms.length, Same (ns r)
        · exact Or.inl ⟨ha, h1⟩
        · right
          rintro r hr ⟨h2, _⟩
          push Not at h1
          exact hmix ⟨ha, ⟨r, hr, h2⟩, h1⟩
      · exact Or.inr fun r _ h => ha h.2
    refine ⟨?_, fun hlow => ?_⟩
    · rintro ⟨r, hr, h1⟩
      unfold collect
      simp only
      rw [hd]
      simp only
      have h0 : ms ≠ [] := fun c => by rw [c] at hr; cases hr
      have hpos : 0 < ms.length := List.length_pos_of_ne_nil h0
      have hneg := toI32_neg h1
      rcases hall with ⟨ha, hsame⟩ | hnone
      · refine mpi_abort h0 (fun q hq => ?_) ?_
        · unfold collectCall
          rw [if_pos ((picks hs hq).2 ⟨hsame q hq, ha⟩), if_pos ((picks hs hpos).2 ⟨hsame 0 hpos, ha⟩)]
          rfl
        · unfold collectCall
          rw [if_pos ((picks hs hpos).2 ⟨hsame 0 hpos, ha⟩)]
          have : toI32 (ns 0) < 0 := toI32_neg (by rw [ha 0 hpos r hr]; exact h1)
          simp [Call.bad, this]
      · refine mpi_abort h0 (fun q hq => ?_) ?_
        · unfold collectCall
          rw [if_neg (fun c => hnone q hq ((picks hs hq).1 c)), if_neg (fun c => hnone 0 hpos ((picks hs hpos).1 c))]
          rfl
        · unfold collectCall
          rw [if_neg (fun c => hnone 0 hpos ((picks hs hpos).1 c))]
          unfold Call.bad
          rw [Bool.or_eq_true]
          right
          rw [List.any_eq_true]
          exact ⟨toI32 (ns r), List.mem_map.2 ⟨r, List.mem_range.2 hr, rfl⟩, by simpa using hneg⟩
    · -- the low 32 bits
      have hw : ∀ r < ms.length, toI32 (ns r % 2 ^ 32) = toI32 (ns r) := fun r hr => (toI32_wrap (hlow r hr)).symm
      have hcs : ((List.range ms.length).map fun r => toI32 (ns r % 2 ^ 32)) = (List.range ms.length).map fun r => toI32 (ns r) :=
        List.map_congr_left fun r hr => hw r (List.mem_range.1 hr)
      have hpick' : ∀ r < ms.length, ((((List.range ms.length).map fun q => toI32 (ns q)).all (fun c => ns r % 2 ^ 32 == toU64 c) = true) ↔
          Alike ms.length ns) := by
        intro r hr
        rw [← hcs, picks (ns := fun r => ns r % 2 ^ 32) (fun r _ => by have := Nat.mod_lt (ns r) (show 0 < 2 ^ 32 by decide); omega) hr]
        unfold Alike Same
        simp only [Nat.mod_mod]
        exact ⟨fun h => h.2, fun h => ⟨Or.inl (hlow r hr), h⟩⟩
      refine collect_low kb (fun r hr => toI32_mod (hlow r hr)) (fun r hr => (hw r hr).trans (toI32_mod (hlow r hr))) hd
        (fun j hj => (hf j hj).2) ?_ (fun r hr h => ((picks hs hr).1 h).2) hpick' src dst m
      rcases hall with ⟨ha, hsame⟩ | hnone
      · exact Or.inl fun r hr => (picks hs hr).2 ⟨hsame r hr, ha⟩
      · exact Or.inr fun r hr h => hnone r hr ((picks hs hr).1 h)

/-- the four cases occur: two members with 2^32 + 3 and 3 elements (hang), with 2^31 and 1 (abort), with 2^32 + 3 and 5 (as 3 and 5), with
2^32 + 3 each (as 3 each); three with 2^30, 2^30 and 1 (undefined) -/
example : (DisplsFit 2 (fun r => if r = 0 then 2 ^ 32 + 3 else 3) ∧ Alike 2 (fun r => if r = 0 then 2 ^ 32 + 3 else 3) ∧
      (∃ r < 2, Same (if r = 0 then 2 ^ 32 + 3 else 3)) ∧ ∃ r < 2, ¬ Same (if r = 0 then 2 ^ 32 + 3 else 3)) ∧
    (DisplsFit 2 (fun r => if r = 0 then 2 ^ 31 else 1) ∧ ¬ Alike 2 (fun r => if r = 0 then 2 ^ 31 else 1)) ∧
    (DisplsFit 2 (fun r => if r = 0 then 2 ^ 32 + 3 else 5) ∧ ¬ Alike 2 (fun r => if r = 0 then 2 ^ 32 + 3 else 5)) ∧
    (DisplsFit 2 (fun _ => 2 ^ 32 + 3) ∧ ¬ ∃ r < 2, Same ((fun _ => 2 ^ 32 + 3) r)) ∧
    ¬ DisplsFit 3 (fun r => if r < 2 then 2 ^ 30 else 1) := by
  unfold DisplsFit Alike Same
  decide

end Verif.Coll
