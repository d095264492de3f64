import Verif.Coll.Model
import Verif.Rma.Lemmas
import Mathlib.Data.List.Nodup
import Mathlib.Data.List.GetD
/-!
# Lemmas about MPI data exchange
-/
namespace Verif.Coll
open Verif.Rma

theorem getD_mem {ms : List Nat} {r : Nat} (h : r < ms.length) : ms.getD r 0 ∈ ms := by
  rw [List.getD_eq_getElem _ _ h]; exact List.getElem_mem h

theorem idxOf_getD {ms : List Nat} (hn : ms.Nodup) {r : Nat} (h : r < ms.length) : ms.idxOf (ms.getD r 0) = r := by
  rw [List.getD_eq_getElem _ _ h]
  exact hn.idxOf_getElem r h

theorem getD_inj {ms : List Nat} (hn : ms.Nodup) {r q : Nat} (h : r < ms.length) (h' : q < ms.length)
    (e : ms.getD r 0 = ms.getD q 0) : r = q := by
  rw [← idxOf_getD hn h, e, idxOf_getD hn h']

theorem mem_getD {ms : List Nat} {p : Nat} (h : p ∈ ms) : ∃ r < ms.length, ms.getD r 0 = p := by
  obtain ⟨r, hr, e⟩ := List.getElem_of_mem h
  exact ⟨r, hr, by rw [List.getD_eq_getElem _ _ hr]; exact e⟩

theorem onMembers_mem {ms : List Nat} (hn : ms.Nodup) {f : Nat → IMem} {m : Mems} {r : Nat} (h : r < ms.length) :
    onMembers ms f m (ms.getD r 0) = f r := by
  unfold onMembers
  rw [if_pos (getD_mem h), idxOf_getD hn h]

theorem onMembers_not {ms : List Nat} {f : Nat → IMem} {m : Mems} {p : Nat} (h : p ∉ ms) : onMembers ms f m p = m p := by
  unfold onMembers; rw [if_neg h]

/-- the effect of a data exchange whose receive buffers are free of overlaps: every received byte is the sender's byte,
nothing else changes -/
theorem xchg_ok {ι : Type} {ms : List Nat} (hn : ms.Nodup) {S R : Nat → Nat → List Int} (I : Nat → Nat → List ι)
    (fs fd : Nat → Nat → ι → Int)
    (hS : ∀ j < ms.length, ∀ r < ms.length, S j r = (I r j).map (fs j r))
    (hR : ∀ r < ms.length, ∀ j < ms.length, R r j = (I r j).map (fd r j))
    (hinj : ∀ r < ms.length, ∀ j < ms.length, ∀ j' < ms.length, ∀ p ∈ I r j, ∀ p' ∈ I r j',
      fd r j p = fd r j' p' → j = j' ∧ p = p')
    (hal : ∀ r < ms.length, ∀ j < ms.length, ∀ q < ms.length, ∀ p ∈ I r j, ∀ p' ∈ I q r, fd r j p ≠ fs r q p')
    (m : Mems) :
    ∃ m', xchg ms S R m = .ok m' ∧
      (∀ r < ms.length, ∀ j < ms.length, ∀ p ∈ I r j,
        m' (ms.getD r 0) (fd r j p) = m (ms.getD j 0) (fs j r p)) ∧
      (∀ r < ms.length, ∀ x, (∀ j < ms.length, ∀ p ∈ I r j, x ≠ fd r j p) → m' (ms.getD r 0) x = m (ms.getD r 0) x) ∧
      ∀ p, p ∉ ms → m' p = m p := by
  have h1 : ((List.range ms.length).any fun r => (List.range ms.length).any fun j =>
      (S j r).length != (R r j).length) = false := by
    rw [List.any_eq_false]
    intro r hr
    rw [List.mem_range] at hr
    rw [Bool.not_eq_true, List.any_eq_false]
    intro j hj
    rw [List.mem_range] at hj
    rw [hS j hj r hr, hR r hr j hj]
    simp
  have h2 : ((List.range ms.length).any fun r => (List.range ms.length).any fun j => (List.range ms.length).any fun q =>
      (R r j).any fun a => (S r q).contains a) = false := by
    rw [List.any_eq_false]
    intro r hr
    rw [List.mem_range] at hr
    rw [Bool.not_eq_true, List.any_eq_false]
    intro j hj
    rw [List.mem_range] at hj
    rw [Bool.not_eq_true, List.any_eq_false]
    intro q hq
    rw [List.mem_range] at hq
    rw [Bool.not_eq_true, List.any_eq_false]
    intro a ha
    rw [hR r hr j hj] at ha
    rw [hS r hr q hq]
    obtain ⟨p, hp, rfl⟩ := List.mem_map.mp ha
    rw [List.contains_iff_mem]
    intro hm
    obtain ⟨p', hp', e⟩ := List.mem_map.mp hm
    exact hal r hr j hj q hq p hp p' hp' e.symm
  have h3 : ∀ r < ms.length,
      ((List.range ms.length).flatMap fun j => (R r j).zip ((S j r).map (m (ms.getD j 0)))) =
      (List.range ms.length).flatMap fun j => (I r j).map (fun p => (fd r j p, m (ms.getD j 0) (fs j r p))) := by
    intro r hr
    apply List.flatMap_congr
    intro j hj
    rw [List.mem_range] at hj
    rw [hR r hr j hj, hS j hj r hr, List.map_map, List.zip_map']
    rfl
  refine ⟨_, by unfold xchg; dsimp only; rw [h1, h2]; rfl, ?_, ?_, ?_⟩
  · intro r hr j hj p hp
    rw [onMembers_mem hn hr, h3 r hr]
    apply writes_mem
    · exact ⟨(fd r j p, m (ms.getD j 0) (fs j r p)), List.mem_flatMap.mpr ⟨j, List.mem_range.mpr hj,
        List.mem_map.mpr ⟨p, hp, rfl⟩⟩, rfl⟩
    · intro e he hx
      obtain ⟨j', hj', he⟩ := List.mem_flatMap.mp he
      rw [List.mem_range] at hj'
      obtain ⟨p', hp', rfl⟩ := List.mem_map.mp he
      obtain ⟨rfl, rfl⟩ := hinj r hr j' hj' j hj p' hp' p hp hx
      rfl
  · intro r hr x hx
    rw [onMembers_mem hn hr, h3 r hr]
    apply writes_not_mem
    intro e he
    obtain ⟨j', hj', he⟩ := List.mem_flatMap.mp he
    rw [List.mem_range] at hj'
    obtain ⟨p', hp', rfl⟩ := List.mem_map.mp he
    exact Ne.symm (hx j' hj' p' hp')
  · intro p hp
    exact onMembers_not hp

/-- calls that match and are accepted: only the data exchange is left -/
theorem mpi_xchg {fl : Nat → ROp → Nat → Nat → Nat} {tr : Nat → Nat → Tree} {ms : List Nat} {calls : Nat → Call} {m : Mems}
    (hk : ∀ r < ms.length, (calls r).kind = (calls 0).kind) (hb : ∀ r < ms.length, (calls r).bad ms.length = false)
    (hr : ∀ r < ms.length, (calls r).root = (calls 0).root) (h0 : (calls 0).red = none) :
    mpi fl tr ms calls m = xchg ms (fun j r => (calls j).send j r) (fun r j => (calls r).recv r j) m := by
  have h1 : (List.range ms.length).any (fun r => (calls r).kind != (calls 0).kind) = false := by
    rw [List.any_eq_false]
    intro r h; rw [List.mem_range] at h
    simp [hk r h]
  have h2 : (List.range ms.length).any (fun r => (calls r).bad ms.length) = false := by
    rw [List.any_eq_false]
    intro r h; rw [List.mem_range] at h
    simp [hb r h]
  have h3 : (List.range ms.length).any (fun r => decide ((calls r).root ≠ (calls 0).root)) = false := by
    rw [List.any_eq_false]
    intro r h; rw [List.mem_range] at h
    simp [hr r h]
  unfold mpi
  dsimp only
  rw [h1, h2, h3, h0]
  rfl

/-- bytes of `n` elements of `kb` bytes at `a` -/
theorem addrs_basic (a : Int) (n kb : Nat) :
    addrs a n (Ty.basic kb) = (List.range (n * kb)).map (fun (x : Nat) => a + (x : Int)) := by
  unfold addrs
  rw [flat_basic]
  have : (idx n kb).map (fun p => (p.2 : Int) + (p.1 : Int) * kb) = (List.range (n * kb)).map (fun (x : Nat) => (x : Int)) := by
    induction n with
    | zero => rw [map_idx]; simp
    | succ n ih =>
      rw [map_idx] at ih ⊢
      rw [List.range_succ, List.flatMap_append, ih, Nat.add_mul, Nat.one_mul, List.range_add, List.map_append,
        List.map_map]
      congr 1
      simp only [List.flatMap_cons, List.flatMap_nil, List.append_nil]
      apply List.map_congr_left
      intro b _
      simp [Int.add_comm]
  rw [this, List.map_map]
  rfl

end Verif.Coll
