import Verif.Coll.Model
import Mathlib.Data.List.Dedup
/-!
# C33: the communicator of an active set is the set, and the cache is transparent
-/
namespace Verif.Coll
open Verif.Rma

/-- the set of all PEs, which uses the world communicator -/
def World (npes : Nat) (k : ASet) : Prop := k.start = 0 ∧ k.lg = 0 ∧ k.size = npes

instance (npes : Nat) (k : ASet) : Decidable (World npes k) := by unfold World; infer_instance

/-- A process has made the collective calls `ks` (latest first) since initialisation; `made` are the communicators it
created (latest first). -/
inductive Hist (npes : Nat) : List ASet → List (List Nat) → Cache → Prop
  | nil : Hist npes [] [] Cache.init
  | call {ks : List ASet} {made : List (List Nat)} {c c' : Cache} {k : ASet} {comm : List Nat} {b : Bool}
      (h : Hist npes ks made c) (e : acquire npes c k = .ok (comm, c', b)) :
      Hist npes (k :: ks) (if b then comm :: made else made) c'

/-- an active set a program may use: non-empty, within the PEs, with a stride that fits an `int` -/
def Valid (npes : Nat) (k : ASet) : Prop :=
  1 ≤ k.size ∧ k.lg < 31 ∧ k.start + (k.size - 1) * 2 ^ k.lg < npes

theorem find_some {c : Cache} {k : ASet} {comm : List Nat} (h : c.find k = some comm) : ⟨k, comm⟩ ∈ c.objs := by
  unfold Cache.find at h
  rw [Option.map_eq_some_iff] at h
  obtain ⟨e, he, rfl⟩ := h
  have h1 := List.mem_of_find?_eq_some he
  have h2 := List.find?_some he
  obtain ⟨⟨s, l, z⟩, cm⟩ := e
  obtain ⟨s', l', z'⟩ := k
  simp only [Bool.and_eq_true, beq_iff_eq] at h2
  obtain ⟨⟨rfl, rfl⟩, rfl⟩ := h2
  exact h1

theorem find_none {c : Cache} {k : ASet} (h : c.find k = none) : ∀ e ∈ c.objs, e.key ≠ k := by
  unfold Cache.find at h
  rw [Option.map_eq_none_iff, List.find?_eq_none] at h
  intro e he hk
  apply h e he
  subst hk
  simp

theorem newComm_ok {npes : Nat} {k : ASet} {comm : List Nat} (h : newComm npes k = .ok comm) : comm = k.pes := by
  unfold newComm at h
  split at h
  · cases h
  split at h
  · cases h
  split at h
  · cases h
  split at h
  · cases h
  · cases h; rfl

structure CInv (npes : Nat) (ks : List ASet) (made : List (List Nat)) (c : Cache) : Prop where
  good : ∀ e ∈ c.objs, e.comm = e.key.pes
  keys : ∀ k, (∃ e ∈ c.objs, e.key = k) ↔ k ∈ ks ∧ ¬ World npes k
  count : c.nobjs = c.objs.length
  made : c.objs.map (·.comm) = made
  nodup : (c.objs.map (·.key)).Nodup

theorem cinv_hist {npes : Nat} {ks : List ASet} {made : List (List Nat)} {c : Cache} (h : Hist npes ks made c) :
    CInv npes ks made c := by
  induction h with
  | nil =>
    refine ⟨?_, ?_, rfl, rfl, List.nodup_nil⟩
    · intro e he; cases he
    · intro k; constructor
      · rintro ⟨e, he, _⟩; cases he
      · rintro ⟨h, _⟩; cases h
  | @call ks made c c' k comm b h e ih =>
    unfold acquire at e
    split at e
    · rename_i hw
      cases e
      refine ⟨ih.good, ?_, ih.count, ih.made, ih.nodup⟩
      intro q
      rw [ih.keys]
      constructor
      · rintro ⟨h1, h2⟩; exact ⟨List.mem_cons_of_mem _ h1, h2⟩
      · rintro ⟨h1, h2⟩
        rcases List.mem_cons.1 h1 with rfl | h1
        · exact absurd hw h2
        · exact ⟨h1, h2⟩
    · rename_i hw
      split at e
      · rename_i cm hf
        cases e
        have hm := find_some hf
        refine ⟨ih.good, ?_, ih.count, ih.made, ih.nodup⟩
        intro q
        rw [ih.keys]
        constructor
        · rintro ⟨h1, h2⟩; exact ⟨List.mem_cons_of_mem _ h1, h2⟩
        · rintro ⟨h1, h2⟩
          rcases List.mem_cons.1 h1 with rfl | h1
          · exact (ih.keys q).mp ⟨_, hm, rfl⟩
          · exact ⟨h1, h2⟩
      · rename_i hf
        cases hn : newComm npes k with
        | ok cm =>
          rw [hn] at e
          simp only [Res.bind_ok] at e
          cases e
          have hg := newComm_ok hn
          refine ⟨?_, ?_, ?_, ?_, ?_⟩
          · intro e he
            rcases List.mem_cons.1 he with rfl | he
            · exact hg
            · exact ih.good e he
          · intro q
            constructor
            · rintro ⟨e, he, rfl⟩
              rcases List.mem_cons.1 he with rfl | he
              · exact ⟨by simp, hw⟩
              · obtain ⟨h1, h2⟩ := (ih.keys e.key).mp ⟨e, he, rfl⟩
                exact ⟨List.mem_cons_of_mem _ h1, h2⟩
            · rintro ⟨h1, h2⟩
              rcases List.mem_cons.1 h1 with rfl | h1
              · exact ⟨⟨q, comm⟩, by simp [Cache.set], rfl⟩
              · obtain ⟨e, he, e'⟩ := (ih.keys q).mpr ⟨h1, h2⟩
                exact ⟨e, List.mem_cons_of_mem _ he, e'⟩
          · show c.nobjs + 1 = ((_ :: c.objs).length : Int)
            rw [ih.count]; simp
          · show comm :: c.objs.map (·.comm) = comm :: made
            rw [ih.made]
          · show (k :: c.objs.map (·.key)).Nodup
            rw [List.nodup_cons]
            refine ⟨?_, ih.nodup⟩
            intro hm
            obtain ⟨e, he, e'⟩ := List.mem_map.mp hm
            exact find_none hf e he e'
        | abort => rw [hn] at e; cases e
        | ub => rw [hn] at e; cases e
        | hang => rw [hn] at e; cases e

/-- **C33** After any history of collective calls on any active sets, the communicator used for an active set has exactly
the set's PEs, PE `start + i * 2^logstride` at rank `i`. -/
theorem C33_comm {npes : Nat} {ks : List ASet} {made : List (List Nat)} {c c' : Cache} {k : ASet} {comm : List Nat} {b : Bool}
    (h : Hist npes ks made c) (e : acquire npes c k = .ok (comm, c', b)) :
    comm.length = k.size ∧ ∀ i < k.size, comm[i]? = some (k.start + i * 2 ^ k.lg) := by
  have key : comm = k.pes := by
    unfold acquire at e
    split at e
    · rename_i hw
      cases e
      obtain ⟨h1, h2, h3⟩ := hw
      unfold ASet.pes
      rw [h1, h2, h3]
      simp
    · split at e
      · rename_i cm hf
        cases e
        exact (cinv_hist h).good _ (find_some hf)
      · cases hn : newComm npes k with
        | ok cm =>
          rw [hn] at e
          simp only [Res.bind_ok] at e
          cases e
          exact newComm_ok hn
        | abort => rw [hn] at e; cases e
        | ub => rw [hn] at e; cases e
        | hang => rw [hn] at e; cases e
  subst key
  unfold ASet.pes
  refine ⟨by simp, ?_⟩
  intro i hi
  simp [hi]

/-- Every valid active set gets its communicator. -/
theorem C33_total {npes : Nat} (hN : npes ≤ 2 ^ 31) (c : Cache) {k : ASet} (hv : Valid npes k) :
    ∃ comm c' b, acquire npes c k = .ok (comm, c', b) := by
  obtain ⟨h1, h2, h3⟩ := hv
  have hp : ∀ p ∈ k.pes, p < npes := by
    intro p hp
    unfold ASet.pes at hp
    obtain ⟨i, hi, rfl⟩ := List.mem_map.mp hp
    rw [List.mem_range] at hi
    have : i * 2 ^ k.lg ≤ (k.size - 1) * 2 ^ k.lg := Nat.mul_le_mul_right _ (by omega)
    omega
  unfold acquire
  split
  · exact ⟨_, _, _, rfl⟩
  · split
    · exact ⟨_, _, _, rfl⟩
    · refine ⟨k.pes, c.set k k.pes, true, ?_⟩
      unfold newComm
      have a1 : k.pes.any (fun p => decide (IntMax < p)) = false := by
        rw [List.any_eq_false]
        intro p h
        have := hp p h
        have h2 : ¬ IntMax < p := by unfold IntMax; omega
        simpa using h2
      have a2 : k.pes.any (fun p => decide (npes ≤ p)) = false := by
        rw [List.any_eq_false]
        intro p h
        have := hp p h
        simp only [decide_eq_true_eq]
        omega
      rw [if_neg (by omega), if_neg (by omega), a1, a2]
      rfl

/-- The collective creation of a communicator happens exactly on the first use of a set (and never for the set of all
PEs). -/
theorem C33_created {npes : Nat} {ks : List ASet} {made : List (List Nat)} {c c' : Cache} {k : ASet} {comm : List Nat} {b : Bool}
    (h : Hist npes ks made c) (e : acquire npes c k = .ok (comm, c', b)) : b = true ↔ k ∉ ks ∧ ¬ World npes k := by
  have hk := (cinv_hist h).keys k
  unfold acquire at e
  split at e
  · rename_i hw
    cases e
    constructor
    · intro h; cases h
    · rintro ⟨_, h⟩; exact absurd hw h
  · rename_i hw
    split at e
    · rename_i cm hf
      cases e
      constructor
      · intro h; cases h
      · rintro ⟨h, _⟩; exact absurd (hk.mp ⟨_, find_some hf, rfl⟩).1 h
    · rename_i hf
      cases hn : newComm npes k with
      | ok cm =>
        rw [hn] at e
        simp only [Res.bind_ok] at e
        cases e
        refine ⟨fun _ => ⟨?_, hw⟩, fun _ => rfl⟩
        intro hm
        obtain ⟨e, he, e'⟩ := hk.mpr ⟨hm, hw⟩
        exact find_none hf e he e'
      | abort => rw [hn] at e; cases e
      | ub => rw [hn] at e; cases e
      | hang => rw [hn] at e; cases e

/-- Two PEs that have made the same number of calls on the set, whatever else they did, either both take part in the
creation of the communicator or neither does: the hit/miss decision cannot deadlock. -/
theorem C33_agree {npes : Nat} {ks₁ ks₂ : List ASet} {made₁ made₂ : List (List Nat)} {c₁ c₂ c₁' c₂' : Cache} {k : ASet}
    {comm₁ comm₂ : List Nat} {b₁ b₂ : Bool}
    (h₁ : Hist npes ks₁ made₁ c₁) (h₂ : Hist npes ks₂ made₂ c₂) (hc : ks₁.count k = ks₂.count k)
    (e₁ : acquire npes c₁ k = .ok (comm₁, c₁', b₁)) (e₂ : acquire npes c₂ k = .ok (comm₂, c₂', b₂)) :
    b₁ = b₂ ∧ comm₁ = comm₂ := by
  have g1 := C33_created h₁ e₁
  have g2 := C33_created h₂ e₂
  have hm : k ∉ ks₁ ↔ k ∉ ks₂ := by
    rw [← List.count_eq_zero, ← List.count_eq_zero, hc]
  refine ⟨?_, ?_⟩
  · rw [Bool.eq_iff_iff, g1, g2, hm]
  · obtain ⟨l1, i1⟩ := C33_comm h₁ e₁
    obtain ⟨l2, i2⟩ := C33_comm h₂ e₂
    apply List.ext_getElem?
    intro i
    by_cases hi : i < k.size
    · rw [i1 i hi, i2 i hi]
    · rw [List.getElem?_eq_none (by omega), List.getElem?_eq_none (by omega)]

/-- Finalization passes its assertion and frees every communicator created, once each. -/
theorem C33_finalize {npes : Nat} {ks : List ASet} {made : List (List Nat)} {c : Cache} (h : Hist npes ks made c) :
    c.finalize = .ok made := by
  have hi := cinv_hist h
  unfold Cache.finalize
  rw [if_pos (by rw [hi.count]; omega), hi.made]

/-- the number of communicators created is the number of different sets used other than the set of all PEs -/
theorem C33_made_count {npes : Nat} {ks : List ASet} {made : List (List Nat)} {c : Cache} (h : Hist npes ks made c) :
    made.length = (ks.filter (fun k => ¬ World npes k)).dedup.length := by
  have hi := cinv_hist h
  rw [← hi.made, List.length_map]
  have : (c.objs.map (·.key)).length = (ks.filter (fun k => ¬ World npes k)).dedup.length := by
    apply List.Perm.length_eq
    rw [List.perm_ext_iff_of_nodup hi.nodup (List.nodup_dedup _)]
    intro k
    rw [List.mem_dedup, List.mem_filter, List.mem_map]
    have := hi.keys k
    constructor
    · rintro ⟨e, he, rfl⟩
      have := this.mp ⟨e, he, rfl⟩
      exact ⟨this.1, by simpa using this.2⟩
    · rintro ⟨h1, h2⟩
      exact this.mpr ⟨h1, by simpa using h2⟩
  rw [← this, List.length_map]

/-- non-trivial case: sets {1,3,5}, {0,…,7}, {1,3,5} again on 8 PEs -/
example : ∃ made c, Hist 8 [⟨1, 1, 3⟩, ⟨0, 0, 8⟩, ⟨1, 1, 3⟩] made c ∧ made = [[1, 3, 5]] ∧
    acquire 8 c ⟨1, 1, 3⟩ = .ok ([1, 3, 5], c, false) :=
  ⟨_, _, .call (.call (.call .nil rfl) rfl) rfl, rfl, rfl⟩

example : Valid 8 ⟨1, 1, 3⟩ := by unfold Valid; decide

end Verif.Coll
