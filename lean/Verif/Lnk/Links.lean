import Verif.Lnk.Unlink3
import Verif.Lnk.Search
/-!
# All bins in memory
-/
namespace Verif.Lnk
open Dl (Tree Bins BInv dir keyBits idx2bit isSmall treeIndex)
open Tag (Mem ld st ld_st_same ld_st_ne ld_congr st_of_ne chunksize)

/-- the links in memory are those of the bins `b` -/
structure Links (base : Nat) (m : Mem) (b : Bins) : Prop where
  small : ∀ i < 32, b.small i ≠ [] → Seg m (sbin base i) ((b.small i).map (first base + ·)) (sbin base i)
  slot : ∀ i < 32, ld m (tbin base i) = ptr (first base) (b.tree i)
  tree : ∀ i < 32, TRep (first base) m i (tbin base i) (b.tree i)

/-- free chunks lie apart, and below 2^64 -/
structure Sep (base : Nat) (F : Nat → Option Nat) : Prop where
  sep : ∀ p s q s', F p = some s → F q = some s' → p = q ∨ p + s ≤ q ∨ q + s' ≤ p
  lt : ∀ p s, F p = some s → first base + p + s < 2 ^ 64

section
variable {base : Nat} {F : Nat → Option Nat} {b : Bins} {m m' : Mem}

theorem large_size {s : Nat} (h : isSmall s = false) : 256 ≤ s := by
  simp only [isSmall, decide_eq_false_iff_not] at h
  omega

/-- facts about a chunk in a smallbin -/
theorem BInv.of_small (v : BInv F b) {i p : Nat} (h : p ∈ b.small i) : F p = some (8 * i) ∧ i < 32 ∧ b.dv ≠ some p ∧ 32 ≤ 8 * i := by
  obtain ⟨h1, h2, h3⟩ := (v.small_mem i p).1 h
  exact ⟨h1, h2, h3, (v.size p _ h1).2⟩

/-- facts about a chunk in a trie -/
theorem BInv.of_tree (v : BInv F b) {i p s : Nat} (h : (b.tree i).mem p s) : F p = some s ∧ 256 ≤ s ∧ treeIndex s = i ∧ b.dv ≠ some p := by
  obtain ⟨h1, h2, h3, h4⟩ := (v.tree_mem i p s).1 h
  exact ⟨h1, large_size h2, h3, h4⟩

theorem tree_good (v : BInv F b) (hs : Sep base F) (i : Nat) : Good (first base) (b.tree i) (keyBits i) := by
  refine ⟨v.tree_path i, v.uniq i, fun x s y s' hx hy => ?_, fun x s hx => ?_⟩
  · have h1 := BInv.of_tree v hx
    have h2 := BInv.of_tree v hy
    have := hs.sep x s y s' h1.1 h2.1
    omega
  · have h1 := BInv.of_tree v hx
    have := hs.lt x s h1.1
    omega

/-- one smallbin stays -/
theorem seg_bin {i : Nat} {ls : List Nat} (h1 : ∀ y, sbin base i + 16 ≤ y → y < sbin base i + 32 → m' y = m y)
    (h2 : ∀ q ∈ ls, ∀ y, first base + q + 16 ≤ y → y < first base + q + 32 → m' y = m y)
    (h : Seg m (sbin base i) (ls.map (first base + ·)) (sbin base i)) : Seg m' (sbin base i) (ls.map (first base + ·)) (sbin base i) := by
  refine seg_congr (fun y hy => ?_) (fun y hy => ?_) h
  · rcases List.mem_cons.1 hy with rfl | hy
    · exact ld_congr (fun w k1 k2 => h1 w (by omega) (by omega))
    · obtain ⟨q, hq, rfl⟩ := List.mem_map.1 hy
      exact ld_congr (fun w k1 k2 => h2 q hq w (by omega) (by omega))
  · rcases List.mem_append.1 hy with hy | hy
    · obtain ⟨q, hq, rfl⟩ := List.mem_map.1 hy
      exact ld_congr (fun w k1 k2 => h2 q hq w (by omega) (by omega))
    · rw [List.mem_singleton] at hy
      subst hy
      exact ld_congr (fun w k1 k2 => h1 w (by omega) (by omega))

/-- nothing of the links is touched -/
theorem Links.congr (v : BInv F b) (h : Links base m b) (h1 : ∀ y, base + 104 ≤ y → y < base + 872 → m' y = m y)
    (h2 : ∀ q s, F q = some s → b.dv ≠ some q → ∀ y, first base + q + 16 ≤ y → y < first base + q + s → m' y = m y) : Links base m' b := by
  refine ⟨fun i hi hne => ?_, fun i hi => ?_, fun i hi => ?_⟩
  · refine seg_bin (fun y k1 k2 => h1 y ?_ ?_) (fun q hq y k1 k2 => ?_) (h.small i hi hne)
    · unfold sbin at k1; omega
    · unfold sbin at k2; omega
    · obtain ⟨e1, e2, e3, e4⟩ := BInv.of_small v hq
      exact h2 q _ e1 e3 y k1 (by omega)
  · rw [← h.slot i hi]
    refine ld_congr (fun y k1 k2 => h1 y ?_ ?_)
    · unfold tbin at k1; omega
    · unfold tbin at k2; omega
  · refine (h.tree i hi).congr ?_
    rintro y ⟨q, s, hq, k1, k2⟩
    obtain ⟨e1, e2, e3, e4⟩ := BInv.of_tree v hq
    exact h2 q s e1 e4 y k1 (by omega)

/-- only one smallbin is touched; `qs`: chunks touched -/
theorem Links.small_update (v : BInv F b) (h : Links base m b) {i : Nat} {ls qs : List Nat} {sm : BitVec 32} (hi : i < 32)
    (hqs : ∀ q ∈ qs, ∀ q' s', F q' = some s' → b.dv ≠ some q' → q' ∉ b.small i → q + 32 ≤ q' ∨ q' + s' ≤ q)
    (hf : ∀ y, (y < sbin base i + 16 ∨ sbin base i + 32 ≤ y) → (∀ q ∈ qs, y < first base + q + 16 ∨ first base + q + 32 ≤ y) → m' y = m y)
    (hseg : ls ≠ [] → Seg m' (sbin base i) (ls.map (first base + ·)) (sbin base i)) :
    Links base m' { b with small := Function.update b.small i ls, smallmap := sm } := by
  refine ⟨fun j hj hne => ?_, fun j hj => ?_, fun j hj => ?_⟩
  · by_cases e : j = i
    · subst e
      simp only [Function.update_self] at hne ⊢
      exact hseg hne
    · simp only [Function.update_of_ne e] at hne ⊢
      refine seg_bin (fun y k1 k2 => hf y ?_ (fun q hq => ?_)) (fun q' hq' y k1 k2 => hf y ?_ (fun q hq => ?_)) (h.small j hj hne)
      · unfold sbin at k1 k2 ⊢; omega
      · unfold sbin at k2; unfold first; omega
      · unfold sbin; unfold first at k1; omega
      · obtain ⟨e1, e2, e3, e4⟩ := BInv.of_small v hq'
        have := hqs q hq q' _ e1 e3 (fun hc => by
          have := (BInv.of_small v hc).1
          rw [e1] at this
          injection this with this
          omega)
        omega
  · simp only
    rw [← h.slot j hj]
    refine ld_congr (fun y k1 k2 => hf y ?_ (fun q hq => ?_))
    · unfold tbin at k1; unfold sbin; omega
    · unfold tbin at k2; unfold first; omega
  · refine (h.tree j hj).congr ?_
    rintro y ⟨q', s', hq', k1, k2⟩
    obtain ⟨e1, e2, e3, e4⟩ := BInv.of_tree v hq'
    refine hf y ?_ (fun q hq => ?_)
    · unfold sbin; unfold first at k1; omega
    · have := hqs q hq q' s' e1 e4 (fun hc => by
        have := (BInv.of_small v hc).1
        rw [e1] at this
        injection this with this
        have := (BInv.of_small v hc).2.1
        omega)
      omega

/-- only one trie is touched; `qs`: chunks touched -/
theorem Links.tree_update (v : BInv F b) (h : Links base m b) {i : Nat} {t : Tree} {qs : Nat → Nat → Prop} {tm : BitVec 32} (hi : i < 32)
    (hqs : ∀ q s, qs q s → ∀ q' s', F q' = some s' → b.dv ≠ some q' → ¬(b.tree i).mem q' s' → q + 60 ≤ q' ∨ q' + s' ≤ q)
    (hf : ∀ y, (y < tbin base i ∨ tbin base i + 8 ≤ y) → (∀ q s, qs q s → y < first base + q + 16 ∨ first base + q + 60 ≤ y) → m' y = m y)
    (hslot : ld m' (tbin base i) = ptr (first base) t) (hrep : TRep (first base) m' i (tbin base i) t) :
    Links base m' { b with tree := Function.update b.tree i t, treemap := tm } := by
  have hne : ∀ j q' s', j ≠ i → (b.tree j).mem q' s' → ¬(b.tree i).mem q' s' := by
    intro j q' s' hj h1 h2
    have e1 := (BInv.of_tree v h1).2.2.1
    have e2 := (BInv.of_tree v h2).2.2.1
    omega
  refine ⟨fun j hj hne => ?_, fun j hj => ?_, fun j hj => ?_⟩
  · refine seg_bin (fun y k1 k2 => hf y ?_ (fun q s hq => ?_)) (fun q' hq' y k1 k2 => hf y ?_ (fun q s hq => ?_)) (h.small j hj hne)
    · unfold sbin at k2; unfold tbin; omega
    · unfold sbin at k2; unfold first; omega
    · unfold tbin; unfold first at k1; omega
    · obtain ⟨e1, e2, e3, e4⟩ := BInv.of_small v hq'
      have := hqs q s hq q' _ e1 e3 (fun hc => by
        have := (BInv.of_tree v hc).2.1
        omega)
      omega
  · by_cases e : j = i
    · subst e
      simp only [Function.update_self]
      exact hslot
    · simp only [Function.update_of_ne e]
      rw [← h.slot j hj]
      refine ld_congr (fun y k1 k2 => hf y ?_ (fun q s hq => ?_))
      · unfold tbin at k1 k2 ⊢; omega
      · unfold tbin at k2; unfold first; omega
  · by_cases e : j = i
    · subst e
      simp only [Function.update_self]
      exact hrep
    · simp only [Function.update_of_ne e]
      refine (h.tree j hj).congr ?_
      rintro y ⟨q', s', hq', k1, k2⟩
      obtain ⟨e1, e2, e3, e4⟩ := BInv.of_tree v hq'
      refine hf y ?_ (fun q s hq => ?_)
      · unfold tbin; unfold first at k1; omega
      · have := hqs q s hq q' s' e1 e4 (hne j q' s' e hq')
        omega

/-! ## Operations -/

/-- `insert_small_chunk` -/
theorem insertSmall_links {c : State} {p s : Nat} (v : BInv F b) (hs : Sep base F) (h : Links base c.mem b) (hm : c.smallmap = b.smallmap)
    (hsm : isSmall s = true) (h16 : 16 ∣ s) (h32 : 32 ≤ s) (hlt : first base + p + s < 2 ^ 64)
    (hp : ∀ q s', F q = some s' → b.dv ≠ some q → p + s ≤ q ∨ q + s' ≤ p) :
    ∃ m', insertSmall base c (first base + p) s = some { c with mem := m', smallmap := (b.insertSmall p s).smallmap } ∧ Links base m' (b.insertSmall p s) ∧
      ∀ y, (y < base ∨ first base ≤ y) → (∀ q s', F q = some s' → b.dv ≠ some q → y < first base + q + 16 ∨ first base + q + s' ≤ y) →
        (y < first base + p + 16 ∨ first base + p + s ≤ y) → m' y = c.mem y := by
  obtain ⟨i, hi⟩ : ∃ i, i = s / 8 := ⟨_, rfl⟩
  have hi32 : i < 32 := by rw [hi]; simpa [isSmall] using hsm
  have hb1 : sbin base i + 32 ≤ first base := by unfold sbin first; omega
  have hb2 : sbin base i = base + 88 + 16 * i := rfl
  obtain ⟨f, hf⟩ : ∃ f, f = ((b.small i).map (first base + ·)).headD (sbin base i) := ⟨_, rfl⟩
  have hmem : ∀ q ∈ b.small i, p + 32 ≤ q ∨ q + 32 ≤ p := by
    intro q hq
    obtain ⟨e1, e2, e3, e4⟩ := BInv.of_small v hq
    have := hp q _ e1 e3
    omega
  have hmm : ∀ q ∈ b.small i, ∀ q' ∈ b.small i, q = q' ∨ q + 32 ≤ q' ∨ q' + 32 ≤ q := by
    intro q hq q' hq'
    obtain ⟨e1, e2, e3, e4⟩ := BInv.of_small v hq
    obtain ⟨f1, f2, f3, f4⟩ := BInv.of_small v hq'
    have := hs.sep q _ q' _ e1 f1
    omega
  have hmlt : ∀ q ∈ b.small i, first base + q + 32 < 2 ^ 64 := by
    intro q hq
    obtain ⟨e1, e2, e3, e4⟩ := BInv.of_small v hq
    have := hs.lt q _ e1
    omega
  have hfm : f = sbin base i ∨ ∃ q ∈ b.small i, f = first base + q := by
    rw [hf]
    rcases headD_mem ((b.small i).map (first base + ·)) (sbin base i) with e | e
    · exact .inl e
    · obtain ⟨q, hq, e⟩ := List.mem_map.1 e; exact .inr ⟨q, hq, e.symm⟩
  have hflt : f < 2 ^ 64 := by
    rcases hfm with e | ⟨q, hq, e⟩
    · omega
    · have := hmlt q hq; omega
  -- the step
  have hstep : insertSmall base c (first base + p) s = some { c with
      mem := setBk (setFd (setBk (setFd c.mem (sbin base i) (first base + p)) f (first base + p)) (first base + p) f) (first base + p) (sbin base i),
      smallmap := c.smallmap ||| idx2bit i } := by
    unfold insertSmall
    simp only
    rw [← hi]
    by_cases he : b.small i = []
    · have hbit : c.smallmap &&& idx2bit i = 0 := by
        rw [bit_test hi32, hm]
        have := (v.smallmap i hi32)
        rw [he] at this
        simpa using this
      rw [if_pos hbit]
      rw [he] at hf
      simp only [List.map_nil, List.headD_nil] at hf
      rw [hf]
    · have hbit : c.smallmap.getLsbD i = true := by rw [hm]; exact (v.smallmap i hi32).2 he
      have hfd : fd c.mem (sbin base i) = f := by rw [seg_fd (h.small i hi32 he), hf]
      rw [if_neg (by rw [bit_test hi32, hbit]; simp), hfd, if_pos, bit_or hi32 (by rw [hbit]; simp)]
      rcases hfm with e | ⟨q, hq, e⟩
      · omega
      · unfold first at e; omega
  obtain ⟨m', hm'⟩ : ∃ m', m' = setBk (setFd (setBk (setFd c.mem (sbin base i) (first base + p)) f (first base + p)) (first base + p) f) (first base + p) (sbin base i) := ⟨_, rfl⟩
  rw [← hm'] at hstep
  -- places
  have far1 : Far (sbin base i) (first base + p) := by unfold Far; omega
  have far2 : Far f (first base + p) := by
    unfold Far
    rcases hfm with e | ⟨q, hq, e⟩
    · omega
    · have := hmem q hq; omega
  have far3 : Far (sbin base i) f := by
    unfold Far
    rcases hfm with e | ⟨q, hq, e⟩
    · omega
    · omega
  have farq : ∀ q ∈ b.small i, Far (sbin base i) (first base + q) ∧ Far f (first base + q) ∧ Far (first base + p) (first base + q) := by
    intro q hq
    have h1 := hmem q hq
    refine ⟨by unfold Far; omega, ?_, by unfold Far; omega⟩
    unfold Far
    rcases hfm with e | ⟨q', hq', e⟩
    · omega
    · have := hmm q hq q' hq'; omega
  have hframe : ∀ y, (y < sbin base i + 16 ∨ sbin base i + 32 ≤ y) → (∀ q ∈ p :: b.small i, y < first base + q + 16 ∨ first base + q + 32 ≤ y) → m' y = c.mem y := by
    intro y h1 h2
    have h3 := h2 p (by simp)
    have h4 : y < f + 16 ∨ f + 32 ≤ y := by
      rcases hfm with e | ⟨q, hq, e⟩
      · omega
      · have := h2 q (by simp [hq]); omega
    rw [hm']
    simp only [setFd, setBk]
    rw [st_of_ne (by omega), st_of_ne (by omega), st_of_ne (by omega), st_of_ne (by omega)]
  have fdv : ∀ y, Far (sbin base i) y → Far f y → Far (first base + p) y → fd m' y = if y = first base + p then f else if y = sbin base i then first base + p else fd c.mem y := by
    intro y h1 h2 h3
    rw [hm', fd_setBk h3, fd_setFd hflt h3, fd_setBk h2, fd_setFd (by omega) h1]
  have bkv : ∀ y, Far (sbin base i) y → Far f y → Far (first base + p) y → bk m' y = if y = first base + p then sbin base i else if y = f then first base + p else bk c.mem y := by
    intro y h1 h2 h3
    rw [hm', bk_setBk (by omega) h3, bk_setFd h3, bk_setBk (by omega) h2, bk_setFd h1]
  have hX : ∀ q ∈ b.small i, first base + q ≠ first base + p := fun q hq => by have := hmem q hq; omega
  refine ⟨m', ?_, ?_, ?_⟩
  · rw [hstep, hm]
    simp only [Bins.insertSmall, ← hi]
  · have := h.small_update v (m' := m') (i := i) (ls := p :: b.small i) (qs := p :: b.small i) (sm := b.smallmap ||| idx2bit i) hi32 ?_ hframe ?_
    · simpa [Bins.insertSmall, ← hi] using this
    · intro q hq q' s' k1 k2 k3
      rcases List.mem_cons.1 hq with rfl | hq
      · have := hp q' s' k1 k2; omega
      · obtain ⟨e1, e2, e3, e4⟩ := BInv.of_small v hq
        have := hs.sep q _ q' s' e1 k1
        have : q ≠ q' := by rintro rfl; exact k3 hq
        omega
    · intro _
      rw [List.map_cons]
      have hnd : (sbin base i :: (first base + p) :: (b.small i).map (first base + ·)).Nodup := by
        refine List.nodup_cons.2 ⟨fun hc => ?_, List.nodup_cons.2 ⟨fun hc => ?_, nodup_add _ (v.small_nodup i)⟩⟩
        · rcases List.mem_cons.1 hc with e | e
          · omega
          · obtain ⟨q, hq, e⟩ := List.mem_map.1 e
            omega
        · obtain ⟨q, hq, e⟩ := List.mem_map.1 hc
          exact hX q hq e
      have hBp : sbin base i ≠ first base + p := by omega
      have hfp : f ≠ first base + p := by
        rcases hfm with e | ⟨q, hq, e⟩
        · omega
        · rw [e]; exact hX q hq
      refine ring_insert (m := c.mem) hnd (fun hne => h.small i hi32 (fun e => hne (by rw [e]; rfl))) ?_ ?_ ?_ ?_ ?_ ?_
      · rw [fdv _ (.inl rfl) far3.symm far1.symm, if_neg hBp, if_pos rfl]
      · rw [← hf, bkv _ far3 (.inl rfl) far2.symm, if_neg hfp, if_pos rfl]
      · rw [← hf, fdv _ far1 far2 (.inl rfl), if_pos rfl]
      · rw [bkv _ far1 far2 (.inl rfl), if_pos rfl]
      · intro y hy
        obtain ⟨q, hq, rfl⟩ := List.mem_map.1 hy
        obtain ⟨f1, f2, f3⟩ := farq q hq
        rw [fdv _ f1 f2 f3, if_neg (hX q hq), if_neg (by omega)]
      · intro y hy hne
        rw [← hf] at hne
        rcases List.mem_cons.1 hy with rfl | hy
        · rw [bkv _ (.inl rfl) far3.symm far1.symm, if_neg hBp, if_neg hne]
        · obtain ⟨q, hq, rfl⟩ := List.mem_map.1 hy
          obtain ⟨f1, f2, f3⟩ := farq q hq
          rw [bkv _ f1 f2 f3, if_neg (hX q hq), if_neg hne]
  · intro y h1 h2 h3
    refine hframe y (by omega) (fun q hq => ?_)
    rcases List.mem_cons.1 hq with rfl | hq
    · omega
    · obtain ⟨e1, e2, e3, e4⟩ := BInv.of_small v hq
      have := h2 q _ e1 e3
      omega

/-- `unlink_small_chunk` -/
theorem unlinkSmall_links {c : State} {p i : Nat} (v : BInv F b) (hs : Sep base F) (h : Links base c.mem b) (hm : c.smallmap = b.smallmap) (hp : p ∈ b.small i) :
    ∃ m', unlinkSmall base c (first base + p) (8 * i) = some { c with mem := m', smallmap := (b.unlinkSmall p (8 * i)).smallmap } ∧ Links base m' (b.unlinkSmall p (8 * i)) ∧
      (∀ y, (y < base ∨ first base ≤ y) → (∀ q s', F q = some s' → b.dv ≠ some q → y < first base + q + 16 ∨ first base + q + s' ≤ y) → m' y = c.mem y) ∧
      ((b.small i).head? = some p → unlinkFirst base c (first base + p) i = some { c with mem := m', smallmap := (b.unlinkSmall p (8 * i)).smallmap }) := by
  obtain ⟨hF, hi32, hdv, h32⟩ := BInv.of_small v hp
  have h8 : 8 * i / 8 = i := by omega
  have hb1 : sbin base i + 32 ≤ first base := by unfold sbin first; omega
  have hb2 : base ≤ sbin base i := by unfold sbin; omega
  obtain ⟨as, bs, hls⟩ := List.append_of_mem hp
  have hnd := v.small_nodup i
  have hmm : ∀ q ∈ b.small i, ∀ q' ∈ b.small i, q = q' ∨ q + 32 ≤ q' ∨ q' + 32 ≤ q := by
    intro q hq q' hq'
    obtain ⟨e1, e2, e3, e4⟩ := BInv.of_small v hq
    obtain ⟨f1, f2, f3, f4⟩ := BInv.of_small v hq'
    have := hs.sep q _ q' _ e1 f1
    omega
  have hmlt : ∀ q ∈ b.small i, first base + q + 32 < 2 ^ 64 := by
    intro q hq
    obtain ⟨e1, e2, e3, e4⟩ := BInv.of_small v hq
    have := hs.lt q _ e1
    omega
  have hring := h.small i hi32 (fun e => by rw [e] at hp; cases hp)
  rw [hls] at hnd
  have hpas : p ∉ as := by
    intro h1
    exact (List.nodup_append.1 hnd).2.2 p h1 p (by simp) rfl
  have hpbs : p ∉ bs := (List.nodup_cons.1 (List.nodup_append.1 hnd).2.1).1
  have herase : (b.small i).erase p = as ++ bs := by rw [hls, List.erase_append_right _ hpas, List.erase_cons_head]
  have hmap : (b.small i).map (first base + ·) = as.map (first base + ·) ++ (first base + p) :: bs.map (first base + ·) := by rw [hls]; simp
  rw [hmap] at hring
  obtain ⟨ra, rb⟩ := seg_append.1 hring
  obtain ⟨f, hf⟩ : ∃ f, f = (bs.map (first base + ·)).headD (sbin base i) := ⟨_, rfl⟩
  obtain ⟨g, hg⟩ : ∃ g, g = (as.map (first base + ·)).getLastD (sbin base i) := ⟨_, rfl⟩
  have hfm : f = sbin base i ∨ ∃ q ∈ bs, f = first base + q := by
    rw [hf]
    rcases headD_mem (bs.map (first base + ·)) (sbin base i) with e | e
    · exact .inl e
    · obtain ⟨q, hq, e⟩ := List.mem_map.1 e; exact .inr ⟨q, hq, e.symm⟩
  have hgm : g = sbin base i ∨ ∃ q ∈ as, g = first base + q := by
    rw [hg]
    rcases getLastD_mem (as.map (first base + ·)) (sbin base i) with e | e
    · exact .inl e
    · obtain ⟨q, hq, e⟩ := List.mem_map.1 e; exact .inr ⟨q, hq, e.symm⟩
  have hin : ∀ q, q ∈ as ∨ q ∈ bs → q ∈ b.small i := by
    intro q hq
    rw [hls]
    simp
    tauto
  have e1 : fd c.mem (first base + p) = f := by rw [seg_fd rb, hf]
  have e2 : bk c.mem (first base + p) = g := by rw [seg_bk ra, hg]
  have e3 : bk c.mem f = first base + p := by rw [hf]; exact seg_head_bk rb
  have e4 : fd c.mem g = first base + p := by rw [hg]; exact seg_last_fd ra
  have hfb : base ≤ f := by
    rcases hfm with e | ⟨q, hq, e⟩
    · omega
    · unfold first at e; omega
  have hgb : base ≤ g := by
    rcases hgm with e | ⟨q, hq, e⟩
    · omega
    · unfold first at e; omega
  -- alone or not
  have halone : g = f ↔ b.small i = [p] := by
    rw [hls]
    constructor
    · intro e
      rcases hfm with e5 | ⟨q, hq, e5⟩
      · rcases hgm with e6 | ⟨q', hq', e6⟩
        · have : as = [] := by
            cases as with
            | nil => rfl
            | cons a as' =>
              exfalso
              rcases List.eq_nil_or_concat (a :: as') with e7 | ⟨l, z, e7⟩
              · cases e7
              · rw [e7] at hg
                simp at hg
                omega
          have : bs = [] := by
            cases bs with
            | nil => rfl
            | cons a bs' =>
              exfalso
              simp at hf
              omega
          simp [*]
        · omega
      · rcases hgm with e6 | ⟨q', hq', e6⟩
        · omega
        · have : q = q' := by omega
          subst this
          exact absurd rfl ((List.nodup_append.1 hnd).2.2 q hq' q (by simp [hq]))
    · intro e
      have h1 : as = [] ∧ bs = [] := by
        cases as with
        | nil => simpa using e
        | cons a as' => simp at e
      rw [hf, hg, h1.1, h1.2]
      rfl
  by_cases hal : b.small i = [p]
  · have hgf := halone.2 hal
    refine ⟨c.mem, ?_, ?_, fun _ _ _ => rfl, fun hh => ?_⟩
    · unfold unlinkSmall
      simp only
      rw [e1, e2, h8, if_pos (.inr ⟨hfb, e3⟩), if_pos hgf]
      simp only [Bins.unlinkSmall, h8]
      rw [if_pos hal, hm]
    · have := h.small_update v (m' := c.mem) (i := i) (ls := []) (qs := []) (sm := b.smallmap &&& ~~~idx2bit i) hi32 (fun q hq => by cases hq) (fun _ _ _ => rfl) (fun h => absurd rfl h)
      simp only [Bins.unlinkSmall, h8]
      rw [if_pos hal, hal]
      simpa using this
    · have hB : f = sbin base i := by
        rcases hfm with e | ⟨q, hq, e⟩
        · exact e
        · rw [hal] at hls
          have : bs = [] := by
            cases as with
            | nil => simpa using hls.symm
            | cons a as' => simp at hls
          rw [this] at hq
          cases hq
      unfold unlinkFirst
      simp only
      rw [e1, hB, if_pos rfl]
      simp only [Bins.unlinkSmall, h8]
      rw [if_pos hal, hm]
  · have hgf : g ≠ f := fun e => hal (halone.1 e)
    obtain ⟨m', hm'⟩ : ∃ m', m' = setFd (setBk c.mem f g) g f := ⟨_, rfl⟩
    have hglt : g < 2 ^ 64 := by
      have := hmlt p hp
      rcases hgm with e | ⟨q, hq, e⟩
      · omega
      · have := hmlt q (hin q (.inl hq)); omega
    have hflt : f < 2 ^ 64 := by
      have := hmlt p hp
      rcases hfm with e | ⟨q, hq, e⟩
      · omega
      · have := hmlt q (hin q (.inr hq)); omega
    have hfar : ∀ y, (y = sbin base i ∨ ∃ q ∈ b.small i, y = first base + q) → Far f y ∧ Far g y := by
      intro y hy
      constructor
      · unfold Far
        rcases hfm with e | ⟨q, hq, e⟩ <;> rcases hy with e' | ⟨q', hq', e'⟩
        · omega
        · omega
        · omega
        · have := hmm q (hin q (.inr hq)) q' hq'; omega
      · unfold Far
        rcases hgm with e | ⟨q, hq, e⟩ <;> rcases hy with e' | ⟨q', hq', e'⟩
        · omega
        · omega
        · omega
        · have := hmm q (hin q (.inl hq)) q' hq'; omega
    have fdv : ∀ y, (y = sbin base i ∨ ∃ q ∈ b.small i, y = first base + q) → fd m' y = if y = g then f else fd c.mem y := by
      intro y hy
      rw [hm', fd_setFd hflt (hfar y hy).2, fd_setBk (hfar y hy).1]
    have bkv : ∀ y, (y = sbin base i ∨ ∃ q ∈ b.small i, y = first base + q) → bk m' y = if y = f then g else bk c.mem y := by
      intro y hy
      rw [hm', bk_setFd (hfar y hy).2, bk_setBk hglt (hfar y hy).1]
    have hframe : ∀ y, (y < sbin base i + 16 ∨ sbin base i + 32 ≤ y) → (∀ q ∈ b.small i, y < first base + q + 16 ∨ first base + q + 32 ≤ y) → m' y = c.mem y := by
      intro y h1 h2
      have h3 : y < f + 16 ∨ f + 32 ≤ y := by
        rcases hfm with e | ⟨q, hq, e⟩
        · omega
        · have := h2 q (hin q (.inr hq)); omega
      have h4 : y < g + 16 ∨ g + 32 ≤ y := by
        rcases hgm with e | ⟨q, hq, e⟩
        · omega
        · have := h2 q (hin q (.inl hq)); omega
      rw [hm']
      simp only [setFd, setBk]
      rw [st_of_ne (by omega), st_of_ne (by omega)]
    have hbins : b.unlinkSmall p (8 * i) = { b with small := Function.update b.small i (as ++ bs), smallmap := b.smallmap } := by
      simp only [Bins.unlinkSmall, h8]
      rw [if_neg hal, herase]
    refine ⟨m', ?_, ?_, ?_, fun hh => ?_⟩
    · unfold unlinkSmall
      simp only
      rw [e1, e2, h8, if_pos (.inr ⟨hfb, e3⟩), if_neg hgf, if_pos (.inr ⟨hgb, e4⟩), ← hm', hbins, ← hm]
    · rw [hbins]
      refine h.small_update v (qs := b.small i) hi32 ?_ hframe (fun _ => ?_)
      · intro q hq q' s' k1 k2 k3
        obtain ⟨e1, e2, e3, e4⟩ := BInv.of_small v hq
        have := hs.sep q _ q' s' e1 k1
        have : q ≠ q' := by rintro rfl; exact k3 hq
        omega
      · have hnd' : (sbin base i :: (as.map (first base + ·) ++ (first base + p) :: bs.map (first base + ·))).Nodup := by
          refine List.nodup_cons.2 ⟨fun hc => ?_, ?_⟩
          · rw [← hmap] at hc
            obtain ⟨q, hq, e⟩ := List.mem_map.1 hc
            omega
          · rw [← hmap]
            exact nodup_add _ (v.small_nodup i)
        have hy' : ∀ y, y ∈ sbin base i :: (as.map (first base + ·) ++ bs.map (first base + ·)) → (y = sbin base i ∨ ∃ q ∈ b.small i, y = first base + q) := by
          intro y hy
          rcases List.mem_cons.1 hy with e | hy
          · exact .inl e
          · right
            rcases List.mem_append.1 hy with hy | hy
            · obtain ⟨q, hq, e⟩ := List.mem_map.1 hy
              exact ⟨q, hin q (.inl hq), e.symm⟩
            · obtain ⟨q, hq, e⟩ := List.mem_map.1 hy
              exact ⟨q, hin q (.inr hq), e.symm⟩
        have := ring_remove (m' := m') hnd' hring ?_ ?_ ?_ ?_
        · simpa using this
        · rw [← hg, ← hf, fdv g ?_, if_pos rfl]
          rcases hgm with e | ⟨q, hq, e⟩
          · exact .inl e
          · exact .inr ⟨q, hin q (.inl hq), e⟩
        · rw [← hg, ← hf, bkv f ?_, if_pos rfl]
          rcases hfm with e | ⟨q, hq, e⟩
          · exact .inl e
          · exact .inr ⟨q, hin q (.inr hq), e⟩
        · intro y hy hne
          rw [← hg] at hne
          rw [fdv y (hy' y hy), if_neg hne]
        · intro y hy hne
          rw [← hf] at hne
          rw [bkv y (hy' y hy), if_neg hne]
    · intro y h1 h2
      refine hframe y (by omega) (fun q hq => ?_)
      obtain ⟨e1, e2, e3, e4⟩ := BInv.of_small v hq
      have := h2 q _ e1 e3
      omega
    · have has : as = [] := by
        cases as with
        | nil => rfl
        | cons a as' =>
          rw [hls] at hh
          simp at hh
          exact absurd (by simp [hh]) hpas
      have hB : g = sbin base i := by rw [hg, has]; rfl
      unfold unlinkFirst
      simp only
      rw [e1, if_neg (by rw [← hB]; exact hgf), if_pos ⟨hfb, e3⟩, ← hB, ← hm', hbins, ← hm]

/-- `unlink_large_chunk` -/
theorem unlinkLarge_links {c : State} {p s : Nat} (v : BInv F b) (hs : Sep base F) (h : Links base c.mem b) (hm : c.treemap = b.treemap) (hp : (b.tree (treeIndex s)).mem p s) :
    ∃ m', unlinkLarge base c (first base + p) = some { c with mem := m', treemap := (b.unlinkLarge p s).treemap } ∧ Links base m' (b.unlinkLarge p s) ∧
      (∀ y, (y < base ∨ first base ≤ y) → (∀ q s', F q = some s' → b.dv ≠ some q → y < first base + q + 16 ∨ first base + q + s' ≤ y) → m' y = c.mem y) := by
  have hi := Dl.treeIndex_lt s
  have g := tree_good v hs (treeIndex s)
  obtain ⟨m', e1, e2, e3, e4⟩ := unlinkLarge_spec (base := base) (c := c) (by unfold first; omega) hi g (h.tree _ hi) (h.slot _ hi) hp
  refine ⟨m', ?_, ?_, ?_⟩
  · rw [e1, hm]
    rfl
  · refine h.tree_update v (qs := fun q s' => (b.tree (treeIndex s)).mem q s') hi ?_ ?_ e3 e2
    · intro q s1 hq q' s' k1 k2 k3
      obtain ⟨f1, f2, f3, f4⟩ := BInv.of_tree v hq
      have := hs.sep q _ q' s' f1 k1
      have : q ≠ q' := by
        rintro rfl
        rw [f1] at k1
        injection k1 with k1
        subst k1
        exact k3 hq
      omega
    · intro y k1 k2
      refine e4 y ?_ k1
      rintro ⟨q, s', hq, k3, k4⟩
      have := k2 q s' hq
      omega
  · intro y k1 k2
    refine e4 y ?_ (by unfold tbin; unfold first at k1; omega)
    rintro ⟨q, s', hq, k3, k4⟩
    obtain ⟨f1, f2, f3, f4⟩ := BInv.of_tree v hq
    have := k2 q s' f1 f4
    omega

/-- `insert_large_chunk` -/
theorem insertLarge_links {c : State} {p s : Nat} (v : BInv F b) (hs : Sep base F) (h : Links base c.mem b) (hm : c.treemap = b.treemap)
    (hsm : isSmall s = false) (hlt : first base + p + s < 2 ^ 64) (hp : ∀ q s', F q = some s' → b.dv ≠ some q → p + s ≤ q ∨ q + s' ≤ p)
    (hz : ∀ q s', F q = some s' → b.dv ≠ some q → chunksize c.mem (first base + q) = s') :
    ∃ m', insertLarge base c (first base + p) s = some { c with mem := m', treemap := (b.insertLarge p s).treemap } ∧ Links base m' (b.insertLarge p s) ∧
      ∀ y, (y < base ∨ first base ≤ y) → (∀ q s', F q = some s' → b.dv ≠ some q → y < first base + q + 16 ∨ first base + q + s' ≤ y) →
        (y < first base + p + 16 ∨ first base + p + s ≤ y) → m' y = c.mem y := by
  have hi := Dl.treeIndex_lt s
  have h256 := large_size hsm
  have g := tree_good v hs (treeIndex s)
  have hmap : c.treemap &&& idx2bit (treeIndex s) = 0 ↔ b.tree (treeIndex s) = .leaf := by
    rw [bit_test hi, hm, ← Bool.not_eq_true, v.treemap _ hi, not_not]
  obtain ⟨m', e1, e2, e3, e4⟩ := insertLarge_spec (base := base) (x := p) (c := c) (by unfold first; omega) rfl rfl g (h.tree _ hi) (h.slot _ hi) (by omega)
    (fun y s' hy => by
      obtain ⟨f1, f2, f3, f4⟩ := BInv.of_tree v hy
      have := hp y s' f1 f4
      omega)
    (fun y s' hy => by
      obtain ⟨f1, f2, f3, f4⟩ := BInv.of_tree v hy
      exact hz y s' f1 f4) hmap
  refine ⟨m', ?_, ?_, ?_⟩
  · rw [e1, hm]
    rfl
  · refine h.tree_update v (qs := fun q s' => q = p ∨ (b.tree (treeIndex s)).mem q s') hi ?_ ?_ e3 e2
    · rintro q s1 (rfl | hq) q' s' k1 k2 k3
      · have := hp q' s' k1 k2; omega
      · obtain ⟨f1, f2, f3, f4⟩ := BInv.of_tree v hq
        have := hs.sep q _ q' s' f1 k1
        have : q ≠ q' := by
          rintro rfl
          rw [f1] at k1
          injection k1 with k1
          subst k1
          exact k3 hq
        omega
    · intro y k1 k2
      refine e4 y ?_ (by have := k2 p 0 (.inl rfl); omega) k1
      rintro ⟨q, s', hq, k3, k4⟩
      have := k2 q s' (.inr hq)
      omega
  · intro y k1 k2 k5
    refine e4 y ?_ (by omega) (by unfold tbin; unfold first at k1; omega)
    rintro ⟨q, s', hq, k3, k4⟩
    obtain ⟨f1, f2, f3, f4⟩ := BInv.of_tree v hq
    have := k2 q s' f1 f4
    omega

end

end Verif.Lnk
