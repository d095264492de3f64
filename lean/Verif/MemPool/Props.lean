import Verif.MemPool.Lemmas
/-!
# Properties C06–C10: the space allocator
-/
namespace Verif.MemPool

/-- A request whose chunk count is representable: not zero, rounding does not overflow `size_t`, the number of
chunks fits `int`. -/
def Valid (chunk size : Nat) : Prop :=
  1 ≤ size ∧ size + chunk - 1 < 2 ^ 64 ∧ (size + chunk - 1) / chunk ≤ IntMax

/-- Histories of a pool created over `[base, base+size)`: the pool state and the list of live blocks
(returned pointer, requested size), maintained from the returned values only. Only live blocks are freed. -/
inductive Hist (base size chunk : Nat) : Pool → List (Nat × Nat) → Prop where
  | init {p} : init base size chunk = .ok p → Hist base size chunk p []
  | alloc {p p' live sz ptr} : Hist base size chunk p live → Valid chunk sz →
      alloc p sz = .ok (p', some ptr) → Hist base size chunk p' ((ptr, sz) :: live)
  | allocNull {p p' live sz} : Hist base size chunk p live → Valid chunk sz →
      alloc p sz = .ok (p', none) → Hist base size chunk p' live
  | free {p p' l1 l2 ptr sz} : Hist base size chunk p (l1 ++ (ptr, sz) :: l2) →
      free p ptr = .ok p' → Hist base size chunk p' (l1 ++ l2)

/-- What the machine needs of a region: power-of-two chunk, chunk count fits `int`, region inside the address space. -/
structure Region (base size chunk : Nat) : Prop where
  pow : ∃ k, k < 64 ∧ chunk = 2 ^ k
  cnt : size / chunk ≤ IntMax
  fits : base + size ≤ 2 ^ 64

/-- chunks occupied by a request -/
def chunksOf (chunk size : Nat) : Nat := (size + chunk - 1) / chunk

/-- linking invariant between counters and the live list -/
structure HInv (base size chunk : Nat) (p : Pool) (live : List (Nat × Nat)) : Prop where
  wf : WF p
  hbase : p.base = base
  hchunk : p.chunk = chunk
  hlen : p.nused.length = size / chunk
  sound : ∀ x ∈ live, 1 ≤ x.2 ∧ ∃ i, nu p.nused i = chunksOf chunk x.2 ∧ x.1 = base + i * chunk
  complete : ∀ i, nu p.nused i ≠ 0 → ∃ x ∈ live, x.1 = base + i * chunk
  nodup : (live.map Prod.fst).Nodup

theorem chunksOf_pos {chunk size : Nat} (hc : 0 < chunk) (h : 1 ≤ size) : 1 ≤ chunksOf chunk size := by
  unfold chunksOf; rw [Nat.one_le_div_iff hc]; omega

theorem chunksOf_bytes {chunk : Nat} (hc : 0 < chunk) (size : Nat) : size ≤ chunksOf chunk size * chunk := by
  unfold chunksOf
  have := Nat.div_add_mod (size + chunk - 1) chunk
  have h3 := Nat.mod_lt (size + chunk - 1) hc
  rw [Nat.mul_comm] at this
  omega

/-- the index computed by `free` for an address inside the region -/
theorem offOf_in {p : Pool} (h : WF p) {ptr : Nat} (h1 : p.base ≤ ptr) (h2 : ptr < p.base + p.nused.length * p.chunk) :
    offOf p ptr = ((ptr - p.base) / p.chunk : Nat) ∧ (ptr - p.base) / p.chunk < p.nused.length := by
  have hc := h.chunk_pos
  have hf := h.fits
  have hlt : (ptr - p.base) / p.chunk < p.nused.length := by
    rw [Nat.div_lt_iff_lt_mul hc]; omega
  refine ⟨?_, hlt⟩
  unfold offOf
  have e : ((ptr : Int) - p.base) = ((ptr - p.base : Nat) : Int) := by omega
  rw [e, toU64_small (by omega), toI32_small (by have := h.max; omega)]

theorem offOf_start {p : Pool} (h : WF p) {i : Nat} (hi : i < p.nused.length) :
    offOf p (p.base + i * p.chunk) = (i : Nat) := by
  have hc := h.chunk_pos
  have hlt : i * p.chunk < p.nused.length * p.chunk := Nat.mul_lt_mul_of_pos_right hi hc
  have := (offOf_in h (ptr := p.base + i * p.chunk) (by omega) (by omega)).1
  rw [this, show p.base + i * p.chunk - p.base = i * p.chunk by omega, Nat.mul_div_cancel _ hc]

/-- `free` at the start of a live block -/
theorem free_spec {p : Pool} (h : WF p) {i : Nat} (hi : nu p.nused i ≠ 0) :
    free p (p.base + i * p.chunk) = .ok { p with nused := p.nused.set i 0 } := by
  have hlt := nu_lt hi
  unfold free
  simp only [offOf_start h hlt]
  rw [if_pos ⟨by omega, by rw [h.nch]; omega⟩, rd_eq hlt, Res.bind_ok, if_pos hi, wr_eq hlt, Res.bind_ok]

theorem wf_set_run {p : Pool} (h : WF p) {k f : Nat} (hk : 1 ≤ k) (hr : IsRun p.nused k f) :
    WF { p with nused := p.nused.set f k } :=
  ⟨h.pow, by simpa using h.nch, by simpa using h.max, by simpa using h.fits, blocks_set_run h.blocks hk hr⟩

theorem wf_set_zero {p : Pool} (h : WF p) {f : Nat} (hf : nu p.nused f ≠ 0) :
    WF { p with nused := p.nused.set f 0 } :=
  ⟨h.pow, by simpa using h.nch, by simpa using h.max, by simpa using h.fits, blocks_set_zero h.blocks hf⟩

theorem ptr_eq {p : Pool} (h : WF p) {i : Nat} (hi : i < p.nused.length) :
    (p.base + i * p.chunk) % 2 ^ 64 = p.base + i * p.chunk := by
  have hc := h.chunk_pos
  have hlt : i * p.chunk < p.nused.length * p.chunk := Nat.mul_lt_mul_of_pos_right hi hc
  have := h.fits
  exact Nat.mod_eq_of_lt (by omega)

theorem start_inj {base chunk i j : Nat} (hc : 0 < chunk) (h : base + i * chunk = base + j * chunk) : i = j :=
  Nat.eq_of_mul_eq_mul_right hc (by omega)

theorem hist_inv {base size chunk : Nat} (R : Region base size chunk) {p : Pool} {live : List (Nat × Nat)}
    (h : Hist base size chunk p live) : HInv base size chunk p live := by
  have hc : 0 < chunk := by obtain ⟨k, _, e⟩ := R.pow; rw [e]; exact Nat.pow_pos (by omega)
  induction h with
  | init hp =>
    obtain ⟨k, hk, e⟩ := R.pow
    obtain ⟨p', h1, hw, h2, h3, h4⟩ := init_wf (base := base) (size := size) hk e R.cnt R.fits
    rw [hp] at h1; cases h1
    refine ⟨hw, h2, h3, by rw [h4]; simp, by simp, ?_, by simp⟩
    intro i hi
    rw [h4] at hi
    simp [nu, List.getD_eq_getElem?_getD, List.getElem?_replicate] at hi
    split at hi <;> simp at hi
  | @alloc p p' live sz ptr _ hv ha ih =>
    have hneed : need p sz = chunksOf chunk sz := by unfold need chunksOf; rw [ih.hchunk]
    rcases alloc_spec ih.wf hv.1 (by rw [ih.hchunk]; exact hv.2.1)
      (by rw [hneed]; exact hv.2.2) with ⟨f, hr, _, e⟩ | ⟨_, e⟩
    · rw [ha] at e
      simp only [Res.ok.injEq, Prod.mk.injEq, Option.some.injEq] at e
      obtain ⟨rfl, rfl⟩ := e
      rw [hneed] at hr ⊢
      have hk := chunksOf_pos hc hv.1
      have hfl : f < p.nused.length := by have := hr.1; omega
      have hf0 : nu p.nused f = 0 := by
        by_cases h : nu p.nused f = 0
        · exact h
        · exact absurd ⟨f, by omega, by omega⟩ (hr.2 f (by omega) (by omega))
      have hpe := ptr_eq ih.wf hfl
      have hpe2 : p.base + f * p.chunk = base + f * chunk := by rw [ih.hbase, ih.hchunk]
      rw [hpe, hpe2]
      refine ⟨wf_set_run ih.wf hk hr, ih.hbase, ih.hchunk, by simpa using ih.hlen, ?_, ?_, ?_⟩
      · intro x hx
        rw [List.mem_cons] at hx
        rcases hx with rfl | hx
        · exact ⟨hv.1, f, by rw [nu_set hfl]; simp, rfl⟩
        · obtain ⟨h1, i, h2, h3⟩ := ih.sound x hx
          refine ⟨h1, i, ?_, h3⟩
          rw [nu_set hfl, if_neg]
          · exact h2
          · intro e; subst e
            have := chunksOf_pos hc h1; omega
      · intro i hi
        rw [nu_set hfl] at hi
        by_cases e : i = f
        · subst e; exact ⟨_, List.mem_cons_self, rfl⟩
        · simp only [e, if_false] at hi
          obtain ⟨x, hx, h2⟩ := ih.complete i hi
          exact ⟨x, List.mem_cons_of_mem _ hx, h2⟩
      · simp only [List.map_cons, List.nodup_cons]
        refine ⟨?_, ih.nodup⟩
        intro hm
        rw [List.mem_map] at hm
        obtain ⟨x, hx, h2⟩ := hm
        obtain ⟨h1, i, h3, h4⟩ := ih.sound x hx
        have := chunksOf_pos hc h1
        have e := start_inj hc (h4.symm.trans h2)
        subst e; omega
    · rw [ha] at e; simp at e
  | @allocNull p p' live sz _ hv ha ih =>
    have hneed : need p sz = chunksOf chunk sz := by unfold need chunksOf; rw [ih.hchunk]
    rcases alloc_spec ih.wf hv.1 (by rw [ih.hchunk]; exact hv.2.1)
      (by rw [hneed]; exact hv.2.2) with ⟨f, hr, _, e⟩ | ⟨_, e⟩
    · rw [ha] at e; simp at e
    · rw [ha] at e
      simp only [Res.ok.injEq, Prod.mk.injEq, and_true] at e
      rw [e]; exact ih
  | @free p p' l1 l2 ptr sz _ hf ih =>
    obtain ⟨h1, i, h2, h3⟩ := ih.sound (ptr, sz) (by simp)
    have hpos := chunksOf_pos hc h1
    simp only at h1 h2 h3 hpos
    have hne : nu p.nused i ≠ 0 := by omega
    have hlt := nu_lt hne
    have hs := free_spec ih.wf hne
    rw [show p.base + i * p.chunk = ptr by rw [ih.hbase, ih.hchunk, h3], hf] at hs
    simp only [Res.ok.injEq] at hs
    subst hs
    have hnd := ih.nodup
    simp only [List.map_append, List.map_cons] at hnd
    have hnotin : ∀ x ∈ l1 ++ l2, x.1 ≠ ptr := by
      intro x hx e
      have := (List.perm_middle.nodup_iff).1 hnd
      rw [List.nodup_cons] at this
      apply this.1
      rw [← e, ← List.map_append]
      exact List.mem_map_of_mem hx
    refine ⟨wf_set_zero ih.wf hne, ih.hbase, ih.hchunk, by simpa using ih.hlen, ?_, ?_, ?_⟩
    · intro x hx
      have hx' : x ∈ l1 ++ (ptr, sz) :: l2 := by
        rw [List.mem_append] at hx; rw [List.mem_append, List.mem_cons]
        rcases hx with h | h
        · exact Or.inl h
        · exact Or.inr (Or.inr h)
      obtain ⟨g1, j, g2, g3⟩ := ih.sound x hx'
      refine ⟨g1, j, ?_, g3⟩
      rw [nu_set hlt, if_neg]
      · exact g2
      · intro e; subst e; exact hnotin x hx (g3.trans h3.symm)
    · intro j hj
      rw [nu_set hlt] at hj
      by_cases e : j = i
      · simp [e] at hj
      · simp only [e, if_false] at hj
        obtain ⟨x, hx, g2⟩ := ih.complete j hj
        refine ⟨x, ?_, g2⟩
        rw [List.mem_append, List.mem_cons] at hx
        rw [List.mem_append]
        rcases hx with h | h | h
        · exact Or.inl h
        · subst h
          exact absurd (start_inj hc (g2.symm.trans h3)) e
        · exact Or.inr h
    · rw [List.map_append]
      exact ((List.perm_middle.nodup_iff).1 hnd).of_cons

/-- C06. Live blocks lie in the space's memory and are pairwise disjoint. -/
theorem C06_disjoint_in_bounds {base size chunk : Nat} (R : Region base size chunk) {p : Pool}
    {live : List (Nat × Nat)} (h : Hist base size chunk p live) :
    (∀ x ∈ live, base ≤ x.1 ∧ x.1 + x.2 ≤ base + size) ∧
    live.Pairwise (fun x y => x.1 + x.2 ≤ y.1 ∨ y.1 + y.2 ≤ x.1) := by
  have hc : 0 < chunk := by obtain ⟨k, _, e⟩ := R.pow; rw [e]; exact Nat.pow_pos (by omega)
  have I := hist_inv R h
  constructor
  · intro x hx
    obtain ⟨h1, i, h2, h3⟩ := I.sound x hx
    have hpos := chunksOf_pos hc h1
    have hb := chunksOf_bytes hc x.2
    have hle := (I.wf.blocks i (by omega)).1
    rw [h2, I.hlen] at hle
    have h5 : (i + chunksOf chunk x.2) * chunk ≤ size / chunk * chunk := Nat.mul_le_mul_right _ hle
    have h6 := Nat.div_mul_le_self size chunk
    rw [Nat.add_mul] at h5
    omega
  · have hnd := I.nodup
    rw [List.Nodup, List.pairwise_map] at hnd
    refine hnd.imp_of_mem ?_
    intro x y hx hy hne
    obtain ⟨h1, i, h2, h3⟩ := I.sound x hx
    obtain ⟨g1, j, g2, g3⟩ := I.sound y hy
    have hp := chunksOf_pos hc h1
    have hb := chunksOf_bytes hc x.2
    have gp := chunksOf_pos hc g1
    have gb := chunksOf_bytes hc y.2
    have hij : i ≠ j := by rintro rfl; exact hne (h3.trans g3.symm)
    have key : ∀ a b : Nat, nu p.nused a ≠ 0 → nu p.nused b ≠ 0 → a < b → a + nu p.nused a ≤ b := by
      intro a b ha hb hab
      by_cases hh : b < a + nu p.nused a
      · exact absurd ((I.wf.blocks a ha).2 b hab hh) hb
      · omega
    rcases Nat.lt_or_gt_of_ne hij with hlt | hlt
    · left
      have := key i j (by omega) (by omega) hlt
      rw [h2] at this
      have h5 : (i + chunksOf chunk x.2) * chunk ≤ j * chunk := Nat.mul_le_mul_right _ this
      rw [Nat.add_mul] at h5
      omega
    · right
      have := key j i (by omega) (by omega) hlt
      rw [g2] at this
      have h5 : (j + chunksOf chunk y.2) * chunk ≤ i * chunk := Nat.mul_le_mul_right _ this
      rw [Nat.add_mul] at h5
      omega

/-- the `k` chunks from chunk `f` on lie in the pool and touch no chunk of a live block -/
def Avail (base size chunk : Nat) (live : List (Nat × Nat)) (k f : Nat) : Prop :=
  f + k ≤ size / chunk ∧
  ∀ x ∈ live, base + (f + k) * chunk ≤ x.1 ∨ x.1 + chunksOf chunk x.2 * chunk ≤ base + f * chunk

theorem avail_iff {base size chunk : Nat} (R : Region base size chunk) {p : Pool} {live : List (Nat × Nat)}
    (I : HInv base size chunk p live) {k : Nat} (hk : 1 ≤ k) (f : Nat) :
    IsRun p.nused k f ↔ Avail base size chunk live k f := by
  have hc : 0 < chunk := by obtain ⟨k, _, e⟩ := R.pow; rw [e]; exact Nat.pow_pos (by omega)
  unfold IsRun Avail
  rw [I.hlen]
  constructor
  · rintro ⟨h1, h2⟩
    refine ⟨h1, ?_⟩
    intro x hx
    obtain ⟨g1, i, g2, g3⟩ := I.sound x hx
    have gp := chunksOf_pos hc g1
    by_cases hlt : f + k ≤ i
    · left; rw [g3]
      have := Nat.mul_le_mul_right chunk hlt
      omega
    · right
      by_cases h5 : i + chunksOf chunk x.2 ≤ f
      · have := Nat.mul_le_mul_right chunk h5
        rw [Nat.add_mul] at this
        omega
      · exfalso
        by_cases h6 : i ≤ f
        · exact h2 f (by omega) (by omega) ⟨i, h6, by omega⟩
        · exact h2 i (by omega) (by omega) ⟨i, by omega, by omega⟩
  · rintro ⟨h1, h2⟩
    refine ⟨h1, ?_⟩
    rintro c hc1 hc2 ⟨i, h3, h4⟩
    obtain ⟨x, hx, g⟩ := I.complete i (by omega)
    obtain ⟨g1, j, g2, g3⟩ := I.sound x hx
    have e := start_inj hc (g.symm.trans g3)
    subst e
    rcases h2 x hx with h | h
    · rw [g] at h
      have : (f + k) * chunk ≤ i * chunk := by omega
      have := Nat.le_of_mul_le_mul_right this hc
      omega
    · rw [g, ← g2] at h
      have : (i + nu p.nused i) * chunk ≤ f * chunk := by rw [Nat.add_mul]; omega
      have := Nat.le_of_mul_le_mul_right this hc
      omega

/-- C07. First fit and completeness: for every reachable pool and valid request the call returns the lowest
available run, or NULL with no available run (and then the pool is unchanged). -/
theorem C07_first_fit {base size chunk : Nat} (R : Region base size chunk) {p : Pool} {live : List (Nat × Nat)}
    (h : Hist base size chunk p live) {sz : Nat} (hv : Valid chunk sz) :
    (∃ p' f, alloc p sz = .ok (p', some (base + f * chunk)) ∧
        Avail base size chunk live (chunksOf chunk sz) f ∧
        ∀ g, g < f → ¬ Avail base size chunk live (chunksOf chunk sz) g) ∨
    (alloc p sz = .ok (p, none) ∧ ∀ g, ¬ Avail base size chunk live (chunksOf chunk sz) g) := by
  have hc : 0 < chunk := by obtain ⟨k, _, e⟩ := R.pow; rw [e]; exact Nat.pow_pos (by omega)
  have I := hist_inv R h
  have hneed : need p sz = chunksOf chunk sz := by unfold need chunksOf; rw [I.hchunk]
  have hk := chunksOf_pos hc hv.1
  rcases alloc_spec I.wf hv.1 (by rw [I.hchunk]; exact hv.2.1)
      (by rw [hneed]; exact hv.2.2) with ⟨f, hr, hfirst, e⟩ | ⟨hno, e⟩
  · left
    rw [hneed] at hr hfirst
    have hfl : f < p.nused.length := by have := hr.1; omega
    rw [ptr_eq I.wf hfl, I.hbase, I.hchunk] at e
    exact ⟨_, f, e, (avail_iff R I hk f).1 hr, fun g hg ha => hfirst g hg ((avail_iff R I hk g).2 ha)⟩
  · right
    rw [hneed] at hno
    exact ⟨e, fun g ha => hno g ((avail_iff R I hk g).2 ha)⟩

/-- C08. A live block can always be freed; afterwards a chunk is occupied iff it was occupied and does not belong to
the freed block. -/
theorem C08_free_exact {base size chunk : Nat} (R : Region base size chunk) {p : Pool} {live : List (Nat × Nat)}
    (h : Hist base size chunk p live) {x : Nat × Nat} (hx : x ∈ live) :
    ∃ p', free p x.1 = .ok p' ∧ Hist base size chunk p' (live.erase x) ∧
      ∀ c, Used p'.nused c ↔
        Used p.nused c ∧ ¬ (x.1 ≤ base + c * chunk ∧ base + c * chunk < x.1 + chunksOf chunk x.2 * chunk) := by
  have hc : 0 < chunk := by obtain ⟨k, _, e⟩ := R.pow; rw [e]; exact Nat.pow_pos (by omega)
  have I := hist_inv R h
  obtain ⟨g1, i, g2, g3⟩ := I.sound x hx
  have gp := chunksOf_pos hc g1
  have hne : nu p.nused i ≠ 0 := by omega
  have hs := free_spec I.wf hne
  rw [I.hbase, I.hchunk, ← g3] at hs
  refine ⟨_, hs, ?_, ?_⟩
  · obtain ⟨l1, l2, hnot, e1, e2⟩ := List.exists_erase_eq hx
    rw [e2]
    rw [e1] at h
    exact Hist.free (ptr := x.1) (sz := x.2) h hs
  · intro c
    rw [used_set_zero I.wf.blocks hne, g2, g3]
    have e1 : base + i * chunk ≤ base + c * chunk ↔ i ≤ c := by
      constructor
      · intro h; exact Nat.le_of_mul_le_mul_right (by omega : i * chunk ≤ c * chunk) hc
      · intro h; have := Nat.mul_le_mul_right chunk h; omega
    have e2 : base + c * chunk < base + i * chunk + chunksOf chunk x.2 * chunk ↔ c < i + chunksOf chunk x.2 := by
      constructor
      · intro h
        exact Nat.lt_of_mul_lt_mul_right (a := chunk) (by rw [Nat.add_mul]; omega)
      · intro h
        have := Nat.mul_lt_mul_of_pos_right h hc
        rw [Nat.add_mul] at this; omega
    rw [e1, e2]

/-- C08. Freeing an address of the pool whose chunk is not the first chunk of a live block aborts.
Partial: the claim for arbitrary addresses fails, see `C08_wild_pointer_accepted`. -/
theorem C08_free_rejects_partial {base size chunk : Nat} (R : Region base size chunk) {p : Pool}
    {live : List (Nat × Nat)} (h : Hist base size chunk p live) {ptr : Nat} (h1 : base ≤ ptr)
    (h2 : ptr < base + size / chunk * chunk)
    (hnot : ∀ x ∈ live, ¬ (x.1 ≤ ptr ∧ ptr < x.1 + chunk)) : free p ptr = .abort := by
  have hc : 0 < chunk := by obtain ⟨k, _, e⟩ := R.pow; rw [e]; exact Nat.pow_pos (by omega)
  have I := hist_inv R h
  obtain ⟨e, hlt⟩ := offOf_in I.wf (ptr := ptr) (by rw [I.hbase]; exact h1)
    (by rw [I.hbase, I.hlen, I.hchunk]; exact h2)
  unfold free
  simp only [e]
  rw [if_pos ⟨Int.natCast_nonneg _, by rw [I.wf.nch]; exact Int.ofNat_lt.2 hlt⟩, rd_eq hlt, Res.bind_ok, if_neg]
  intro hne
  obtain ⟨x, hx, g⟩ := I.complete _ hne
  apply hnot x hx
  rw [g, I.hbase, I.hchunk]
  have := Nat.div_add_mod (ptr - base) chunk
  have h3 := Nat.mod_lt (ptr - base) hc
  rw [Nat.mul_comm] at this
  omega

/-- C08 fails for addresses far outside the pool: the chunk number is cut to 32 bits, so an address 2^32 chunks
past a live block is accepted and frees that block. -/
theorem C08_wild_pointer_accepted :
    ∃ p live, Hist 4096 8192 4096 p live ∧ live = [(4096, 100)] ∧
      (∃ p', free p (4096 + 2 ^ 32 * 4096) = .ok p' ∧ ¬ Used p'.nused 0) := by
  let p0 : Pool := ⟨4096, 4096, 2, [0, 0]⟩
  let p1 : Pool := ⟨4096, 4096, 2, [1, 0]⟩
  have hi : Hist 4096 8192 4096 p0 [] := Hist.init (by decide +kernel)
  have ha : Hist 4096 8192 4096 p1 [(4096, 100)] :=
    Hist.alloc hi ⟨by decide +kernel, by decide +kernel, by decide +kernel⟩ (by decide +kernel : alloc p0 100 = .ok (p1, some 4096))
  refine ⟨p1, _, ha, rfl, p0, by decide +kernel, ?_⟩
  rintro ⟨i, h1, h2⟩
  have : i = 0 := by omega
  subst this; simp [p0, nu] at h2

/-- C08. When every block has been freed the pool is as new: destroying it succeeds, and a request for all of it
succeeds at the base; while a block is live, destroying aborts. -/
theorem C08_all_freed {base size chunk : Nat} (R : Region base size chunk) {p : Pool} {live : List (Nat × Nat)}
    (h : Hist base size chunk p live) :
    (live = [] → p.nused = List.replicate (size / chunk) 0 ∧ destroy p = .ok () ∧
      (1 ≤ size / chunk → Valid chunk (size / chunk * chunk) →
        ∃ p', alloc p (size / chunk * chunk) = .ok (p', some base))) ∧
    (live ≠ [] → destroy p = .abort) := by
  have hc : 0 < chunk := by obtain ⟨k, _, e⟩ := R.pow; rw [e]; exact Nat.pow_pos (by omega)
  have I := hist_inv R h
  constructor
  · rintro rfl
    have hz : ∀ i, nu p.nused i = 0 := by
      intro i
      by_cases hh : nu p.nused i = 0
      · exact hh
      · obtain ⟨x, hx, _⟩ := I.complete i hh; simp at hx
    have hall : ∀ v ∈ p.nused, v = 0 := by
      intro v hv
      obtain ⟨i, hi, e⟩ := List.mem_iff_getElem.1 hv
      have := hz i
      simp [nu, List.getD_eq_getElem?_getD, hi, e] at this
      exact this
    refine ⟨List.eq_replicate_iff.2 ⟨I.hlen, hall⟩, by unfold destroy; rw [if_pos hall], ?_⟩
    intro h1 hv
    have hck : chunksOf chunk (size / chunk * chunk) = size / chunk := by
      unfold chunksOf
      generalize size / chunk = q
      rw [show q * chunk + chunk - 1 = q * chunk + (chunk - 1) by omega, Nat.mul_comm,
        Nat.mul_add_div hc, Nat.div_eq_of_lt (by omega)]; omega
    rcases C07_first_fit R h hv with ⟨p', f, e, ha, _⟩ | ⟨_, hno⟩
    · have : f = 0 := by have := ha.1; rw [hck] at this; omega
      subst this
      exact ⟨p', by simpa using e⟩
    · exact absurd ⟨by rw [hck]; omega, by simp⟩ (hno 0)
  · intro hne
    cases live with
    | nil => exact absurd rfl hne
    | cons x t =>
      obtain ⟨g1, i, g2, g3⟩ := I.sound x (by simp)
      have gp := chunksOf_pos hc g1
      have hlt : i < p.nused.length := nu_lt (by omega)
      unfold destroy
      rw [if_neg]
      intro hall
      have := hall (p.nused[i]) (List.getElem_mem hlt)
      simp [nu, List.getD_eq_getElem?_getD, hlt, this] at g2
      omega

/-! ## C09 -/

/-- A program's calls on a space, the same on every PE: allocate, or free the block that call number `j` returned. -/
inductive Call where
  | alloc (size : Nat)
  | free (j : Nat)

/-- Execute the calls on one PE's pool; `log` collects what each allocation returned. Freeing something that was
not returned by an allocation is left out (abort). -/
def exec (p : Pool) (log : List (Option Nat)) : List Call → Res (Pool × List (Option Nat))
  | [] => .ok (p, log)
  | .alloc size :: t => (alloc p size).bind fun r => exec r.1 (log ++ [r.2]) t
  | .free j :: t => match log[j]? with
    | some (some ptr) => (free p ptr).bind fun p' => exec p' log t
    | some none => .abort
    | none => .abort

/-- the offset from the base that a pointer denotes -/
def relOff (base : Nat) (o : Option Nat) : Option Nat := o.map (fun (ptr : Nat) => toU64 ((ptr : Int) - base))

theorem relOff_mod (base d : Nat) :
    toU64 ((((base + d) % 2 ^ 64 : Nat) : Int) - base) = d % 2 ^ 64 := by
  unfold toU64; omega

/-- C09. Two PEs with different base addresses that make the same calls get the same outcome, and each allocation
returns the same offset from the PE's base (for every request size, valid or not). -/
theorem C09_symmetric_offsets (b1 b2 size chunk : Nat) (calls : List Call) {p1 p2 : Pool}
    (h1 : init b1 size chunk = .ok p1) (h2 : init b2 size chunk = .ok p2) :
    (∃ q1 l1 q2 l2, exec p1 [] calls = .ok (q1, l1) ∧ exec p2 [] calls = .ok (q2, l2) ∧
        l1.map (relOff b1) = l2.map (relOff b2)) ∨
    (exec p1 [] calls = .abort ∧ exec p2 [] calls = .abort) ∨
    (exec p1 [] calls = .ub ∧ exec p2 [] calls = .ub) ∨
    (exec p1 [] calls = .hang ∧ exec p2 [] calls = .hang) := by
  -- generalise to pools equal up to the base
  have key : ∀ (calls : List Call) (p1 p2 : Pool) (l1 l2 : List (Option Nat)),
      p1.base = b1 → p2.base = b2 → p1.chunk = p2.chunk → p1.nchunks = p2.nchunks → p1.nused = p2.nused →
      l1.map (relOff b1) = l2.map (relOff b2) →
      (∃ q1 l1' q2 l2', exec p1 l1 calls = .ok (q1, l1') ∧ exec p2 l2 calls = .ok (q2, l2') ∧
        l1'.map (relOff b1) = l2'.map (relOff b2)) ∨
      (exec p1 l1 calls = .abort ∧ exec p2 l2 calls = .abort) ∨
      (exec p1 l1 calls = .ub ∧ exec p2 l2 calls = .ub) ∨
      (exec p1 l1 calls = .hang ∧ exec p2 l2 calls = .hang) := by
    intro calls
    induction calls with
    | nil =>
      intro p1 p2 l1 l2 _ _ _ _ _ hl
      exact Or.inl ⟨p1, l1, p2, l2, rfl, rfl, hl⟩
    | cons c t ih =>
      intro p1 p2 l1 l2 e1 e2 e3 e4 e5 hl
      cases c with
      | alloc sz =>
        simp only [exec, alloc, nallocOf]
        simp only [e3, e4, e5]
        cases scan p2.nused p2.nchunks (toI32 (calignN sz p2.chunk / p2.chunk)) (p2.nused.length + 1) 0 0 with
        | abort => simp
        | ub => simp
        | hang => simp
        | ok r =>
          simp only [Res.bind_ok]
          by_cases hr : r.2 = toI32 (calignN sz p2.chunk / p2.chunk)
          · simp only [hr, if_true]
            cases wr p2.nused (r.1 - toI32 (calignN sz p2.chunk / p2.chunk))
                (toU32 (toI32 (calignN sz p2.chunk / p2.chunk))) with
            | abort => simp
            | ub => simp
            | hang => simp
            | ok nu' =>
              simp only [Res.bind_ok]
              apply ih
              · exact e1
              · exact e2
              · rfl
              · rfl
              · rfl
              · simp only [List.map_append, hl, List.map_cons, List.map_nil, relOff, Option.map_some]
                rw [e1, e2, relOff_mod, relOff_mod]
          · simp only [hr, if_false, Res.bind_ok]
            apply ih _ _ _ _ e1 e2 e3 e4 e5
            simp [hl, relOff]
      | free j =>
        have hj : (l1.map (relOff b1))[j]? = (l2.map (relOff b2))[j]? := by rw [hl]
        simp only [List.getElem?_map] at hj
        simp only [exec]
        cases g1 : l1[j]? with
        | none =>
          cases g2 : l2[j]? with
          | none => simp
          | some o => simp [g1, g2] at hj
        | some o1 =>
          cases g2 : l2[j]? with
          | none => simp [g1, g2] at hj
          | some o2 =>
            simp only [g1, g2, Option.map_some, Option.some.injEq] at hj
            cases o1 with
            | none =>
              cases o2 with
              | none => simp
              | some x => simp [relOff] at hj
            | some x1 =>
              cases o2 with
              | none => simp [relOff] at hj
              | some x2 =>
                have hj : toU64 (↑x1 - ↑b1) = toU64 (↑x2 - ↑b2) := Option.some.inj hj
                simp only [free, offOf]
                simp only [e1, e2, hj, e3, e4, e5]
                by_cases hb : 0 ≤ toI32 (toU64 (↑x2 - ↑b2) / p2.chunk) ∧
                    toI32 (toU64 (↑x2 - ↑b2) / p2.chunk) < p2.nchunks
                · simp only [hb, and_self, if_true]
                  cases rd p2.nused (toI32 (toU64 (↑x2 - ↑b2) / p2.chunk)) with
                  | abort => simp
                  | ub => simp
                  | hang => simp
                  | ok v =>
                    simp only [Res.bind_ok]
                    by_cases hv : v ≠ 0
                    · simp only [hv, ne_eq, not_false_eq_true, if_true]
                      cases wr p2.nused (toI32 (toU64 (↑x2 - ↑b2) / p2.chunk)) 0 with
                      | abort => simp
                      | ub => simp
                      | hang => simp
                      | ok l => simp only [Res.bind_ok]; exact ih _ _ _ _ rfl rfl rfl rfl rfl hl
                    · simp only [hv, if_false]; simp
                · simp only [hb, if_false]; simp
  unfold init at h1 h2
  by_cases hc : chunk = 0
  · simp [hc] at h1
  · simp only [hc, if_false] at h1 h2
    by_cases hn : toI32 (size / chunk) < 0
    · simp [hn] at h1
    · simp only [hn, if_false, Res.ok.injEq] at h1 h2
      subst h1; subst h2
      exact key calls _ _ [] [] rfl rfl rfl rfl rfl rfl

/-! ## C10 -/

/-- C10 is FALSE of the code, first way: `shmemx_space_malloc(space, 0)` on a pool whose last chunk is in use writes
past the end of the counter array. -/
theorem C10_zero_size_overflows :
    ∃ p live, Hist 4096 4096 4096 p live ∧ alloc p 0 = .ub := by
  let p0 : Pool := ⟨4096, 4096, 1, [0]⟩
  let p1 : Pool := ⟨4096, 4096, 1, [1]⟩
  have hi : Hist 4096 4096 4096 p0 [] := Hist.init (by decide +kernel)
  have ha : Hist 4096 4096 4096 p1 [(4096, 100)] :=
    Hist.alloc hi ⟨by decide +kernel, by decide +kernel, by decide +kernel⟩ (by decide +kernel : alloc p0 100 = .ok (p1, some 4096))
  exact ⟨p1, _, ha, by decide +kernel⟩

/-- C10 is FALSE of the code, second way: the chunk count is cut to an `int`; a request of 2^32+1 chunks on a pool of
one chunk returns that one chunk. -/
theorem C10_count_truncated :
    ∃ p p', Hist 4096 4096 4096 p [] ∧ alloc p ((2 ^ 32 + 1) * 4096) = .ok (p', some 4096) ∧
      p'.nused = [1] := by
  let p0 : Pool := ⟨4096, 4096, 1, [0]⟩
  exact ⟨p0, ⟨4096, 4096, 1, [1]⟩, Hist.init (by decide +kernel), by decide +kernel, rfl⟩

/-- C10, exact condition: for EVERY request size a call on a reachable pool never aborts or loops; it is undefined
exactly when the computed chunk count is 0 and the last chunk is in use. -/
theorem C10_ub_iff {base size chunk : Nat} (R : Region base size chunk) {p : Pool} {live : List (Nat × Nat)}
    (h : Hist base size chunk p live) (hpos : 1 ≤ size / chunk) (sz : Nat) :
    (alloc p sz = .ub ↔ nallocOf p sz = 0 ∧ Used p.nused (size / chunk - 1)) ∧
    (alloc p sz ≠ .ub → ∃ r, alloc p sz = .ok r) := by
  have I := hist_inv R h
  by_cases hz : nallocOf p sz ≤ 0
  · obtain ⟨na, hs, hiff⟩ := scan_nonpos I.wf.blocks I.wf.max hz (p.nused.length + 1) 0 0 (by omega) (by omega)
      (by intro i hi; omega) (by simp)
    have e : alloc p sz = (scan p.nused p.nused.length (nallocOf p sz) (p.nused.length + 1) ((0:Nat):Int) ((0:Nat):Int)).bind
      fun r => if r.2 = nallocOf p sz then
        (wr p.nused (r.1 - r.2) (toU32 (nallocOf p sz))).bind fun nused' =>
        .ok ({ p with nused := nused' }, some ((p.base + toU64 (r.1 - r.2) * p.chunk) % 2 ^ 64))
      else .ok (p, none) := by
      unfold alloc
      rw [I.wf.nch]; rfl
    rw [e, hs, Res.bind_ok]
    simp only
    rw [I.hlen] at hiff
    by_cases h0 : nallocOf p sz = 0
    · by_cases hn : na = 0
      · subst hn
        rw [if_pos (by omega)]
        have : ((p.nused.length : Int) - ((0 : Nat) : Int)) = ((p.nused.length : Nat) : Int) := by omega
        rw [this, wr_oob (Nat.le_refl _)]
        have := hiff.1 rfl
        simp only [Res.bind_ub, h0, true_and, ne_eq, not_true_eq_false, false_implies, and_true, true_iff]
        rcases this with h | h
        · omega
        · exact h
      · rw [if_neg (by omega)]
        constructor
        · constructor
          · intro h; simp at h
          · rintro ⟨_, h⟩; exact absurd (hiff.2 (Or.inr h)) hn
        · intro _; exact ⟨_, rfl⟩
    · rw [if_neg (by omega)]
      constructor
      · constructor
        · intro h; simp at h
        · rintro ⟨h, _⟩; exact absurd h h0
      · intro _; exact ⟨_, rfl⟩
  · obtain ⟨k, hk⟩ : ∃ k : Nat, nallocOf p sz = (k : Int) := ⟨(nallocOf p sz).toNat, by omega⟩
    have hk1 : 1 ≤ k := by omega
    obtain ⟨off, na, hs, hle, hcase⟩ := scan_spec I.wf.blocks I.wf.max hk1 (p.nused.length + 1) 0 0 (by omega)
      (by omega) (by omega) (by omega) (by intro i hi; omega) (by intro c _ hc; omega) (by omega)
      (by intro f hf; omega)
    have e : alloc p sz = (scan p.nused p.nused.length (k : Nat) (p.nused.length + 1) ((0:Nat):Int) ((0:Nat):Int)).bind
      fun r => if r.2 = (k : Nat) then
        (wr p.nused (r.1 - r.2) (toU32 (k : Nat))).bind fun nused' =>
        .ok ({ p with nused := nused' }, some ((p.base + toU64 (r.1 - r.2) * p.chunk) % 2 ^ 64))
      else .ok (p, none) := by
      unfold alloc
      rw [hk, I.wf.nch]; rfl
    rw [e, hs, Res.bind_ok]
    simp only
    rcases hcase with ⟨hk', hrun, hfirst⟩ | ⟨hlt, hno⟩
    · have e2 : ((off : Int) - (na : Int)) = ((off - na : Nat) : Int) := by omega
      rw [if_pos (by omega), e2, wr_eq (by have := hrun.1; omega), Res.bind_ok]
      constructor
      · constructor
        · intro h; simp at h
        · rintro ⟨h, _⟩; omega
      · intro _; exact ⟨_, rfl⟩
    · rw [if_neg (by omega)]
      constructor
      · constructor
        · intro h; simp at h
        · rintro ⟨h, _⟩; omega
      · intro _; exact ⟨_, rfl⟩

/-- C10, partial: a valid request (at least one byte, no size overflow, chunk count fits `int`) is safe on every
reachable pool and a returned block has room for the request and touches no live block's memory.
Missing: size 0 and sizes of more than 2^31-1 chunks, where the code misbehaves (see the two theorems above). -/
theorem C10_safe_partial {base size chunk : Nat} (R : Region base size chunk) {p : Pool} {live : List (Nat × Nat)}
    (h : Hist base size chunk p live) {sz : Nat} (hv : Valid chunk sz) :
    ∃ p' r, alloc p sz = .ok (p', r) ∧ ∀ ptr, r = some ptr →
      base ≤ ptr ∧ ptr + sz ≤ base + size ∧ ∀ x ∈ live, ptr + sz ≤ x.1 ∨ x.1 + x.2 ≤ ptr := by
  rcases C07_first_fit R h hv with ⟨p', f, e, _, _⟩ | ⟨e, _⟩
  · refine ⟨p', _, e, ?_⟩
    rintro ptr hp
    simp only [Option.some.injEq] at hp
    subst hp
    have h' := Hist.alloc h hv e
    obtain ⟨h1, h2⟩ := C06_disjoint_in_bounds R h'
    rw [List.pairwise_cons] at h2
    obtain ⟨h3, h4⟩ := h1 _ List.mem_cons_self
    exact ⟨h3, h4, fun x hx => h2.1 x hx⟩
  · exact ⟨p, none, e, by simp⟩

/-! ## Non-vacuity -/

/-- Region, validity and a history with two live blocks around a hole, meeting the hypotheses of C06–C10. -/
example : Region 65536 (4 * 4096) 4096 ∧ Valid 4096 5000 ∧
    ∃ p, Hist 65536 (4 * 4096) 4096 p [(65536 + 3 * 4096, 1), (65536, 4096)] ∧ p.nused = [1, 0, 0, 1] := by
  refine ⟨⟨⟨12, by decide +kernel, by decide +kernel⟩, by decide +kernel, by decide +kernel⟩, ⟨by decide +kernel, by decide +kernel, by decide +kernel⟩, ?_⟩
  let q (l : List Nat) : Pool := ⟨65536, 4096, 4, l⟩
  have h0 : Hist 65536 (4 * 4096) 4096 (q [0, 0, 0, 0]) [] := Hist.init (by decide +kernel)
  have h1 : Hist 65536 (4 * 4096) 4096 (q [1, 0, 0, 0]) [(65536, 4096)] :=
    Hist.alloc h0 ⟨by decide +kernel, by decide +kernel, by decide +kernel⟩ (by decide +kernel)
  have h2 : Hist 65536 (4 * 4096) 4096 (q [1, 2, 0, 0]) [(65536 + 4096, 5000), (65536, 4096)] :=
    Hist.alloc h1 ⟨by decide +kernel, by decide +kernel, by decide +kernel⟩ (by decide +kernel)
  have h3 : Hist 65536 (4 * 4096) 4096 (q [1, 2, 0, 1])
      [(65536 + 3 * 4096, 1), (65536 + 4096, 5000), (65536, 4096)] :=
    Hist.alloc h2 ⟨by decide +kernel, by decide +kernel, by decide +kernel⟩ (by decide +kernel)
  have h4 : Hist 65536 (4 * 4096) 4096 (q [1, 0, 0, 1]) ([(65536 + 3 * 4096, 1)] ++ [(65536, 4096)]) :=
    Hist.free (ptr := 65536 + 4096) (sz := 5000) h3 (by decide +kernel)
  exact ⟨_, h4, rfl⟩

/-- C09: two PEs with different bases, a program that reuses a freed hole. -/
example : ∃ p1 p2, init 65536 (4 * 4096) 4096 = .ok p1 ∧ init (2 * 65536) (4 * 4096) 4096 = .ok p2 ∧
    exec p1 [] [.alloc 1, .alloc 5000, .free 0, .alloc 4096] =
      .ok (⟨65536, 4096, 4, [1, 2, 0, 0]⟩, [some 65536, some (65536 + 4096), some 65536]) ∧
    exec p2 [] [.alloc 1, .alloc 5000, .free 0, .alloc 4096] =
      .ok (⟨2 * 65536, 4096, 4, [1, 2, 0, 0]⟩, [some (2 * 65536), some (2 * 65536 + 4096), some (2 * 65536)]) :=
  ⟨⟨65536, 4096, 4, [0, 0, 0, 0]⟩, ⟨2 * 65536, 4096, 4, [0, 0, 0, 0]⟩, by decide +kernel, by decide +kernel, by decide +kernel, by decide +kernel⟩

end Verif.MemPool
