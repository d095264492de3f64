import Verif.MemPool.Model
/-!
# Invariants of the chunk allocator
-/
namespace Verif.MemPool

/-- counter of chunk `i` (0 outside the array) -/
def nu (l : List Nat) (i : Nat) : Nat := l.getD i 0

/-- chunk `c` belongs to a block: some counter at `i ≤ c` covers it -/
def Used (l : List Nat) (c : Nat) : Prop := ∃ i, i ≤ c ∧ c < i + nu l i

/-- `k` chunks from `f` on exist and are all unused -/
def IsRun (l : List Nat) (k f : Nat) : Prop := f + k ≤ l.length ∧ ∀ c, f ≤ c → c < f + k → ¬ Used l c

/-- counters describe blocks: they fit in the array, counters inside a block are 0 -/
def Blocks (l : List Nat) : Prop :=
  ∀ i, nu l i ≠ 0 → i + nu l i ≤ l.length ∧ ∀ j, i < j → j < i + nu l i → nu l j = 0

theorem nu_lt {l : List Nat} {i : Nat} (h : nu l i ≠ 0) : i < l.length := by
  unfold nu at h
  by_cases hi : i < l.length
  · exact hi
  · simp [List.getD_eq_getElem?_getD, List.getElem?_eq_none (Nat.le_of_not_lt hi)] at h

theorem rd_eq {l : List Nat} {i : Nat} (h : i < l.length) : rd l (i : Int) = .ok (nu l i) := by
  unfold rd nu
  simp [h, List.getD_eq_getElem?_getD]

theorem nu_set {l : List Nat} {i v : Nat} (h : i < l.length) (j : Nat) :
    nu (l.set i v) j = if j = i then v else nu l j := by
  unfold nu
  simp only [List.getD_eq_getElem?_getD, List.getElem?_set]
  by_cases e : j = i
  · subst e; simp [h]
  · have : ¬ i = j := fun h => e h.symm
    simp [e, this]

theorem wr_eq {l : List Nat} {i v : Nat} (h : i < l.length) : wr l (i : Int) v = .ok (l.set i v) := by
  unfold wr; simp [h]

theorem wr_oob {l : List Nat} {i v : Nat} (h : l.length ≤ i) : wr l (i : Int) v = .ub := by
  unfold wr; simp; omega

/-- one step past a used block -/
theorem off_add {l : List Nat} (hb : Blocks l) (hN : l.length ≤ IntMax) {off : Nat} (h : nu l off ≠ 0) :
    toI32 (toU32 ((off : Int) + (nu l off : Nat))) = ((off + nu l off : Nat) : Int) := by
  have h1 := (hb off h).1
  have : off + nu l off ≤ IntMax := by omega
  have e : ((off : Int) + (nu l off : Nat)) = ((off + nu l off : Nat) : Int) := by omega
  rw [e, toU32_small (by unfold IntMax at this; omega), toI32_small this]

/-- scanning position: nothing before `off` reaches past it -/
def Bnd (l : List Nat) (off : Nat) : Prop := ∀ i, i < off → i + nu l i ≤ off

theorem free_at {l : List Nat} {off : Nat} (h1 : Bnd l off) (h0 : nu l off = 0) : ¬ Used l off := by
  rintro ⟨i, hi, hlt⟩
  by_cases e : i = off
  · subst e; omega
  · have := h1 i (by omega); omega

theorem scan_spec {l : List Nat} (hb : Blocks l) (hN : l.length ≤ IntMax) {k : Nat} (hk : 1 ≤ k)
    (fuel off na : Nat) (hf : l.length - off < fuel) (hoff : off ≤ l.length) (hna : na ≤ off) (hlt : na < k)
    (hbnd : Bnd l off)
    (hfree : ∀ c, off - na ≤ c → c < off → ¬ Used l c)
    (hprev : na < off → Used l (off - na - 1))
    (hno : ∀ f, f + k ≤ off → ¬ IsRun l k f) :
    ∃ off' na' : Nat, scan l l.length k fuel off na = .ok ((off' : Int), (na' : Int)) ∧ na' ≤ off' ∧
      ((na' = k ∧ IsRun l k (off' - na') ∧ ∀ f, f < off' - na' → ¬ IsRun l k f) ∨
       (na' < k ∧ ∀ f, ¬ IsRun l k f)) := by
  induction fuel generalizing off na with
  | zero => omega
  | succ fuel ih =>
    unfold scan
    by_cases hlt2 : off < l.length
    · rw [if_pos (by omega), rd_eq hlt2, Res.bind_ok]
      by_cases h0 : nu l off = 0
      · rw [if_neg (by simpa using h0)]
        have hfo := free_at hbnd h0
        by_cases hk1 : na + 1 = k
        · rw [if_pos (by omega)]
          refine ⟨off + 1, na + 1, rfl, by omega, Or.inl ⟨hk1, ?_, ?_⟩⟩
          · refine ⟨by omega, ?_⟩
            intro c hc1 hc2
            by_cases e : c = off
            · subst e; exact hfo
            · exact hfree c (by omega) (by omega)
          · intro f hf2
            exact hno f (by omega)
        · rw [if_neg (by omega)]
          have := ih (off + 1) (na + 1) (by omega) (by omega) (by omega) (by omega)
            (by intro i hi
                by_cases e : i = off
                · subst e; omega
                · have := hbnd i (by omega); omega)
            (by intro c hc1 hc2
                by_cases e : c = off
                · subst e; exact hfo
                · exact hfree c (by omega) (by omega))
            (by intro h; have := hprev (by omega)
                rwa [show off + 1 - (na + 1) - 1 = off - na - 1 by omega])
            (by intro f hf2 hrun
                by_cases e : f + k ≤ off
                · exact hno f e hrun
                · have hp := hprev (by omega)
                  exact hrun.2 _ (by omega) (by omega) hp)
          simpa using this
      · rw [if_pos (by simpa using h0), off_add hb hN h0]
        have hbo := hb off h0
        have := ih (off + nu l off) 0 (by omega) hbo.1 (by omega) (by omega)
          (by intro i hi
              by_cases h1 : i < off
              · have := hbnd i h1; omega
              · by_cases e : i = off
                · subst e; omega
                · have := hbo.2 i (by omega) hi; omega)
          (by intro c hc1 hc2; omega)
          (by intro h; exact ⟨off, by omega, by omega⟩)
          (by intro f hf2 hrun
              by_cases e : f + k ≤ off
              · exact hno f e hrun
              · exact hrun.2 (f + k - 1) (by omega) (by omega) ⟨off, by omega, by omega⟩)
        simpa using this
    · rw [if_neg (by omega)]
      refine ⟨off, na, rfl, hna, Or.inr ⟨hlt, ?_⟩⟩
      intro f hrun
      exact hno f (by have := hrun.1; omega) hrun

/-- For a request of zero or a negative number of chunks the loop runs to the end of the array. -/
theorem scan_nonpos {l : List Nat} (hb : Blocks l) (hN : l.length ≤ IntMax) {z : Int} (hz : z ≤ 0)
    (fuel off na : Nat) (hf : l.length - off < fuel) (hoff : off ≤ l.length) (hbnd : Bnd l off)
    (hlast : na = 0 ↔ (off = 0 ∨ Used l (off - 1))) :
    ∃ na' : Nat, scan l l.length z fuel off na = .ok ((l.length : Int), (na' : Int)) ∧
      (na' = 0 ↔ (l.length = 0 ∨ Used l (l.length - 1))) := by
  induction fuel generalizing off na with
  | zero => omega
  | succ fuel ih =>
    unfold scan
    by_cases hlt2 : off < l.length
    · rw [if_pos (by omega), rd_eq hlt2, Res.bind_ok]
      by_cases h0 : nu l off = 0
      · rw [if_neg (by simpa using h0), if_neg (by omega)]
        have hfo := free_at hbnd h0
        have := ih (off + 1) (na + 1) (by omega) (by omega)
          (by intro i hi
              by_cases e : i = off
              · subst e; omega
              · have := hbnd i (by omega); omega)
          (by simp [hfo])
        simpa using this
      · rw [if_pos (by simpa using h0), off_add hb hN h0]
        have hbo := hb off h0
        have := ih (off + nu l off) 0 (by omega) hbo.1
          (by intro i hi
              by_cases h1 : i < off
              · have := hbnd i h1; omega
              · by_cases e : i = off
                · subst e; omega
                · have := hbo.2 i (by omega) hi; omega)
          (by simp; right; exact ⟨off, by omega, by omega⟩)
        simpa using this
    · rw [if_neg (by omega)]
      have e : off = l.length := by omega
      subst e
      exact ⟨na, rfl, hlast⟩

/-- well-formed pool: what `init` establishes and every call keeps -/
structure WF (p : Pool) : Prop where
  pow : ∃ k, k < 64 ∧ p.chunk = 2 ^ k
  nch : p.nchunks = (p.nused.length : Int)
  max : p.nused.length ≤ IntMax
  fits : p.base + p.nused.length * p.chunk ≤ 2 ^ 64
  blocks : Blocks p.nused

theorem WF.chunk_pos {p : Pool} (h : WF p) : 0 < p.chunk := by
  obtain ⟨k, _, e⟩ := h.pow; rw [e]; exact Nat.pow_pos (by omega)

/-- number of chunks needed for `size` bytes -/
def need (p : Pool) (size : Nat) : Nat := (size + p.chunk - 1) / p.chunk

theorem nallocOf_eq {p : Pool} (h : WF p) {size : Nat} (h1 : size + p.chunk - 1 < 2 ^ 64)
    (h2 : need p size ≤ IntMax) : nallocOf p size = (need p size : Nat) := by
  obtain ⟨k, hk, e⟩ := h.pow
  unfold nallocOf
  have hp := h.chunk_pos
  rw [e] at h1 ⊢
  rw [calignN_eq hk h1, Nat.mul_div_cancel _ (by rw [← e]; exact hp)]
  unfold need at *
  rw [e] at h2
  rw [toI32_small h2, e]

theorem need_pos {p : Pool} (h : WF p) {size : Nat} (h1 : 1 ≤ size) : 1 ≤ need p size := by
  have hp := h.chunk_pos
  unfold need
  rw [Nat.one_le_div_iff hp]; omega

theorem need_bytes {p : Pool} (h : WF p) (size : Nat) : size ≤ need p size * p.chunk := by
  have hp := h.chunk_pos
  unfold need
  have := Nat.div_add_mod (size + p.chunk - 1) p.chunk
  have h3 := Nat.mod_lt (size + p.chunk - 1) hp
  rw [Nat.mul_comm] at this
  omega

theorem used_set_run {l : List Nat} {f k : Nat} (hk : 1 ≤ k) (hr : IsRun l k f) (c : Nat) :
    Used (l.set f k) c ↔ Used l c ∨ (f ≤ c ∧ c < f + k) := by
  have hfl : f < l.length := by have := hr.1; omega
  have hf0 : nu l f = 0 := by
    have := hr.2 f (by omega) (by omega)
    by_cases h : nu l f = 0
    · exact h
    · exact absurd ⟨f, by omega, by omega⟩ this
  constructor
  · rintro ⟨i, h1, h2⟩
    rw [nu_set hfl] at h2
    by_cases e : i = f
    · subst e; simp at h2; right; exact ⟨h1, h2⟩
    · simp [e] at h2; left; exact ⟨i, h1, h2⟩
  · rintro (⟨i, h1, h2⟩ | ⟨h1, h2⟩)
    · refine ⟨i, h1, ?_⟩
      rw [nu_set hfl]
      by_cases e : i = f
      · subst e; omega
      · simp [e]; exact h2
    · exact ⟨f, h1, by rw [nu_set hfl]; simp; exact h2⟩

theorem blocks_set_run {l : List Nat} (hb : Blocks l) {f k : Nat} (hk : 1 ≤ k) (hr : IsRun l k f) :
    Blocks (l.set f k) := by
  have hfl : f < l.length := by have := hr.1; omega
  intro i hi
  rw [nu_set hfl] at hi ⊢
  rw [List.length_set]
  by_cases e : i = f
  · subst e
    simp only [if_true] at hi ⊢
    refine ⟨hr.1, ?_⟩
    intro j h1 h2
    rw [nu_set hfl, if_neg (by omega)]
    by_cases h : nu l j = 0
    · exact h
    · exact absurd ⟨j, by omega, by omega⟩ (hr.2 j (by omega) (by omega))
  · simp only [e, if_false] at hi ⊢
    refine ⟨(hb i hi).1, ?_⟩
    intro j h1 h2
    rw [nu_set hfl]
    by_cases e2 : j = f
    · subst e2; exact absurd ⟨i, by omega, h2⟩ (hr.2 j (by omega) (by omega))
    · simp only [e2, if_false]; exact (hb i hi).2 j h1 h2

theorem used_set_zero {l : List Nat} (hb : Blocks l) {f : Nat} (hf : nu l f ≠ 0) (c : Nat) :
    Used (l.set f 0) c ↔ Used l c ∧ ¬ (f ≤ c ∧ c < f + nu l f) := by
  have hfl := nu_lt hf
  constructor
  · rintro ⟨i, h1, h2⟩
    rw [nu_set hfl] at h2
    by_cases e : i = f
    · subst e; simp at h2; omega
    · simp [e] at h2
      refine ⟨⟨i, h1, h2⟩, ?_⟩
      rintro ⟨h3, h4⟩
      by_cases h5 : i < f
      · exact absurd ((hb i (by omega)).2 f h5 (by omega)) hf
      · have := (hb f hf).2 i (by omega) (by omega); omega
  · rintro ⟨⟨i, h1, h2⟩, hn⟩
    refine ⟨i, h1, ?_⟩
    rw [nu_set hfl, if_neg]
    · exact h2
    · intro e; subst e; exact hn ⟨h1, h2⟩

theorem blocks_set_zero {l : List Nat} (hb : Blocks l) {f : Nat} (hf : nu l f ≠ 0) : Blocks (l.set f 0) := by
  have hfl := nu_lt hf
  intro i hi
  rw [nu_set hfl] at hi ⊢
  rw [List.length_set]
  by_cases e : i = f
  · subst e; simp at hi
  · simp only [e, if_false] at hi ⊢
    refine ⟨(hb i hi).1, ?_⟩
    intro j h1 h2
    rw [nu_set hfl]
    by_cases e2 : j = f
    · simp [e2]
    · simp only [e2, if_false]; exact (hb i hi).2 j h1 h2

theorem init_wf {base size chunk : Nat} {k : Nat} (hk : k < 64) (hc : chunk = 2 ^ k)
    (hn : size / chunk ≤ IntMax) (hf : base + size ≤ 2 ^ 64) :
    ∃ p, init base size chunk = .ok p ∧ WF p ∧ p.base = base ∧ p.chunk = chunk ∧
      p.nused = List.replicate (size / chunk) 0 := by
  have hpos : 0 < chunk := by rw [hc]; exact Nat.pow_pos (by omega)
  refine ⟨{ base := base, chunk := chunk, nchunks := (size / chunk : Nat),
            nused := List.replicate (size / chunk) 0 }, ?_, ?_, rfl, rfl, rfl⟩
  · unfold init
    rw [if_neg (by omega)]
    simp only [toI32_small hn]
    generalize size / chunk = q
    rw [if_neg (by omega)]
    simp
  · refine ⟨⟨k, hk, hc⟩, by simp, by simpa using hn, ?_, ?_⟩
    · simp only [List.length_replicate]
      have := Nat.div_mul_le_self size chunk
      omega
    · intro i hi
      simp [nu, List.getD_eq_getElem?_getD, List.getElem?_replicate] at hi
      split at hi <;> simp at hi

/-- Complete description of `alloc` for a valid request. -/
theorem alloc_spec {p : Pool} (h : WF p) {size : Nat} (h0 : 1 ≤ size) (h1 : size + p.chunk - 1 < 2 ^ 64)
    (h2 : need p size ≤ IntMax) :
    (∃ f, IsRun p.nused (need p size) f ∧ (∀ g, g < f → ¬ IsRun p.nused (need p size) g) ∧
      alloc p size = .ok ({ p with nused := p.nused.set f (need p size) },
        some ((p.base + f * p.chunk) % 2 ^ 64))) ∨
    ((∀ f, ¬ IsRun p.nused (need p size) f) ∧ alloc p size = .ok (p, none)) := by
  have hk := need_pos h h0
  obtain ⟨off, na, hs, hle, hcase⟩ := scan_spec h.blocks h.max hk (p.nused.length + 1) 0 0 (by omega) (by omega)
    (by omega) (by omega) (by intro i hi; omega) (by intro c _ hc; omega) (by omega)
    (by intro f hf; omega)
  have e : alloc p size = (scan p.nused p.nused.length (need p size : Nat) (p.nused.length + 1) ((0:Nat):Int) ((0:Nat):Int)).bind
      fun r => if r.2 = (need p size : Nat) then
        (wr p.nused (r.1 - r.2) (toU32 (need p size : Nat))).bind fun nused' =>
        .ok ({ p with nused := nused' }, some ((p.base + toU64 (r.1 - r.2) * p.chunk) % 2 ^ 64))
      else .ok (p, none) := by
    unfold alloc
    rw [nallocOf_eq h h1 h2, h.nch]; rfl
  rw [e, hs, Res.bind_ok]
  rcases hcase with ⟨hk', hrun, hfirst⟩ | ⟨hlt, hno⟩
  · left
    refine ⟨off - na, hrun, hfirst, ?_⟩
    have e2 : ((off : Int) - (na : Int)) = ((off - na : Nat) : Int) := by omega
    simp only [e2]
    rw [if_pos (by rw [hk']), wr_eq (by have := hrun.1; omega), Res.bind_ok,
      toU32_small (by unfold IntMax at h2; omega), toU64_small]
    have := hrun.1; have := h.max; unfold IntMax at this; omega
  · right
    refine ⟨hno, ?_⟩
    simp only
    rw [if_neg (by omega)]

end Verif.MemPool
