import Verif.Lock.Lemmas
/-! # Preservation of the lock invariant by every step -/
namespace Verif.Lock

/-- How the queue of engaged PEs changes in one access (ghost state). -/
def qstep (s : State) (p : Nat) (a : Act) (q : List Nat) : List Nat :=
  match a with
  | .run =>
    match s.pc p with
    | .setSwap => q ++ [p]
    | .testCas => if s.last = 0 then q ++ [p] else q
    | .clrCas => if s.last = myid p then q.tail else q
    | .clrSignal _ => q.tail
    | .idle => q
    | .setReset => q
    | .setLink _ => q
    | .setSpin => q
    | .held => q
    | .clrSpin => q
    | .clrReset _ => q
  | .callSet => q
  | .callTest => q
  | .callClear => q

variable {n : Nat} {s : State} {q : List Nat} {p : Nat}

/-- An engaged PE that is neither linking nor spinning in `set_lock` is the head of the queue. -/
theorem Inv.is_head (h : Inv n s q) (he : (s.pc p).engaged = true) (h1 : ∀ i, s.pc p ≠ .setLink i)
    (h2 : s.pc p ≠ .setSpin) : q.head? = some p := by
  have hm := (h.mem p).2 he
  by_cases hh : q.head? = some p
  · exact hh
  · obtain ⟨a, ha⟩ := exists_pred hm hh
    rcases (h.link a p ha).1 with h' | h' | h'
    · exact absurd h'.1 (h1 _)
    · exact absurd h'.1 h2
    · exact absurd h'.1 h2

/-- A spinning PE whose signal bit is set is the head. -/
theorem Inv.spin_head (h : Inv n s q) (h2 : s.pc p = .setSpin) (hs : SIGNAL (s.next p) ≠ 0) :
    q.head? = some p := by
  have hm := (h.mem p).2 (by simp [h2, PC.engaged])
  by_cases hh : q.head? = some p
  · exact hh
  · obtain ⟨a, ha⟩ := exists_pred hm hh
    exact absurd (h.link a p ha).2 hs

/-- A linking PE has a predecessor, the one whose id it got from the root. -/
theorem Inv.link_pred (h : Inv n s q) {i} (h2 : s.pc p = .setLink i) : ∃ a, Adj q a p ∧ i = myid a := by
  have hm := (h.mem p).2 (by simp [h2, PC.engaged])
  have hh : q.head? ≠ some p := fun hh => (h.head p hh).1 i h2
  obtain ⟨a, ha⟩ := exists_pred hm hh
  refine ⟨a, ha, ?_⟩
  rcases (h.link a p ha).1 with h' | h' | h'
  · have := h'.1; rw [h2] at this; simpa using this
  · have := h'.1; rw [h2] at this; simp at this
  · have := h'.1; rw [h2] at this; simp at this

/-- A PE passing the lock on has a successor. -/
theorem Inv.passing_succ (h : Inv n s q) (h2 : (s.pc p).passing = true) : ∃ b, Adj q p b := by
  have hm := (h.mem p).2 (by revert h2; cases s.pc p <;> simp [PC.passing, PC.engaged])
  apply exists_succ hm
  intro hc
  have := (h.tail p hc).2
  simp [h2] at this

/-- Change of a program counter that keeps the PE's role. -/
theorem Inv.pc_change (h : Inv n s q) (c : PC) (he : c.engaged = (s.pc p).engaged)
    (hpass : c.passing = true → (s.pc p).passing = true)
    (hl : ∀ i, c ≠ .setLink i) (hsp : c ≠ .setSpin) (hls : ∀ a, Adj q a p → False)
    (hswap : c = .setSwap → s.next p = 0)
    (hr : ∀ i, c = .clrReset i → ∀ b, Adj q p b → s.pc b = .setSpin ∧ i = myid b)
    (hr2 : ∀ i, s.pc p ≠ .clrSignal i) (hs : ∀ i, c ≠ .clrSignal i) :
    Inv n { s with pc := upd s.pc p c } q := by
  constructor
  · exact h.bound
  · exact h.nodup
  · intro x; by_cases hx : x = p
    · subst hx; simp [he, h.mem]
    · simp [upd_ne _ _ hx, h.mem]
  · exact h.last
  · intro a b hab
    have hb : b ≠ p := fun e => hls a (e ▸ hab)
    have hl' := h.link a b hab
    refine ⟨?_, hl'.2⟩
    by_cases ha : a = p
    · subst ha
      rcases hl'.1 with h' | h' | h'
      · left
        refine ⟨by simpa [upd_ne _ _ hb] using h'.1, h'.2.1, ?_, by simpa using hs⟩
        intro i hi; simp at hi
        have := (hr i hi b hab).1; rw [h'.1] at this; simp at this
      · right; left
        refine ⟨by simpa [upd_ne _ _ hb] using h'.1, h'.2.1, ?_, by simpa using hs⟩
        intro i hi; simp at hi
        exact (hr i hi b hab).2
      · exact absurd h'.2.1 (hr2 _)
    · simpa [LinkOK, upd_ne _ _ hb, upd_ne _ _ ha] using hl'.1
  · intro a ha
    have := h.tail a ha
    refine ⟨this.1, ?_⟩
    by_cases hx : a = p
    · subst hx; simp
      cases hc : c.passing
      · rfl
      · have := hpass hc; simp_all
    · simpa [upd_ne _ _ hx] using this.2
  · intro x hx
    by_cases hxp : x = p
    · subst hxp; simp [hl, hsp]
    · simpa [upd_ne _ _ hxp] using h.head x hx
  · exact h.out
  · intro x hx
    by_cases hxp : x = p
    · subst hxp; simp at hx; exact hswap hx
    · exact h.swap x (by simpa [upd_ne _ _ hxp] using hx)

theorem not_adj_of_not_mem (h : p ∉ q) : ∀ a, Adj q a p → False := fun _ ha => h ha.right_mem

/-- A request recorded at the root: `p` joins the queue. -/
theorem Inv.enqueue (h : Inv n s q) (hn : n ≤ INT_MAX) (hp : p < n) (hne : (s.pc p).engaged = false)
    (hsw : s.last ≠ 0 → SIGNAL (s.next p) = 0) :
    Inv n { s with last := myid p, pc := upd s.pc p (if s.last = 0 then .held else .setLink s.last) }
      (q ++ [p]) := by
  have hq : p ∉ q := by rw [h.mem]; simp [hne]
  have hlast := h.last
  have hempty : s.last = 0 → q = [] := by
    intro h0
    cases hg : q.getLast? with
    | none => simpa using hg
    | some x =>
      rw [hg, h0] at hlast
      have := h.bound x (List.mem_of_mem_getLast? hg)
      exact absurd hlast.symm (myid_ne_zero (by omega))
  constructor
  · intro x hx; simp at hx; rcases hx with hx | rfl
    · exact h.bound x hx
    · exact hp
  · rw [List.nodup_append]; simp [h.nodup]; intro a ha; rintro rfl; exact hq ha
  · intro x
    by_cases hx : x = p
    · subst hx; simp; split <;> rfl
    · simp [hx, upd_ne _ _ hx, h.mem]
  · simp
  · intro a b hab
    rw [adj_append] at hab
    rcases hab with hab | ⟨hl, rfl⟩
    · have hb : b ≠ p := by rintro rfl; exact hq hab.right_mem
      have ha : a ≠ p := by rintro rfl; exact hq hab.left_mem
      have := h.link a b hab
      refine ⟨?_, this.2⟩
      simpa [LinkOK, upd_ne _ _ hb, upd_ne _ _ ha] using this.1
    · have ha : a ≠ b := by rintro rfl; exact hq (List.mem_of_mem_getLast? hl)
      have h0 : s.last ≠ 0 := by intro h0; have := hempty h0; subst this; simp at hl
      have ht := h.tail a hl
      refine ⟨Or.inl ⟨?_, ht.1, ?_, ?_⟩, hsw h0⟩
      · have h1 : s.last = myid a := by rw [hlast, hl]
        rw [if_neg h0, h1]; simp only [upd_same]
      · intro i hi; simp only [upd_ne _ _ ha] at hi
        rw [hi] at ht; simp [PC.passing] at ht
      · intro i hi; simp only [upd_ne _ _ ha] at hi
        rw [hi] at ht; simp [PC.passing] at ht
  · intro a ha; simp at ha; subst ha
    refine ⟨h.out _ hq, ?_⟩
    simp; split <;> rfl
  · intro x hx
    cases q with
    | nil =>
      simp at hx; subst hx
      have h0 : s.last = 0 := by simpa using hlast
      simp [h0]
    | cons y t =>
      simp at hx; subst hx
      have hyp : y ≠ p := by rintro rfl; simp at hq
      simpa [upd_ne _ _ hyp] using h.head y rfl
  · intro x hx; simp at hx; exact h.out x hx.1
  · intro x hx
    by_cases hxp : x = p
    · subst hxp; simp at hx; split at hx <;> simp at hx
    · exact h.swap x (by simpa [upd_ne _ _ hxp] using hx)

/-- The last holder leaves: the queue becomes empty. -/
theorem Inv.leave (h : Inv n s q) (hn : n ≤ INT_MAX) (hp : p < n) (hpc : s.pc p = .clrCas)
    (hl : s.last = myid p) :
    q = [p] ∧ Inv n { s with last := 0, pc := upd s.pc p .idle } [] := by
  have hh : q.head? = some p := h.is_head (by simp [hpc, PC.engaged]) (by simp [hpc]) (by simp [hpc])
  have hlast := h.last
  have hg : q.getLast? = some p := by
    cases hg : q.getLast? with
    | none => rw [hg, hl] at hlast; exact absurd hlast (myid_ne_zero (by omega))
    | some x =>
      rw [hg, hl] at hlast
      have hx := h.bound x (List.mem_of_mem_getLast? hg)
      rw [myid_inj (by omega) (by omega) hlast]
  have hq : q = [p] := by
    cases q with
    | nil => simp at hh
    | cons y t =>
      simp at hh; subst hh
      cases t with
      | nil => rfl
      | cons z u =>
        rw [List.getLast?_cons_cons] at hg
        exact absurd (List.mem_of_mem_getLast? hg) (List.nodup_cons.1 h.nodup).1
  refine ⟨hq, ?_⟩
  subst hq
  have ht := h.tail p hg
  refine ⟨by simp, by simp, ?_, by simp, fun _ _ h => h.elim, by simp, by simp, ?_, ?_⟩
  · intro x
    by_cases hx : x = p
    · subst hx; simp [PC.engaged]
    · have := h.mem x; simp [hx] at this; simp [upd_ne _ _ hx, this]
  · intro x _
    by_cases hx : x = p
    · subst hx; exact ht.1
    · exact h.out x (by simpa using hx)
  · intro x hx
    by_cases hxp : x = p
    · subst hxp; simp at hx
    · exact h.swap x (by simpa [upd_ne _ _ hxp] using hx)

/-- `p` writes its id into its predecessor's word. -/
theorem Inv.linkStep (h : Inv n s q) (hn : n ≤ INT_MAX) (hp : p < n) {i} (hpc : s.pc p = .setLink i) :
    Inv n { s with next := upd s.next (rank i) (s.next (rank i) ||| myid p), pc := upd s.pc p .setSpin } q := by
  obtain ⟨a, hap, rfl⟩ := h.link_pred hpc
  have han : a < n := h.bound a hap.left_mem
  rw [rank_myid (by omega)]
  have hne : a ≠ p := hap.ne h.nodup
  have hnx : NEXT (s.next a) = 0 ∧ (∀ i, s.pc a ≠ .clrReset i) ∧ (∀ i, s.pc a ≠ .clrSignal i) := by
    rcases (h.link a p hap).1 with h' | h' | h'
    · exact h'.2
    · rw [hpc] at h'; simp at h'
    · rw [hpc] at h'; simp at h'
  have hpI : p < INT_MAX := by omega
  constructor
  · exact h.bound
  · exact h.nodup
  · intro x; by_cases hx : x = p
    · subst hx; rw [h.mem]; simp [hpc, PC.engaged]
    · simp [upd_ne _ _ hx, h.mem]
  · exact h.last
  · intro x b hxb
    have hl' := h.link x b hxb
    have hsig : SIGNAL (upd s.next a (s.next a ||| myid p) b) = 0 := by
      by_cases hb : b = a
      · subst hb; simp only [upd_same]; rw [SIGNAL_or_myid hpI]; exact hl'.2
      · simp only [upd_ne _ _ hb]; exact hl'.2
    refine ⟨?_, hsig⟩
    by_cases hx : x = a
    · subst hx
      have : b = p := hxb.right_unique h.nodup hap
      subst this
      right; left
      refine ⟨by simp, by simp only [upd_same]; exact NEXT_or_myid hpI hnx.1, ?_, ?_⟩
      · intro j hj; simp only [upd_ne _ _ hne] at hj; exact absurd hj (hnx.2.1 j)
      · intro j hj; simp only [upd_ne _ _ hne] at hj; exact absurd hj (hnx.2.2 j)
    · have hb : b ≠ p := by rintro rfl; exact hx (hxb.left_unique h.nodup hap)
      by_cases hxp : x = p
      · subst hxp
        simp only [LinkOK, upd_ne _ _ hb, upd_ne _ _ hx, upd_same]
        rcases hl'.1 with h' | h' | h'
        · exact Or.inl ⟨h'.1, h'.2.1, by simp, by simp⟩
        · exact Or.inr (Or.inl ⟨h'.1, h'.2.1, by simp, by simp⟩)
        · rw [hpc] at h'; simp at h'
      · simpa only [LinkOK, upd_ne _ _ hb, upd_ne _ _ hx, upd_ne _ _ hxp] using hl'.1
  · intro x hx
    have hxa : x ≠ a := by rintro rfl; exact adj_not_last h.nodup hap hx
    have := h.tail x hx
    refine ⟨by simpa only [upd_ne _ _ hxa] using this.1, ?_⟩
    by_cases hxp : x = p
    · subst hxp; simp [PC.passing]
    · simpa only [upd_ne _ _ hxp] using this.2
  · intro x hx
    have hxp : x ≠ p := by rintro rfl; exact adj_not_head h.nodup hap hx
    have := h.head x hx
    simp only [upd_ne _ _ hxp]
    refine ⟨this.1, fun hsp => ?_⟩
    by_cases hxa : x = a
    · subst hxa; simp only [upd_same]; rw [SIGNAL_or_myid hpI]; exact this.2 hsp
    · simp only [upd_ne _ _ hxa]; exact this.2 hsp
  · intro x hx
    have hxa : x ≠ a := by rintro rfl; exact hx hap.left_mem
    simp only [upd_ne _ _ hxa]; exact h.out x hx
  · intro x hx
    have hxp : x ≠ p := by rintro rfl; simp at hx
    simp only [upd_ne _ _ hxp] at hx
    have hxa : x ≠ a := by
      rintro rfl
      have := (h.mem x).1 hap.left_mem; rw [hx] at this; simp [PC.engaged] at this
    simp only [upd_ne _ _ hxa]; exact h.swap x hx

/-- `p`, passing the lock on, resets its own word. -/
theorem Inv.resetStep (h : Inv n s q) (hn : n ≤ INT_MAX) (hp : p < n) {i} (hpc : s.pc p = .clrReset i) :
    Inv n { s with next := upd s.next p 0, pc := upd s.pc p (.clrSignal i) } q := by
  obtain ⟨b, hb⟩ := h.passing_succ (p := p) (by simp [hpc, PC.passing])
  have hh : q.head? = some p := h.is_head (by simp [hpc, PC.engaged]) (by simp [hpc]) (by simp [hpc])
  have hnop : ∀ a, Adj q a p → False := fun a ha => adj_not_head h.nodup ha hh
  constructor
  · exact h.bound
  · exact h.nodup
  · intro x; by_cases hx : x = p
    · subst hx; rw [h.mem]; simp [hpc, PC.engaged]
    · simp [upd_ne _ _ hx, h.mem]
  · exact h.last
  · intro x c hxc
    have hl' := h.link x c hxc
    have hcp : c ≠ p := by rintro rfl; exact hnop _ hxc
    refine ⟨?_, by simpa only [upd_ne _ _ hcp] using hl'.2⟩
    by_cases hx : x = p
    · subst hx
      rcases hl'.1 with h' | h' | h'
      · exact absurd hpc (h'.2.2.1 i)
      · right; right
        simp only [upd_ne _ _ hcp, upd_same]
        exact ⟨h'.1, by rw [h'.2.2.1 i hpc], NEXT_zero⟩
      · rw [hpc] at h'; simp at h'
    · simpa only [LinkOK, upd_ne _ _ hcp, upd_ne _ _ hx] using hl'.1
  · intro x hx
    have hxp : x ≠ p := by rintro rfl; exact adj_not_last h.nodup hb hx
    simpa only [upd_ne _ _ hxp] using h.tail x hx
  · intro x hx
    rw [hh] at hx; simp at hx; subst hx; simp
  · intro x hx
    have hxp : x ≠ p := by rintro rfl; exact hx hb.left_mem
    simpa only [upd_ne _ _ hxp] using h.out x hx
  · intro x hx
    have hxp : x ≠ p := by rintro rfl; simp at hx
    simp only [upd_ne _ _ hxp] at hx ⊢
    exact h.swap x hx

/-- `p` signals its successor and leaves the queue. -/
theorem Inv.signalStep (h : Inv n s q) (hn : n ≤ INT_MAX) (hp : p < n) {i} (hpc : s.pc p = .clrSignal i) :
    ∃ b t, q = p :: b :: t ∧ i = myid b ∧ s.pc b = .setSpin ∧
    Inv n { s with next := upd s.next (rank i) (s.next (rank i) ||| SIGNAL_MASK), pc := upd s.pc p .idle }
      (b :: t) := by
  obtain ⟨b, hb⟩ := h.passing_succ (p := p) (by simp [hpc, PC.passing])
  have hh : q.head? = some p := h.is_head (by simp [hpc, PC.engaged]) (by simp [hpc]) (by simp [hpc])
  obtain ⟨u, rfl⟩ : ∃ u, q = p :: u := by
    cases q with
    | nil => simp at hh
    | cons y t => simp at hh; subst hh; exact ⟨t, rfl⟩
  have hnd := List.nodup_cons.1 h.nodup
  obtain ⟨t, rfl⟩ : ∃ t, u = b :: t := by
    rcases hb with ⟨_, hb⟩ | hb
    · cases u with
      | nil => simp at hb
      | cons y t => simp at hb; subst hb; exact ⟨t, rfl⟩
    · exact absurd hb.left_mem hnd.1
  have hl := (h.link p b hb).1
  have hib : (i = myid b ∧ s.pc b = .setSpin) ∧ NEXT (s.next p) = 0 := by
    rcases hl with h' | h' | h'
    · exact absurd hpc (h'.2.2.2 i)
    · exact absurd hpc (h'.2.2.2 i)
    · rw [hpc] at h'; simp at h'; exact ⟨⟨h'.2.1, h'.1⟩, h'.2.2⟩
  obtain ⟨hib, hnp⟩ := hib
  refine ⟨b, t, rfl, hib.1, hib.2, ?_⟩
  obtain ⟨rfl, hbpc⟩ := hib
  have hbn : b < n := h.bound b (by simp)
  rw [rank_myid (by omega)]
  have hbp : b ≠ p := by rintro rfl; simp at hnd
  constructor
  · intro x hx; exact h.bound x (List.mem_cons_of_mem _ hx)
  · exact hnd.2
  · intro x; by_cases hx : x = p
    · subst hx; simp only [upd_same]; simp only [PC.engaged]; simpa using hnd.1
    · have := h.mem x
      simp only [upd_ne _ _ hx, ← this]
      simp [hx]
  · have := h.last; rw [List.getLast?_cons_cons] at this; exact this
  · intro x c hxc
    have hl' := h.link x c (Or.inr hxc)
    have hxp : x ≠ p := by rintro rfl; exact hnd.1 hxc.left_mem
    have hcp : c ≠ p := by rintro rfl; exact hnd.1 hxc.right_mem
    have hcb : c ≠ b := by rintro rfl; exact (List.nodup_cons.1 hnd.2).1 hxc.right_mem_tail
    refine ⟨?_, by simpa only [upd_ne _ _ hcb] using hl'.2⟩
    by_cases hxb : x = b
    · subst hxb
      simpa only [LinkOK, upd_ne _ _ hcp, upd_ne _ _ hxp, upd_same, NEXT_or_signal] using hl'.1
    · simpa only [LinkOK, upd_ne _ _ hcp, upd_ne _ _ hxp, upd_ne _ _ hxb] using hl'.1
  · intro x hx
    have hx' : (p :: b :: t).getLast? = some x := by rw [List.getLast?_cons_cons]; exact hx
    have ht := h.tail x hx'
    have hxp : x ≠ p := by rintro rfl; exact hnd.1 (List.mem_of_mem_getLast? hx)
    refine ⟨?_, by simpa only [upd_ne _ _ hxp] using ht.2⟩
    by_cases hxb : x = b
    · subst hxb; simp only [upd_same, NEXT_or_signal]; exact ht.1
    · simpa only [upd_ne _ _ hxb] using ht.1
  · intro x hx; simp at hx; subst hx
    simp only [upd_ne _ _ hbp, upd_same]
    exact ⟨by simp [hbpc], fun _ => SIGNAL_or_signal _⟩
  · intro x hx
    have hxb : x ≠ b := by rintro rfl; simp at hx
    simp only [upd_ne _ _ hxb]
    by_cases hxp : x = p
    · subst hxp; exact hnp
    · exact h.out x (by simp [hxp]; simpa using hx)
  · intro x hx
    have hxp : x ≠ p := by rintro rfl; simp at hx
    simp only [upd_ne _ _ hxp] at hx
    have hxb : x ≠ b := by rintro rfl; rw [hbpc] at hx; simp at hx
    simp only [upd_ne _ _ hxb]; exact h.swap x hx

end Verif.Lock
