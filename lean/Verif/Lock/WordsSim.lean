import Verif.Lock.Words
import Verif.Lock.Sim
import Verif.Sobj.Props
/-! # Each lock in memory behaves like the lock of `Verif.Lock.Model` -/
namespace Verif.Lock

/-! ## Bytes and words -/

theorem add_ofNat_ne (a : BitVec 64) {i j : Nat} (hi : i < 8) (hj : j < 8) (h : i ≠ j) :
    a + BitVec.ofNat 64 i ≠ a + BitVec.ofNat 64 j := by
  intro e
  have e1 : BitVec.ofNat 64 i = BitVec.ofNat 64 j := by
    have := congrArg (fun x => x - a) e
    simpa [BitVec.add_comm a, BitVec.add_sub_cancel] using this
  have := congrArg BitVec.toNat e1
  simp only [BitVec.toNat_ofNat] at this
  omega

theorem add_ne (a : BitVec 64) {c d : BitVec 64} (h : c ≠ d) : a + c ≠ a + d := by
  intro e
  apply h
  have := congrArg (fun x => x - a) e
  simpa [BitVec.add_comm a, BitVec.add_sub_cancel] using this

theorem add_ne_self (a : BitVec 64) {c : BitVec 64} (h : c ≠ 0#64) : a + c ≠ a := by
  have := add_ne a h
  simpa using this

theorem rd_wr_same (m : Bytes) (a : BitVec 64) (v : BitVec 32) : rd (wr m a v) a = v := by
  have h1 := add_ne_self a (c := 1#64) (by decide)
  have h2 := add_ne_self a (c := 2#64) (by decide)
  have h3 := add_ne_self a (c := 3#64) (by decide)
  have h21 := add_ne a (c := 2#64) (d := 1#64) (by decide)
  have h31 := add_ne a (c := 3#64) (d := 1#64) (by decide)
  have h32 := add_ne a (c := 3#64) (d := 2#64) (by decide)
  unfold rd wr
  simp only [if_true, if_neg h1, if_neg h2, if_neg h3, if_neg h21, if_neg h31, if_neg h32]
  apply BitVec.eq_of_getLsbD_eq
  intro i hi
  simp only [BitVec.getLsbD_append, BitVec.getLsbD_extractLsb']
  by_cases c1 : i < 8
  · simp [c1]
  · by_cases c2 : i < 16
    · have : i - 8 < 8 := by omega
      have e : 8 + (i - 8) = i := by omega
      simp [c1, this, e]
    · by_cases c3 : i < 24
      · have d1 : ¬ i - 8 < 8 := by omega
        have d2 : i - 8 - 8 < 8 := by omega
        have e : 16 + (i - 8 - 8) = i := by omega
        simp [c1, d1, d2, e]
      · have d1 : ¬ i - 8 < 8 := by omega
        have d2 : ¬ i - 8 - 8 < 8 := by omega
        have d3 : i - 8 - 8 - 8 < 8 := by omega
        have e : 24 + (i - 8 - 8 - 8) = i := by omega
        simp [c1, d1, d2, d3, e]

theorem wr_frame (m : Bytes) {a x : BitVec 64} (v : BitVec 32)
    (h : ∀ i, i < 4 → x ≠ a + BitVec.ofNat 64 i) : wr m a v x = m x := by
  have h0 : x ≠ a := by simpa using h 0 (by omega)
  have h1 : x ≠ a + 1#64 := h 1 (by omega)
  have h2 : x ≠ a + 2#64 := h 2 (by omega)
  have h3 : x ≠ a + 3#64 := h 3 (by omega)
  unfold wr
  rw [if_neg h0, if_neg h1, if_neg h2, if_neg h3]

theorem rd_congr {m m' : Bytes} {b : BitVec 64}
    (h : ∀ j, j < 4 → m' (b + BitVec.ofNat 64 j) = m (b + BitVec.ofNat 64 j)) : rd m' b = rd m b := by
  have h0 : m' b = m b := by simpa using h 0 (by omega)
  have h1 : m' (b + 1#64) = m (b + 1#64) := h 1 (by omega)
  have h2 : m' (b + 2#64) = m (b + 2#64) := h 2 (by omega)
  have h3 : m' (b + 3#64) = m (b + 3#64) := h 3 (by omega)
  unfold rd
  rw [h0, h1, h2, h3]

theorem rd_wr_disj (m : Bytes) {a b : BitVec 64} (v : BitVec 32)
    (h : ∀ i j, i < 4 → j < 4 → b + BitVec.ofNat 64 j ≠ a + BitVec.ofNat 64 i) : rd (wr m a v) b = rd m b :=
  rd_congr (fun j hj => wr_frame m v (fun i hi => h i j hi hj))

/-- the four bytes after `a + 4` are bytes 4..7 after `a` -/
theorem add4 (a : BitVec 64) (i : Nat) : a + 4#64 + BitVec.ofNat 64 i = a + BitVec.ofNat 64 (4 + i) := by
  rw [BitVec.add_assoc]
  congr 1
  apply BitVec.eq_of_toNat_eq
  simp only [BitVec.toNat_add, BitVec.toNat_ofNat]
  omega

/-! ## The view of one lock -/

/-- The words of lock `l`, where they belong: `last` in the root's copy, `next` in each PE's own copy. -/
def Cfg.view (C : Cfg) (s : WState) (l : Nat) : State where
  last := rd (s.mem ROOT) (C.lockp l ROOT)
  next := fun p => if p < C.n then rd (s.mem p) (C.lockp l p + 4#64) else 0
  pc := s.pc l

theorem State.ext' {s t : State} (h1 : s.last = t.last) (h2 : s.next = t.next) (h3 : s.pc = t.pc) : s = t := by
  cases s; cases t; cases h1; cases h2; cases h3; rfl

variable {C : Cfg} {s : WState} {l k p t : Nat}

theorem view_goto (c : PC) : C.view (s.goto l p c) l = { C.view s l with pc := upd (C.view s l).pc p c } := by
  apply State.ext' <;> simp [Cfg.view, WState.goto]

theorem view_goto_ne (c : PC) (h : k ≠ l) : C.view (s.goto l p c) k = C.view s k := by
  apply State.ext'
  · rfl
  · rfl
  · simp only [Cfg.view, WState.goto]; exact upd_ne _ _ h

theorem view_store_last (v : BitVec 32) :
    C.view (s.store ROOT (C.lockp l ROOT) v) l = { C.view s l with last := v } := by
  apply State.ext'
  · simp only [Cfg.view, WState.store, upd_same]; exact rd_wr_same _ _ _
  · simp only [Cfg.view, WState.store]
    funext x
    by_cases hx : x < C.n
    · rw [if_pos hx, if_pos hx]
      by_cases h0 : x = ROOT
      · subst h0
        rw [upd_same]
        apply rd_wr_disj
        intro i j hi hj
        rw [add4]
        exact add_ofNat_ne _ (by omega) (by omega) (by omega)
      · rw [upd_ne _ _ h0]
    · rw [if_neg hx, if_neg hx]
  · rfl

theorem view_store_next (ht : t < C.n) (v : BitVec 32) :
    C.view (s.store t (C.lockp l t + 4#64) v) l = { C.view s l with next := upd (C.view s l).next t v } := by
  apply State.ext'
  · simp only [Cfg.view, WState.store]
    by_cases h0 : t = ROOT
    · subst h0
      rw [upd_same]
      apply rd_wr_disj
      intro i j hi hj
      rw [add4]
      exact add_ofNat_ne _ (by omega) (by omega) (by omega)
    · rw [upd_ne _ _ (Ne.symm h0)]
  · simp only [Cfg.view, WState.store]
    funext x
    by_cases hx : x = t
    · subst hx
      rw [if_pos ht, upd_same, upd_same]; exact rd_wr_same _ _ _
    · rw [upd_ne _ _ hx, upd_ne _ _ hx]
  · rfl

/-- A change of memory that leaves the 8 bytes of lock `k` alone leaves its view alone. -/
theorem view_mem_congr (hpos : 0 < C.n) {mem' : Nat → Bytes}
    (h : ∀ t, t < C.n → ∀ i, i < 8 → mem' t (C.lockp k t + BitVec.ofNat 64 i) = s.mem t (C.lockp k t + BitVec.ofNat 64 i)) :
    C.view { s with mem := mem' } k = C.view s k := by
  apply State.ext'
  · simp only [Cfg.view]
    exact rd_congr (fun j hj => h ROOT hpos j (by omega))
  · simp only [Cfg.view]
    funext x
    by_cases hx : x < C.n
    · rw [if_pos hx, if_pos hx]
      apply rd_congr
      intro j hj
      rw [add4]
      exact h x hx (4 + j) (by omega)
    · rw [if_neg hx, if_neg hx]
  · rfl

/-- A store into lock `l` leaves the view of the others alone. -/
theorem view_store_other (wf : C.WF) (hl : l < C.m) (hk : k < C.m) (h : k ≠ l) (ht : t < C.n) {o : Nat} (ho : o + 4 ≤ 8)
    (v : BitVec 32) :
    C.view (s.store t (C.lockp l t + BitVec.ofNat 64 o) v) k = C.view s k := by
  apply view_mem_congr wf.pos
  intro x hx i hi
  by_cases hxt : x = t
  · subst hxt
    rw [upd_same]
    apply wr_frame
    intro j hj e
    rw [BitVec.add_assoc] at e
    have e2 : BitVec.ofNat 64 o + BitVec.ofNat 64 j = BitVec.ofNat 64 (o + j) := by
      apply BitVec.eq_of_toNat_eq; simp only [BitVec.toNat_add, BitVec.toNat_ofNat]; omega
    rw [e2] at e
    exact wf.disj k l hk hl h x hx i (o + j) hi (by omega) e
  · rw [upd_ne _ _ hxt]

/-! ## Addresses -/

/-- The displacement is defined and passes the assertion, and leads to the root's copy of the lock. -/
theorem lastDisp_ok (wf : C.WF) (hl : l < C.m) (p : Nat) :
    ∃ d, C.lastDisp l p = .ok d ∧ C.at_ l ROOT d = C.lockp l ROOT := by
  obtain ⟨d, hd, he⟩ := Sobj.C13_reaches_counterpart (C.loc l).dyn (C.loc l).kind (wf.idx l hl) (C.loc l).bases
    (C.loc l).size (me := p) (t := ROOT) wf.pos (C.loc l).off (C.loc l).mode (wf.mode l hl)
  have hn := Sobj.C13_disp_nonneg (C.loc l).dyn (C.loc l).kind (wf.idx l hl) (C.loc l).bases
    (C.loc l).size (me := p) (t := ROOT) wf.pos (C.loc l).off (C.loc l).mode (wf.mode l hl) (wf.off l hl)
    (wf.addr l hl ROOT wf.pos) hd
  refine ⟨d, ?_, he⟩
  show (Sobj.vaddrToDisp (C.attr l p) (C.lockp l p) ROOT (C.loc l).mode).bind _ = _
  have : Sobj.vaddrToDisp (C.attr l p) (C.lockp l p) ROOT (C.loc l).mode = .ok d := hd
  rw [this]
  simp only [Res.bind_ok]
  rw [if_pos hn]

/-- With `Uniform`, the other displacement leads to `next` in the copy of every PE. -/
theorem nextDisp_ok (un : C.Uniform) (hl : l < C.m) {d : BitVec 64} (h : C.at_ l ROOT d = C.lockp l ROOT) (ht : t < C.n) :
    C.at_ l t (nextDisp d) = C.lockp l t + 4#64 := by
  unfold Cfg.at_ Cfg.lockp nextDisp at *
  cases hm : (C.loc l).mode with
  | rel =>
    rw [hm] at h
    simp only [Sobj.mpiAddr] at h ⊢
    have : d = (C.loc l).off := by
      have := congrArg (fun x => x - (C.loc l).bases ROOT) h
      simpa [BitVec.add_comm ((C.loc l).bases ROOT), BitVec.add_sub_cancel] using this
    rw [this, BitVec.add_assoc]
  | abs =>
    rw [hm] at h
    simp only [Sobj.mpiAddr] at h ⊢
    have e : (C.loc l).bases t = (C.loc l).bases ROOT := by
      rcases un l hl with h' | h'
      · rw [hm] at h'; cases h'
      · exact h' t ht
    rw [h, e]

/-! ## One step -/

/-- Bytes that change in a step of a call on lock `l` belong to lock `l`. -/
def OnlyLock (C : Cfg) (l : Nat) (s s' : WState) : Prop :=
  ∀ t x, s'.mem t x ≠ s.mem t x → t < C.n ∧ ∃ i, i < 8 ∧ x = C.lockp l t + BitVec.ofNat 64 i

theorem onlyLock_goto (c : PC) : OnlyLock C l s (s.goto l p c) := fun _ _ h => absurd rfl h

theorem onlyLock_store (ht : t < C.n) {o : Nat} (ho : o + 4 ≤ 8) (v : BitVec 32) (c : PC) :
    OnlyLock C l s ((s.store t (C.lockp l t + BitVec.ofNat 64 o) v).goto l p c) := by
  intro x y h
  simp only [WState.goto, WState.store] at h
  by_cases hx : x = t
  · subst hx
    rw [upd_same] at h
    refine ⟨ht, ?_⟩
    by_cases hc : ∃ i, i < 4 ∧ y = C.lockp l x + BitVec.ofNat 64 o + BitVec.ofNat 64 i
    · obtain ⟨i, hi, e⟩ := hc
      refine ⟨o + i, by omega, ?_⟩
      rw [e, BitVec.add_assoc]
      congr 1
      apply BitVec.eq_of_toNat_eq; simp only [BitVec.toNat_add, BitVec.toNat_ofNat]; omega
    · exact absurd (wr_frame _ _ (fun i hi e => hc ⟨i, hi, e⟩)) h
  · rw [upd_ne _ _ hx] at h; exact absurd rfl h

/-- A rank taken from the queue is a PE. -/
theorem Inv.link_rank {n : Nat} {s : State} {q : List Nat} (h : Inv n s q) (hn : n ≤ INT_MAX) {p : Nat} {i}
    (h2 : s.pc p = .setLink i) : rank i < n := by
  obtain ⟨a, ha, rfl⟩ := h.link_pred h2
  have := h.bound a ha.left_mem
  rw [rank_myid (by omega)]; exact this

theorem Inv.signal_rank {n : Nat} {s : State} {q : List Nat} (h : Inv n s q) (hn : n ≤ INT_MAX) {p : Nat} (hp : p < n) {i}
    (h2 : s.pc p = .clrSignal i) : rank i < n := by
  obtain ⟨b, t, rfl, rfl, _, _⟩ := h.signalStep hn hp h2
  have := h.bound b (by simp)
  rw [rank_myid (by omega)]; exact this

/-- What a step of a call on lock `l` is, seen lock by lock. -/
structure StepOK (C : Cfg) (l p : Nat) (a : Act) (s s' : WState) (ev : List Ev) : Prop where
  own : step (C.view s l) p a = some (C.view s' l, ev)
  others : ∀ k, k < C.m → k ≠ l → C.view s' k = C.view s k
  bytes : OnlyLock C l s s'
  pcs : ∀ k r, ¬ (k = l ∧ r = p) → s'.pc k r = s.pc k r

theorem pcs_goto (s : WState) (l p : Nat) (c : PC) : ∀ k r, ¬ (k = l ∧ r = p) → (s.goto l p c).pc k r = s.pc k r := by
  intro k r h
  simp only [WState.goto]
  by_cases hk : k = l
  · subst hk
    have hr : r ≠ p := fun e => h ⟨rfl, e⟩
    rw [upd_same, upd_ne _ _ hr]
  · rw [upd_ne _ _ hk]

theorem stepOK_goto {a : Act} {ev : List Ev} {c : PC}
    (h : step (C.view s l) p a = some ({ C.view s l with pc := upd (C.view s l).pc p c }, ev)) :
    StepOK C l p a s (s.goto l p c) ev :=
  ⟨by rw [view_goto]; exact h, fun _ _ hk => view_goto_ne c hk, onlyLock_goto c, pcs_goto s l p c⟩

theorem stepOK_stay {a : Act} {ev : List Ev} (h : step (C.view s l) p a = some (C.view s l, ev)) :
    StepOK C l p a s s ev :=
  ⟨h, fun _ _ _ => rfl, fun _ _ h => absurd rfl h, fun _ _ _ => rfl⟩

theorem stepOK_last (wf : C.WF) (hl : l < C.m) {a : Act} {ev : List Ev} {c : PC} {v : BitVec 32}
    (h : step (C.view s l) p a = some ({ C.view s l with last := v, pc := upd (C.view s l).pc p c }, ev)) :
    StepOK C l p a s ((s.store ROOT (C.lockp l ROOT) v).goto l p c) ev := by
  have e0 : C.lockp l ROOT = C.lockp l ROOT + BitVec.ofNat 64 0 := by simp
  refine ⟨by rw [view_goto, view_store_last]; exact h, ?_, ?_, pcs_goto _ l p c⟩
  · intro k hk hkl
    rw [view_goto_ne c hkl]
    have := view_store_other (s := s) wf hl hk hkl (t := ROOT) wf.pos (o := 0) (by omega) v
    rw [← e0] at this
    exact this
  · have := onlyLock_store (C := C) (l := l) (s := s) (p := p) (t := ROOT) wf.pos (o := 0) (by omega) v c
    rw [← e0] at this
    exact this

theorem stepOK_next (wf : C.WF) (hl : l < C.m) (ht : t < C.n) {a : Act} {ev : List Ev} {c : PC} {v : BitVec 32}
    (h : step (C.view s l) p a =
      some ({ C.view s l with next := upd (C.view s l).next t v, pc := upd (C.view s l).pc p c }, ev)) :
    StepOK C l p a s ((s.store t (C.lockp l t + 4#64) v).goto l p c) ev := by
  refine ⟨by rw [view_goto, view_store_next ht]; exact h, ?_, ?_, pcs_goto _ l p c⟩
  · intro k hk hkl
    rw [view_goto_ne c hkl]
    exact view_store_other wf hl hk hkl ht (o := 4) (by omega) v
  · exact onlyLock_store ht (o := 4) (by omega) v c

theorem view_next (ht : t < C.n) : (C.view s l).next t = rd (s.mem t) (C.lockp l t + 4#64) := if_pos ht

theorem wstep_sim (wf : C.WF) (un : C.Uniform) (hl : l < C.m) (hp : p < C.n) {q : List Nat}
    (hi : Inv C.n (C.view s l) q) {a : Act} {s' : WState} {ev : List Ev} (hs : wstep C s l p a = some (s', ev)) :
    StepOK C l p a s s' ev := by
  have hpcv : (C.view s l).pc = s.pc l := rfl
  cases a with
  | callSet =>
    simp only [wstep] at hs
    split at hs <;> simp at hs
    rename_i hc
    obtain ⟨rfl, rfl⟩ := hs
    exact stepOK_goto (by simp only [step, hpcv, hc.1, if_true])
  | callTest =>
    simp only [wstep] at hs
    split at hs <;> simp at hs
    rename_i hc
    obtain ⟨rfl, rfl⟩ := hs
    exact stepOK_goto (by simp only [step, hpcv, hc.1, if_true])
  | callClear =>
    simp only [wstep] at hs
    split at hs <;> simp at hs
    rename_i hc
    obtain ⟨rfl, rfl⟩ := hs
    exact stepOK_goto (by simp only [step, hpcv, hc.1, if_true])
  | run =>
    obtain ⟨d, hd, hlast⟩ := lastDisp_ok wf hl p
    have hnext : ∀ r, r < C.n → C.at_ l r (nextDisp d) = C.lockp l r + 4#64 := fun r hr => nextDisp_ok un hl hlast hr
    have hlv : (C.view s l).last = rd (s.mem ROOT) (C.lockp l ROOT) := rfl
    simp only [wstep, hd, hlast] at hs
    cases hpc : s.pc l p with
    | idle => simp [hpc] at hs
    | held => simp [hpc] at hs
    | setReset =>
      simp only [hpc] at hs
      simp at hs; obtain ⟨rfl, rfl⟩ := hs
      exact stepOK_next wf hl hp (by simp only [step, hpcv, hpc]; rfl)
    | setSwap =>
      simp only [hpc] at hs
      split at hs <;> (rename_i hz; simp at hs; obtain ⟨rfl, rfl⟩ := hs)
      · exact stepOK_last wf hl (by simp only [step, hpcv, hpc, hlv]; rw [if_pos hz])
      · exact stepOK_last wf hl (by simp only [step, hpcv, hpc, hlv]; rw [if_neg hz])
    | setLink c =>
      have hr := hi.link_rank wf.max (p := p) (i := c) (by rw [hpcv]; exact hpc)
      simp only [hpc, hnext _ hr] at hs
      simp at hs; obtain ⟨rfl, rfl⟩ := hs
      exact stepOK_next wf hl hr (by simp only [step, hpcv, hpc, view_next hr])
    | setSpin =>
      simp only [hpc, hnext p hp] at hs
      split at hs <;> (rename_i hz; simp at hs; obtain ⟨rfl, rfl⟩ := hs)
      · exact stepOK_goto (by simp only [step, hpcv, hpc, view_next hp]; rw [if_pos hz])
      · exact stepOK_stay (by simp only [step, hpcv, hpc, view_next hp]; rw [if_neg hz])
    | clrCas =>
      simp only [hpc] at hs
      split at hs <;> (rename_i hz; simp at hs; obtain ⟨rfl, rfl⟩ := hs)
      · refine stepOK_goto ?_
        simp only [step, hpcv, hpc, hlv]
        rw [if_pos hz, if_neg hz]
      · refine stepOK_last wf hl ?_
        have hz' : rd (s.mem ROOT) (C.lockp l ROOT) = myid p := by simpa using hz
        simp only [step, hpcv, hpc, hlv]
        rw [if_neg hz, if_pos hz']
        rfl
    | clrSpin =>
      simp only [hpc, hnext p hp] at hs
      split at hs <;> (rename_i hz; simp at hs; obtain ⟨rfl, rfl⟩ := hs)
      · exact stepOK_goto (by simp only [step, hpcv, hpc, view_next hp]; rw [if_pos hz])
      · exact stepOK_stay (by simp only [step, hpcv, hpc, view_next hp]; rw [if_neg hz])
    | clrReset c =>
      simp only [hpc] at hs
      simp at hs; obtain ⟨rfl, rfl⟩ := hs
      exact stepOK_next wf hl hp (by simp only [step, hpcv, hpc]; rfl)
    | clrSignal c =>
      have hr := hi.signal_rank wf.max hp (i := c) (by rw [hpcv]; exact hpc)
      simp only [hpc, hnext _ hr] at hs
      simp at hs; obtain ⟨rfl, rfl⟩ := hs
      exact stepOK_next wf hl hr (by simp only [step, hpcv, hpc, view_next hr])
    | testCas =>
      simp only [hpc] at hs
      split at hs <;> (rename_i hz; simp at hs; obtain ⟨rfl, rfl⟩ := hs)
      · refine stepOK_last wf hl ?_
        simp only [step, hpcv, hpc, hlv]
        rw [if_pos hz, if_pos hz]
      · refine stepOK_goto ?_
        simp only [step, hpcv, hpc, hlv]
        rw [if_neg hz, if_neg hz]

/-- A call that has been made can always go on, and a call can be made when its lock and the PE allow it. -/
theorem wstep_enabled (wf : C.WF) (hl : l < C.m) {a : Act} {t : State} {ev : List Ev}
    (hs : step (C.view s l) p a = some (t, ev)) (hf : a = .run ∨ C.free s p = true) :
    ∃ s' ev', wstep C s l p a = some (s', ev') := by
  have hpcv : (C.view s l).pc = s.pc l := rfl
  cases a with
  | callSet =>
    simp only [step, hpcv] at hs
    split at hs <;> simp at hs
    rename_i hc
    rcases hf with hf | hf
    · cases hf
    · exact ⟨_, _, if_pos ⟨hc, hf⟩⟩
  | callTest =>
    simp only [step, hpcv] at hs
    split at hs <;> simp at hs
    rename_i hc
    rcases hf with hf | hf
    · cases hf
    · exact ⟨_, _, if_pos ⟨hc, hf⟩⟩
  | callClear =>
    simp only [step, hpcv] at hs
    split at hs <;> simp at hs
    rename_i hc
    rcases hf with hf | hf
    · cases hf
    · exact ⟨_, _, if_pos ⟨hc, hf⟩⟩
  | run =>
    obtain ⟨d, hd, hlast⟩ := lastDisp_ok wf hl p
    simp only [wstep, hd]
    cases hpc : s.pc l p with
    | idle => simp [step, hpcv, hpc] at hs
    | held => simp [step, hpcv, hpc] at hs
    | setReset => exact ⟨_, _, rfl⟩
    | setSwap => simp only; split <;> exact ⟨_, _, rfl⟩
    | setLink c => exact ⟨_, _, rfl⟩
    | setSpin => simp only; split <;> exact ⟨_, _, rfl⟩
    | clrCas => simp only; split <;> exact ⟨_, _, rfl⟩
    | clrSpin => simp only; split <;> exact ⟨_, _, rfl⟩
    | clrReset c => exact ⟨_, _, rfl⟩
    | clrSignal c => exact ⟨_, _, rfl⟩
    | testCas => simp only; split <;> exact ⟨_, _, rfl⟩

/-! ## Executions -/

/-- The events of lock `l`. -/
def eventsOf (l : Nat) (tr : List (Nat × Ev)) : List Ev := (tr.filter (fun e => e.1 == l)).map Prod.snd

theorem eventsOf_append (l : Nat) (a b : List (Nat × Ev)) : eventsOf l (a ++ b) = eventsOf l a ++ eventsOf l b := by
  simp [eventsOf]

theorem eventsOf_own (l : Nat) (ev : List Ev) : eventsOf l (ev.map (fun e => (l, e))) = ev := by
  induction ev with
  | nil => rfl
  | cons e t ih => simpa [eventsOf] using ih

theorem eventsOf_other {l k : Nat} (h : k ≠ l) (ev : List Ev) : eventsOf k (ev.map (fun e => (l, e))) = [] := by
  induction ev with
  | nil => rfl
  | cons e t ih => simp [eventsOf, Ne.symm h]

theorem view_init (wf : C.WF) (hl : l < C.m) (h : C.Init s) : C.view s l = init := by
  have z : ∀ t, t < C.n → ∀ o, o + 4 ≤ 8 → rd (s.mem t) (C.lockp l t + BitVec.ofNat 64 o) = 0 := by
    intro t ht o ho
    have b : ∀ i, i < 8 → s.mem t (C.lockp l t + BitVec.ofNat 64 i) = 0#8 :=
      fun i hi => h.2 t ht _ ⟨l, hl, i, hi, rfl⟩
    have e : ∀ j, o + j < 8 → s.mem t (C.lockp l t + BitVec.ofNat 64 o + BitVec.ofNat 64 j) = 0#8 := by
      intro j hj
      have := b (o + j) hj
      rw [← this, BitVec.add_assoc]
      congr 2
      apply BitVec.eq_of_toNat_eq; simp only [BitVec.toNat_add, BitVec.toNat_ofNat]; omega
    have : rd (s.mem t) (C.lockp l t + BitVec.ofNat 64 o) = rd (fun _ => 0#8) 0#64 := by
      unfold rd
      have e0 := e 0 (by omega)
      have e1 := e 1 (by omega)
      have e2 := e 2 (by omega)
      have e3 := e 3 (by omega)
      simp only [BitVec.add_zero] at e0 e1 e2 e3
      rw [e0, e1, e2, e3]
    rw [this]; decide
  apply State.ext'
  · have := z ROOT wf.pos 0 (by omega)
    simpa [Cfg.view, init] using this
  · funext x
    simp only [Cfg.view, init]
    split
    · rename_i hx; exact z x hx 4 (by omega)
    · rfl
  · funext x; exact h.1 l x

theorem wexec_view (wf : C.WF) (un : C.Uniform) {tr : List (Nat × Ev)} (h : WExec C s tr) :
    ∀ l, l < C.m → Exec C.n (C.view s l) (eventsOf l tr) := by
  induction h with
  | init h => intro l hl; rw [view_init wf hl h]; exact Exec.init
  | @call s s' tr ev l p a _ hl hp hs ih =>
    obtain ⟨q, hinv, _⟩ := exec_inv wf.max (ih l hl)
    have ok := wstep_sim wf un hl hp hinv hs
    intro k hk
    rw [eventsOf_append]
    by_cases hkl : k = l
    · subst hkl
      rw [eventsOf_own]
      exact Exec.step p a (ih k hk) hp ok.own
    · rw [eventsOf_other hkl, List.append_nil, ok.others k hk hkl]
      exact ih k hk
  | @write s tr mem' _ hm ih =>
    intro k hk
    rw [view_mem_congr wf.pos (fun t ht i hi => hm t ht _ ⟨k, hk, i, hi, rfl⟩)]
    exact ih k hk

end Verif.Lock
