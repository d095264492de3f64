import Verif.Setup.Use
/-!
# C85: nothing is used before it exists or after it is gone
-/
namespace Verif.Setup
open Verif.Env (AmoCfg RmaCfg Dbg MemKind RmaOp directAmo directRma)

/-- check of a log from the left, auxiliary to the proofs: `p` is what has been logged -/
def okFrom (c : Cfg) (p : List Ev) : List Ev → Bool
  | [] => true
  | e :: q =>
    (match e with
      | .acq i => (need i).all (live p) && (!usesMpi i || live p .mpi)
      | .rel i => live p i && (relNeed c i).all (live p)) && okFrom c (p ++ [e]) q

theorem okFrom_split {c : Cfg} : ∀ {q p : List Ev}, okFrom c p q = true → ∀ {q1 q2 : List Ev} {e : Ev}, q = q1 ++ e :: q2 →
    (∀ i, e = .acq i → (∀ j ∈ need i, live (p ++ q1) j = true) ∧ (usesMpi i = true → live (p ++ q1) .mpi = true)) ∧
    (∀ i, e = .rel i → live (p ++ q1) i = true ∧ ∀ j ∈ relNeed c i, live (p ++ q1) j = true) := by
  intro q
  induction q with
  | nil => intro p _ q1 q2 e h; simp at h
  | cons a q ih =>
    intro p hk q1 q2 e h
    simp only [okFrom, Bool.and_eq_true] at hk
    cases q1 with
    | nil =>
      simp only [List.nil_append, List.cons.injEq] at h
      obtain ⟨rfl, -⟩ := h
      simp only [List.append_nil]
      refine ⟨?_, ?_⟩
      · rintro i rfl
        have h1 := hk.1
        simp only [Bool.and_eq_true, List.all_eq_true, Bool.or_eq_true, Bool.not_eq_true'] at h1
        refine ⟨h1.1, fun hm => ?_⟩
        rcases h1.2 with h | h
        · rw [hm] at h; cases h
        · exact h
      · rintro i rfl
        have h1 := hk.1
        simp only [Bool.and_eq_true, List.all_eq_true] at h1
        exact h1
    | cons b q1 =>
      simp only [List.cons_append, List.cons.injEq] at h
      obtain ⟨rfl, h⟩ := h
      have := ih hk.2 h
      simpa [List.append_assoc] using this

theorem ok_all : ∀ c ∈ cfgs, ∀ u ∈ [false, true],
    okFrom c [] ((acquired c u).map Ev.acq ++ (released c).map Ev.rel) = true := by decide +kernel

theorem ok_acq : ∀ c ∈ cfgs, ∀ u ∈ [false, true], okFrom c [] ((acquired c u).map Ev.acq) = true := by decide +kernel

/-- **C85.** In every run, whatever the build: when a resource is created, what its creation uses exists; when it is
released, it exists and so does what the release uses; MPI objects are created and released while MPI is up. -/
theorem C85_order (c : Cfg) (os : List Op) (s : St) (h : run c St.start os = .ok s) (p q : List Ev) (e : Ev)
    (hs : s.log = p ++ e :: q) :
    (∀ i, e = .acq i → (∀ j ∈ need i, live p j = true) ∧ (usesMpi i = true → live p .mpi = true)) ∧
    (∀ i, e = .rel i → live p i = true ∧ ∀ j ∈ relNeed c i, live p j = true) := by
  obtain ⟨h1, h2, -⟩ := inv_run (inv_start c) h
  have key : okFrom c [] s.log = true := by
    cases hi : s.isInit with
    | true => obtain ⟨-, u, hu⟩ := h1 hi; rw [hu]; exact ok_acq c (mem_cfgs c) u (mem_bools u)
    | false =>
      rcases h2 hi with hl | ⟨-, u, hu⟩
      · rw [hl]; rfl
      · rw [hu]; exact ok_all c (mem_cfgs c) u (mem_bools u)
  have := okFrom_split key hs
  simpa using this

theorem live_acq : ∀ c ∈ cfgs, ∀ u ∈ [false, true], ∀ i ∈ items,
    live ((acquired c u).map Ev.acq) i = (decide (i = .mpi) || (acquired c u).contains i) := by decide +kernel

/-- while the library is initialised, exactly what `acquired` lists exists -/
theorem live_init {c : Cfg} {os : List Op} {s : St} (h : run c St.start os = .ok s) (hi : s.isInit = true) (i : Item)
    (hm : i ≠ .mpi) : live s.log i = (acquired c true).contains i := by
  obtain ⟨h1, -, -⟩ := inv_run (inv_start c) h
  obtain ⟨-, u, hu⟩ := h1 hi
  rw [hu, live_acq c (mem_cfgs c) u (mem_bools u) i (mem_items i)]
  have : decide (i = .mpi) = false := by simp [hm]
  rw [this, Bool.false_or]
  cases u with
  | true => rfl
  | false => simp [acquired, opt, List.contains_eq_mem, hm]

/-- the gap: manual progress in a build and run in which active messages are not set up -/
def gap (c : Cfg) (i : Item) : Bool := !c.am && !c.async && (decide (i = .amRecv) || (c.multi && decide (i = .amCs)))

/-- everything that calls may use; auxiliary to the proofs -/
def base (c : Cfg) : List Item :=
  [.worldComm, .worldGroup, .worldTeam, .sharedComm, .sharedTeam] ++ allWins c ++ offOf c .data ++ offOf c .heap ++
  opt c.dyn [.heapMem] ++ opt c.multi [.spaceCs, .collCs, .heapCs] ++ strided c ++ progress c ++
  opt c.am [.amComm, .amAckComm, .amFlags]

theorem base_ok : ∀ c ∈ cfgs, ∀ i ∈ items, i ∈ base c →
    i ≠ .mpi ∧ ((acquired c true).contains i = false ↔ gap c i = true) := by decide +kernel

/-- regions, to run through them -/
def regs : List Reg := [.data, .heap, .space]

theorem mem_regs (r : Reg) : r ∈ regs := by cases r <;> decide

theorem parts_all : ∀ c ∈ cfgs,
    (∀ r ∈ regs, ∀ i ∈ direct c r, i ∈ base c) ∧ (c.am = true → ∀ r ∈ regs, ∀ i ∈ amSend c r, i ∈ base c) ∧
    (∀ i ∈ strided c, i ∈ base c) ∧ (∀ i ∈ progress c, i ∈ base c) ∧ (∀ i ∈ amFlush c, i ∈ base c) ∧
    (∀ i ∈ allWins c, i ∈ base c) ∧ (∀ i ∈ worldWait c, i ∈ base c) ∧ (∀ i ∈ aset c, i ∈ base c) ∧
    (∀ i ∈ opt c.multi [.spaceCs], i ∈ base c) ∧ (∀ i ∈ opt c.multi [.heapCs], i ∈ base c) ∧
    (∀ i ∈ (if c.dyn then [Item.heapMem] else [.heapWin]), i ∈ base c) := by decide +kernel

theorem uses_base {b : Bld} {k : Call} {l : List Item} (h : uses b k = .ok l) : l ⊆ base b.cfg := by
  obtain ⟨p1, p2, p3, p4, p5, p6, p7, p8, p9, p10, p11⟩ := parts_all b.cfg (mem_cfgs _)
  have q1 : ∀ r, direct b.cfg r ⊆ base b.cfg := fun r => p1 r (mem_regs r)
  have q2 : b.am = true → ∀ r, amSend b.cfg r ⊆ base b.cfg := fun ha r => p2 ha r (mem_regs r)
  have q3 : strided b.cfg ⊆ base b.cfg := p3
  have q4 : progress b.cfg ⊆ base b.cfg := p4
  have q5 : amFlush b.cfg ⊆ base b.cfg := p5
  have q6 : allWins b.cfg ⊆ base b.cfg := p6
  have q7 : worldWait b.cfg ⊆ base b.cfg := p7
  have q8 : aset b.cfg ⊆ base b.cfg := p8
  have q9 : opt b.multi [.spaceCs] ⊆ base b.cfg := p9
  have q10 : opt b.multi [.heapCs] ⊆ base b.cfg := p10
  have q11 : (if b.dyn then [Item.heapMem] else [.heapWin]) ⊆ base b.cfg := p11
  have q12 : barrierAll b.cfg ⊆ base b.cfg := List.append_subset.2 ⟨List.append_subset.2 ⟨q6, q5⟩, q7⟩
  have w : ∀ x ∈ [Item.worldComm, .worldGroup, .worldTeam, .sharedComm, .sharedTeam], x ∈ base b.cfg := by
    intro x hx; simp only [base, List.mem_append]; simp only [hx, true_or]
  have dw : b.dyn = true → [Item.dynWin] ⊆ base b.cfg := fun hd => by
    have : allWins b.cfg = [.dynWin] := by simp [allWins, Bld.cfg, hd]
    rw [← this]; exact q6
  have rm : ∀ op r dev kd st, st ⊆ base b.cfg → rma b op r dev kd st = .ok l → l ⊆ base b.cfg := by
    intro op r dev kd st hst e
    unfold rma at e
    cases hd : directRma b.rma b.rmaDbg b.features dev kd op with
    | ok d =>
      rw [hd, Res.bind_ok] at e
      cases e
      refine List.append_subset.2 ⟨hst, ?_⟩
      cases d with
      | true => exact q1 r
      | false =>
        refine q2 ?_ r
        unfold Bld.am
        cases hr : b.rma with
        | direct => rw [hr] at hd; simp [directRma] at hd
        | am => simp
        | auto => simp
    | abort => rw [hd] at e; cases e
    | ub => rw [hd] at e; cases e
    | hang => rw [hd] at e; cases e
  cases k with
  | put r dev kd => exact rm _ _ _ _ _ (by simp) h
  | get r dev kd => exact rm _ _ _ _ _ (by simp) h
  | iput r dev kd => exact rm _ _ _ _ _ q3 h
  | iget r dev kd => exact rm _ _ _ _ _ q3 h
  | amo r =>
    simp only [uses] at h
    cases h
    by_cases hd : b.direct = true
    · rw [if_pos hd]; exact q1 r
    · rw [if_neg hd]; exact q2 (by simp [Bld.am, hd]) r
  | quiet => cases h; exact List.append_subset.2 ⟨List.append_subset.2 ⟨q6, q9⟩, q5⟩
  | barrierAll => cases h; exact q12
  | syncAll => cases h; exact List.append_subset.2 ⟨q6, q7⟩
  | teamWorld =>
    cases h
    exact List.append_subset.2 ⟨List.append_subset.2 ⟨fun x hx => w x (by simp at hx; simp [hx]), q3⟩, q7⟩
  | teamShared =>
    cases h
    refine List.append_subset.2 ⟨List.append_subset.2 ⟨fun x hx => w x ?_, q3⟩, q4⟩
    simp only [List.mem_cons, List.not_mem_nil, or_false] at hx
    rcases hx with rfl | rfl <;> decide
  | asetBarrier => cases h; exact List.append_subset.2 ⟨List.append_subset.2 ⟨q6, q5⟩, q8⟩
  | asetColl => cases h; exact List.append_subset.2 ⟨q3, q8⟩
  | malloc => cases h; exact List.append_subset.2 ⟨List.append_subset.2 ⟨q10, q11⟩, q12⟩
  | free r =>
    cases h
    refine List.append_subset.2 ⟨q12, ?_⟩
    cases r with
    | heap => exact List.append_subset.2 ⟨q10, q11⟩
    | data => exact q9
    | space => exact q9
  | waitUntil r =>
    cases h
    exact List.append_subset.2 ⟨List.append_subset.2 ⟨q1 r, q4⟩, fun x hx => w x (by simp at hx; simp [hx])⟩
  | test r => cases h; exact List.append_subset.2 ⟨q1 r, q4⟩
  | setLock r => cases h; exact List.append_subset.2 ⟨q1 r, q4⟩
  | clearLock r => cases h; exact List.append_subset.2 ⟨q1 r, q4⟩
  | testLock r => cases h; exact q1 r
  | splitWorld =>
    cases h
    intro x hx
    simp only [List.mem_cons, List.not_mem_nil, or_false] at hx
    rcases hx with rfl | rfl <;> exact w _ (by decide)
  | splitShared =>
    cases h
    intro x hx
    simp only [List.mem_cons, List.not_mem_nil, or_false] at hx
    rcases hx with rfl | rfl <;> exact w _ (by decide)
  | spaceCreate => cases h; exact q9
  | spaceDestroy => cases h; exact q9
  | spaceAttach =>
    cases h
    refine List.append_subset.2 ⟨fun x hx => w x (by simp at hx; simp [hx]), ?_⟩
    split
    · next hd => exact List.append_subset.2 ⟨dw hd, q4⟩
    · simp
  | spaceDetach =>
    cases h
    split
    · next hd => exact List.append_subset.2 ⟨dw hd, q7⟩
    · simp
  | spaceMalloc => cases h; exact q12

/-- **C85 (partial).** In every run, build and state of the library between `shmem_init` and `shmem_finalize`: every resource
that a call uses exists, whatever branch the call takes; if active messages are set up, or progress is left to a thread.

Missing: the builds and runs in which active messages are not set up and no progress thread is used. There every wait for
another PE tests a request that was never made; see `C85_exact` and `C85_violation`. -/
theorem C85_call_partial (b : Bld) (os : List Op) (s : St) (h : run b.cfg St.start os = .ok s) (hi : s.isInit = true)
    (k : Call) (l : List Item) (hu : uses b k = .ok l) (hg : b.am = true ∨ b.async = true) (i : Item) (hm : i ∈ l) :
    live s.log i = true := by
  have hb := uses_base hu hm
  obtain ⟨hne, hx⟩ := base_ok b.cfg (mem_cfgs _) i (mem_items i) hb
  rw [live_init h hi i hne]
  cases hc : (acquired b.cfg true).contains i with
  | true => rfl
  | false =>
    have := hx.1 hc
    simp only [gap, Bool.and_eq_true, Bool.not_eq_true'] at this
    obtain ⟨⟨ha, hb⟩, -⟩ := this
    have ha' : b.am = false := ha
    have hb' : b.async = false := hb
    rcases hg with hg | hg
    · rw [ha'] at hg; cases hg
    · rw [hb'] at hg; cases hg

/-- **C85, what is missing, exactly.** A resource that a call uses does not exist if and only if active messages are not set
up, no progress thread is used, and the resource is the posted receive or the critical section of manual progress. -/
theorem C85_exact (b : Bld) (os : List Op) (s : St) (h : run b.cfg St.start os = .ok s) (hi : s.isInit = true)
    (k : Call) (l : List Item) (hu : uses b k = .ok l) (i : Item) (hm : i ∈ l) :
    live s.log i = false ↔ (b.am = false ∧ b.async = false ∧ (i = .amRecv ∨ i = .amCs)) := by
  have hb := uses_base hu hm
  obtain ⟨hne, hx⟩ := base_ok b.cfg (mem_cfgs _) i (mem_items i) hb
  rw [live_init h hi i hne, hx]
  have e1 : b.cfg.am = b.am := rfl
  have e2 : b.cfg.async = b.async := rfl
  simp only [gap, Bool.and_eq_true, Bool.not_eq_true', Bool.or_eq_true, decide_eq_true_eq, e1, e2, and_assoc]
  constructor
  · rintro ⟨x, y, z⟩
    exact ⟨x, y, z.imp id (fun z => z.2)⟩
  · rintro ⟨x, y, z⟩
    refine ⟨x, y, z.imp id (fun z => ⟨?_, z⟩)⟩
    subst z
    -- the critical section is entered only when threads are allowed
    have : ∀ c ∈ cfgs, Item.amCs ∈ base c → c.multi = true := by decide +kernel
    exact this _ (mem_cfgs _) hb

/-- **C85, the barriers of init and finalize.** At the end of `shmem_init` (setup_impl.c L844) and at the start of
`shmem_finalize` (L865) exactly what the last call listed exists, so the same holds of the barrier there. -/
theorem C85_ends (c : Cfg) (u : Bool) (i : Item) (hm : i ∈ worldWait c) :
    live ((acquired c u).map Ev.acq) i = false ↔ (c.am = false ∧ c.async = false ∧ (i = .amRecv ∨ i = .amCs)) := by
  have : ∀ c ∈ cfgs, ∀ u ∈ [false, true], ∀ i ∈ items, i ∈ worldWait c →
      (live ((acquired c u).map Ev.acq) i = false ↔ (c.am = false ∧ c.async = false ∧ (i = .amRecv ∨ i = .amCs))) := by
    decide +kernel
  exact this c (mem_cfgs c) u (mem_bools u) i (mem_items i) hm

/-- log of finalisation up to a point: does everything a handler uses exist as long as the receive does? auxiliary -/
def handlerOk (c : Cfg) (p : List Ev) : List Ev → Bool
  | [] => !live p .amRecv || (handler c).all (live p)
  | e :: q => (!live p .amRecv || (handler c).all (live p)) && handlerOk c (p ++ [e]) q

theorem handlerOk_split {c : Cfg} : ∀ {q p : List Ev}, handlerOk c p q = true → ∀ {q1 q2 : List Ev}, q = q1 ++ q2 →
    live (p ++ q1) .amRecv = true → ∀ i ∈ handler c, live (p ++ q1) i = true := by
  intro q
  induction q with
  | nil =>
    intro p hk q1 q2 h hl i hi
    have : q1 = [] := by
      cases q1 with
      | nil => rfl
      | cons a q1 => simp at h
    subst this
    simp only [List.append_nil] at *
    simp only [handlerOk, Bool.or_eq_true, Bool.not_eq_true', List.all_eq_true] at hk
    rcases hk with hk | hk
    · rw [hl] at hk; cases hk
    · exact hk i hi
  | cons a q ih =>
    intro p hk q1 q2 h hl i hi
    simp only [handlerOk, Bool.and_eq_true] at hk
    cases q1 with
    | nil =>
      simp only [List.append_nil] at *
      have h1 := hk.1
      simp only [Bool.or_eq_true, Bool.not_eq_true', List.all_eq_true] at h1
      rcases h1 with h1 | h1
      · rw [hl] at h1; cases h1
      · exact h1 i hi
    | cons b q1 =>
      simp only [List.cons_append, List.cons.injEq] at h
      obtain ⟨rfl, h⟩ := h
      have e : p ++ a :: q1 = (p ++ [a]) ++ q1 := by simp
      rw [e] at hl ⊢
      exact ih hk.2 h hl i hi

theorem handler_all : ∀ c ∈ cfgs, ∀ u ∈ [false, true],
    handlerOk c ((acquired c u).map Ev.acq) ((released c).map Ev.rel) = true := by decide +kernel

/-- **C85, packet handlers.** From the end of initialisation on, also during finalisation, as long as packets are received
everything a handler uses exists. -/
theorem C85_handlers (c : Cfg) (os : List Op) (s : St) (h : run c St.start os = .ok s) (p q : List Ev)
    (hs : s.log = p ++ q) (u : Bool) (hp : (acquired c u).map Ev.acq <+: p) (hl : live p .amRecv = true) :
    ∀ i ∈ handler c, live p i = true := by
  obtain ⟨h1, h2, -⟩ := inv_run (inv_start c) h
  obtain ⟨p', rfl⟩ := hp
  have key : ∃ v r, s.log = (acquired c v).map Ev.acq ++ r ∧ (r = [] ∨ r = (released c).map Ev.rel) := by
    cases hi : s.isInit with
    | true => obtain ⟨-, v, hv⟩ := h1 hi; exact ⟨v, [], by simp [hv], .inl rfl⟩
    | false =>
      rcases h2 hi with hl | ⟨-, v, hv⟩
      · rw [hl] at hs
        have := congrArg List.length hs
        simp [acquired] at this
      · exact ⟨v, _, hv, .inr rfl⟩
  obtain ⟨v, r, hv, hr⟩ := key
  have hvu : v = u := by
    rw [hv] at hs
    cases v <;> cases u <;> simp [acquired, opt] at hs ⊢
  subst hvu
  have hr' : r = p' ++ q := by
    rw [hv, List.append_assoc] at hs
    exact List.append_cancel_left hs
  have hk := handler_all c (mem_cfgs c) v (mem_bools v)
  rcases hr with rfl | rfl
  · have : p' = [] := by
      cases p' with
      | nil => rfl
      | cons a p' => simp at hr'
    subst this
    exact handlerOk_split (q1 := []) hk rfl hl
  · exact handlerOk_split hk hr' hl

/-- the build and run of the violation: both kinds of operations direct, which is also the case in which the library itself
chooses not to start the progress thread -/
def plain : Bld :=
  { dyn := false, cache := false, async := false, multi := false, dataSymm := true, heapSymm := true, amo := .direct
    rma := .direct, amoDbg := .auto, rmaDbg := .auto, amoDirect := false, features := 15 }

/-- **C85 is violated.** With `--enable-amo=direct --enable-rma=direct` and the default of the progress thread, a program
that initialises and calls `shmem_barrier_all` (or waits in any other way) tests a request that was never created; already
the barrier inside `shmem_init` does. -/
theorem C85_violation :
    asyncThread .no none plain.amo plain.amoDbg plain.rma = plain.async ∧
    asyncThread .auto none plain.amo plain.amoDbg plain.rma = plain.async ∧
    (∃ s, run plain.cfg St.start [.init] = .ok s ∧ s.isInit = true ∧ live s.log .amRecv = false ∧
      ∀ k ∈ [Call.barrierAll, .syncAll, .malloc, .waitUntil .heap, .test .heap, .setLock .data, .asetColl],
        ∃ l, uses plain k = .ok l ∧ .amRecv ∈ l) ∧
    (Item.amRecv ∈ worldWait plain.cfg ∧ live ((acquired plain.cfg false).map Ev.acq) .amRecv = false) := by
  refine ⟨by decide, by decide, ⟨_, rfl, by decide, by decide, ?_⟩, by decide, by decide⟩
  intro k hk
  simp only [List.mem_cons, List.not_mem_nil, or_false] at hk
  rcases hk with rfl | rfl | rfl | rfl | rfl | rfl | rfl <;> exact ⟨_, rfl, by decide⟩

/-- **C85, default of the progress thread.** If nothing is set, the thread is used whenever active messages are. -/
theorem C85_default (b : Bld) (ha : b.am = true) : asyncThread .auto none b.amo b.amoDbg b.rma = true := by
  unfold Bld.am Bld.direct at ha
  simp only [asyncThread]
  cases hr : b.rma with
  | am => simp
  | auto => simp
  | direct =>
    rw [hr] at ha
    cases hm : b.amo with
    | direct => rw [hm] at ha; simp [directAmo] at ha
    | am => simp [directAmo]
    | auto =>
      rw [hm] at ha
      cases hd : b.amoDbg <;> rw [hd] at ha <;> simp [directAmo] at ha ⊢

/-- **C85, the default is too cautious in one case.** The default is computed before it is known whether AMOs are direct: with
AMOs decided at run time and all conditions for direct AMOs met, the thread is requested although active messages are not used
(and initialisation fails if MPI offers no `MPI_THREAD_MULTIPLE`, C48). -/
theorem C85_default_violation : ∃ b : Bld, asyncThread .auto none b.amo b.amoDbg b.rma = true ∧ b.am = false :=
  ⟨{ plain with amo := .auto, amoDirect := true }, by decide, by decide⟩

/-! ## Concrete cases -/

/-- a build with active messages, threads and dynamic windows -/
def full : Bld :=
  { dyn := true, cache := true, async := false, multi := true, dataSymm := false, heapSymm := false, amo := .auto
    rma := .auto, amoDbg := .auto, rmaDbg := .auto, amoDirect := false, features := 15 }

/-- the hypotheses of `C85_call_partial` and of `C85_order` are met: initialisation creates 25 resources -/
example : ∃ s, run full.cfg St.start [.init] = .ok s ∧ s.isInit = true ∧ full.am = true ∧ s.log.length = 25 ∧
    uses full (.amo .space) = .ok [.spaceCs, .amComm, .amAckComm, .amFlags, .amCs, .amRecv] ∧
    uses full (.iput .heap false .host) = .ok [.stridedCs, .dynWin, .heapOffsets] ∧
    live s.log .heapOffsets = true := ⟨_, rfl, by decide, by decide, by decide, by decide, by decide, by decide⟩

/-- the log of a complete life, and a moment in finalisation at which packets are still received -/
example : ∃ s p q, run full.cfg St.start [.init, .fin] = .ok s ∧ s.log = p ++ .rel .amRecv :: q ∧
    live p .amRecv = true ∧ live p .collCs = false := by
  refine ⟨_, (acquired full.cfg false).map Ev.acq ++ [.rel .collCs], _, rfl, rfl, by decide, by decide⟩

/-- a get of device memory without the corresponding MPI feature goes by active message -/
example : uses { full with features := 1 } (.get .heap true .host) =
    .ok [.amComm, .amAckComm, .amFlags, .amCs, .amRecv] := by decide

end Verif.Setup
