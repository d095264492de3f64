import Verif.Setup.Model
/-!
# C51: resources of the library are released exactly once
-/
namespace Verif.Setup

/-- every item, to run through them -/
def items : List Item := [.mpiT, .mpi, .worldComm, .worldGroup, .worldTeam, .sharedComm, .sharedGroup, .sharedTeam, .dynWin,
  .attachData, .attachHeap, .heapMem, .dataWin, .heapWin, .heapCs, .dataOffsets, .heapOffsets, .stridedCs, .collCs, .spaceCs,
  .amComm, .amAckComm, .amFlags, .amTypes, .amOps, .amCs, .amRecv, .amMutex, .amCond]

theorem mem_items (i : Item) : i ∈ items := by cases i <;> decide

/-- all builds -/
def cfgs : List Cfg := [false, true].flatMap fun a => [false, true].flatMap fun b => [false, true].flatMap fun c =>
  [false, true].flatMap fun d => [false, true].flatMap fun e => [false, true].flatMap fun f => [false, true].map fun g =>
    ⟨a, b, c, d, e, f, g⟩

theorem mem_bools (b : Bool) : b ∈ [false, true] := by cases b <;> decide

theorem mem_cfgs (c : Cfg) : c ∈ cfgs := by
  obtain ⟨a, b, c, d, e, f, g⟩ := c
  unfold cfgs
  simp only [List.mem_flatMap, List.mem_map]
  exact ⟨a, mem_bools a, b, mem_bools b, c, mem_bools c, d, mem_bools d, e, mem_bools e, f, mem_bools f, g, mem_bools g, rfl⟩

/-- the items that finalize forgets in some builds -/
def leaked (c : Cfg) (i : Item) : Bool := decide (i = .heapCs) && c.dyn && c.multi

/-- entries of an item in what initialisation and finalisation log -/
def pair (c : Cfg) (u : Bool) (i : Item) : List Ev × List Ev :=
  (((acquired c u).map Ev.acq).filter (fun e => decide (e.item = i)),
   ((released c).map Ev.rel).filter (fun e => decide (e.item = i)))

theorem pair_cases : ∀ c ∈ cfgs, ∀ u ∈ [false, true], ∀ i ∈ items,
    pair c u i = ([], []) ∨ pair c u i = ([.acq i], [.rel i]) ∨
    (u = true ∧ i = .mpi ∧ pair c u i = ([], [.rel i])) ∨ (leaked c i = true ∧ pair c u i = ([.acq i], [])) := by
  decide +kernel

/-- what the flags say about the log -/
def Inv (c : Cfg) (s : St) : Prop :=
  (s.isInit = true → s.mpi ≠ .fresh ∧ ∃ u, s.log = (acquired c u).map Ev.acq) ∧
  (s.isInit = false → s.log = [] ∨ (s.mpi = .done ∧ ∃ u, s.log = (acquired c u).map Ev.acq ++ (released c).map Ev.rel)) ∧
  (s.startPes = true → 0 < s.handlers ∧ s.log ≠ [])

theorem acquired_ne (c : Cfg) (u : Bool) : (acquired c u).map Ev.acq ≠ [] := by
  simp [acquired]

theorem inv_doInit {c : Cfg} {s s' : St} (h : Inv c s) (e : doInit c s = .ok s') :
    Inv c s' ∧ s'.isInit = true ∧ s'.startPes = s.startPes ∧ s'.handlers = s.handlers := by
  unfold doInit at e
  by_cases hi : s.isInit = true
  · rw [if_pos hi] at e
    cases e
    exact ⟨h, hi, rfl, rfl⟩
  · rw [if_neg hi] at e
    have hi' : s.isInit = false := by simpa using hi
    obtain ⟨_, h2, h3⟩ := h
    cases hm : s.mpi with
    | done => rw [hm] at e; cases e
    | fresh =>
      rw [hm] at e; cases e
      have hl : s.log = [] := by
        rcases h2 hi' with hl | ⟨hd, _⟩
        · exact hl
        · rw [hm] at hd; cases hd
      exact ⟨⟨fun _ => ⟨by simp, false, by simp [hl]⟩, fun h => by simp at h,
        fun h => ⟨(h3 h).1, by simp [hl, acquired_ne]; simp [acquired]⟩⟩, rfl, rfl, rfl⟩
    | active =>
      rw [hm] at e; cases e
      have hl : s.log = [] := by
        rcases h2 hi' with hl | ⟨hd, _⟩
        · exact hl
        · rw [hm] at hd; cases hd
      exact ⟨⟨fun _ => ⟨by simp [hm], true, by simp [hl]⟩, fun h => by simp at h,
        fun h => ⟨(h3 h).1, by simp [hl, acquired_ne]; simp [acquired]⟩⟩, rfl, rfl, rfl⟩

theorem inv_finImpl {c : Cfg} {s s' : St} (h : Inv c s) (hi : s.isInit = true) (e : finImpl c s = .ok s') :
    Inv c s' ∧ s'.isInit = false ∧ s'.startPes = s.startPes ∧ s'.handlers = s.handlers := by
  unfold finImpl at e
  obtain ⟨h1, _, h3⟩ := h
  obtain ⟨_, u, hl⟩ := h1 hi
  cases hm : s.mpi with
  | done => rw [hm] at e; cases e
  | fresh => rw [hm] at e; cases e
  | active =>
    rw [hm] at e; cases e
    exact ⟨⟨fun h => by simp at h, fun _ => Or.inr ⟨rfl, u, by simp [hl]⟩, fun h => ⟨(h3 h).1, by simp [hl, acquired]⟩⟩, rfl, rfl, rfl⟩

theorem inv_step {c : Cfg} {s s' : St} (h : Inv c s) (o : Op) (e : step c s o = .ok s') : Inv c s' := by
  cases o with
  | init => exact (inv_doInit h e).1
  | startPes =>
    simp only [step] at e
    by_cases hi : s.isInit = true
    · rw [if_pos hi] at e; cases e; exact h
    · rw [if_neg hi] at e
      cases hd : doInit c s with
      | ok s1 =>
        rw [hd, Res.bind_ok] at e
        cases e
        obtain ⟨⟨h1, h2, _⟩, hi1, _, _⟩ := inv_doInit h hd
        obtain ⟨_, u, hu⟩ := h1 hi1
        exact ⟨h1, h2, fun _ => ⟨Nat.succ_pos _, by show s1.log ≠ []; rw [hu]; exact acquired_ne c u⟩⟩
      | abort => rw [hd] at e; cases e
      | ub => rw [hd] at e; cases e
      | hang => rw [hd] at e; cases e
  | fin =>
    simp only [step] at e
    by_cases hi : s.isInit = true
    · rw [if_pos hi] at e; exact (inv_finImpl h hi e).1
    · rw [if_neg hi] at e; cases e; exact h
  | userMpiInit =>
    simp only [step] at e
    obtain ⟨h1, h2, h3⟩ := h
    cases hm : s.mpi with
    | fresh =>
      rw [hm] at e; cases e
      refine ⟨fun hi => ⟨by simp, (h1 hi).2⟩, fun hi => ?_, h3⟩
      rcases h2 hi with hl | ⟨hd, _⟩
      · exact Or.inl hl
      · rw [hm] at hd; cases hd
    | active => rw [hm] at e; cases e
    | done => rw [hm] at e; cases e
  | userMpiFin =>
    simp only [step] at e
    obtain ⟨h1, h2, h3⟩ := h
    cases hm : s.mpi with
    | active =>
      rw [hm] at e; cases e
      refine ⟨fun hi => ⟨by simp, (h1 hi).2⟩, fun hi => ?_, h3⟩
      rcases h2 hi with hl | ⟨_, hu⟩
      · exact Or.inl hl
      · exact Or.inr ⟨rfl, hu⟩
    | fresh => rw [hm] at e; cases e
    | done => rw [hm] at e; cases e

theorem inv_run {c : Cfg} : ∀ {os : List Op} {s s' : St}, Inv c s → run c s os = .ok s' → Inv c s' := by
  intro os
  induction os with
  | nil => intro s s' h e; cases e; exact h
  | cons o os ih =>
    intro s s' h e
    simp only [run] at e
    cases hs : step c s o with
    | ok s1 => rw [hs, Res.bind_ok] at e; exact ih (inv_step h o hs) e
    | abort => rw [hs] at e; cases e
    | ub => rw [hs] at e; cases e
    | hang => rw [hs] at e; cases e

theorem inv_exit {c : Cfg} : ∀ {n : Nat} {s s' : St}, Inv c s → exitProc c n s = .ok s' →
    Inv c s' ∧ s'.startPes = s.startPes ∧ (0 < n → s.startPes = true → s'.isInit = false) ∧ (s.isInit = false → s'.isInit = false) := by
  intro n
  induction n with
  | zero => intro s s' h e; cases e; exact ⟨h, rfl, fun h => absurd h (by simp), id⟩
  | succ n ih =>
    intro s s' h e
    simp only [exitProc] at e
    cases hs : implicitFin c s with
    | ok s1 =>
      rw [hs, Res.bind_ok] at e
      unfold implicitFin at hs
      by_cases hb : (s.startPes && s.isInit) = true
      · rw [if_pos hb] at hs
        have hi : s.isInit = true := by simp at hb; exact hb.2
        obtain ⟨hI, hi1, hp, _⟩ := inv_finImpl h hi hs
        obtain ⟨r1, r2, _, r4⟩ := ih hI e
        exact ⟨r1, r2.trans hp, fun _ _ => r4 hi1, fun hf => absurd hf (by rw [hi]; simp)⟩
      · rw [if_neg hb] at hs
        cases hs
        obtain ⟨r1, r2, _, r4⟩ := ih h e
        refine ⟨r1, r2, fun _ hp => r4 ?_, r4⟩
        cases hi : s.isInit with
        | false => rfl
        | true => exact absurd (by simp [hp, hi]) hb
    | abort => rw [hs] at e; cases e
    | ub => rw [hs] at e; cases e
    | hang => rw [hs] at e; cases e

theorem inv_start (c : Cfg) : Inv c St.start :=
  ⟨fun h => by simp [St.start] at h, fun _ => Or.inl rfl, fun h => by simp [St.start] at h⟩

theorem of_cases {c : Cfg} {s : St} (h : Inv c s) (i : Item) (hl : leaked c i = false) (hm : i ≠ .mpi) :
    s.of i = [] ∨ (s.isInit = true ∧ s.of i = [.acq i]) ∨ s.of i = [.acq i, .rel i] := by
  obtain ⟨h1, h2, _⟩ := h
  unfold St.of
  have key : ∀ u, (pair c u i = ([], []) ∨ pair c u i = ([.acq i], [.rel i])) := by
    intro u
    rcases pair_cases c (mem_cfgs c) u (mem_bools u) i (mem_items i) with k | k | ⟨_, k, _⟩ | ⟨k, _⟩
    · exact Or.inl k
    · exact Or.inr k
    · exact absurd k hm
    · rw [hl] at k; cases k
  cases hi : s.isInit with
  | true =>
    obtain ⟨_, u, hu⟩ := h1 hi
    rcases key u with k | k
    · exact Or.inl (by rw [hu]; exact congrArg Prod.fst k)
    · exact Or.inr (Or.inl ⟨rfl, by rw [hu]; exact congrArg Prod.fst k⟩)
  | false =>
    rcases h2 hi with hn | ⟨_, u, hu⟩
    · exact Or.inl (by rw [hn]; rfl)
    · rw [hu, List.filter_append]
      rcases key u with k | k
      · exact Or.inl (by show (pair c u i).1 ++ (pair c u i).2 = _; rw [k]; rfl)
      · exact Or.inr (Or.inr (by show (pair c u i).1 ++ (pair c u i).2 = _; rw [k]; rfl))

/-- **C51 (partial).** In every build and for every sequence of init, start_pes and finalize calls, also mixed with the
program's own `MPI_Init`/`MPI_Finalize`: at every point the history of each resource of the library is: never acquired, or
acquired and not yet released while the library is initialised, or acquired once and then released once. In particular nothing
is released twice, or before it is acquired, and once finalize has run nothing is left. Excluded: MPI itself (`C51_mpi`) and
the critical section of the heap in builds with dynamic windows (`C51_leak`). -/
theorem C51_once_partial (c : Cfg) (os : List Op) (s : St) (h : run c St.start os = .ok s) (i : Item)
    (hl : ¬(i = .heapCs ∧ c.dyn = true ∧ c.multi = true)) (hm : i ≠ .mpi) :
    s.of i = [] ∨ (s.isInit = true ∧ s.of i = [.acq i]) ∨ s.of i = [.acq i, .rel i] := by
  refine of_cases (inv_run (inv_start c) h) i ?_ hm
  unfold leaked
  by_cases h1 : i = .heapCs <;> cases h2 : c.dyn <;> cases h3 : c.multi <;> simp_all

/-- **C51 at exit (partial).** A program started by `start_pes` has everything released when it has exited, whether or not it
called finalize, and still exactly once. -/
theorem C51_exit_partial (c : Cfg) (os : List Op) (s s' : St) (h : run c St.start os = .ok s) (hp : s.startPes = true)
    (he : exitProc c s.handlers s = .ok s') (i : Item)
    (hl : ¬(i = .heapCs ∧ c.dyn = true ∧ c.multi = true)) (hm : i ≠ .mpi) :
    s'.of i = [] ∨ s'.of i = [.acq i, .rel i] := by
  have hI := inv_run (inv_start c) h
  obtain ⟨hI', _, hf, _⟩ := inv_exit hI he
  have hl' : leaked c i = false := by
    unfold leaked
    by_cases h1 : i = .heapCs <;> cases h2 : c.dyn <;> cases h3 : c.multi <;> simp_all
  rcases of_cases hI' i hl' hm with k | ⟨k, _⟩ | k
  · exact Or.inl k
  · rw [hf (hI.2.2 hp).1 hp] at k; cases k
  · exact Or.inr k

/-- Every resource that exists in the build is really acquired by init (so "never acquired" above is not the whole story): the
world communicator, for instance, is there exactly while initialised. -/
theorem C51_world (c : Cfg) (os : List Op) (s : St) (h : run c St.start os = .ok s) (hi : s.isInit = true) :
    s.of .worldComm = [.acq .worldComm] := by
  obtain ⟨h1, _, _⟩ := inv_run (inv_start c) h
  obtain ⟨_, u, hu⟩ := h1 hi
  have hk : ∀ c ∈ cfgs, ∀ u ∈ [false, true], (pair c u .worldComm).1 = [.acq .worldComm] := by decide +kernel
  unfold St.of
  rw [hu]
  exact hk c (mem_cfgs c) u (mem_bools u)

/-- Exit without `start_pes` does nothing: explicit finalize is then the program's duty, and a repeated finalize or init is
harmless. -/
theorem C51_idempotent (c : Cfg) (s : St) :
    (s.isInit = true → step c s .init = .ok s ∧ step c s .startPes = .ok s) ∧ (s.isInit = false → step c s .fin = .ok s) := by
  refine ⟨fun h => ⟨?_, ?_⟩, fun h => ?_⟩
  · simp [step, doInit, h]
  · simp [step, h]
  · simp [step, h]

/-- resources that another resource was made from and that therefore must outlive it -/
def needs : Item → List Item
  | .worldComm => [.mpi]
  | .worldGroup => [.mpi]
  | .sharedComm => [.mpi]
  | .sharedGroup => [.mpi]
  | .dynWin => [.mpi, .worldComm]
  | .dataWin => [.mpi, .worldComm]
  | .heapWin => [.mpi, .worldComm]
  | .attachData => [.dynWin]
  | .attachHeap => [.dynWin, .heapMem]
  | .amComm => [.mpi, .worldComm]
  | .amAckComm => [.mpi, .worldComm]
  | .amRecv => [.amComm]
  | .mpiT => []
  | .mpi => []
  | .worldTeam => []
  | .sharedTeam => []
  | .heapMem => []
  | .heapCs => []
  | .dataOffsets => []
  | .heapOffsets => []
  | .stridedCs => []
  | .collCs => []
  | .spaceCs => []
  | .amFlags => []
  | .amTypes => []
  | .amOps => []
  | .amCs => []
  | .amMutex => []
  | .amCond => []

/-- **C51, order.** Finalize releases every resource before those it depends on: windows and communicators before MPI,
attached memory detached before the window is freed, the heap freed after it is detached, the posted receive completed before
its communicator is freed. -/
theorem C51_order (c : Cfg) (i j : Item) (hj : j ∈ needs i) (hi : i ∈ released c) :
    (released c).idxOf i < (released c).idxOf j ∧ j ∈ released c := by
  have hk : ∀ c ∈ cfgs, ∀ i ∈ items, ∀ j ∈ needs i, i ∈ released c →
      (released c).idxOf i < (released c).idxOf j ∧ j ∈ released c := by decide +kernel
  exact hk c (mem_cfgs c) i (mem_items i) j hj hi

/-- **C51, MPI.** The library finalizes MPI exactly when it finalizes itself, also if the program had initialised MPI: from
then on the program's own `MPI_Finalize` is an error. -/
theorem C51_mpi (c : Cfg) (s s' : St) (hi : s.isInit = true) (h : step c s .fin = .ok s') :
    s'.mpi = .done ∧ step c s' .userMpiFin = .abort ∧ step c s' .init = .abort ∧ step c s' .startPes = .abort := by
  simp only [step] at h
  rw [if_pos hi] at h
  unfold finImpl at h
  cases hm : s.mpi with
  | done => rw [hm] at h; cases h
  | fresh => rw [hm] at h; cases h
  | active =>
    rw [hm] at h; cases h
    exact ⟨rfl, rfl, rfl, rfl⟩

/-- a build with dynamic windows and threads -/
abbrev exCfg : Cfg := ⟨true, true, true, false, true, true, false⟩

/-- **C51 fails** for one resource: in a build with dynamic windows with `SHMEM_THREAD_MULTIPLE`, the critical section of the
heap (setup_impl.c L192) is never destroyed. -/
theorem C51_leak : ∃ s, run exCfg St.start [.init, .fin] = .ok s ∧ s.isInit = false ∧ s.of .heapCs = [.acq .heapCs] := by
  refine ⟨⟨false, false, 0, .done, (acquired exCfg false).map Ev.acq ++ (released exCfg).map Ev.rel⟩, ?_, rfl, ?_⟩ <;> decide +kernel

/-- **C51 fails** for programs that initialise MPI themselves: the normal sequence `MPI_Init`, `shmem_init`, `shmem_finalize`,
`MPI_Finalize` ends in an error. -/
theorem C51_user_mpi_fails (c : Cfg) : run c St.start [.userMpiInit, .init, .fin, .userMpiFin] = .abort := by
  rfl

/-! Concrete cases: a program started by `start_pes` that calls finalize twice, one that relies on the implicit finalize, and
one where `shmem_init` came first. -/
example : ∃ s, run exCfg St.start [.startPes, .startPes, .init, .fin, .fin] = .ok s ∧ s.of .amComm = [.acq .amComm, .rel .amComm] :=
  ⟨⟨false, true, 1, .done, (acquired exCfg false).map Ev.acq ++ (released exCfg).map Ev.rel⟩, by decide +kernel, by decide +kernel⟩
example : ∃ s s', run exCfg St.start [.startPes] = .ok s ∧ s.startPes = true ∧ exitProc exCfg s.handlers s = .ok s' ∧
    s'.of .heapMem = [.acq .heapMem, .rel .heapMem] :=
  ⟨⟨true, true, 1, .active, (acquired exCfg false).map Ev.acq⟩,
   ⟨false, true, 1, .done, (acquired exCfg false).map Ev.acq ++ (released exCfg).map Ev.rel⟩, by decide +kernel, rfl, by decide +kernel, by decide +kernel⟩
example : ∃ s s', run exCfg St.start [.init] = .ok s ∧ s.isInit = true ∧ step exCfg s .fin = .ok s' :=
  ⟨⟨true, false, 0, .active, (acquired exCfg false).map Ev.acq⟩,
   ⟨false, false, 0, .done, (acquired exCfg false).map Ev.acq ++ (released exCfg).map Ev.rel⟩, by decide +kernel, rfl, by decide +kernel⟩
example : Item.dynWin ∈ released exCfg ∧ Item.worldComm ∈ needs .dynWin := by decide

end Verif.Setup
