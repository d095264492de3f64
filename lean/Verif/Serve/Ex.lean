import Verif.Serve.Props

/-!
# C83: programs that hang, and cases of the hypotheses

PE 0 makes a collective call without progress; PE 1 first does a fetching AMO on PE 0's memory,
then the same call.  Both then finalize.  The state is the counter the AMO increments.
-/

namespace Verif.Serve.Ex

/-- A job without asynchronous thread in which MPI collectives end when all members called
them (not code: parameters of the examples). -/
def S (n : Nat) : Cfg := ⟨n, false, false, true, fun _ => [0, 1], fun _ ms e _ => ms.all e⟩

theorem S_mpi (n : Nat) : (S n).Mpi :=
  ⟨fun _ _ _ _ h => List.all_eq_true.mpr h, fun _ _ _ _ _ h => List.all_eq_true.mp h⟩

/-- The program (user code, not the library's). -/
def prog (X : Call Nat) : Nat → Nat → Nat → Call Nat
  | 0, 0, _ => X
  | 1, 0, _ => .amoFetchAm 0 (· + 1)
  | 1, 1, _ => X
  | _, _, _ => .finalize

theorem snoc {M : Type} {S : Cfg} {pr : Nat → Nat → M → Call M} {b : Bool} {g h k : Job M}
    (r : Run S pr b g h) (s : Step S pr b h k) : Run S pr b g k := .step _ _ _ r s

theorem trans {M : Type} {S : Cfg} {pr : Nat → Nat → M → Call M} {b : Bool} {g h k : Job M}
    (r : Run S pr b g h) (s : Run S pr b h k) : Run S pr b g k := by
  induction s with
  | refl => exact r
  | step _ _ _ st ih => exact .step _ _ _ ih st

/-- From here on with active messages handled at once. -/
theorem here {M : Type} {S : Cfg} {pr : Nat → Nat → M → Call M} {a g : Job M}
    (_ : Run S pr false a g) : Run S pr true g g := .refl g

/-- Three PEs or two, PE 0 and PE 1 as above. -/
theorem two {P : Nat → Prop} (h0 : P 0) (h1 : P 1) : ∀ p, p < 2 → P p := by
  intro p hp
  match p, hp with
  | 0, _ => exact h0
  | 1, _ => exact h1

theorem three {P : Nat → Prop} (h0 : P 0) (h1 : P 1) (h2 : P 2) : ∀ p, p < 3 → P p := by
  intro p hp
  match p, hp with
  | 0, _ => exact h0
  | 1, _ => exact h1
  | 2, _ => exact h2

/-- C83 fails: a job of two PEs that call `shmem_team_split_strided` after a fetching AMO of one
of them hangs for ever in some schedule; the specification lets it end from there. -/
theorem C83_split_fails :
    ∃ g, Run (S 2) (prog (.teamSplit 0)) false (.init 0) g ∧
      (∀ g', Run (S 2) (prog (.teamSplit 0)) false g g' → ¬ Done (S 2) g') ∧
      ∃ h, Run (S 2) (prog (.teamSplit 0)) true g h ∧ Done (S 2) h ∧ h.mem = 1 := by
  have r := Run.refl (S := S 2) (prog := prog (.teamSplit 0)) (free := false) (Job.init 0)
  have r := snoc r (.start _ 0 (by decide) rfl)
  have r := snoc r (.enter _ 0 (by decide) (.team 0) .commSplit [] rfl rfl)
  have r := snoc r (.start _ 1 (by decide) rfl)
  have r := snoc r (.send _ 1 (by decide) 0 (· + 1) true [] rfl rfl)
  refine ⟨_, r, ?_, ?_⟩
  · intro g' h hd
    have := C83_hangs (S 2) (S_mpi 2) _ 0 _ rfl r 0 1 (.team 0) .commSplit [] [] (· + 1)
      ⟨rfl, rfl, rfl, rfl, by decide, by decide, rfl, rfl⟩ g' h
    have e := hd 0 (by decide)
    rw [this.1] at e
    cases e
  · have i := here r
    have i := snoc i (.handle _ 0 (by decide) [] [] _ rfl nofun (.inl rfl))
    have i := snoc i (.start _ 1 (by decide) rfl)
    have i := snoc i (.enter _ 1 (by decide) (.team 0) .commSplit [] rfl rfl)
    have i := snoc i (.leave _ 0 (by decide) (.team 0) .commSplit [] rfl rfl rfl)
    have i := snoc i (.leave _ 1 (by decide) (.team 0) .commSplit [] rfl rfl rfl)
    have i := snoc i (.start _ 0 (by decide) rfl)
    have i := snoc i (.start _ 1 (by decide) rfl)
    have i := snoc i (.enter _ 0 (by decide) .finalize .barrier [.stop] rfl rfl)
    have i := snoc i (.enter _ 1 (by decide) .finalize .barrier [.stop] rfl rfl)
    have i := snoc i (.leave _ 0 (by decide) .finalize .barrier [.stop] rfl rfl rfl)
    have i := snoc i (.leave _ 1 (by decide) .finalize .barrier [.stop] rfl rfl rfl)
    exact ⟨_, i, two rfl rfl, rfl⟩

/-- C83 fails: the same with the first `shmem_barrier` on the active set of PE 0 and PE 1 among
three PEs. -/
theorem C83_activeset_fails :
    ∃ g, Run (S 3) (prog (.asetBarrier 0 0 2)) false (.init 0) g ∧
      (∀ g', Run (S 3) (prog (.asetBarrier 0 0 2)) false g g' → ¬ Done (S 3) g') ∧
      ∃ h, Run (S 3) (prog (.asetBarrier 0 0 2)) true g h ∧ Done (S 3) h ∧ h.mem = 1 := by
  have r := Run.refl (S := S 3) (prog := prog (.asetBarrier 0 0 2)) (free := false) (Job.init 0)
  have r := snoc r (.start _ 0 (by decide) rfl)
  have r := snoc r (.enter _ 0 (by decide) (.create 0 0 2) .commCreateGroup [.coll (.group 0 0 2) .barrier] rfl rfl)
  have r := snoc r (.start _ 1 (by decide) rfl)
  have r := snoc r (.send _ 1 (by decide) 0 (· + 1) true [] rfl rfl)
  refine ⟨_, r, ?_, ?_⟩
  · intro g' h hd
    have := C83_hangs (S 3) (S_mpi 3) _ 0 _ rfl r 0 1 (.create 0 0 2) .commCreateGroup [.coll (.group 0 0 2) .barrier] [] (· + 1)
      ⟨rfl, rfl, rfl, rfl, by decide, by decide, rfl, rfl⟩ g' h
    have e := hd 0 (by decide)
    rw [this.1] at e
    cases e
  · have i := here r
    have i := snoc i (.handle _ 0 (by decide) [] [] _ rfl nofun (.inl rfl))
    have i := snoc i (.start _ 1 (by decide) rfl)
    have i := snoc i (.enter _ 1 (by decide) (.create 0 0 2) .commCreateGroup [.coll (.group 0 0 2) .barrier] rfl rfl)
    have i := snoc i (.leave _ 0 (by decide) (.create 0 0 2) .commCreateGroup [.coll (.group 0 0 2) .barrier] rfl rfl rfl)
    have i := snoc i (.leave _ 1 (by decide) (.create 0 0 2) .commCreateGroup [.coll (.group 0 0 2) .barrier] rfl rfl rfl)
    have i := snoc i (.enter _ 0 (by decide) (.group 0 0 2) .barrier [] rfl rfl)
    have i := snoc i (.enter _ 1 (by decide) (.group 0 0 2) .barrier [] rfl rfl)
    have i := snoc i (.leave _ 0 (by decide) (.group 0 0 2) .barrier [] rfl rfl rfl)
    have i := snoc i (.leave _ 1 (by decide) (.group 0 0 2) .barrier [] rfl rfl rfl)
    have i := snoc i (.start _ 0 (by decide) rfl)
    have i := snoc i (.start _ 1 (by decide) rfl)
    have i := snoc i (.start _ 2 (by decide) rfl)
    have i := snoc i (.enter _ 0 (by decide) .finalize .barrier [.stop] rfl rfl)
    have i := snoc i (.enter _ 1 (by decide) .finalize .barrier [.stop] rfl rfl)
    have i := snoc i (.enter _ 2 (by decide) .finalize .barrier [.stop] rfl rfl)
    have i := snoc i (.leave _ 0 (by decide) .finalize .barrier [.stop] rfl rfl rfl)
    have i := snoc i (.leave _ 1 (by decide) .finalize .barrier [.stop] rfl rfl rfl)
    have i := snoc i (.leave _ 2 (by decide) .finalize .barrier [.stop] rfl rfl rfl)
    exact ⟨_, i, three rfl rfl rfl, rfl⟩

/-- C83 fails: the same with `shmemx_space_attach` of a space without contexts. -/
theorem C83_attach_fails :
    ∃ g, Run (S 2) (prog (.spaceAttach 0)) false (.init 0) g ∧
      (∀ g', Run (S 2) (prog (.spaceAttach 0)) false g g' → ¬ Done (S 2) g') ∧
      ∃ h, Run (S 2) (prog (.spaceAttach 0)) true g h ∧ Done (S 2) h ∧ h.mem = 1 := by
  have r := Run.refl (S := S 2) (prog := prog (.spaceAttach 0)) (free := false) (Job.init 0)
  have r := snoc r (.start _ 0 (by decide) rfl)
  have r := snoc r (.enter _ 0 (by decide) .world .plainAllgather [.coll .world .winCreate] rfl rfl)
  have r := snoc r (.start _ 1 (by decide) rfl)
  have r := snoc r (.send _ 1 (by decide) 0 (· + 1) true [] rfl rfl)
  refine ⟨_, r, ?_, ?_⟩
  · intro g' h hd
    have := C83_hangs (S 2) (S_mpi 2) _ 0 _ rfl r 0 1 .world .plainAllgather [.coll .world .winCreate] [] (· + 1)
      ⟨rfl, rfl, rfl, rfl, by decide, by decide, rfl, rfl⟩ g' h
    have e := hd 0 (by decide)
    rw [this.1] at e
    cases e
  · have i := here r
    have i := snoc i (.handle _ 0 (by decide) [] [] _ rfl nofun (.inl rfl))
    have i := snoc i (.start _ 1 (by decide) rfl)
    have i := snoc i (.enter _ 1 (by decide) .world .plainAllgather [.coll .world .winCreate] rfl rfl)
    have i := snoc i (.leave _ 0 (by decide) .world .plainAllgather [.coll .world .winCreate] rfl rfl rfl)
    have i := snoc i (.leave _ 1 (by decide) .world .plainAllgather [.coll .world .winCreate] rfl rfl rfl)
    have i := snoc i (.enter _ 0 (by decide) .world .winCreate [] rfl rfl)
    have i := snoc i (.enter _ 1 (by decide) .world .winCreate [] rfl rfl)
    have i := snoc i (.leave _ 0 (by decide) .world .winCreate [] rfl rfl rfl)
    have i := snoc i (.leave _ 1 (by decide) .world .winCreate [] rfl rfl rfl)
    have i := snoc i (.start _ 0 (by decide) rfl)
    have i := snoc i (.start _ 1 (by decide) rfl)
    have i := snoc i (.enter _ 0 (by decide) .finalize .barrier [.stop] rfl rfl)
    have i := snoc i (.enter _ 1 (by decide) .finalize .barrier [.stop] rfl rfl)
    have i := snoc i (.leave _ 0 (by decide) .finalize .barrier [.stop] rfl rfl rfl)
    have i := snoc i (.leave _ 1 (by decide) .finalize .barrier [.stop] rfl rfl rfl)
    exact ⟨_, i, two rfl rfl, rfl⟩

/-- C83 fails: the same with `shmemx_space_detach`. -/
theorem C83_detach_fails :
    ∃ g, Run (S 2) (prog (.spaceDetach 0)) false (.init 0) g ∧
      (∀ g', Run (S 2) (prog (.spaceDetach 0)) false g g' → ¬ Done (S 2) g') ∧
      ∃ h, Run (S 2) (prog (.spaceDetach 0)) true g h ∧ Done (S 2) h ∧ h.mem = 1 := by
  have r := Run.refl (S := S 2) (prog := prog (.spaceDetach 0)) (free := false) (Job.init 0)
  have r := snoc r (.start _ 0 (by decide) rfl)
  have r := snoc r (.enter _ 0 (by decide) .world .winFree [] rfl rfl)
  have r := snoc r (.start _ 1 (by decide) rfl)
  have r := snoc r (.send _ 1 (by decide) 0 (· + 1) true [] rfl rfl)
  refine ⟨_, r, ?_, ?_⟩
  · intro g' h hd
    have := C83_hangs (S 2) (S_mpi 2) _ 0 _ rfl r 0 1 .world .winFree [] [] (· + 1)
      ⟨rfl, rfl, rfl, rfl, by decide, by decide, rfl, rfl⟩ g' h
    have e := hd 0 (by decide)
    rw [this.1] at e
    cases e
  · have i := here r
    have i := snoc i (.handle _ 0 (by decide) [] [] _ rfl nofun (.inl rfl))
    have i := snoc i (.start _ 1 (by decide) rfl)
    have i := snoc i (.enter _ 1 (by decide) .world .winFree [] rfl rfl)
    have i := snoc i (.leave _ 0 (by decide) .world .winFree [] rfl rfl rfl)
    have i := snoc i (.leave _ 1 (by decide) .world .winFree [] rfl rfl rfl)
    have i := snoc i (.start _ 0 (by decide) rfl)
    have i := snoc i (.start _ 1 (by decide) rfl)
    have i := snoc i (.enter _ 0 (by decide) .finalize .barrier [.stop] rfl rfl)
    have i := snoc i (.enter _ 1 (by decide) .finalize .barrier [.stop] rfl rfl)
    have i := snoc i (.leave _ 0 (by decide) .finalize .barrier [.stop] rfl rfl rfl)
    have i := snoc i (.leave _ 1 (by decide) .finalize .barrier [.stop] rfl rfl rfl)
    exact ⟨_, i, two rfl rfl, rfl⟩

/-- C83 fails: PE 0 polls a lock that PE 1 holds; PE 1 does a fetching AMO on PE 0's memory and
never gets its answer, while with the specification's progress it gets it at once. -/
theorem C83_testlock_fails :
    let pr : Nat → Nat → Nat → Call Nat := fun p _ _ =>
      if p = 0 then .testLock id else .amoFetchAm 0 (· + 1)
    ∃ g, Run (S 2) pr false (.init 0) g ∧
      (∀ g', Run (S 2) pr false g g' → (g'.pe 1).waiting = true) ∧
      ∃ h, Step (S 2) pr true g h ∧ (h.pe 1).waiting = false ∧ h.mem = 1 := by
  intro pr
  have r := Run.refl (S := S 2) (prog := pr) (free := false) (Job.init 0)
  have r := snoc r (.start _ 0 (by decide) rfl)
  have r := snoc r (.start _ 1 (by decide) rfl)
  have r := snoc r (.send _ 1 (by decide) 0 (· + 1) true [] rfl rfl)
  refine ⟨_, r, ?_, ?_⟩
  · intro g' h
    exact (C83_poll_fails (S 2) (S_mpi 2) pr 0 _ rfl r 0 1 (fun _ _ => trivial) [] (· + 1)
      ⟨fun x hx => ⟨id, List.mem_singleton.mp hx⟩, rfl, rfl⟩ g' h).1
  · exact ⟨_, .handle _ 0 (by decide) [] [] _ rfl nofun (.inl rfl), rfl, rfl⟩

/-- The hypotheses of `C83_progress_partial` hold for a program with
AMOs over active messages: PE 1 does a fetching AMO, everybody then a barrier on the active set
of all PEs, allocates and finalizes. -/
def good : Nat → Nat → Nat → Call Nat
  | 1, 0, _ => .amoFetchAm 0 (· + 1)
  | _, 0, _ => .asetBarrier 0 0 2
  | 1, 1, _ => .asetBarrier 0 0 2
  | _, 1, _ => .alloc id
  | 1, 2, _ => .alloc id
  | _, _, _ => .finalize

example (g : Job Nat) (hr : Run (S 2) good false (.init 0) g) (hs : Stuck (S 2) good false g) :
    Done (S 2) g ∨ Stuck (S 2) good true g := by
  refine C83_progress_partial (S 2) (S_mpi 2) good 0 g (.inr ?_) hr hs
  intro h p _ _ _
  generalize (h.pe p).calls = k
  generalize h.mem = m
  unfold good
  split
  · exact trivial
  · exact .inl ⟨rfl, rfl, rfl⟩
  · exact .inl ⟨rfl, rfl, rfl⟩
  · exact trivial
  · exact trivial
  · exact trivial

/-- The hypotheses of `C83_direct_partial`: a program that only works on the direct path, with
team split, a new active set and a space. -/
def direct : Nat → Nat → Nat → Call Nat
  | _, 0, _ => .local' (· + 1)
  | _, 1, _ => .teamSplit 0
  | _, 2, _ => .asetBarrier 0 0 2
  | _, 3, _ => .spaceAttach 1
  | _, _, _ => .finalize

example (g : Job Nat) (hr : Run (S 3) direct false (.init 0) g)
    (hs : Stuck (S 3) direct false g) : Done (S 3) g ∨ Stuck (S 3) direct true g := by
  refine C83_direct_partial (S 3) (S_mpi 3) direct 0 g ?_ hr hs
  intro p k m
  unfold direct
  split <;> exact trivial

/-- A state with the hypotheses of `C83_cause` in which the third case holds (see
`C83_split_fails`), and one of `C83_test`: PE 0 polls its memory with `shmem_test`. -/
example :
    let pr : Nat → Nat → Nat → Call Nat := fun p _ _ =>
      if p = 0 then .test id else .amoFetchAm 0 (· + 1)
    ∃ g g' g'', Run (S 2) pr false (.init 0) g ∧ Run (S 2) pr false g g' ∧
      Step (S 2) pr false g' g'' ∧ g''.mem = 1 := by
  intro pr
  have r := Run.refl (S := S 2) (prog := pr) (free := false) (Job.init 0)
  have r := snoc r (.start _ 1 (by decide) rfl)
  have r := snoc r (.send _ 1 (by decide) 0 (· + 1) true [] rfl rfl)
  suffices key : ∀ g, Run (S 2) pr false (.init 0) g → g.mem = 0 → (g.pe 0).rem = [] →
      g.fly 0 = [⟨1, (· + 1), true⟩] → ∃ g g' g'', Run (S 2) pr false (.init 0) g ∧
        Run (S 2) pr false g g' ∧ Step (S 2) pr false g' g'' ∧ g''.mem = 1 from
    key _ r rfl rfl rfl
  intro g r h0 hr hf
  obtain ⟨g', g'', h1, -, h2, -, h3⟩ :=
    C83_test (S 2) pr g 0 (by decide) hr id rfl ⟨1, (· + 1), true⟩ [] hf
  exact ⟨g, g', g'', r, h1, h2, by rw [h3, h0]; rfl⟩

end Verif.Serve.Ex
