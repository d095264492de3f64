import Verif.Lock.WordsProps
/-!
# What goes wrong with the locks when a symmetric object has different addresses (C01 to C04)

Builds with dynamic windows; see `Cfg.Uniform` and `C13_lock_exact` for the cause.
-/
namespace Verif.Lock

/-- C01 is FALSE of the code in general: as the programs see it, PE 0 gets the lock, then PE 1, and PE 0 has not called
`shmem_clear_lock` in between. -/
theorem C01_violation : ∃ (C : Cfg) (s : WState) (tr : List (Nat × Ev)) (t1 t2 t3 : List Ev), C.WF ∧ WExec C s tr ∧
    eventsOf 0 tr = t1 ++ .acquire 0 :: (t2 ++ .acquire 1 :: t3) ∧ Ev.release 0 ∉ t2 := by
  have h : (wrun skewed zeros twice).map (fun r => eventsOf 0 r.2) =
      some [.request 0, .acquire 0, .request 1, .release 0, .cleared 0, .acquire 1, .release 1, .cleared 1,
        .request 0, .acquire 0, .request 1, .acquire 1] := by decide +kernel
  cases hr : wrun skewed zeros twice with
  | none => simp [hr] at h
  | some r =>
    rw [hr] at h
    simp only [Option.map_some, Option.some.injEq] at h
    refine ⟨skewed, r.1, [] ++ r.2,
      [.request 0, .acquire 0, .request 1, .release 0, .cleared 0, .acquire 1, .release 1, .cleared 1, .request 0],
      [.request 1], [], skewed_wf, wrun_exec (WExec.init (zeros_init skewed)) (by decide) hr, ?_, by decide⟩
    rw [List.nil_append, h]; rfl

/-- `twice`, then PE 1 clears the lock it should not have, and tests it. -/
def twiceTest : List (Nat × Nat × Act) := twice ++ [(0, 1, .callClear), (0, 1, .run), (0, 1, .callTest)]

/-- C04 is FALSE of the code in general: `shmem_test_lock` gets the lock although PE 0 holds it. -/
theorem C04_violation : ∃ (C : Cfg) (s s' : WState) (tr : List (Nat × Ev)) (ev : List Ev), C.WF ∧ WExec C s tr ∧
    s.pc 0 0 = .held ∧ s.pc 0 1 = .testCas ∧ wstep C s 0 1 .run = some (s', ev) ∧ Ev.acquire 1 ∈ ev := by
  have h : (wrun skewed zeros twiceTest).bind (fun r => (wstep skewed r.1 0 1 .run).map (fun y =>
      (r.1.pc 0 0, r.1.pc 0 1, y.2))) = some (.held, .testCas, [.request 1, .acquire 1]) := by decide +kernel
  cases hr : wrun skewed zeros twiceTest with
  | none => simp [hr] at h
  | some r =>
    rw [hr] at h
    simp only [Option.bind_some] at h
    cases hy : wstep skewed r.1 0 1 .run with
    | none => simp [hy] at h
    | some y =>
      rw [hy] at h
      simp only [Option.map_some, Option.some.injEq, Prod.mk.injEq] at h
      refine ⟨skewed, r.1, y.1, [] ++ r.2, y.2, skewed_wf,
        wrun_exec (WExec.init (zeros_init skewed)) (by decide) hr, h.1, h.2.1, hy, ?_⟩
      rw [h.2.2]; decide

/-- Three PEs; the heaps of PE 1 and PE 2 start 64 bytes later than that of PE 0. -/
def skewed3 : Cfg := { skewed with n := 3 }

theorem skewed3_wf : skewed3.WF where
  pos := by decide
  max := by decide
  idx := by intro l _; exact (by decide : (0 : Nat) < 2 ^ 29)
  mode := by intro l _ _; rfl
  off := by intro l _; exact (by decide : 0 ≤ (0x80#64).toInt)
  addr := by
    intro l hl t ht
    have : t = 0 ∨ t = 1 ∨ t = 2 := by have : t < 3 := ht; omega
    rcases this with rfl | rfl | rfl
    · exact (by decide : 0 ≤ (0x10080#64).toInt)
    · exact (by decide : 0 ≤ (0x100c0#64).toInt)
    · exact (by decide : 0 ≤ (0x100c0#64).toInt)
  disj := by
    intro l k hl hk h
    have h1 : l < 1 := hl
    have h2 : k < 1 := hk
    omega

/-- PE 1 hands the lock to PE 2, which clears it; PE 1 takes it again, PE 0 asks for it, PE 1 clears it.  PE 1 finds PE 2
still recorded as its successor and signals PE 2 instead of PE 0. -/
def stale : List (Nat × Nat × Act) :=
  [(0, 1, .callSet), (0, 1, .run), (0, 1, .run),
   (0, 2, .callSet), (0, 2, .run), (0, 2, .run), (0, 2, .run),
   (0, 1, .callClear), (0, 1, .run), (0, 1, .run), (0, 1, .run), (0, 1, .run),
   (0, 2, .run), (0, 2, .callClear), (0, 2, .run),
   (0, 1, .callSet), (0, 1, .run), (0, 1, .run),
   (0, 0, .callSet), (0, 0, .run), (0, 0, .run), (0, 0, .run),
   (0, 1, .callClear), (0, 1, .run), (0, 1, .run), (0, 1, .run), (0, 1, .run)]

/-- C03 is FALSE of the code in general: a reachable state in which PE 0 waits for the lock, the others are outside any call and
do not hold it, and PE 0's polling changes nothing: it waits for ever. -/
theorem C03_violation : ∃ (C : Cfg) (s : WState) (tr : List (Nat × Ev)), C.WF ∧ WExec C s tr ∧ s.pc 0 0 = .setSpin ∧
    (∀ r, r < C.n → r ≠ 0 → s.pc 0 r = .idle) ∧ wstep C s 0 0 .run = some (s, []) := by
  have h : (wrun skewed3 zeros stale).map (fun r => (r.1.pc 0 0, r.1.pc 0 1, r.1.pc 0 2)) =
      some (.setSpin, .idle, .idle) := by decide +kernel
  have h2 : (wrun skewed3 zeros stale).map (fun r =>
      SIGNAL (rd (r.1.mem 0) (skewed3.at_ 0 0 (nextDisp 0x10080#64)))) = some 0 := by decide +kernel
  have d : skewed3.lastDisp 0 0 = .ok 0x10080#64 := by decide +kernel
  cases hr : wrun skewed3 zeros stale with
  | none => simp [hr] at h
  | some r =>
    rw [hr] at h h2
    simp only [Option.map_some, Option.some.injEq, Prod.mk.injEq] at h h2
    refine ⟨skewed3, r.1, [] ++ r.2, skewed3_wf, wrun_exec (WExec.init (zeros_init skewed3)) (by decide) hr, h.1, ?_, ?_⟩
    · intro x hx hne
      have hx' : x < 3 := hx
      have : x = 1 ∨ x = 2 := by omega
      rcases this with rfl | rfl
      · exact h.2.1
      · exact h.2.2
    · simp only [wstep, d, h.1]
      rw [if_neg (by rw [h2]; simp)]

/-- `stale`, then PE 2 asks for the lock after PE 0. -/
def stale2 : List (Nat × Nat × Act) :=
  stale ++ [(0, 2, .callSet), (0, 2, .run), (0, 2, .run), (0, 2, .run), (0, 2, .run)]

/-- C02 is FALSE of the code in general: PE 0 asked before PE 2, and PE 2 gets the lock while PE 0 is still waiting. -/
theorem C02_violation : ∃ (C : Cfg) (s : WState) (tr : List (Nat × Ev)), C.WF ∧ WExec C s tr ∧
    ¬ (grants (eventsOf 0 tr) <+: requests (eventsOf 0 tr)) := by
  have h : (wrun skewed3 zeros stale2).map (fun r => (requests (eventsOf 0 r.2), grants (eventsOf 0 r.2))) =
      some ([1, 2, 1, 0, 2], [1, 2, 1, 2]) := by decide +kernel
  cases hr : wrun skewed3 zeros stale2 with
  | none => simp [hr] at h
  | some r =>
    rw [hr] at h
    simp only [Option.map_some, Option.some.injEq, Prod.mk.injEq] at h
    refine ⟨skewed3, r.1, [] ++ r.2, skewed3_wf, wrun_exec (WExec.init (zeros_init skewed3)) (by decide) hr, ?_⟩
    rw [List.nil_append, h.1, h.2]; decide

end Verif.Lock
