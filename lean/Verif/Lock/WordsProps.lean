import Verif.Lock.WordsSim
import Verif.Lock.Props
/-!
# Property C89: locks in memory; and the lock part of C13

For every number of PEs and locks, every placement of the locks, every interleaving of the calls of all PEs on all
locks, and every use of the rest of the memory.
-/
namespace Verif.Lock

/-! ## C13, the lock -/

/-- C13, lock: what the displacements reach.  `last` is always reached in the root's copy.  `next` of PE `t` is reached
exactly when the window has relative displacements or PE `t` and the root have the object at the same address: the
displacement was computed for the root. -/
theorem C13_lock_exact {C : Cfg} (wf : C.WF) {l t : Nat} (hl : l < C.m) (p : Nat) :
    ∃ d, C.lastDisp l p = .ok d ∧ C.at_ l ROOT d = C.lockp l ROOT ∧
      (C.at_ l t (nextDisp d) = C.lockp l t + 4#64 ↔
        (C.loc l).mode = .rel ∨ (C.loc l).bases t = (C.loc l).bases ROOT) := by
  obtain ⟨d, hd, hlast⟩ := lastDisp_ok wf hl p
  refine ⟨d, hd, hlast, ?_⟩
  unfold Cfg.at_ Cfg.lockp nextDisp at *
  cases hm : (C.loc l).mode with
  | rel =>
    rw [hm] at hlast
    simp only [Sobj.mpiAddr] at hlast ⊢
    have : d = (C.loc l).off := by
      have := congrArg (fun x => x - (C.loc l).bases ROOT) hlast
      simpa [BitVec.add_comm ((C.loc l).bases ROOT), BitVec.add_sub_cancel] using this
    rw [this, BitVec.add_assoc]
    simp
  | abs =>
    rw [hm] at hlast
    simp only [Sobj.mpiAddr] at hlast ⊢
    rw [hlast]
    constructor
    · intro e
      right
      have e1 := congrArg (fun x => x - 4#64 - (C.loc l).off) e
      simp only [BitVec.add_sub_cancel] at e1
      exact e1.symm
    · rintro (h | h)
      · cases h
      · rw [h]

/-! ## C89 -/

/-- C89, partial: every lock, wherever it lies and whatever else goes on in memory, admits one holder at a time and
serves requests in the order in which they reached the root.  Missing from the full claim: in a window with absolute
displacements the object must be at the same address on all PEs (`Uniform`). -/
theorem C89_locks_partial {C : Cfg} (wf : C.WF) (un : C.Uniform) {s : WState} {tr : List (Nat × Ev)} (h : WExec C s tr)
    {l : Nat} (hl : l < C.m) :
    (∀ p r, s.pc l p = .held → s.pc l r = .held → p = r) ∧
    (∃ a, Abs.run Abs.free (eventsOf l tr) = some a) ∧
    grants (eventsOf l tr) <+: requests (eventsOf l tr) := by
  have he := wexec_view wf un h l hl
  exact ⟨fun p r hp hr => C01_mutual_exclusion_partial wf.max he (p := p) (r := r) hp hr, C02_fifo_partial wf.max he⟩

/-- C89, partial: a step of a call on lock `l` changes no byte outside the 8 bytes of lock `l`, on any PE: neither user data
nor another lock. -/
theorem C89_frame_partial {C : Cfg} (wf : C.WF) (un : C.Uniform) {s s' : WState} {tr : List (Nat × Ev)} (h : WExec C s tr)
    {l p : Nat} {a : Act} {ev : List Ev} (hl : l < C.m) (hp : p < C.n) (hs : wstep C s l p a = some (s', ev)) (t : Nat)
    (x : BitVec 64) (hx : ∀ i, i < 8 → x ≠ C.lockp l t + BitVec.ofNat 64 i) : s'.mem t x = s.mem t x := by
  obtain ⟨q, hinv, _⟩ := exec_inv wf.max (wexec_view wf un h l hl)
  have ok := wstep_sim wf un hl hp hinv hs
  by_cases hc : s'.mem t x = s.mem t x
  · exact hc
  · obtain ⟨_, i, hi, e⟩ := ok.bytes t x hc
    exact absurd e (hx i hi)

/-- C89. Whatever the placement: a call on a lock never runs into an undefined displacement or the assertion on it; the
PE can always take its next step. -/
theorem C89_defined {C : Cfg} (wf : C.WF) {s : WState} {l p : Nat} (hl : l < C.m) (hpc : (s.pc l p).rest = false) :
    ∃ s' ev, wstep C s l p .run = some (s', ev) := by
  have : ∃ t ev, step (C.view s l) p .run = some (t, ev) := by
    have hpcv : (C.view s l).pc = s.pc l := rfl
    simp only [step, hpcv]
    cases hc : s.pc l p with
    | idle => rw [hc] at hpc; simp [PC.rest] at hpc
    | held => rw [hc] at hpc; simp [PC.rest] at hpc
    | setReset => exact ⟨_, _, rfl⟩
    | setSwap => simp only; split <;> exact ⟨_, _, rfl⟩
    | setLink c => exact ⟨_, _, rfl⟩
    | setSpin => simp only; split <;> exact ⟨_, _, rfl⟩
    | clrCas => simp only; split <;> exact ⟨_, _, rfl⟩
    | clrSpin => simp only; split <;> exact ⟨_, _, rfl⟩
    | clrReset c => exact ⟨_, _, rfl⟩
    | clrSignal c => exact ⟨_, _, rfl⟩
    | testCas => simp only; split <;> exact ⟨_, _, rfl⟩
  obtain ⟨t, ev, hs⟩ := this
  exact wstep_enabled wf hl hs (Or.inl rfl)

/-- C89, partial: `shmem_test_lock` on any of the locks is exact: it gets the lock iff nobody uses this lock (others may be
in use), else it changes no byte. -/
theorem C89_test_partial {C : Cfg} (wf : C.WF) (un : C.Uniform) {s : WState} {tr : List (Nat × Ev)} (h : WExec C s tr)
    {l p : Nat} (hl : l < C.m) (hp : p < C.n) (hpc : s.pc l p = .testCas) :
    ∃ s' ev, wstep C s l p .run = some (s', ev) ∧
      (((∀ r, ¬ Using (C.view s l) r) ∧ ev = [.request p, .acquire p] ∧ s'.pc l p = .held) ∨
       ((∃ r, r < C.n ∧ Using (C.view s l) r) ∧ ev = [.busy p] ∧ s'.pc l p = .idle ∧ s'.mem = s.mem)) := by
  have he := wexec_view wf un h l hl
  obtain ⟨q, hinv, _⟩ := exec_inv wf.max he
  obtain ⟨s', ev, hs⟩ := C89_defined wf hl (s := s) (p := p) (by rw [hpc]; rfl)
  have ok := wstep_sim wf un hl hp hinv hs
  obtain ⟨t, ev', hs', hc⟩ := C04_test_lock_exact_partial wf.max he (p := p) hpc
  rw [ok.own] at hs'
  simp only [Option.some.injEq, Prod.mk.injEq] at hs'
  obtain ⟨rfl, rfl⟩ := hs'
  refine ⟨s', ev, hs, ?_⟩
  rcases hc with ⟨h1, h2, h3, _⟩ | ⟨h1, h2, h3⟩
  · exact Or.inl ⟨h1, h2, h3⟩
  · refine Or.inr ⟨h1, h2, ?_, ?_⟩
    · have : (C.view s' l).pc p = .idle := by rw [h3]; simp
      exact this
    · obtain ⟨d, hd, hlast⟩ := lastDisp_ok wf hl p
      simp only [wstep, hd, hpc] at hs
      split at hs <;> (simp only [Option.some.injEq, Prod.mk.injEq] at hs; obtain ⟨rfl, rfl⟩ := hs)
      · simp at h2
      · rfl

/-- C89, partial: when nobody uses lock `l` it is as good as new: the word that decides about it is 0 and no PE's copy
names a successor; so it can be used again, and for ever. -/
theorem C89_reusable_partial {C : Cfg} (wf : C.WF) (un : C.Uniform) {s : WState} {tr : List (Nat × Ev)} (h : WExec C s tr)
    {l : Nat} (hl : l < C.m) (hf : ∀ r, ¬ Using (C.view s l) r) :
    rd (s.mem ROOT) (C.lockp l ROOT) = 0 ∧ ∀ t, t < C.n → NEXT (rd (s.mem t) (C.lockp l t + 4#64)) = 0 := by
  obtain ⟨h1, h2⟩ := C04_free_again_partial wf.max (wexec_view wf un h l hl) hf
  refine ⟨h1, fun t ht => ?_⟩
  have := h2 t
  rw [view_next ht] at this
  exact this

/-! ## The code violates the full claim -/

/-- run a list of steps (lock, PE, action) -/
def wrun (C : Cfg) (s : WState) : List (Nat × Nat × Act) → Option (WState × List (Nat × Ev))
  | [] => some (s, [])
  | (l, p, a) :: t => match wstep C s l p a with
    | none => none
    | some r => (wrun C r.1 t).map (fun x => (x.1, r.2.map (fun e => (l, e)) ++ x.2))

theorem wrun_exec {C : Cfg} {s s' : WState} {tr ev : List (Nat × Ev)} {l : List (Nat × Nat × Act)}
    (h : WExec C s tr) (hl : ∀ x ∈ l, x.1 < C.m ∧ x.2.1 < C.n) (hr : wrun C s l = some (s', ev)) :
    WExec C s' (tr ++ ev) := by
  induction l generalizing s tr ev with
  | nil => simp [wrun] at hr; obtain ⟨rfl, rfl⟩ := hr; simpa using h
  | cons x t ih =>
    obtain ⟨k, p, a⟩ := x
    simp only [wrun] at hr
    cases h1 : wstep C s k p a with
    | none => simp [h1] at hr
    | some r =>
      simp only [h1, Option.map_eq_some_iff] at hr
      obtain ⟨y, hy, e⟩ := hr
      simp at e; obtain ⟨rfl, rfl⟩ := e
      have hx := hl (k, p, a) (by simp)
      have := ih (tr := tr ++ r.2.map (fun e => (k, e))) (WExec.call k p a h hx.1 hx.2 (by rw [h1]))
        (fun z hz => hl z (by simp [hz])) hy
      simpa using this

/-- Two PEs, one lock in the symmetric heap of a build with dynamic windows; the heap of PE 1 starts 64 bytes later than
that of PE 0. -/
def skewed : Cfg where
  n := 2
  m := 1
  loc := fun _ => { dyn := true, kind := .heap, idx := 0, bases := fun t => if t = 0 then 0x10000#64 else 0x10040#64,
                    size := 4096, off := 0x80#64, mode := .abs }

theorem skewed_wf : skewed.WF where
  pos := by decide
  max := by decide
  idx := by intro l _; exact (by decide : (0 : Nat) < 2 ^ 29)
  mode := by intro l _ _; rfl
  off := by intro l _; exact (by decide : 0 ≤ (0x80#64).toInt)
  addr := by
    intro l hl t ht
    have : t = 0 ∨ t = 1 := by have : t < 2 := ht; omega
    rcases this with rfl | rfl
    · exact (by decide : 0 ≤ (0x10080#64).toInt)
    · exact (by decide : 0 ≤ (0x100c0#64).toInt)
  disj := by
    intro l k hl hk h
    have h1 : l < 1 := hl
    have h2 : k < 1 := hk
    omega

/-- all bytes zero, everybody idle -/
def zeros : WState := { mem := fun _ _ => 0#8, pc := fun _ _ => .idle }

theorem zeros_init (C : Cfg) : C.Init zeros := ⟨fun _ _ => rfl, fun _ _ _ _ => rfl⟩

/-- PE 1 waits for PE 0 and gets the lock by its signal; clears it; PE 0 sets it again; PE 1 asks again. -/
def twice : List (Nat × Nat × Act) :=
  [(0, 0, .callSet), (0, 0, .run), (0, 0, .run), (0, 1, .callSet), (0, 1, .run), (0, 1, .run), (0, 1, .run),
   (0, 0, .callClear), (0, 0, .run), (0, 0, .run), (0, 0, .run), (0, 0, .run),
   (0, 1, .run), (0, 1, .callClear), (0, 1, .run),
   (0, 0, .callSet), (0, 0, .run), (0, 0, .run),
   (0, 1, .callSet), (0, 1, .run), (0, 1, .run), (0, 1, .run), (0, 1, .run)]

/-- C89 is FALSE of the code without `Uniform`: both PEs hold the lock, after calls as the specification wants them.  The
signal of the first hand-over went to the wrong address on PE 1 (where PE 1 also looks for it), so that PE 1's own reset
of its `next`, at the right address, does not clear it, and its second call does not wait. -/
theorem C89_exclusion_violation : ∃ (C : Cfg) (s : WState) (tr : List (Nat × Ev)), C.WF ∧ WExec C s tr ∧ s.pc 0 0 = .held ∧ s.pc 0 1 = .held := by
  have h : (wrun skewed zeros twice).map (fun r => (r.1.pc 0 0, r.1.pc 0 1)) = some (.held, .held) := by
    decide +kernel
  cases hr : wrun skewed zeros twice with
  | none => simp [hr] at h
  | some r =>
    rw [hr] at h; simp at h
    exact ⟨skewed, r.1, [] ++ r.2, skewed_wf,
      wrun_exec (WExec.init (zeros_init skewed)) (by decide) hr, h.1, h.2⟩

/-- C89 is FALSE of the code without `Uniform`, the users' data: handing over the lock writes into a byte of PE 1's heap that
belongs to no lock. -/
theorem C89_frame_violation : ∃ (C : Cfg) (s s' : WState) (tr : List (Nat × Ev)) (l p : Nat) (ev : List Ev) (t : Nat)
    (x : BitVec 64), C.WF ∧ WExec C s tr ∧ l < C.m ∧ p < C.n ∧
    wstep C s l p .run = some (s', ev) ∧ t < C.n ∧ ¬ C.InLock t x ∧
    Sobj.inRange (C.attr l t) x = true ∧ s'.mem t x ≠ s.mem t x := by
  let l := twice.take 11
  have h : (wrun skewed zeros l).bind (fun r => (wstep skewed r.1 0 0 .run).map (fun y =>
      (y.1.mem 1 0x10087#64, r.1.mem 1 0x10087#64))) = some (0x80#8, 0#8) := by decide +kernel
  cases hr : wrun skewed zeros l with
  | none => simp [hr] at h
  | some r =>
    rw [hr] at h
    simp only [Option.bind_some] at h
    cases hy : wstep skewed r.1 0 0 .run with
    | none => simp [hy] at h
    | some y =>
      rw [hy] at h
      simp only [Option.map_some, Option.some.injEq, Prod.mk.injEq] at h
      refine ⟨skewed, r.1, y.1, [] ++ r.2, 0, 0, y.2, 1, 0x10087#64, skewed_wf,
        wrun_exec (WExec.init (zeros_init skewed)) (by decide) hr, by decide, by decide, hy, by decide, ?_, ?_, ?_⟩
      · rintro ⟨k, hk, i, hi, e⟩
        have h1 : k < 1 := hk
        have : k = 0 := by omega
        subst this
        revert e
        have : ∀ i, i < 8 → 0x10087#64 ≠ skewed.lockp 0 1 + BitVec.ofNat 64 i := by decide
        exact this i hi
      · decide +kernel
      · rw [h.1, h.2]; decide

/-- C13 is FALSE of the lock: a PE whose object is at another address than the root's is reached at the wrong place. -/
theorem C13_lock_violation : ∃ (C : Cfg) (l p t : Nat) (d : BitVec 64), C.WF ∧ l < C.m ∧ p < C.n ∧ t < C.n ∧ C.lastDisp l p = .ok d ∧
    C.at_ l t (nextDisp d) ≠ C.lockp l t + 4#64 := by
  obtain ⟨d, hd, _, he⟩ := C13_lock_exact skewed_wf (l := 0) (t := 1) (by decide) 1
  refine ⟨skewed, 0, 1, 1, d, skewed_wf, by decide, by decide, by decide, hd, ?_⟩
  rw [ne_eq, he]
  rintro (h | h)
  · revert h; decide
  · revert h; decide

/-! ## Non-vacuity -/

/-- Three PEs with heaps at different places and a window with relative displacements; two neighbouring locks. -/
def apart : Cfg where
  n := 3
  m := 2
  loc := fun l => { dyn := false, kind := .heap, idx := 0, bases := fun t => BitVec.ofNat 64 (0x10000 + 0x1000 * t),
                    size := 4096, off := BitVec.ofNat 64 (0x80 + 8 * l), mode := .rel }

theorem apart_wf : apart.WF where
  pos := by decide
  max := by decide
  idx := by intro l _; exact (by decide : (0 : Nat) < 2 ^ 29)
  mode := by intro l _ h; cases h
  off := by
    intro l hl
    have h1 : l < 2 := hl
    have : l = 0 ∨ l = 1 := by omega
    rcases this with rfl | rfl <;> decide
  addr := by
    have : ∀ l, l < 2 → ∀ t, t < 3 → 0 ≤ (apart.lockp l t).toInt := by decide
    exact this
  disj := by
    have : ∀ t, t < 3 → ∀ i, i < 8 → ∀ j, j < 8 →
        apart.lockp 0 t + BitVec.ofNat 64 i ≠ apart.lockp 1 t + BitVec.ofNat 64 j := by decide +kernel
    intro l k hl hk h t ht i j hi hj
    have h1 : l < 2 := hl
    have h2 : k < 2 := hk
    have hc : (l = 0 ∧ k = 1) ∨ (l = 1 ∧ k = 0) := by omega
    rcases hc with ⟨rfl, rfl⟩ | ⟨rfl, rfl⟩
    · exact this t ht i hi j hj
    · exact Ne.symm (this t ht j hj i hi)

theorem apart_uniform : apart.Uniform := fun _ _ => Or.inl rfl

/-- PE 0 takes lock 0, PE 1 lock 1 and waits for lock 0, PE 2 tests lock 1; PE 0 hands lock 0 to PE 1, which holds both. -/
def crossed : List (Nat × Nat × Act) :=
  [(0, 0, .callSet), (1, 1, .callSet), (0, 0, .run), (1, 1, .run), (1, 1, .run), (0, 0, .run), (0, 1, .callSet),
   (1, 2, .callTest), (0, 1, .run), (0, 1, .run), (1, 2, .run), (0, 1, .run), (0, 0, .callClear), (0, 0, .run),
   (0, 0, .run), (0, 0, .run), (0, 0, .run), (0, 1, .run), (1, 2, .callTest)]

example : ∃ s tr, apart.WF ∧ apart.Uniform ∧ WExec apart s tr ∧ s.pc 0 1 = .held ∧ s.pc 1 1 = .held ∧
    s.pc 1 2 = .testCas ∧ requests (eventsOf 0 tr) = [0, 1] ∧ grants (eventsOf 0 tr) = [0, 1] ∧
    eventsOf 1 tr = [.request 1, .acquire 1, .busy 2] := by
  have h : (wrun apart zeros crossed).map (fun r => (r.1.pc 0 1, r.1.pc 1 1, r.1.pc 1 2)) =
      some (.held, .held, .testCas) := by decide +kernel
  have h' : (wrun apart zeros crossed).map (fun r => (requests (eventsOf 0 r.2), grants (eventsOf 0 r.2), eventsOf 1 r.2)) =
      some ([0, 1], [0, 1], [.request 1, .acquire 1, .busy 2]) := by decide +kernel
  cases hr : wrun apart zeros crossed with
  | none => simp [hr] at h
  | some r =>
    rw [hr] at h h'
    simp only [Option.map_some, Option.some.injEq, Prod.mk.injEq] at h h'
    refine ⟨r.1, r.2, apart_wf, apart_uniform, ?_, h.1, h.2.1, h.2.2, h'.1, h'.2.1, h'.2.2⟩
    simpa using wrun_exec (WExec.init (zeros_init apart)) (by decide) hr

end Verif.Lock
