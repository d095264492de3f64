import Verif.Lock.Live
import Verif.Lock.Data
/-!
# Properties C01–C05: the distributed lock

All theorems are for every number `n` of PEs that fits in a C `int` and every interleaving.

The theorems for C01 to C04 are partial: they are about the lock algorithm with `last` and `next` as variables of their
own.  `Verif.Lock.WordsSim` carries them to locks in the PEs' memories wherever the displacement the code computes is right
for every PE (`Cfg.Uniform`); where it is not, the properties are false of the code (`C01_violation` to `C04_violation` in
`Verif.Lock.WordsViol`).
-/
namespace Verif.Lock

/-! ## C01 mutual exclusion -/

/-- C01, partial. At no moment do two PEs hold the lock. -/
theorem C01_mutual_exclusion_partial {n : Nat} (hn : n ≤ INT_MAX) {s : State} {tr : List Ev} (he : Exec n s tr)
    {p r : Nat} (hp : s.pc p = .held) (hr : s.pc r = .held) : p = r := by
  obtain ⟨q, hi, _⟩ := exec_inv hn he
  have h1 := hi.is_head (p := p) (by simp [hp, PC.engaged]) (by simp [hp]) (by simp [hp])
  have h2 := hi.is_head (p := r) (by simp [hr, PC.engaged]) (by simp [hr]) (by simp [hr])
  rw [h1] at h2; simpa using h2

/-- Between two events that legally follow each other, an abstract holder stays until its release. -/
theorem abs_holder_release {a b : Abs} {p : Nat} {t : List Ev} (h : a.holder = some p)
    (hr : Abs.run a t = some b) (hno : Ev.release p ∉ t) : b.holder = some p := by
  induction t generalizing a with
  | nil => simp [Abs.run] at hr; exact hr ▸ h
  | cons e es ih =>
    simp only [Abs.run] at hr
    simp only [List.mem_cons, not_or] at hno
    cases he : a.step e with
    | none => simp [he] at hr
    | some a' =>
      simp only [he, Option.bind_some] at hr
      apply ih _ hr hno.2
      cases e with
      | request x => simp [Abs.step] at he; rw [← he]; exact h
      | acquire x => simp [Abs.step, h] at he
      | release x =>
        simp only [Abs.step] at he
        split at he
        · rename_i hx; rw [h] at hx; simp at hx; subst hx; exact absurd rfl hno.1
        · simp at he
      | busy x => simp [Abs.step] at he; rw [← he]; exact h
      | cleared x => simp [Abs.step] at he; rw [← he]; exact h

/-- C01, partial, on what the programs see: if PE `p` gets the lock and later PE `r` gets it, then `p` called
`shmem_clear_lock` in between. -/
theorem C01_mutual_exclusion_trace_partial {n : Nat} (hn : n ≤ INT_MAX) {s : State} {t1 t2 t3 : List Ev} {p r : Nat}
    (he : Exec n s (t1 ++ .acquire p :: (t2 ++ .acquire r :: t3))) : Ev.release p ∈ t2 := by
  obtain ⟨q, _, hr⟩ := exec_inv hn he
  rw [Abs.run_append] at hr
  cases h1 : Abs.run Abs.free t1 with
  | none => simp [h1] at hr
  | some a =>
    simp only [h1, Option.bind_some, Abs.run] at hr
    cases h2 : a.step (.acquire p) with
    | none => simp [h2] at hr
    | some b =>
      simp only [h2, Option.bind_some] at hr
      rw [Abs.run_append] at hr
      have hb : b.holder = some p := by
        simp only [Abs.step] at h2
        split at h2
        · split at h2
          · simp at h2; rw [← h2]
          · simp at h2
        · simp at h2
      cases h3 : Abs.run b t2 with
      | none => simp [h3] at hr
      | some c =>
        by_cases hno : Ev.release p ∈ t2
        · exact hno
        · exfalso
          have hc := abs_holder_release hb h3 hno
          simp only [h3, Option.bind_some, Abs.run] at hr
          simp [Abs.step, hc] at hr

/-! ## C02 FIFO hand-off -/

/-- the PEs whose requests reached the root, in order -/
def requests (tr : List Ev) : List Nat := tr.filterMap (fun e => match e with | .request p => some p | _ => none)
/-- the PEs that were granted the lock, in order -/
def grants (tr : List Ev) : List Nat := tr.filterMap (fun e => match e with | .acquire p => some p | _ => none)

theorem abs_fifo {a b : Abs} {t : List Ev} (h : Abs.run a t = some b) :
    a.waiting ++ requests t = grants t ++ b.waiting := by
  induction t generalizing a with
  | nil => simp [Abs.run] at h; simp [requests, grants, h]
  | cons e es ih =>
    simp only [Abs.run] at h
    cases he : a.step e with
    | none => simp [he] at h
    | some a' =>
      simp only [he, Option.bind_some] at h
      have ih' := ih h
      cases e with
      | request x =>
        simp [Abs.step] at he; rw [← he] at ih'
        simp only [requests, grants, List.filterMap_cons] at ih' ⊢
        rw [← ih']; simp
      | acquire x =>
        simp only [Abs.step] at he
        split at he
        · rename_i y rest hw
          split at he
          · rename_i hxy; subst hxy
            simp at he; rw [← he] at ih'
            simp only [requests, grants, List.filterMap_cons] at ih' ⊢
            rw [hw]; simp [ih']
          · simp at he
        · simp at he
      | release x =>
        simp only [Abs.step] at he
        split at he
        · simp at he; rw [← he] at ih'
          simpa only [requests, grants, List.filterMap_cons] using ih'
        · simp at he
      | busy x =>
        simp [Abs.step] at he; rw [← he] at ih'
        simpa only [requests, grants, List.filterMap_cons] using ih'
      | cleared x =>
        simp [Abs.step] at he; rw [← he] at ih'
        simpa only [requests, grants, List.filterMap_cons] using ih'

/-- C02, partial. The whole history is a history of an abstract FIFO lock; grants happen in request order, each request
at most once: the grant sequence is a prefix of the request sequence. -/
theorem C02_fifo_partial {n : Nat} (hn : n ≤ INT_MAX) {s : State} {tr : List Ev} (he : Exec n s tr) :
    (∃ a, Abs.run Abs.free tr = some a) ∧ grants tr <+: requests tr := by
  obtain ⟨q, _, hr⟩ := exec_inv hn he
  refine ⟨⟨_, hr⟩, ?_⟩
  have := abs_fifo hr
  simp only [Abs.free, List.nil_append] at this
  exact ⟨_, this.symm⟩

/-! ## C03 no lost wake-up, no starvation -/

/-- C03, partial. In every fair run (no PE is left forever inside a call without a step; a holder eventually calls
`shmem_clear_lock`) every `shmem_set_lock` returns, every `shmem_clear_lock` returns, every `shmem_test_lock`
returns. -/
theorem C03_progress_partial {n : Nat} (hn : n ≤ INT_MAX) (R : Run n) (fair : R.Fair) {p : Nat} (hp : p < n) (i : Nat) :
    ((R.st i).pc p = .setReset ∨ (R.st i).pc p = .setSwap ∨ (∃ c, (R.st i).pc p = .setLink c) ∨
        (R.st i).pc p = .setSpin → ∃ j, i ≤ j ∧ (R.st j).pc p = .held) ∧
    ((R.st i).pc p = .clrCas ∨ (R.st i).pc p = .clrSpin ∨ (∃ c, (R.st i).pc p = .clrReset c) ∨
        (∃ c, (R.st i).pc p = .clrSignal c) → ∃ j, i ≤ j ∧ (R.st j).pc p = .idle) ∧
    ((R.st i).pc p = .testCas → ∃ j, i ≤ j ∧ ((R.st j).pc p = .held ∨ (R.st j).pc p = .idle)) := by
  refine ⟨?_, ?_, Live.test_returns R fair hp i⟩
  · rintro (h | h | ⟨c, h⟩ | h)
    · exact Live.reset_to_held R hn fair hp i h
    · exact Live.swap_to_held R hn fair hp i h
    · exact Live.link_to_held R hn fair hp i h
    · exact Live.spin_to_held R hn fair i h
  · rintro (h | h | ⟨c, h⟩ | ⟨c, h⟩)
    · exact Live.clrCas_to_idle R hn fair hp i h
    · exact Live.clrSpin_to_idle R hn fair hp i h
    · exact Live.clrReset_to_idle R fair hp i h
    · exact Live.signal_to_idle R fair hp i h

/-- C03, partial, as deadlock freedom of states: if some PE is inside a lock call, then a PE holds the lock (and may call
clear), or some PE's next access changes the state (is not an unsuccessful poll). -/
theorem C03_no_deadlock_partial {n : Nat} (hn : n ≤ INT_MAX) {s : State} {tr : List Ev} (he : Exec n s tr)
    {p : Nat} (hp : p < n) (hpc : s.pc p ≠ .idle) :
    (∃ r, r < n ∧ s.pc r = .held) ∨
    ∃ r s' ev, r < n ∧ step s r .run = some (s', ev) ∧ s'.pc r ≠ s.pc r := by
  obtain ⟨q, hi, _⟩ := exec_inv hn he
  by_cases he : (s.pc p).engaged = true
  · -- look at the head of the queue
    have hm := (hi.mem p).2 he
    cases q with
    | nil => simp at hm
    | cons h t =>
      have hh := hi.bound h (by simp)
      have heng := (hi.mem h).1 (by simp)
      cases hc : s.pc h with
      | idle => simp [hc, PC.engaged] at heng
      | setReset => simp [hc, PC.engaged] at heng
      | setSwap => simp [hc, PC.engaged] at heng
      | testCas => simp [hc, PC.engaged] at heng
      | setLink i => exact absurd hc ((hi.head h rfl).1 i)
      | held => exact Or.inl ⟨h, hh, hc⟩
      | setSpin =>
        right
        have := (hi.head h rfl).2 hc
        exact ⟨h, _, _, hh, by simp only [step, hc, if_pos this]; rfl, by simp [hc]⟩
      | clrCas =>
        right
        by_cases hl : s.last = myid h
        · exact ⟨h, _, _, hh, by simp only [step, hc, hl, ne_eq, not_true_eq_false, if_false]; rfl, by simp [hc]⟩
        · exact ⟨h, _, _, hh, by simp only [step, hc, hl, ne_eq, not_false_eq_true, if_true]; rfl, by simp [hc]⟩
      | clrReset i => right; exact ⟨h, _, _, hh, by simp only [step, hc]; rfl, by simp [hc]⟩
      | clrSignal i => right; exact ⟨h, _, _, hh, by simp only [step, hc]; rfl, by simp [hc]⟩
      | clrSpin =>
        right
        obtain ⟨b, hb⟩ := hi.passing_succ (p := h) (by simp [hc, PC.passing])
        have hbn := hi.bound b hb.right_mem
        rcases (hi.link h b hb).1 with h' | h' | h'
        · exact ⟨b, _, _, hbn, by simp only [step, h'.1]; rfl, by simp [h'.1]⟩
        · have : NEXT (s.next h) ≠ 0 := by rw [h'.2.1]; exact myid_ne_zero (by omega)
          exact ⟨h, _, _, hh, by simp only [step, hc, if_pos this]; rfl, by simp [hc]⟩
        · rw [hc] at h'; simp at h'
  · right
    cases hc : s.pc p with
    | idle => exact absurd hc hpc
    | setReset => exact ⟨p, _, _, hp, by simp only [step, hc]; rfl, by simp [hc]⟩
    | setSwap =>
      by_cases h0 : s.last = 0
      · exact ⟨p, _, _, hp, by simp only [step, hc, h0, ne_eq, not_true_eq_false, if_false]; rfl, by simp [hc]⟩
      · exact ⟨p, _, _, hp, by simp only [step, hc, h0, ne_eq, not_false_eq_true, if_true]; rfl, by simp [hc]⟩
    | testCas =>
      by_cases h0 : s.last = 0
      · exact ⟨p, _, _, hp, by simp only [step, hc, h0, if_true]; rfl, by simp [hc]⟩
      · exact ⟨p, _, _, hp, by simp only [step, hc, h0, if_false]; rfl, by simp [hc]⟩
    | setLink i => simp [hc, PC.engaged] at he
    | setSpin => simp [hc, PC.engaged] at he
    | held => simp [hc, PC.engaged] at he
    | clrCas => simp [hc, PC.engaged] at he
    | clrSpin => simp [hc, PC.engaged] at he
    | clrReset i => simp [hc, PC.engaged] at he
    | clrSignal i => simp [hc, PC.engaged] at he

/-! ## C04 `shmem_test_lock` -/

/-- PE `r` holds the lock, waits for it with its request recorded, or has not finished handing it on. -/
def Using (s : State) (r : Nat) : Prop :=
  s.pc r ≠ .idle ∧ s.pc r ≠ .setReset ∧ s.pc r ≠ .setSwap ∧ s.pc r ≠ .testCas

theorem using_iff (s : State) (r : Nat) : Using s r ↔ (s.pc r).engaged = true := by
  unfold Using; cases s.pc r <;> simp [PC.engaged]

/-- C04, partial. The single access of `shmem_test_lock` always succeeds in taking a step; it acquires iff nobody uses the
lock, and otherwise reports busy and changes nothing but the caller's return. -/
theorem C04_test_lock_exact_partial {n : Nat} (hn : n ≤ INT_MAX) {s : State} {tr : List Ev} (he : Exec n s tr)
    {p : Nat} (hpc : s.pc p = .testCas) :
    ∃ s' ev, step s p .run = some (s', ev) ∧
      (((∀ r, ¬ Using s r) ∧ ev = [.request p, .acquire p] ∧ s'.pc p = .held ∧ s'.next = s.next) ∨
       ((∃ r, r < n ∧ Using s r) ∧ ev = [.busy p] ∧ s' = { s with pc := upd s.pc p .idle })) := by
  obtain ⟨q, hi, _⟩ := exec_inv hn he
  by_cases h0 : s.last = 0
  · refine ⟨{ s with last := myid p, pc := upd s.pc p .held }, _, by simp only [step, hpc, h0, if_true],
      Or.inl ⟨?_, rfl, by simp, rfl⟩⟩
    intro r hr
    rw [using_iff, ← hi.mem] at hr
    have hl := hi.last
    cases hg : q.getLast? with
    | none => simp at hg; subst hg; simp at hr
    | some x =>
      rw [hg, h0] at hl
      have := hi.bound x (List.mem_of_mem_getLast? hg)
      exact myid_ne_zero (by omega) hl.symm
  · refine ⟨_, _, by simp only [step, hpc, h0, if_false], Or.inr ⟨?_, rfl, rfl⟩⟩
    cases q with
    | nil => exact absurd (by simpa using hi.last) h0
    | cons x t => exact ⟨x, hi.bound x (by simp), (using_iff _ _).2 ((hi.mem x).1 (by simp))⟩

/-- C04, partial. When nobody uses the lock its root word is 0 and every PE's successor bits are 0: the lock can be used
again exactly like a new one, for any history. -/
theorem C04_free_again_partial {n : Nat} (hn : n ≤ INT_MAX) {s : State} {tr : List Ev} (he : Exec n s tr)
    (hf : ∀ r, ¬ Using s r) : s.last = 0 ∧ ∀ r, NEXT (s.next r) = 0 := by
  obtain ⟨q, hi, _⟩ := exec_inv hn he
  have hq : q = [] := by
    cases q with
    | nil => rfl
    | cons x t => exact absurd ((using_iff _ _).2 ((hi.mem x).1 (by simp))) (hf x)
  subst hq
  exact ⟨by simpa using hi.last, fun r => hi.out r (by simp)⟩

/-! ## C05 visibility of critical-section updates -/

/-- The lock part of an execution with puts is an execution of the lock. -/
theorem dexec_lock {n : Nat} {ok} {s : DState} (h : DExec n ok s) : ∃ tr, Exec n s.lk tr := by
  induction h with
  | init => exact ⟨[], Exec.init⟩
  | @step s s' ev p a _ hp _ hs ih =>
    obtain ⟨tr, he⟩ := ih
    cases a with
    | lock a =>
      simp only [dstep] at hs
      cases h1 : step s.lk p a with
      | none => simp [h1] at hs
      | some r =>
        simp [h1] at hs
        refine ⟨tr ++ r.2, ?_⟩
        rw [← hs.1]
        exact Exec.step p a he hp (by rw [h1])
    | put =>
      simp only [dstep] at hs; split at hs <;> simp at hs
      rw [← hs.1]; exact ⟨tr, he⟩
    | deliver => simp [dstep] at hs; rw [← hs.1]; exact ⟨tr, he⟩
    | quiet => simp [dstep] at hs; rw [← hs.1]; exact ⟨tr, he⟩

/-- run a list of actions -/
def drun (s : DState) : List (Nat × DAct) → Option DState
  | [] => some s
  | (p, a) :: t => match dstep s p a with | none => none | some r => drun r.1 t

theorem drun_exec {n : Nat} {ok} (hok : ∀ s p a, ok s p a) {s s' : DState} {l : List (Nat × DAct)}
    (h : DExec n ok s) (hl : ∀ x ∈ l, x.1 < n) (hr : drun s l = some s') : DExec n ok s' := by
  induction l generalizing s with
  | nil => simp [drun] at hr; exact hr ▸ h
  | cons x t ih =>
    obtain ⟨p, a⟩ := x
    simp only [drun] at hr
    cases h1 : dstep s p a with
    | none => simp [h1] at hr
    | some r =>
      simp only [h1] at hr
      exact ih (DExec.step p a h (hl (p, a) (by simp)) (hok s p a) (by rw [h1])) (fun y hy => hl y (by simp [hy])) hr

/-- PE 0 locks, puts, unlocks; PE 1 locks. -/
def c05Schedule : List (Nat × DAct) :=
  [(0, .lock .callSet), (0, .lock .run), (0, .lock .run), (0, .put), (0, .lock .callClear), (0, .lock .run),
   (1, .lock .callSet), (1, .lock .run), (1, .lock .run)]

/-- C05 is FALSE of the code: PE 1 can hold the lock while PE 0's put of its finished critical section is still
incomplete (no quiet in `OSHMPI_clear_lock`). -/
theorem C05_visibility_fails :
    ∃ s, DExec 2 (fun _ _ _ => True) s ∧ s.lk.pc 1 = .held ∧ s.lk.pc 0 = .idle ∧ s.pending 0 = true := by
  have h : (drun dinit c05Schedule).isSome = true := by decide
  obtain ⟨s, hs⟩ := Option.isSome_iff_exists.1 h
  refine ⟨s, drun_exec (fun _ _ _ => trivial) DExec.init (by decide) hs, ?_⟩
  have e : (drun dinit c05Schedule).map (fun s => (s.lk.pc 1, s.lk.pc 0, s.pending 0)) =
      some (.held, .idle, true) := by decide
  rw [hs] at e
  simpa using e

/-- The rule a program must follow itself: call `shmem_clear_lock` only with nothing pending (after a quiet). -/
def QuietBeforeClear (s : DState) (p : Nat) (a : DAct) : Prop :=
  a = .lock .callClear → s.pending p = false

/-- C05, partial: if every program calls `shmem_quiet` before `shmem_clear_lock`, then whenever a PE holds the lock
no other PE has an incomplete put from its critical section.  Missing from the full claim: the quiet is not done
by `shmem_clear_lock` itself. -/
theorem C05_visibility_partial {n : Nat} (hn : n ≤ INT_MAX) {s : DState} (h : DExec n QuietBeforeClear s)
    {p r : Nat} (hp : s.lk.pc p = .held) (hr : s.pending r = true) : r = p := by
  have inv : s.pending r = true → s.lk.pc r = .held := by
    clear hp hr
    induction h with
    | init => simp [dinit]
    | @step s s' ev x a _ hx hok hs ih =>
      cases a with
      | lock a =>
        simp only [dstep] at hs
        cases h1 : step s.lk x a with
        | none => simp [h1] at hs
        | some y =>
          simp [h1] at hs
          rw [← hs.1]; simp only
          intro hpend
          have hheld := ih hpend
          by_cases hxr : r = x
          · subst hxr
            cases a with
            | callSet => simp [step, hheld] at h1
            | callTest => simp [step, hheld] at h1
            | run => simp [step, hheld] at h1
            | callClear => rw [hok rfl] at hpend; simp at hpend
          · obtain ⟨y1, y2⟩ := y
            exact (Live.step_pc_other h1 hxr).trans hheld
      | put =>
        simp only [dstep] at hs; split at hs <;> simp at hs
        rename_i hh
        rw [← hs.1]; simp only
        intro hpend
        by_cases hxr : r = x
        · subst hxr; exact hh
        · exact ih (by simpa [upd_ne _ _ hxr] using hpend)
      | deliver =>
        simp [dstep] at hs; rw [← hs.1]; simp only
        intro hpend
        by_cases hxr : r = x
        · subst hxr; simp at hpend
        · exact ih (by simpa [upd_ne _ _ hxr] using hpend)
      | quiet =>
        simp [dstep] at hs; rw [← hs.1]; simp only
        intro hpend
        by_cases hxr : r = x
        · subst hxr; simp at hpend
        · exact ih (by simpa [upd_ne _ _ hxr] using hpend)
  obtain ⟨tr, he⟩ := dexec_lock h
  exact C01_mutual_exclusion_partial hn he (inv hr) hp

/-! ## Non-vacuity -/

/-- run a list of lock actions -/
def lrun (s : State) : List (Nat × Act) → Option (State × List Ev)
  | [] => some (s, [])
  | (p, a) :: t => match step s p a with
    | none => none
    | some r => (lrun r.1 t).map (fun x => (x.1, r.2 ++ x.2))

theorem lrun_exec {n : Nat} {s s' : State} {tr ev : List Ev} {l : List (Nat × Act)}
    (h : Exec n s tr) (hl : ∀ x ∈ l, x.1 < n) (hr : lrun s l = some (s', ev)) : Exec n s' (tr ++ ev) := by
  induction l generalizing s tr ev with
  | nil => simp [lrun] at hr; obtain ⟨rfl, rfl⟩ := hr; simpa using h
  | cons x t ih =>
    obtain ⟨p, a⟩ := x
    simp only [lrun] at hr
    cases h1 : step s p a with
    | none => simp [h1] at hr
    | some r =>
      simp only [h1, Option.map_eq_some_iff] at hr
      obtain ⟨y, hy, e⟩ := hr
      simp at e; obtain ⟨rfl, rfl⟩ := e
      have := ih (tr := tr ++ r.2) (Exec.step p a h (hl (p, a) (by simp)) (by rw [h1]))
        (fun z hz => hl z (by simp [hz])) hy
      simpa using this

/-- Three PEs contend: PE 1 and PE 2 queue behind PE 0, which hands over to PE 1. -/
def contention : List (Nat × Act) :=
  [(0, .callSet), (0, .run), (0, .run), (1, .callSet), (2, .callSet), (1, .run), (2, .run), (2, .run), (1, .run),
   (0, .callClear), (0, .run), (1, .run), (2, .run), (2, .run), (0, .run)]

/-- C01/C02/C04 hypotheses are met by a contended execution (PE 0 clears while PEs 1 and 2 wait; PE 2 asked
first), here with PE 2 next in line. -/
example : ∃ s tr, Exec 3 s tr ∧ requests tr = [0, 2, 1] ∧ grants tr = [0] ∧ s.pc 1 = .setSpin := by
  have h : ((lrun init contention).map (fun r => (requests r.2, grants r.2, r.1.pc 1))) =
    some ([0, 2, 1], [0], .setSpin) := by decide
  cases hr : lrun init contention with
  | none => simp [hr] at h
  | some r =>
    rw [hr] at h; simp at h
    exact ⟨r.1, r.2, by simpa using lrun_exec (s' := r.1) (ev := r.2) (tr := []) Exec.init (by decide) hr,
      h.1, h.2.1, h.2.2⟩

/-- An execution in which PE 1 holds the lock after PE 0 (hypotheses of the C01 trace theorem). -/
example : ∃ s t1 t2 t3, Exec 2 s (t1 ++ Ev.acquire 0 :: (t2 ++ Ev.acquire 1 :: t3)) ∧ s.pc 1 = .held := by
  let l : List (Nat × Act) := [(0, .callSet), (0, .run), (0, .run), (1, .callSet), (1, .run), (1, .run),
    (0, .callClear), (0, .run), (1, .run), (0, .run), (0, .run), (0, .run), (1, .run)]
  have h : ((lrun init l).map (fun r => (r.2, r.1.pc 1))) =
    some ([.request 0, .acquire 0, .request 1, .release 0, .cleared 0, .acquire 1], .held) := by decide
  cases hr : lrun init l with
  | none => simp [hr] at h
  | some r =>
    rw [hr] at h; simp at h
    refine ⟨r.1, [.request 0], [.request 1, .release 0, .cleared 0], [], ?_, h.2⟩
    have := lrun_exec (s' := r.1) (ev := r.2) (tr := []) (n := 2) Exec.init (by decide) hr
    rw [h.1] at this; simpa using this

/-- A finite schedule followed by silence is a run. -/
def Run.ofList (n : Nat) (l : List (Nat × Act)) (hl : ∀ x ∈ l, x.1 < n)
    (h : ∀ i, i < l.length → (lrun init (l.take (i+1))).isSome = true) : Run n where
  st i := ((lrun init (l.take i)).map (·.1)).getD init
  act i := l[i]?
  start := by simp [lrun]
  next := by
    have app : ∀ (l : List (Nat × Act)) (s : State) (x : Nat × Act),
        lrun s (l ++ [x]) = (lrun s l).bind (fun r => (step r.1 x.1 x.2).map (fun y => (y.1, r.2 ++ y.2))) := by
      intro l
      induction l with
      | nil => intro s x; simp only [List.nil_append, lrun, Option.bind_some]
               cases step s x.1 x.2 <;> simp
      | cons z t ih =>
        intro s x
        simp only [List.cons_append, lrun]
        cases step s z.1 z.2 with
        | none => rfl
        | some r =>
          simp only [ih]
          cases lrun r.1 t with
          | none => rfl
          | some y =>
            simp only [Option.bind_some, Option.map_some]
            cases step y.1 x.1 x.2 <;> simp
    intro i
    by_cases hi : i < l.length
    · right
      have hx : l[i]? = some l[i] := by simp [hi]
      have ht : l.take (i+1) = l.take i ++ [l[i]] := by simp [hi]
      have hs := h i hi
      rw [ht, app] at hs
      cases h0 : lrun init (l.take i) with
      | none => simp [h0] at hs
      | some r =>
        rw [h0] at hs; simp only [Option.bind_some, Option.isSome_map] at hs
        obtain ⟨y, hy⟩ := Option.isSome_iff_exists.1 hs
        refine ⟨l[i].1, l[i].2, y.2, hx, hl _ (List.getElem_mem hi), ?_⟩
        simp only [Option.map_some, Option.getD_some]
        rw [hy, ht, app, h0]
        simp [hy]
    · left
      have h1 : l.take i = l := List.take_of_length_le (by omega)
      have h2 : l.take (i+1) = l := List.take_of_length_le (by omega)
      refine ⟨by simp; omega, by rw [h1, h2]⟩

/-- C03: a fair run with contention exists (PE 1 waits for PE 0, both finish). -/
example : ∃ R : Run 2, R.Fair ∧ (R.st 6).pc 1 = .setLink (myid 0) := by
  let l : List (Nat × Act) := [(0, .callSet), (0, .run), (0, .run), (1, .callSet), (1, .run), (1, .run),
    (0, .callClear), (0, .run), (1, .run), (0, .run), (0, .run), (0, .run), (1, .run), (1, .callClear), (1, .run)]
  refine ⟨Run.ofList 2 l (by decide) (by decide), ?_, by decide⟩
  intro p hp i
  refine ⟨i + 15, by omega, Or.inl ?_⟩
  have h1 : l.take (i+15) = l := List.take_of_length_le (by simp [l])
  show (((lrun init (l.take (i+15))).map (·.1)).getD init).pc p = .idle
  rw [h1]
  have : p = 0 ∨ p = 1 := by omega
  rcases this with rfl | rfl <;> decide

/-- C05 partial: the rule is met by a program that holds the lock with a pending put. -/
example : ∃ s, DExec 2 QuietBeforeClear s ∧ s.lk.pc 0 = .held ∧ s.pending 0 = true := by
  have step1 : ∀ {s s' : DState} (a : DAct), DExec 2 QuietBeforeClear s → a ≠ .lock .callClear →
      (dstep s 0 a).map (·.1) = some s' → DExec 2 QuietBeforeClear s' := by
    intro s s' a h hne hs
    rw [Option.map_eq_some_iff] at hs
    obtain ⟨r, hr, rfl⟩ := hs
    exact DExec.step 0 a h (by omega) (fun e => absurd e hne) hr
  have h1 := step1 (.lock .callSet) DExec.init (by simp) rfl
  have h2 := step1 (.lock .run) h1 (by simp) rfl
  have h3 := step1 (.lock .run) h2 (by simp) rfl
  have h4 := step1 .put h3 (by simp) rfl
  exact ⟨_, h4, rfl, rfl⟩

end Verif.Lock
