import Verif.Lock.WordsSim
import Verif.Lock.Props
/-!
# Progress with several locks

Infinite runs of the system of `Verif.Lock.Words` (lock_impl.h L27-168 for any number of locks in memory), what is asked of
the scheduler and of the programs, and the argument that with locks taken in increasing order every call returns.
-/
namespace Verif.Lock

/-- An infinite run: at each instant one PE performs one access of a lock call, or memory outside the locks changes, or
nothing happens. -/
structure WRun (C : Cfg) where
  st : Nat → WState
  act : Nat → Option (Nat × Nat × Act)
  start : C.Init (st 0)
  next : ∀ i,
    (act i = none ∧ (st (i+1)).pc = (st i).pc ∧
      ∀ t, t < C.n → ∀ x, C.InLock t x → (st (i+1)).mem t x = (st i).mem t x) ∨
    ∃ l p a ev, act i = some (l, p, a) ∧ l < C.m ∧ p < C.n ∧ wstep C (st i) l p a = some (st (i+1), ev)

namespace WRun

/-- PE `p` is inside a call on lock `l` at instant `i`. -/
def InCall {C : Cfg} (R : WRun C) (i l p : Nat) : Prop := ((R.st i).pc l p).rest = false

/-- The scheduler: a PE inside a call is sooner or later given its next step. -/
def Scheduled {C : Cfg} (R : WRun C) : Prop :=
  ∀ l p i, l < C.m → p < C.n → R.InCall i l p → ∃ j, i ≤ j ∧ R.act j = some (l, p, .run)

/-- The programs: a lock that is held is sooner or later cleared by its holder, unless some call of the holder never
returns. -/
def Releasing {C : Cfg} (R : WRun C) : Prop :=
  ∀ l p i, l < C.m → p < C.n → (R.st i).pc l p = .held →
    (∃ j, i ≤ j ∧ R.act j = some (l, p, .callClear)) ∨ ∃ k j, k < C.m ∧ i ≤ j ∧ ∀ j', j ≤ j' → R.InCall j' k p

/-- The programs: locks are set in increasing order (a PE calls `shmem_set_lock` only on a lock after all those it
holds). -/
def Ordered {C : Cfg} (R : WRun C) : Prop :=
  ∀ i l p, R.act i = some (l, p, .callSet) → ∀ k, k < C.m → (R.st i).pc k p = .held → k < l

end WRun

/-! ## Progress of `test_lock` and `clear_lock` without any assumption on holders -/

namespace Live
variable {n : Nat} (R : Run n)

/-- Weaker than `Run.Fair`: nothing is asked of a PE that holds the lock. -/
def WFair : Prop := ∀ p, p < n → ∀ i, (R.st i).pc p ≠ .idle → (R.st i).pc p ≠ .held →
  ∃ j, i ≤ j ∧ R.act j = some (p, .run)

/-- A PE inside a call stays where it is until it runs. -/
theorem stay {p i : Nat} (h1 : (R.st i).pc p ≠ .idle) (h2 : (R.st i).pc p ≠ .held)
    (ha : R.act i ≠ some (p, .run)) : (R.st (i+1)).pc p = (R.st i).pc p := by
  rcases R.next i with ⟨_, h⟩ | ⟨r, a, ev, h, hr, hs⟩
  · rw [h]
  · by_cases hrp : p = r
    · subst hrp
      cases a with
      | run => exact absurd h ha
      | callSet => simp [step, h1] at hs
      | callTest => simp [step, h1] at hs
      | callClear => simp [step, h2] at hs
    · exact step_pc_other hs hrp

/-- A PE inside a call is still there when it next runs. -/
theorem next_run (wf : WFair R) {p : Nat} (hp : p < n) (i : Nat) (h1 : (R.st i).pc p ≠ .idle)
    (h2 : (R.st i).pc p ≠ .held) : ∃ j, i ≤ j ∧ R.act j = some (p, .run) ∧ (R.st j).pc p = (R.st i).pc p := by
  obtain ⟨j, hij, hj⟩ := wf p hp i h1 h2
  have key : ∀ k, (∃ j, i ≤ j ∧ R.act j = some (p, .run) ∧ (R.st j).pc p = (R.st i).pc p) ∨
      (R.st (i+k)).pc p = (R.st i).pc p := by
    intro k
    induction k with
    | zero => exact Or.inr rfl
    | succ k ih =>
      rcases ih with ih | ih
      · exact Or.inl ih
      · by_cases ha : R.act (i+k) = some (p, .run)
        · exact Or.inl ⟨i+k, by omega, ha, ih⟩
        · right
          have a1 : (R.st (i+k)).pc p ≠ .idle := by rw [ih]; exact h1
          have a2 : (R.st (i+k)).pc p ≠ .held := by rw [ih]; exact h2
          exact (stay R a1 a2 ha).trans ih
  rcases key (j - i) with h | h
  · exact h
  · have e : i + (j - i) = j := by omega
    rw [e] at h
    exact ⟨j, hij, hj, h⟩

/-- what a `run` at `j` does -/
theorem run_step {p j : Nat} (h : R.act j = some (p, .run)) : ∃ ev, step (R.st j) p .run = some (R.st (j+1), ev) := by
  rcases R.next j with ⟨h1, _⟩ | ⟨r, a, ev, h1, _, hs⟩
  · rw [h] at h1; simp at h1
  · rw [h] at h1; simp at h1; obtain ⟨rfl, rfl⟩ := h1; exact ⟨ev, hs⟩

theorem wsignal (wf : WFair R) {p : Nat} (hp : p < n) (i : Nat) {c} (hi : (R.st i).pc p = .clrSignal c) :
    ∃ j, i ≤ j ∧ (R.st j).pc p = .idle := by
  obtain ⟨j, hij, ha, hj⟩ := next_run R wf hp i (by simp [hi]) (by simp [hi])
  obtain ⟨ev, hs⟩ := run_step R ha
  rw [hi] at hj
  simp only [step, hj] at hs; simp at hs
  exact ⟨j+1, by omega, by rw [← hs.1]; simp⟩

theorem wreset (wf : WFair R) {p : Nat} (hp : p < n) (i : Nat) {c} (hi : (R.st i).pc p = .clrReset c) :
    ∃ j, i ≤ j ∧ (R.st j).pc p = .idle := by
  obtain ⟨j, hij, ha, hj⟩ := next_run R wf hp i (by simp [hi]) (by simp [hi])
  obtain ⟨ev, hs⟩ := run_step R ha
  rw [hi] at hj
  simp only [step, hj] at hs; simp at hs
  obtain ⟨k, hk, h⟩ := wsignal R wf hp (j+1) (c := c) (by rw [← hs.1]; simp)
  exact ⟨k, by omega, h⟩

/-- The ranking argument of `clrSpin_to_idle`, with the weaker fairness: the PE waited for is never a holder. -/
theorem wspin (hn : n ≤ INT_MAX) (wf : WFair R) {p : Nat} (hp : p < n) (i : Nat) (hi : (R.st i).pc p = .clrSpin) :
    ∃ j, i ≤ j ∧ (R.st j).pc p = .idle := by
  have main : ∃ j, i ≤ j ∧ ∃ c, (R.st j).pc p = .clrReset c := by
    induction hm : mu2 (R.st i) (gq R i) using Nat.strongRecOn generalizing i with
    | _ m ih =>
      -- the PE whose step is awaited
      have hd : ∀ i, (R.st i).pc p = .clrSpin → dd (R.st i) (gq R i) < n ∧
          (R.st i).pc (dd (R.st i) (gq R i)) ≠ .idle ∧ (R.st i).pc (dd (R.st i) (gq R i)) ≠ .held := by
        intro i hi
        have hinv := gq_inv R hn i
        have hmem : p ∈ gq R i := (hinv.mem p).2 (by simp [hi, PC.engaged])
        obtain ⟨h1, h2⟩ := dd_engaged hinv (List.ne_nil_of_mem hmem)
        refine ⟨h1, h2, ?_⟩
        have hh : (gq R i).head? = some p := hinv.is_head (by simp [hi, PC.engaged]) (by simp [hi]) (by simp [hi])
        obtain ⟨u, hu⟩ := head_cons hh
        rw [hu]
        cases u with
        | nil => simp [dd, hi]
        | cons b t =>
          simp only [dd]
          split
          · rename_i h; intro hb; rw [hb] at h; simp [secW] at h
          · simp [hi]
      have key : ∀ k, (∃ j, i ≤ j ∧ ∃ c, (R.st j).pc p = .clrReset c) ∨
          ((R.st (i+k)).pc p = .clrSpin ∧ mu2 (R.st (i+k)) (gq R (i+k)) = m ∧
            dd (R.st (i+k)) (gq R (i+k)) = dd (R.st i) (gq R i) ∧
            ∀ x, x < k → R.act (i+x) ≠ some (dd (R.st i) (gq R i), .run)) := by
        intro k
        induction k with
        | zero => exact Or.inr ⟨hi, hm, rfl, by simp⟩
        | succ k ihk =>
          rcases ihk with ihk | ⟨hP, hμ, hdk, hl⟩
          · exact Or.inl ihk
          · rcases R.next (i+k) with ⟨h1, h2⟩ | ⟨r, a, ev, h1, hr, hs⟩
            · right
              have eg : gq R (i + (k+1)) = gq R (i+k) := by
                show gq R ((i+k)+1) = _
                simp only [gq, h1]
              have es : R.st (i + (k+1)) = R.st (i+k) := h2
              rw [eg, es]
              refine ⟨hP, hμ, hdk, ?_⟩
              intro x hx
              by_cases hxk : x < k
              · exact hl x hxk
              · have : x = k := by omega
                subst this; rw [h1]; simp
            · have hst := clrSpin_step hn (gq_inv R hn (i+k)) hP hs
              have eg : gq R (i + (k+1)) = qstep (R.st (i+k)) r a (gq R (i+k)) := by
                show gq R ((i+k)+1) = _
                simp only [gq, h1]
              rcases hst with ⟨c, hc⟩ | ⟨hc, hlt | ⟨he, hde, hne, _⟩⟩
              · left; exact ⟨i+k+1, by omega, c, hc⟩
              · left
                obtain ⟨j, hj, c, h⟩ := ih (mu2 (R.st (i+(k+1))) (gq R (i+(k+1)))) (by
                  rw [eg, ← hμ]; exact hlt) (i+(k+1)) hc rfl
                exact ⟨j, by omega, c, h⟩
              · right
                rw [eg]
                refine ⟨hc, he.trans hμ, hde.trans hdk, ?_⟩
                intro x hx
                by_cases hxk : x < k
                · exact hl x hxk
                · have : x = k := by omega
                  subst this; rw [h1, ← hdk]; exact hne
      obtain ⟨h1, h2, h3⟩ := hd i hi
      obtain ⟨j, hij, hj⟩ := wf _ h1 i h2 h3
      rcases key (j - i + 1) with h | ⟨_, _, _, hl⟩
      · exact h
      · have := hl (j - i) (by omega)
        have e : i + (j - i) = j := by omega
        rw [e] at this
        exact absurd hj this
  obtain ⟨j, hij, c, hj⟩ := main
  obtain ⟨k, hjk, hk⟩ := wreset R wf hp j hj
  exact ⟨k, by omega, hk⟩

/-- A PE inside `clear_lock` or `test_lock` returns, whatever the holders do. -/
theorem wreturns (hn : n ≤ INT_MAX) (wf : WFair R) {p : Nat} (hp : p < n) (i : Nat)
    (hi : (R.st i).pc p = .clrCas ∨ (R.st i).pc p = .clrSpin ∨ (∃ c, (R.st i).pc p = .clrReset c) ∨
      (∃ c, (R.st i).pc p = .clrSignal c) ∨ (R.st i).pc p = .testCas) :
    ∃ j, i ≤ j ∧ ((R.st j).pc p = .idle ∨ (R.st j).pc p = .held) := by
  rcases hi with hi | hi | ⟨c, hi⟩ | ⟨c, hi⟩ | hi
  · obtain ⟨j, hij, ha, hj⟩ := next_run R wf hp i (by simp [hi]) (by simp [hi])
    obtain ⟨ev, hs⟩ := run_step R ha
    rw [hi] at hj
    simp only [step, hj] at hs
    split at hs <;> simp at hs
    · obtain ⟨k, hk, h⟩ := wspin R hn wf hp (j+1) (by rw [← hs.1]; simp)
      exact ⟨k, by omega, Or.inl h⟩
    · exact ⟨j+1, by omega, Or.inl (by rw [← hs.1]; simp)⟩
  · obtain ⟨k, hk, h⟩ := wspin R hn wf hp i hi; exact ⟨k, hk, Or.inl h⟩
  · obtain ⟨k, hk, h⟩ := wreset R wf hp i hi; exact ⟨k, hk, Or.inl h⟩
  · obtain ⟨k, hk, h⟩ := wsignal R wf hp i hi; exact ⟨k, hk, Or.inl h⟩
  · obtain ⟨j, hij, ha, hj⟩ := next_run R wf hp i (by simp [hi]) (by simp [hi])
    obtain ⟨ev, hs⟩ := run_step R ha
    rw [hi] at hj
    simp only [step, hj] at hs
    split at hs <;> simp at hs
    · exact ⟨j+1, by omega, Or.inr (by rw [← hs.1]; simp)⟩
    · exact ⟨j+1, by omega, Or.inl (by rw [← hs.1]; simp)⟩

end Live

/-! ## Projection of a run onto one lock -/

section
variable {C : Cfg} (R : WRun C)

theorem wrun_wexec (i : Nat) : ∃ tr, WExec C (R.st i) tr := by
  induction i with
  | zero => exact ⟨[], WExec.init R.start⟩
  | succ i ih =>
    obtain ⟨tr, h⟩ := ih
    rcases R.next i with ⟨_, h2, h3⟩ | ⟨l, p, a, ev, _, hl, hp, hs⟩
    · have := WExec.write (R.st (i+1)).mem h h3
      have e : ({ R.st i with mem := (R.st (i+1)).mem } : WState) = R.st (i+1) := by
        cases hx : R.st (i+1) with
        | mk m c => rw [hx] at h2; simp only at h2; rw [h2]
      rw [e] at this
      exact ⟨tr, this⟩
    · exact ⟨_, WExec.call l p a h hl hp hs⟩

/-- the action at `i`, if it is on lock `l` -/
def actOn (l : Nat) : Option (Nat × Nat × Act) → Option (Nat × Act)
  | none => none
  | some (k, p, a) => if k = l then some (p, a) else none

theorem actOn_eq {l p : Nat} {a : Act} {o : Option (Nat × Nat × Act)} :
    actOn l o = some (p, a) ↔ o = some (l, p, a) := by
  cases o with
  | none => simp [actOn]
  | some x =>
    obtain ⟨k, r, b⟩ := x
    simp only [actOn]
    split
    · rename_i h; subst h; simp
    · rename_i h; simp [h]

theorem wrun_step (wf : C.WF) (un : C.Uniform) {i l p : Nat} {a : Act} {ev : List Ev} (hl : l < C.m) (hp : p < C.n)
    (hs : wstep C (R.st i) l p a = some (R.st (i+1), ev)) : StepOK C l p a (R.st i) (R.st (i+1)) ev := by
  obtain ⟨tr, h⟩ := wrun_wexec R i
  obtain ⟨q, hinv, _⟩ := exec_inv wf.max (wexec_view wf un h l hl)
  exact wstep_sim wf un hl hp hinv hs

/-- The run as seen by lock `l`. -/
def proj (wf : C.WF) (un : C.Uniform) (l : Nat) (hl : l < C.m) : Run C.n where
  st i := C.view (R.st i) l
  act i := actOn l (R.act i)
  start := view_init wf hl R.start
  next := by
    intro i
    rcases R.next i with ⟨h1, h2, h3⟩ | ⟨k, p, a, ev, h1, hk, hp, hs⟩
    · left
      refine ⟨by rw [h1]; rfl, ?_⟩
      have e : R.st (i+1) = { R.st i with mem := (R.st (i+1)).mem } := by
        cases hx : R.st (i+1) with
        | mk m c => rw [hx] at h2; simp only at h2; rw [h2]
      rw [e]
      exact view_mem_congr wf.pos (fun t ht j hj => h3 t ht _ ⟨l, hl, j, hj, rfl⟩)
    · have ok := wrun_step R wf un hk hp hs
      by_cases hkl : k = l
      · subst hkl
        right
        exact ⟨p, a, ev, by rw [h1]; simp [actOn], hp, ok.own⟩
      · left
        exact ⟨by rw [h1]; simp [actOn, hkl], ok.others l hl (Ne.symm hkl)⟩

theorem proj_wfair (wf : C.WF) (un : C.Uniform) (sc : R.Scheduled) (l : Nat) (hl : l < C.m) :
    Live.WFair (proj R wf un l hl) := by
  intro p hp i h1 h2
  have : R.InCall i l p := by
    show ((R.st i).pc l p).rest = false
    have h1' : (R.st i).pc l p ≠ .idle := h1
    have h2' : (R.st i).pc l p ≠ .held := h2
    simp [PC.rest, h1', h2']
  obtain ⟨j, hj, ha⟩ := sc l p i hl hp this
  exact ⟨j, hj, actOn_eq.2 ha⟩

/-! ## Invariants of a PE over all locks -/

/-- inside `set_lock` -/
def PC.setting : PC → Bool
  | .setReset => true
  | .setSwap => true
  | .setLink _ => true
  | .setSpin => true
  | .idle => false
  | .held => false
  | .clrCas => false
  | .clrSpin => false
  | .clrReset _ => false
  | .clrSignal _ => false
  | .testCas => false

/-- how one step moves the program counter it is about -/
theorem step_pc_kind {s s' : State} {p : Nat} {a : Act} {ev} (hs : step s p a = some (s', ev)) :
    (a ≠ .run → (s.pc p).rest = true) ∧ (a = .run → (s.pc p).rest = false) ∧
    ((s'.pc p).setting = true → a = .callSet ∨ (a = .run ∧ (s.pc p).setting = true)) ∧
    (a ≠ .run → (s'.pc p).rest = false) := by
  cases a with
  | callSet =>
    simp only [step] at hs; split at hs <;> simp at hs
    rename_i h; obtain ⟨rfl, _⟩ := hs
    refine ⟨(by intro _; rw [h]; rfl), (by intro e; cases e), fun _ => Or.inl rfl, (by intro _; simp; rfl)⟩
  | callTest =>
    simp only [step] at hs; split at hs <;> simp at hs
    rename_i h; obtain ⟨rfl, _⟩ := hs
    refine ⟨(by intro _; rw [h]; rfl), (by intro e; cases e), (by intro e; simp [PC.setting] at e), (by intro _; simp; rfl)⟩
  | callClear =>
    simp only [step] at hs; split at hs <;> simp at hs
    rename_i h; obtain ⟨rfl, _⟩ := hs
    refine ⟨(by intro _; rw [h]; rfl), (by intro e; cases e), (by intro e; simp [PC.setting] at e), (by intro _; simp; rfl)⟩
  | run =>
    refine ⟨fun h => absurd rfl h, fun _ => ?_, fun e => Or.inr ⟨rfl, ?_⟩, fun h => absurd rfl h⟩
    · cases hpc : s.pc p <;> simp [step, hpc] at hs <;> rfl
    · cases hpc : s.pc p with
      | idle => simp [step, hpc] at hs
      | held => simp [step, hpc] at hs
      | setReset => rfl
      | setSwap => rfl
      | setLink c => rfl
      | setSpin => rfl
      | clrCas =>
        simp only [step, hpc] at hs
        split at hs <;> (simp at hs; rw [← hs.1] at e; simp [PC.setting] at e)
      | clrSpin =>
        simp only [step, hpc] at hs
        split at hs <;> (simp at hs; rw [← hs.1] at e; simp [PC.setting, hpc] at e)
      | clrReset c => simp [step, hpc] at hs; rw [← hs.1] at e; simp [PC.setting] at e
      | clrSignal c => simp [step, hpc] at hs; rw [← hs.1] at e; simp [PC.setting] at e
      | testCas =>
        simp only [step, hpc] at hs
        split at hs <;> (simp at hs; rw [← hs.1] at e; simp [PC.setting] at e)

theorem wstep_free {s s' : WState} {l p : Nat} {a : Act} {ev} (hs : wstep C s l p a = some (s', ev)) (ha : a ≠ .run) :
    C.free s p = true := by
  cases a with
  | run => exact absurd rfl ha
  | callSet => simp only [wstep] at hs; split at hs <;> simp at hs; rename_i h; exact h.2
  | callTest => simp only [wstep] at hs; split at hs <;> simp at hs; rename_i h; exact h.2
  | callClear => simp only [wstep] at hs; split at hs <;> simp at hs; rename_i h; exact h.2

theorem free_rest {s : WState} {p k : Nat} (h : C.free s p = true) (hk : k < C.m) : (s.pc k p).rest = true := by
  simp only [Cfg.free, List.all_eq_true, List.mem_range] at h
  exact h k hk

/-- A PE is in at most one call. -/
theorem one_call (wf : C.WF) (un : C.Uniform) (i : Nat) {p k k' : Nat} (hk : k < C.m) (hk' : k' < C.m)
    (h : R.InCall i k p) (h' : R.InCall i k' p) : k = k' := by
  unfold WRun.InCall at h h'
  induction i generalizing k k' with
  | zero => rw [R.start.1] at h; simp [PC.rest] at h
  | succ i ih =>
    rcases R.next i with ⟨_, h2, _⟩ | ⟨l, r, a, ev, h1, hl, hr, hs⟩
    · rw [h2] at h h'; exact ih hk hk' h h'
    · have ok := wrun_step R wf un hl hr hs
      by_cases hrp : p = r
      · subst hrp
        have kind := step_pc_kind ok.own
        have others : ∀ x, x ≠ l → (R.st (i+1)).pc x p = (R.st i).pc x p := fun x hx => ok.pcs x p (fun e => hx e.1)
        by_cases ha : a = .run
        · -- it was in the call on `l`
          have hin : ((R.st i).pc l p).rest = false := kind.2.1 ha
          have : ∀ x, x < C.m → ((R.st (i+1)).pc x p).rest = false → x = l := by
            intro x hx hxr
            by_cases hxl : x = l
            · exact hxl
            · rw [others x hxl] at hxr; exact ih hx hl hxr hin
          rw [this k hk h, this k' hk' h']
        · have hfree := wstep_free hs ha
          have : ∀ x, x < C.m → ((R.st (i+1)).pc x p).rest = false → x = l := by
            intro x hx hxr
            by_cases hxl : x = l
            · exact hxl
            · rw [others x hxl, free_rest hfree hx] at hxr; cases hxr
          rw [this k hk h, this k' hk' h']
      · have e : ∀ x, (R.st (i+1)).pc x p = (R.st i).pc x p := fun x => ok.pcs x p (fun e => hrp e.2)
        rw [e] at h h'
        exact ih hk hk' h h'

theorem setting_inCall {c : PC} (h : c.setting = true) : c.rest = false := by
  cases c <;> simp [PC.setting] at h <;> rfl

/-- With locks taken in order, a PE that is inside `set_lock` holds only smaller locks. -/
theorem held_below (wf : C.WF) (un : C.Uniform) (ord : R.Ordered) (i : Nat) {p k k' : Nat} (hk : k < C.m) (hk' : k' < C.m)
    (h : ((R.st i).pc k p).setting = true) (h' : (R.st i).pc k' p = .held) : k' < k := by
  induction i generalizing k k' with
  | zero => rw [R.start.1] at h'; simp at h'
  | succ i ih =>
    rcases R.next i with ⟨_, h2, _⟩ | ⟨l, r, a, ev, h1, hl, hr, hs⟩
    · rw [h2] at h h'; exact ih hk hk' h h'
    · have ok := wrun_step R wf un hl hr hs
      by_cases hrp : p = r
      · subst hrp
        have kind := step_pc_kind ok.own
        have others : ∀ x, x ≠ l → (R.st (i+1)).pc x p = (R.st i).pc x p := fun x hx => ok.pcs x p (fun e => hx e.1)
        -- the call is on `l`, so `k = l`
        have hkl : k = l := by
          by_cases hkl : k = l
          · exact hkl
          · have hin : ((R.st i).pc k p).rest = false := by rw [← others k hkl]; exact setting_inCall h
            by_cases ha : a = .run
            · exact one_call R wf un i hk hl hin (kind.2.1 ha)
            · have := free_rest (wstep_free hs ha) hk
              rw [this] at hin; cases hin
        subst hkl
        have hk'k : k' ≠ k := by
          intro e; subst e
          rw [h'] at h; simp [PC.setting] at h
        rw [others k' hk'k] at h'
        rcases kind.2.2.1 h with ha | ⟨_, hset⟩
        · subst ha; exact ord i k p h1 k' hk' h'
        · exact ih hk hk' hset h'
      · have e : ∀ x, (R.st (i+1)).pc x p = (R.st i).pc x p := fun x => ok.pcs x p (fun e => hrp e.2)
        rw [e] at h h'
        exact ih hk hk' h h'

/-- A holder holds on until it calls `clear_lock`. -/
theorem held_stays (wf : C.WF) (un : C.Uniform) {i l p : Nat} (h : (R.st i).pc l p = .held)
    (hno : ∀ j, i ≤ j → R.act j ≠ some (l, p, .callClear)) : ∀ k, (R.st (i+k)).pc l p = .held := by
  intro k
  induction k with
  | zero => exact h
  | succ k ih =>
    show (R.st ((i+k)+1)).pc l p = .held
    rcases R.next (i+k) with ⟨_, h2, _⟩ | ⟨x, r, a, ev, h1, hx, hr, hs⟩
    · rw [h2]; exact ih
    · have ok := wrun_step R wf un hx hr hs
      by_cases hc : l = x ∧ p = r
      · obtain ⟨rfl, rfl⟩ := hc
        have own := ok.own
        have hpcv : (C.view (R.st (i+k)) l).pc p = .held := ih
        cases a with
        | callClear => exact absurd h1 (hno (i+k) (by omega))
        | callSet => simp [step, hpcv] at own
        | callTest => simp [step, hpcv] at own
        | run => simp [step, hpcv] at own
      · rw [ok.pcs l p hc]; exact ih

/-- The run of every lock is fair. -/
theorem proj_fair (wf : C.WF) (un : C.Uniform) (sc : R.Scheduled) (rel : R.Releasing) (ord : R.Ordered) :
    ∀ d l (hl : l < C.m), C.m - l = d → (proj R wf un l hl).Fair := by
  intro d
  induction d using Nat.strongRecOn with
  | _ d ih =>
    intro l hl hd p hp i
    by_cases h1 : (R.st i).pc l p = .idle
    · exact ⟨i, Nat.le_refl _, Or.inl h1⟩
    · by_cases h2 : (R.st i).pc l p = .held
      · by_cases hcl : ∃ j, i ≤ j ∧ R.act j = some (l, p, .callClear)
        · obtain ⟨j, hj, ha⟩ := hcl
          exact ⟨j, hj, Or.inr (Or.inr (actOn_eq.2 ha))⟩
        · exfalso
          rcases rel l p i hl hp h2 with h | ⟨k, j, hk, hij, hin⟩
          · exact hcl h
          · have hheld : ∀ j', i ≤ j' → (R.st j').pc l p = .held := by
              intro j' hj'
              have := held_stays R wf un h2 (fun x hx e => hcl ⟨x, hx, e⟩) (j' - i)
              have e : i + (j' - i) = j' := by omega
              rw [e] at this; exact this
            have hret : ∃ j', j ≤ j' ∧ ((R.st j').pc k p = .idle ∨ (R.st j').pc k p = .held) := by
              have hwf := proj_wfair R wf un sc k hk
              have hset : ((R.st j).pc k p).setting = true → ∃ j', j ≤ j' ∧ ((R.st j').pc k p = .idle ∨ (R.st j').pc k p = .held) := by
                intro hs
                have hlk : l < k := held_below R wf un ord j hk hl hs (hheld j hij)
                have hfair := ih (C.m - k) (by omega) k hk rfl
                have := (C03_progress_partial wf.max (proj R wf un k hk) hfair hp j).1 (by
                  show (R.st j).pc k p = .setReset ∨ (R.st j).pc k p = .setSwap ∨ (∃ c, (R.st j).pc k p = .setLink c) ∨
                    (R.st j).pc k p = .setSpin
                  cases hc : (R.st j).pc k p <;> rw [hc] at hs <;> simp [PC.setting] at hs <;> simp)
                obtain ⟨j', hj', h⟩ := this
                exact ⟨j', hj', Or.inr h⟩
              have hoth := Live.wreturns (proj R wf un k hk) wf.max hwf hp j
              have hinj : ((R.st j).pc k p).rest = false := hin j (Nat.le_refl _)
              cases hc : (R.st j).pc k p with
              | idle => rw [hc] at hinj; cases hinj
              | held => rw [hc] at hinj; cases hinj
              | setReset => exact hset (by rw [hc]; rfl)
              | setSwap => exact hset (by rw [hc]; rfl)
              | setLink c => exact hset (by rw [hc]; rfl)
              | setSpin => exact hset (by rw [hc]; rfl)
              | clrCas => exact hoth (Or.inl hc)
              | clrSpin => exact hoth (Or.inr (Or.inl hc))
              | clrReset c => exact hoth (Or.inr (Or.inr (Or.inl ⟨c, hc⟩)))
              | clrSignal c => exact hoth (Or.inr (Or.inr (Or.inr (Or.inl ⟨c, hc⟩))))
              | testCas => exact hoth (Or.inr (Or.inr (Or.inr (Or.inr hc))))
            obtain ⟨j', hj', h⟩ := hret
            have := hin j' hj'
            unfold WRun.InCall at this
            rcases h with h | h <;> (rw [h] at this; cases this)
      · have : R.InCall i l p := by
          show ((R.st i).pc l p).rest = false
          simp [PC.rest, h1, h2]
        obtain ⟨j, hj, ha⟩ := sc l p i hl hp this
        exact ⟨j, hj, Or.inr (Or.inl (actOn_eq.2 ha))⟩

end

end Verif.Lock
