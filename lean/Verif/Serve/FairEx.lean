import Verif.Serve.Bulk
import Verif.Serve.Ex

/-!
# C101: cases of the hypotheses, and a PE that waits for ever
-/

namespace Verif.Serve.Ex

variable {M : Type}

/-- A finite run, and then nothing happens any more. -/
theorem exec_of_run {S : Cfg} {pr : Nat → Nat → M → Call M} {b : Bool} {m : M} {g : Job M}
    (h : Run S pr b (.init m) g) : ∃ R : Exec S pr b m, ∃ N, ∀ j, N ≤ j → R.st j = g := by
  generalize he : Job.init m = g0 at h
  induction h with
  | refl => exact ⟨⟨fun _ => g0, he.symm, fun _ => .inl rfl⟩, 0, fun _ _ => rfl⟩
  | step a k _ hs ih =>
    obtain ⟨R, N, hN⟩ := ih
    refine ⟨⟨fun j => if j ≤ N then R.st j else k, ?_, fun i => ?_⟩, N + 1, fun j hj => ?_⟩
    · show (if 0 ≤ N then R.st 0 else k) = _
      rw [if_pos (Nat.zero_le _)]; exact R.start
    · show (if i + 1 ≤ N then R.st (i + 1) else k) = (if i ≤ N then R.st i else k) ∨
        Step S pr b (if i ≤ N then R.st i else k) (if i + 1 ≤ N then R.st (i + 1) else k)
      by_cases h1 : i + 1 ≤ N
      · rw [if_pos h1, if_pos (show i ≤ N by omega)]; exact R.next i
      · rw [if_neg h1]
        by_cases h2 : i ≤ N
        · rw [if_pos h2, hN i (by omega)]; exact .inr hs
        · rw [if_neg h2]; exact .inl rfl
    · show (if j ≤ N then R.st j else k) = k
      rw [if_neg (by omega)]

/-- The same with a state on the way. -/
theorem exec_via {S : Cfg} {pr : Nat → Nat → M → Call M} {b : Bool} {m : M} {a g : Job M}
    (h : Run S pr b (.init m) a) (h' : Run S pr b a g) :
    ∃ R : Exec S pr b m, (∃ i, R.st i = a) ∧ ∃ N, ∀ j, N ≤ j → R.st j = g := by
  induction h' with
  | refl =>
    obtain ⟨R, N, hN⟩ := exec_of_run h
    exact ⟨R, ⟨N, hN N (Nat.le_refl _)⟩, N, hN⟩
  | step c k _ hs ih =>
    obtain ⟨R, ⟨i0, h0⟩, N, hN⟩ := ih
    have next : ∀ i, (if i + 1 ≤ N + i0 then R.st (i + 1) else k) = (if i ≤ N + i0 then R.st i else k) ∨
        Step S pr b (if i ≤ N + i0 then R.st i else k) (if i + 1 ≤ N + i0 then R.st (i + 1) else k) := by
      intro i
      by_cases h1 : i + 1 ≤ N + i0
      · rw [if_pos h1, if_pos (show i ≤ N + i0 by omega)]; exact R.next i
      · rw [if_neg h1]
        by_cases h2 : i ≤ N + i0
        · rw [if_pos h2, hN i (by omega)]; exact .inr hs
        · rw [if_neg h2]; exact .inl rfl
    refine ⟨⟨fun j => if j ≤ N + i0 then R.st j else k, ?_, next⟩, ⟨i0, ?_⟩, N + i0 + 1, fun j hj => ?_⟩
    · show (if 0 ≤ N + i0 then R.st 0 else k) = _
      rw [if_pos (Nat.zero_le _)]; exact R.start
    · show (if i0 ≤ N + i0 then R.st i0 else k) = _
      rw [if_pos (by omega)]; exact h0
    · show (if j ≤ N + i0 then R.st j else k) = k
      rw [if_neg (by omega)]

theorem from' {S : Cfg} {pr : Nat → Nat → M → Call M} {b : Bool} {a g : Job M}
    (_ : Run S pr b a g) : Run S pr b g g := .refl g

/-- It is fair if all PEs are through `shmem_finalize`. -/
theorem fair_of_done {S : Cfg} {pr : Nat → Nat → M → Call M} {b : Bool} {m : M} {g : Job M}
    (R : Exec S pr b m) (N : Nat) (hN : ∀ j, N ≤ j → R.st j = g) (hd : Done S g) : R.Fair := by
  refine ⟨fun p hp i h => ?_, fun t ht s i h _ => ?_⟩
  · have := h (i + N) (by omega)
    rw [hN _ (by omega)] at this
    unfold Ready at this
    rw [hd p hp] at this
    exact this.elim
  · have := (h (i + N) (by omega)).2
    rw [hN _ (by omega)] at this
    exact absurd (hd t ht) this

/-- A bulk-synchronous program of two PEs: PE 1 adds one and then fetches and adds one, both at
PE 0; both allocate and finalize. -/
def bulk : Nat → Nat → Nat → Call Nat
  | 1, 0, _ => .amoPostAm 0 (· + 1)
  | 1, 1, _ => .amoFetchAm 0 (· + 1)
  | 1, 2, _ => .alloc id
  | 0, 0, _ => .alloc id
  | _, _, _ => .finalize

theorem bulk_serves : Serves (S 2) bulk 0 := by
  intro h p _ _ _
  generalize (h.pe p).calls = k
  generalize h.mem = m
  unfold bulk
  split <;> exact trivial

theorem bulk_live : Live (S 2) bulk 0 := by
  refine .inr ⟨bulk_serves, fun p _ v k => ⟨k + 3, by omega, ?_⟩⟩
  have : bulk p (k + 3) (v (k + 3)) = .finalize := by
    unfold bulk
    split <;> first | rfl | omega
  rw [this]; trivial

theorem bulk_bulk : Bulk (S 2) bulk 1 (fun p r => if p = 0 then r else r + 2) := by
  constructor
  · refine two (P := fun p => ∀ r, r ≤ 1 → after (fun r => if p = 0 then r else r + 2) r ≤
      if p = 0 then r else r + 2) ?_ ?_
    · intro r hr
      match r, hr with
      | 0, _ => decide
      | 1, _ => decide
    · intro r hr
      match r, hr with
      | 0, _ => decide
      | 1, _ => decide
  · refine two (P := fun p => ∀ r, r ≤ 1 → ∀ k,
      after (fun r => if p = 0 then r else r + 2) r ≤ k → k < (if p = 0 then r else r + 2) →
        ∀ m, (bulk p k m).Alone (S 2).n) ?_ ?_
    · intro r hr
      match r, hr with
      | 0, _ => intro k _ h; exact absurd h (Nat.not_lt_zero k)
      | 1, _ => intro k h1 h2; exact absurd (show 1 ≤ k from h1) (by have : k < 1 := h2; omega)
    · intro r hr
      match r, hr with
      | 0, _ =>
        intro k _ h m
        have h : k < 2 := h
        match k, h with
        | 0, _ => exact (by decide : 0 < 2)
        | 1, _ => exact (by decide : 0 < 2)
      | 1, _ => intro k h1 h2; exact absurd (show 3 ≤ k from h1) (by have : k < 3 := h2; omega)
  · refine two (P := fun p => ∀ r, r < 1 → ∀ m, (bulk p (if p = 0 then r else r + 2) m).World) ?_ ?_
    · intro r hr m
      match r, hr with
      | 0, _ => trivial
    · intro r hr m
      match r, hr with
      | 0, _ => trivial
  · exact two (P := fun p => ∀ m, bulk p (if p = 0 then 1 else 3) m = .finalize) (fun _ => rfl) (fun _ => rfl)

/-- The hypotheses of `C101_bulk`, `C101_handled`, `C101_answer`, `C101_returns`,
`C101_collective`, `C101_fair`: a fair execution of this program exists; in it a packet of PE 1 is
under way to PE 0, PE 1 waits for the answer, and PE 0 is inside the barrier of its allocation. -/
theorem bulk_exec : ∃ R : Exec (S 2) bulk false 0, R.Fair ∧
    (∃ i, Done (S 2) (R.st i) ∧ (R.st i).mem = 2 ∧ ∀ p, p < 2 → (R.st i).cnt .world p = 1) ∧
    ∃ i, (R.st i).fly 0 = [⟨1, (· + 1), true⟩] ∧ ((R.st i).pe 1).waiting = true ∧
      ((R.st i).pe 1).rem = [.send 0 (· + 1) true] ∧
      ((R.st i).pe 0).rem = [.coll .world .barrier] ∧ ((R.st i).pe 0).inside = true ∧
      (R.st i).cnt .world 0 = 1 := by
  have r := Run.refl (S := S 2) (prog := bulk) (free := false) (Job.init 0)
  have r := snoc r (.start _ 0 (by decide) rfl)
  have r := snoc r (.act _ 0 (by decide) id _ rfl)
  have r := snoc r (.enter _ 0 (by decide) .world .barrier [] rfl rfl)
  have r := snoc r (.start _ 1 (by decide) rfl)
  have r := snoc r (.send _ 1 (by decide) 0 (· + 1) false [] rfl rfl)
  have r := snoc r (.handle _ 0 (by decide) [] [] _ rfl nofun (.inr (.inr ⟨rfl, rfl⟩)))
  have r := snoc r (.start _ 1 (by decide) rfl)
  have r0 := snoc r (.send _ 1 (by decide) 0 (· + 1) true [] rfl rfl)
  have r := from' r0
  have r := snoc r (.handle _ 0 (by decide) [] [] _ rfl nofun (.inr (.inr ⟨rfl, rfl⟩)))
  have r := snoc r (.start _ 1 (by decide) rfl)
  have r := snoc r (.act _ 1 (by decide) id _ rfl)
  have r := snoc r (.enter _ 1 (by decide) .world .barrier [] rfl rfl)
  have r := snoc r (.leave _ 0 (by decide) .world .barrier [] rfl rfl rfl)
  have r := snoc r (.leave _ 1 (by decide) .world .barrier [] rfl rfl rfl)
  have r := snoc r (.start _ 0 (by decide) rfl)
  have r := snoc r (.start _ 1 (by decide) rfl)
  have r := snoc r (.enter _ 0 (by decide) .finalize .barrier [.stop] rfl rfl)
  have r := snoc r (.enter _ 1 (by decide) .finalize .barrier [.stop] rfl rfl)
  have r := snoc r (.leave _ 0 (by decide) .finalize .barrier [.stop] rfl rfl rfl)
  have r := snoc r (.leave _ 1 (by decide) .finalize .barrier [.stop] rfl rfl rfl)
  obtain ⟨R, ⟨i, hi⟩, N, hN⟩ := exec_via r0 r
  have hd := two (P := fun p => ((R.st N).pe p).rem = [.stop]) (by rw [hN N (Nat.le_refl _)]; rfl)
    (by rw [hN N (Nat.le_refl _)]; rfl)
  refine ⟨R, fair_of_done R N (fun j hj => (hN j hj).trans (hN N (Nat.le_refl _)).symm) hd,
    ⟨N, hd, by rw [hN N (Nat.le_refl _)]; rfl, ?_⟩, i, ?_⟩
  · rw [hN N (Nat.le_refl _)]; exact two rfl rfl
  · rw [hi]
    exact ⟨rfl, rfl, rfl, rfl, rfl, rfl⟩

example (R : Exec (S 2) bulk false 0) (F : R.Fair) : ∃ i, Done (S 2) (R.st i) :=
  C101_bulk R (S_mpi 2) F bulk_live 1 _ bulk_bulk

example : ∃ R : Exec (S 2) bulk false 0, ∃ i j, i ≤ j ∧ ((R.st i).pe 1).waiting = true ∧
    (R.st (j + 1)).mem = (R.st j).mem + 1 ∧ ((R.st (j + 1)).pe 1).waiting = false := by
  obtain ⟨R, F, -, i, -, h1, h2, -, -, -⟩ := bulk_exec
  obtain ⟨j, hj, -, e1, e2, -⟩ := C101_answer R (S_mpi 2) F bulk_live 1 0 i (by decide) (by decide) _ _ h1 h2
  exact ⟨R, i, j, hj, h1, e1, by rw [e2]⟩

example (R : Exec (S 2) bulk false 0) (F : R.Fair) (i : Nat) (h : ((R.st i).pe 1).rem = [])
    (hc : ((R.st i).pe 1).calls = 1) : ∃ j, i ≤ j ∧ ((R.st j).pe 1).calls = 2 := by
  obtain ⟨j, h1, -, h2⟩ := C101_returns R (S_mpi 2) F bulk_live 1 i (by decide) h
    (by rw [hc]; exact fun _ => (by decide : 0 < 2))
  exact ⟨j, h1, by rw [h2, hc]⟩

/-- A collective that returns. -/
example : ∃ R : Exec (S 2) bulk false 0, ∃ i j, i ≤ j ∧ ((R.st i).pe 0).inside = true ∧
    ((R.st j).pe 0).rem = [] := by
  obtain ⟨R, F, ⟨e, -, -, hc⟩, i, -, -, -, h1, h2, h3⟩ := bulk_exec
  obtain ⟨j, hj, e, -⟩ := C101_collective R (S_mpi 2) F 0 i (by decide) .world .barrier [] h1 h2
    (fun q hq => ⟨e, by rw [h3, hc q (List.mem_range.mp hq)]; exact Nat.le_refl _⟩)
  exact ⟨R, i, j, hj, h2, by rw [e]⟩

/-- PE 0 waits for a flag that PE 1 sets (hypotheses of `C101_wait`). -/
def flag : Nat → Nat → Nat → Call Nat
  | 0, 0, _ => .waitUntil (fun m => decide (1 ≤ m))
  | 1, 0, _ => .local' (· + 1)
  | _, _, _ => .finalize

example : ∃ R : Exec (S 2) flag false 0, R.Fair ∧ (∃ i, ((R.st i).pe 0).rem = [.wait (fun m => decide (1 ≤ m))] ∧
    (R.st i).mem = 0) ∧ ∃ K, ∀ j, K ≤ j → decide (1 ≤ (R.st j).mem) = true := by
  have r := Run.refl (S := S 2) (prog := flag) (free := false) (Job.init 0)
  have r0 := snoc r (.start _ 0 (by decide) rfl)
  have r := from' r0
  have r := snoc r (.start _ 1 (by decide) rfl)
  have r := snoc r (.act _ 1 (by decide) (· + 1) [] rfl)
  have r := snoc r (.pass _ 0 (by decide) (fun m => decide (1 ≤ m)) [] rfl rfl)
  have r := snoc r (.start _ 0 (by decide) rfl)
  have r := snoc r (.start _ 1 (by decide) rfl)
  have r := snoc r (.enter _ 0 (by decide) .finalize .barrier [.stop] rfl rfl)
  have r := snoc r (.enter _ 1 (by decide) .finalize .barrier [.stop] rfl rfl)
  have r := snoc r (.leave _ 0 (by decide) .finalize .barrier [.stop] rfl rfl rfl)
  have r := snoc r (.leave _ 1 (by decide) .finalize .barrier [.stop] rfl rfl rfl)
  obtain ⟨R, ⟨i, hi⟩, N, hN⟩ := exec_via r0 r
  have hd := two (P := fun p => ((R.st N).pe p).rem = [.stop]) (by rw [hN N (Nat.le_refl _)]; rfl)
    (by rw [hN N (Nat.le_refl _)]; rfl)
  refine ⟨R, fair_of_done R N (fun j hj => (hN j hj).trans (hN N (Nat.le_refl _)).symm) hd,
    ⟨i, by rw [hi]; rfl, by rw [hi]; rfl⟩, N, fun j hj => ?_⟩
  rw [hN j hj]; rfl

/-! ## Without unsuccessful tests a PE may wait for ever -/

/-- PE 0 fetches from PE 2 again and again, PE 2 waits for something that never happens, PE 1 fetches and adds at PE 0. -/
def spin : Nat → Nat → Nat → Call Nat := fun p _ _ =>
  if p = 0 then .amoFetchAm 2 id else if p = 1 then .amoFetchAm 0 (· + 1) else .waitUntil (fun _ => false)

/-- PE 1 started its call -/
def a1 : Job Nat :=
  ⟨0, upd (Job.init 0).pe 1 (begin' (S 3) ((Job.init 0).pe 1) (spin 1 0 0)), fun _ => [], fun _ _ => 0⟩
/-- and sent its packet -/
def a2 : Job Nat :=
  ⟨0, upd a1.pe 1 { a1.pe 1 with waiting := true }, upd a1.fly 0 [⟨1, (· + 1), true⟩], fun _ _ => 0⟩
/-- PE 2 started its call -/
def a3 : Job Nat := ⟨0, upd a2.pe 2 (begin' (S 3) (a2.pe 2) (spin 2 0 0)), a2.fly, fun _ _ => 0⟩

/-- PE 0 starts the next fetch, sends the packet, and PE 2 answers, in turn -/
def turn (g : Job Nat) : Job Nat :=
  if (g.pe 0).rem.isEmpty then
    ⟨g.mem, upd g.pe 0 (begin' (S 3) (g.pe 0) (spin 0 (g.pe 0).calls g.mem)), g.fly, g.cnt⟩
  else if (g.pe 0).waiting then
    ⟨g.mem, upd g.pe 0 (g.pe 0).answered, upd g.fly 2 [], g.cnt⟩
  else
    ⟨g.mem, upd g.pe 0 { g.pe 0 with waiting := true }, upd g.fly 2 (g.fly 2 ++ [⟨0, id, true⟩]), g.cnt⟩

/-- `turn` for ever -/
def loop : Nat → Job Nat
  | 0 => a3
  | n + 1 => turn (loop n)

/-- what all states of the loop have in common -/
structure Spin (g : Job Nat) : Prop where
  r1 : (g.pe 1).rem = [.send 0 (· + 1) true]
  w1 : (g.pe 1).waiting = true
  r2 : (g.pe 2).rem = [.wait (fun _ => false)]
  f0 : g.fly 0 = [⟨1, (· + 1), true⟩]
  f1 : g.fly 1 = []
  m : g.mem = 0
  ph : ((g.pe 0).rem = [] ∧ (g.pe 0).waiting = false ∧ g.fly 2 = []) ∨
    ((g.pe 0).rem = [.send 2 id true] ∧ (g.pe 0).waiting = false ∧ g.fly 2 = []) ∨
    ((g.pe 0).rem = [.send 2 id true] ∧ (g.pe 0).waiting = true ∧ g.fly 2 = [⟨0, id, true⟩])

theorem spin_turn {g : Job Nat} (h : Spin g) : Spin (turn g) ∧ Step (S 3) spin false g (turn g) ∧
    (turn g).pe 0 ≠ g.pe 0 ∧ (g.fly 2 ≠ [] → (turn g).fly 2 = []) := by
  rcases h.ph with ⟨e, w, f⟩ | ⟨e, w, f⟩ | ⟨e, w, f⟩
  · have ht : turn g = ⟨g.mem, upd g.pe 0 (begin' (S 3) (g.pe 0) (spin 0 (g.pe 0).calls g.mem)), g.fly, g.cnt⟩ := by
      unfold turn; rw [if_pos (by rw [e]; rfl)]
    rw [ht]
    refine ⟨⟨h.r1, h.w1, h.r2, h.f0, h.f1, h.m, .inr (.inl ⟨rfl, rfl, f⟩)⟩, .start g 0 (by decide) e, ?_, fun x => absurd f x⟩
    intro x
    replace x : (begin' (S 3) (g.pe 0) (spin 0 (g.pe 0).calls g.mem)) = g.pe 0 := x
    rw [← x] at e
    cases e
  · have ht : turn g = ⟨g.mem, upd g.pe 0 { g.pe 0 with waiting := true }, upd g.fly 2 (g.fly 2 ++ [⟨0, id, true⟩]), g.cnt⟩ := by
      unfold turn; rw [if_neg (by rw [e]; nofun), if_neg (by rw [w]; nofun)]
    rw [ht]
    refine ⟨⟨h.r1, h.w1, h.r2, h.f0, h.f1, h.m, .inr (.inr ⟨e, rfl, ?_⟩)⟩, .send g 0 (by decide) 2 id true [] e w, ?_, fun x => absurd f x⟩
    · show upd g.fly 2 _ 2 = _
      rw [upd_same, f]; rfl
    · intro x
      replace x : ({ g.pe 0 with waiting := true } : Pe Nat) = g.pe 0 := x
      rw [← x] at w
      cases w
  · have ht : turn g = ⟨g.mem, upd g.pe 0 (g.pe 0).answered, upd g.fly 2 [], g.cnt⟩ := by
      unfold turn; rw [if_neg (by rw [e]; nofun), if_pos w]
    rw [ht]
    refine ⟨⟨h.r1, h.w1, h.r2, h.f0, h.f1, h.m, .inl ⟨?_, rfl, rfl⟩⟩, ?_, ?_, fun _ => rfl⟩
    · show (g.pe 0).rem.tail = []
      rw [e]; rfl
    · exact .handle g 2 (by decide) [] [] ⟨0, id, true⟩ f nofun (.inr (.inr (by unfold Serving; rw [h.r2])))
    · intro x
      replace x : (g.pe 0).answered = g.pe 0 := x
      rw [← x] at w
      cases w

theorem spin_loop (n : Nat) : Spin (loop n) := by
  induction n with
  | zero => exact ⟨rfl, rfl, rfl, rfl, rfl, rfl, .inl ⟨rfl, rfl, rfl⟩⟩
  | succ n ih => exact (spin_turn ih).1

/-- the execution -/
def spinExec : Exec (S 3) spin false 0 where
  st := fun i => match i with
    | 0 => .init 0
    | 1 => a1
    | 2 => a2
    | n + 3 => loop n
  start := rfl
  next := fun i => match i with
    | 0 => .inr (.start (Job.init 0) 1 (by decide) rfl)
    | 1 => .inr (.send a1 1 (by decide) 0 (· + 1) true [] rfl rfl)
    | 2 => .inr (.start a2 2 (by decide) rfl)
    | n + 3 => .inr (spin_turn (spin_loop n)).2.1

theorem spin_fair : spinExec.Fair := by
  have at3 : ∀ i, spinExec.st (i + 3) = loop i := fun _ => rfl
  constructor
  · refine three (P := fun p => ∀ i, (∀ j, i ≤ j → Ready (S 3) (spinExec.st j) p) →
      ∃ j, i ≤ j ∧ (spinExec.st (j + 1)).pe p ≠ (spinExec.st j).pe p) ?_ ?_ ?_
    · intro i _
      exact ⟨i + 3, by omega, (spin_turn (spin_loop i)).2.2.1⟩
    · intro i h
      have := h (i + 3) (by omega)
      rw [at3] at this
      unfold Ready at this
      rw [(spin_loop i).r1] at this
      exact absurd ((spin_loop i).w1.symm.trans this) nofun
    · intro i h
      have := h (i + 3) (by omega)
      rw [at3] at this
      unfold Ready at this
      rw [(spin_loop i).r2] at this
      exact absurd this nofun
  · refine three (P := fun t => ∀ s i, (∀ j, i ≤ j → (∃ x ∈ (spinExec.st j).fly t, x.src = s) ∧
        ((spinExec.st j).pe t).rem ≠ [.stop]) →
      (false = true ∨ (S 3).async = true ∨ spinExec.Polls t) →
      ∃ j x, i ≤ j ∧ x.src = s ∧ Handles (spinExec.st j) (spinExec.st (j + 1)) t x) ?_ ?_ ?_
    · rintro s i - (h | h | h | ⟨⟨k, h⟩, -⟩)
      · cases h
      · cases h
      · obtain ⟨j, hj, l, e⟩ := h 3
        obtain ⟨d, rfl⟩ := Nat.exists_eq_add_of_le hj
        rw [Nat.add_comm, at3] at e
        rcases (spin_loop d).ph with ⟨e', -⟩ | ⟨e', -⟩ | ⟨e', -⟩ <;> · rw [e'] at e; cases e
      · refine absurd ?_ (spin_turn (spin_loop k)).2.2.1
        have h1 := h (k + 4) (by omega)
        have h2 := h (k + 3) (by omega)
        exact h1.trans h2.symm
    · intro s i h _
      obtain ⟨⟨x, hx, -⟩, -⟩ := h (i + 3) (by omega)
      rw [at3, (spin_loop i).f1] at hx
      cases hx
    · intro s i h _
      obtain ⟨⟨x, hx, -⟩, -⟩ := h (i + 3) (by omega)
      obtain ⟨⟨y, hy, -⟩, -⟩ := h (i + 4) (by omega)
      rw [at3] at hx
      have := (spin_turn (spin_loop i)).2.2.2 (List.ne_nil_of_mem hx)
      rw [show spinExec.st (i + 4) = turn (loop i) from rfl, this] at hy
      cases hy

/-- Why `Loudly` is needed: this program only makes calls that handle packets while they block, and the execution is fair; yet the
atomic operation of PE 1 at PE 0 is never carried out, because PE 0 finds the answers to its own
operations as soon as it looks and never gets to look for packets (am_progress_impl.h L61-L66: "skip AM progress if complete
immediately").  According to the specification the operation is carried out in every fair execution. -/
theorem C101_starves : spinExec.Fair ∧ Serves (S 3) spin 0 ∧
    (∀ i, ((spinExec.st (i + 2)).pe 1).waiting = true ∧ (spinExec.st (i + 2)).mem = 0) ∧
    ∀ R : Exec (S 3) spin true 0, R.Fair → ∀ i, (R.st i).fly 0 = [⟨1, (· + 1), true⟩] →
      ((R.st i).pe 1).waiting = true → ∃ j, i ≤ j ∧ ((R.st j).pe 1).waiting = false := by
  refine ⟨spin_fair, ?_, ?_, ?_⟩
  · intro h p _ _ _
    unfold spin
    split
    · exact trivial
    · split <;> exact trivial
  · intro i
    cases i with
    | zero => exact ⟨rfl, rfl⟩
    | succ i => exact ⟨(spin_loop i).w1, (spin_loop i).m⟩
  · intro R F i hf hw
    have h0 := (R.inv (S_mpi 3) i).req 0 ⟨1, (· + 1), true⟩ (by rw [hf]; exact List.mem_cons_self) rfl
    obtain ⟨-, l', e'⟩ := h0
    obtain ⟨j, hj, -, -, e2, -⟩ := answer_any R (S_mpi 3) F (.inl rfl) 1 0 i (by decide) (by decide) _ l' hw e'
    exact ⟨j + 1, by omega, by rw [e2]⟩

end Verif.Serve.Ex
