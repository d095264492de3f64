import Verif.Cs.Props
/-!
# Critical sections: concrete runs and violations (C84)

Runs of up to four threads are given as scripts; `go_reach` turns an accepted script into a reachable state.
-/
namespace Verif.Cs

/-- one scripted step: a call, the next access of a thread with the `i`-th continuation, a return -/
inductive Mv where
  | call (t : Nat) (c : Call)
  | exec (t : Nat) (i : Nat)
  | ret (t : Nat)

/-- the space a call was given -/
def nameOf : Call → Option Nat
  | .freeIn s => some s
  | .op s => s
  | .strided s _ => s
  | .create s => some s
  | .destroy s => some s
  | .attach s => some s
  | .detach s => some s
  | .smalloc s => some s
  | .malloc => none
  | .free => none
  | .quiet => none
  | .barrier => none
  | .aset _ => none
  | .test => none
  | .serve => none

theorem names_iff (c : Call) (s : Nat) : names (some c) s ↔ nameOf c = some s := by
  cases c with
  | op x => cases x <;> simp [names, nameOf]
  | strided x _ => cases x <;> simp [names, nameOf]
  | _ => simp [names, nameOf]

/-- checks `Legal` for scripts -/
def legalB (P : Par) (g : St) (t : Nat) (c : Call) : Bool :=
  (decide (P.async = true ∧ t = 0) == decide (c = .serve)) &&
  (match nameOf c with
    | none => true
    | some s => if c = .create s then decide (s = g.next) else g.known s) &&
  (List.range 4).all fun t' => match g.cur t' with
    | none => true
    | some d => match nameOf c with
      | none => true
      | some s => decide (c ≠ .destroy s) || decide (nameOf d ≠ some s)

/-- checks `ready` for scripts -/
def readyB (g : St) : Act → Bool
  | .enter l => (List.range 4).all fun t => decide (l ∉ g.held t)
  | _ => true

/-- run one scripted step -/
def go (P : Par) (rb : St → Nat → Call → Bool) (g : St) : Mv → Option St
  | .call t c => if t < 4 && decide (g.cur t = none) && legalB P g t c && rb g t c then some (start P g t c) else none
  | .exec t i => match g.code t with
    | [] => none
    | a :: k => match (cont P g a)[i]? with
      | none => none
      | some c => if t < 4 && readyB g a then some { eff g t a with code := Function.update g.code t (c ++ k) } else none
  | .ret t => if t < 4 && (g.code t).isEmpty && decide (g.cur t ≠ none) then some (finish g t) else none

/-- run a script -/
def runAll (P : Par) (rb : St → Nat → Call → Bool) : St → List Mv → Option St
  | g, [] => some g
  | g, m :: r => match go P rb g m with
    | none => none
    | some g' => runAll P rb g' r

/-- only threads 0-3 are used -/
def Four (g : St) : Prop := ∀ t, 4 ≤ t → g.held t = [] ∧ g.cur t = none

theorem legal_of {P : Par} {g : St} (h4 : Four g) {t : Nat} {c : Call} (h : legalB P g t c = true) : Legal P g t c := by
  simp only [legalB, Bool.and_eq_true, beq_iff_eq, decide_eq_decide, List.all_eq_true, List.mem_range] at h
  obtain ⟨⟨h1, h2⟩, h3⟩ := h
  refine ⟨h1, ?_, ?_, ?_⟩
  · intro s hs
    rw [names_iff] at hs
    rw [hs] at h2
    dsimp only at h2
    split at h2
    · exact .inl ‹_›
    · exact .inr h2
  · rintro s rfl
    simpa [nameOf] using h2
  · rintro s rfl t' hn
    by_cases ht : t' < 4
    · have := h3 t' ht
      cases hc : g.cur t' with
      | none => rw [hc] at hn; exact hn
      | some d =>
        rw [hc, names_iff] at hn
        rw [hc] at this
        simp only [nameOf.eq_5, ne_eq, not_true_eq_false, decide_false, Bool.false_or, decide_eq_true_eq] at this
        exact this hn
    · rw [(h4 t' (by omega)).2] at hn; exact hn

theorem go_reach {P : Par} {R : St → Nat → Call → Prop} {rb : St → Nat → Call → Bool}
    (hr : ∀ g t c, Four g → rb g t c = true → R g t c) {g g' : St} {m : Mv} (h : go P rb g m = some g') (hg : Reach P R g)
    (h4 : Four g) : Reach P R g' ∧ Four g' := by
  cases m with
  | call t c =>
    simp only [go] at h
    split at h
    · rename_i hb
      simp only [Bool.and_eq_true, decide_eq_true_eq] at hb
      obtain ⟨⟨⟨ht, hi⟩, hl⟩, hrb⟩ := hb
      obtain rfl := Option.some.inj h
      refine ⟨.step _ _ hg (.call t c hi (legal_of h4 hl) (hr g t c h4 hrb)), ?_⟩
      intro t' ht'
      have : t' ≠ t := by omega
      simpa [start, this] using h4 t' ht'
    · simp at h
  | exec t i =>
    simp only [go] at h
    cases hk : g.code t with
    | nil => rw [hk] at h; simp at h
    | cons a k =>
      rw [hk] at h
      dsimp only at h
      cases hc : (cont P g a)[i]? with
      | none => rw [hc] at h; simp at h
      | some c =>
        rw [hc] at h
        dsimp only at h
        split at h
        · rename_i hb
          simp only [Bool.and_eq_true, decide_eq_true_eq] at hb
          obtain ⟨ht, hb⟩ := hb
          obtain rfl := Option.some.inj h
          have hready : ready g a := by
            cases a with
            | enter l =>
              intro t'
              by_cases ht' : t' < 4
              · simp only [readyB, List.all_eq_true, List.mem_range, decide_eq_true_eq] at hb
                exact hb t' ht'
              · rw [(h4 t' (by omega)).1]; simp
            | _ => trivial
          refine ⟨.step _ _ hg (.exec t a _ ⟨k, c, hk, hready, List.mem_of_getElem? hc, rfl⟩), ?_⟩
          intro t' ht'
          have hne : t' ≠ t := by omega
          refine ⟨?_, by dsimp only; rw [eff_cur.1]; exact (h4 t' ht').2⟩
          cases a <;> simp [eff, hne, (h4 t' ht').1]
        · simp at h
  | ret t =>
    simp only [go] at h
    split at h
    · rename_i hb
      simp only [Bool.and_eq_true, decide_eq_true_eq, List.isEmpty_iff] at hb
      obtain ⟨⟨ht, hk⟩, hc⟩ := hb
      obtain rfl := Option.some.inj h
      refine ⟨.step _ _ hg (.ret t hk hc), ?_⟩
      intro t' ht'
      have : t' ≠ t := by omega
      simpa [finish, this] using h4 t' ht'
    · simp at h

theorem runAll_reach {P : Par} {R : St → Nat → Call → Prop} {rb : St → Nat → Call → Bool}
    (hr : ∀ g t c, Four g → rb g t c = true → R g t c) : ∀ (ms : List Mv) {g g' : St}, runAll P rb g ms = some g' →
    Reach P R g → Four g → Reach P R g' ∧ Four g' := by
  intro ms
  induction ms with
  | nil => intro g g' h hg h4; obtain rfl := Option.some.inj h; exact ⟨hg, h4⟩
  | cons m r ih =>
    intro g g' h hg h4
    simp only [runAll] at h
    cases hm : go P rb g m with
    | none => rw [hm] at h; simp at h
    | some g1 =>
      rw [hm] at h
      obtain ⟨r1, r2⟩ := go_reach hr hm hg h4
      exact ih h r1 r2

/-- what a script ends in, reachable with any calls -/
theorem reach_of {P : Par} {ms : List Mv} {Q : St → Prop} [DecidablePred Q]
    (h : (runAll P (fun _ _ _ => true) init ms).any (fun g => decide (Q g)) = true) :
    ∃ g, Reach P (fun _ _ _ => True) g ∧ Q g := by
  cases hm : runAll P (fun _ _ _ => true) init ms with
  | none => rw [hm] at h; simp at h
  | some g =>
    rw [hm] at h
    have hr := runAll_reach (R := fun _ _ _ => True) (fun _ _ _ _ _ => trivial) ms hm (.init) (fun _ _ => ⟨rfl, rfl⟩)
    exact ⟨g, hr.1, by simpa using h⟩

/-- checks `Writes` -/
def writesB : Option Call → Bool
  | some (.create _) => true
  | some (.attach _) => true
  | some (.detach _) => true
  | _ => false

theorem writes_of {c : Option Call} (h : Writes c) : writesB c = true := by
  cases c with
  | none => exact h.elim
  | some c => cases c <;> first | rfl | exact h.elim

/-- checks `Apart` for scripts -/
def apartB (P : Par) (g : St) (_ : Nat) (c : Call) : Bool :=
  (decide (c ≠ .quiet) || (((List.range 4).all fun t => !writesB (g.cur t)) &&
    g.list.all fun s => decide (P.nctx s = 0) || decide (g.ctx s = .live))) &&
  (!writesB (some c) || (List.range 4).all fun t => decide (g.cur t ≠ some .quiet))

theorem apart_of {P : Par} {g : St} {t : Nat} {c : Call} (h4 : Four g) (h : apartB P g t c = true) : Apart P g t c := by
  simp only [apartB, Bool.and_eq_true, Bool.or_eq_true, List.all_eq_true, List.mem_range, decide_eq_true_eq,
    Bool.not_eq_true'] at h
  obtain ⟨h1, h2⟩ := h
  refine ⟨?_, ?_⟩
  · intro hc
    obtain ⟨a, b⟩ := h1.resolve_left (by simp [hc])
    refine ⟨fun t' hw => ?_, fun s hs hn => (b s hs).resolve_left (by omega)⟩
    by_cases ht : t' < 4
    · have := a t' ht
      rw [writes_of hw] at this; simp at this
    · rw [(h4 t' (by omega)).2] at hw; exact hw
  · intro hw t'
    have := h2.resolve_left (by rw [writes_of hw]; simp)
    by_cases ht : t' < 4
    · exact this t' ht
    · rw [(h4 t' (by omega)).2]; simp

/-- what a script ends in, reachable with calls kept apart -/
theorem apart_reach_of {P : Par} {ms : List Mv} {Q : St → Prop} [DecidablePred Q]
    (h : (runAll P (apartB P) init ms).any (fun g => decide (Q g)) = true) :
    ∃ g, Reach P (Apart P) g ∧ Q g := by
  cases hm : runAll P (apartB P) init ms with
  | none => rw [hm] at h; simp at h
  | some g =>
    rw [hm] at h
    have hr := runAll_reach (R := Apart P) (fun _ _ _ => apart_of) ms hm (.init) (fun _ _ => ⟨rfl, rfl⟩)
    exact ⟨g, hr.1, by simpa using h⟩

/-- one context per space, dynamic windows, no progress thread -/
def P1 : Par := { dyn := true, async := false, nctx := fun _ => 1 }
/-- no contexts, one window per space, progress thread -/
def P2 : Par := { dyn := false, async := true, nctx := fun _ => 0 }

/-- thread `t` executes `n` accesses, first continuation each -/
def ex (t n : Nat) : List Mv := List.replicate n (.exec t 0)

/-- thread `t` creates space `s` -/
def mkSpace (P : Par) (t s : Nat) : List Mv := [.call t (.create s)] ++ ex t (if P.dyn then 8 else 9) ++ [.ret t]

/-- thread `t` attaches a space of `P1` -/
def attach1 (t s : Nat) : List Mv := [.call t (.attach s)] ++ ex t 8 ++ [.ret t]

/-- **C84, violation.** `OSHMPI_space_create` puts the space on the list before storing its configuration
(space_impl.c L200-206): a quiet in another thread reads `num_contexts` of it uninitialised. -/
theorem C84_violation_publish : ∃ g, Reach P1 (fun _ _ _ => True) g ∧
    ∃ k, g.code 1 = .touch (.fld 0 .cfg) :: k ∧ g.cur 1 = some .quiet ∧ Faulty g (.touch (.fld 0 .cfg)) := by
  obtain ⟨g, h, h1, h2, h3⟩ := reach_of (P := P1) (ms := [.call 0 (.create 0)] ++ ex 0 5 ++ [.call 1 .quiet] ++ ex 1 3)
    (Q := fun g => (g.code 1).head? = some (.touch (.fld 0 .cfg)) ∧ g.cur 1 = some .quiet ∧ g.ini 0 .cfg = false)
    (by decide +kernel)
  cases hk : g.code 1 with
  | nil => rw [hk] at h1; simp at h1
  | cons a k =>
    rw [hk] at h1
    simp only [List.head?_cons, Option.some.injEq] at h1
    subst h1
    exact ⟨g, h, k, hk, h2, h3⟩

/-- **C84, violation.** `OSHMPI_space_detach` frees the contexts without the list's mutex (space_impl.c L350-355): a quiet
in another thread that walks the list uses a freed context. -/
theorem C84_violation_detach : ∃ g, Reach P1 (fun _ _ _ => True) g ∧
    ∃ k, g.code 1 = .flushCtx 0 0 :: k ∧ g.cur 1 = some .quiet ∧ g.ctx 0 = .freed := by
  obtain ⟨g, h, h1, h2, h3⟩ := reach_of (P := P1) (ms := mkSpace P1 0 0 ++ attach1 0 0 ++ [.call 1 .quiet] ++ ex 1 4 ++
      [.call 0 (.detach 0)] ++ ex 0 5)
    (Q := fun g => (g.code 1).head? = some (.flushCtx 0 0) ∧ g.cur 1 = some .quiet ∧ g.ctx 0 = .freed)
    (by decide +kernel)
  cases hk : g.code 1 with
  | nil => rw [hk] at h1; simp at h1
  | cons a k =>
    rw [hk] at h1
    simp only [List.head?_cons, Option.some.injEq] at h1
    subst h1
    exact ⟨g, h, k, hk, h2, h3⟩

/-- **C84, violation.** A single thread: a space with contexts has been created but not attached; quiet dereferences its
`ctx_list`, which is `NULL` (order_impl.h L86-87, space_impl.c L205). -/
theorem C84_violation_unattached : ∃ g, Reach P1 (fun _ t _ => t = 0) g ∧
    ∃ k, g.code 0 = .flushCtx 0 0 :: k ∧ g.cur 0 = some .quiet ∧ g.ctx 0 = .null ∧ ∀ t, t ≠ 0 → g.cur t = none := by
  have go : ∃ g, Reach P1 (fun _ t _ => t = 0) g ∧ Four g ∧ ((g.code 0).head? = some (.flushCtx 0 0) ∧
      g.cur 0 = some .quiet ∧ g.ctx 0 = .null ∧ g.cur 1 = none ∧ g.cur 2 = none ∧ g.cur 3 = none) := by
    cases hm : runAll P1 (fun _ t _ => decide (t = 0)) init (mkSpace P1 0 0 ++ [.call 0 .quiet] ++ ex 0 4) with
    | none =>
      have : (runAll P1 (fun _ t _ => decide (t = 0)) init (mkSpace P1 0 0 ++ [.call 0 .quiet] ++ ex 0 4)).isSome = true := by
        decide +kernel
      rw [hm] at this; simp at this
    | some g =>
      have hr := runAll_reach (R := fun _ t _ => t = 0) (fun _ _ _ _ h => by simpa using h) _ hm (.init) (fun _ _ => ⟨rfl, rfl⟩)
      have : (runAll P1 (fun _ t _ => decide (t = 0)) init (mkSpace P1 0 0 ++ [.call 0 .quiet] ++ ex 0 4)).any
        (fun g => decide ((g.code 0).head? = some (.flushCtx 0 0) ∧
      g.cur 0 = some .quiet ∧ g.ctx 0 = .null ∧ g.cur 1 = none ∧ g.cur 2 = none ∧ g.cur 3 = none)) = true := by
        decide +kernel
      rw [hm] at this
      exact ⟨g, hr.1, hr.2, by simpa using this⟩
  obtain ⟨g, h, h4, h1, h2, h3, c1, c2, c3⟩ := go
  cases hk : g.code 0 with
  | nil => rw [hk] at h1; simp at h1
  | cons a k =>
    rw [hk] at h1
    simp only [List.head?_cons, Option.some.injEq] at h1
    subst h1
    refine ⟨g, h, k, hk, h2, h3, fun t ht => ?_⟩
    by_cases h : 4 ≤ t
    · exact (h4 t h).2
    · have : t = 1 ∨ t = 2 ∨ t = 3 := by omega
      rcases this with rfl | rfl | rfl <;> assumption

/-! ### Hypotheses are met -/

/-- two threads allocate from one space: one holds the mutex and is about to access the pool, the other waits
(`C84_exclusive`, `C84_alive`, `C84_relock`, `C84_lock_granted`) -/
example : ∃ g, Reach P2 (fun _ _ _ => True) g ∧ (g.code 1).head? = some (.touch (.fld 0 .pool)) ∧
    (g.code 2).head? = some (.enter (.pool 0)) ∧ g.held 1 = [.pool 0] :=
  reach_of (ms := mkSpace P2 1 0 ++ [.call 1 (.smalloc 0), .call 2 (.smalloc 0)] ++ ex 1 1) (by decide +kernel)

/-- a thread in a wait handles a message and looks a space up, holding two mutexes; others request both
(`C84_unlock`, `C84_lock_granted`) -/
example : ∃ g, Reach P1 (fun _ _ _ => True) g ∧ g.held 1 = [.spaces, .cb] ∧ g.held 2 = [] ∧
    (g.code 2).head? = some (.enter .cb) ∧ (g.code 3).head? = some (.enter .spaces) :=
  reach_of (ms := mkSpace P1 0 0 ++ [.call 1 .barrier, .exec 1 1] ++ ex 1 2 ++ [.exec 1 2] ++ ex 1 1 ++
    [.call 2 .test, .call 3 .quiet]) (by decide +kernel)

/-- `shmem_free` of a space's address holds the list and the pool -/
example : ∃ g, Reach P1 (fun _ _ _ => True) g ∧ g.held 1 = [.pool 0, .spaces] ∧
    (g.code 1).head? = some (.touch (.fld 0 .pool)) :=
  reach_of (ms := mkSpace P1 0 0 ++ [.call 1 (.freeIn 0)] ++ ex 1 6) (by decide +kernel)

/-- destruction past the list while another thread waits for the list (`C84_destroy_alone`) -/
example : ∃ g, Reach P2 (fun _ _ _ => True) g ∧ g.cur 1 = some (.destroy 0) ∧ .remove 0 ∉ g.code 1 ∧
    (g.code 1).head? = some (.drop 0) ∧ (g.code 2).head? = some (.enter .spaces) :=
  reach_of (ms := mkSpace P2 1 0 ++ [.call 1 (.destroy 0), .call 2 .quiet] ++ ex 1 3) (by decide +kernel)

/-- a wait, and a return (`C84_wait`, `C84_released`) -/
example : ∃ g, Reach P2 (fun _ _ _ => True) g ∧ (g.code 1).head? = some .wait ∧ g.code 2 = [] ∧ g.cur 2 = some .free :=
  reach_of (ms := [.call 1 .malloc, .call 2 .free] ++ ex 1 3 ++ ex 2 4) (by decide +kernel)

/-- the progress thread serves a message about a space while another thread runs quiet -/
example : ∃ g, Reach P2 (fun _ _ _ => True) g ∧ (g.code 0).head? = some (.enter .spaces) ∧ g.held 1 = [.spaces] :=
  reach_of (ms := mkSpace P2 1 0 ++ [.call 0 .serve, .exec 0 0, .exec 0 2, .call 1 .quiet] ++ ex 1 1) (by decide +kernel)

/-- a quiet using a context while another thread works on the same space (`C84_safe_partial`) -/
example : ∃ g, Reach P1 (Apart P1) g ∧ (g.code 1).head? = some (.flushCtx 0 0) ∧ g.cur 2 = some (.op (some 0)) :=
  apart_reach_of (ms := mkSpace P1 0 0 ++ attach1 0 0 ++ [.call 2 (.op (some 0)), .call 1 .quiet] ++ ex 1 4)
    (by decide +kernel)

end Verif.Cs
