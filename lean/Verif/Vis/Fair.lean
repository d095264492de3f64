import Verif.Vis.Progress
/-!
# C102: in executions in which MPI and the PEs make progress, calls return and data arrive

`C94` says that the system is never stuck. Here: infinite executions. The environment is fair: MPI (or the handling of active messages, C101)
goes on performing accesses that a blocked PE waits for, a PE that can go on goes on, and `MPI_Barrier` returns once everybody is in it.
-/
namespace Verif.Vis
open Verif.Sobj Verif.Rma
open Verif.Order (St Pend Cfg Op)

/-! ## Specification -/

/-- the PE that makes the call (not code: who acts in a step) -/
def Ev.own : Ev → Option Nat
  | .put p _ _ _ _ _ _ => some p
  | .get p _ _ _ _ _ _ => some p
  | .amo p _ _ _ _ _ _ _ => some p
  | .store p _ _ => some p
  | .poll p _ _ _ => some p
  | .touch p _ => some p
  | .call p _ => some p
  | .enter p => some p
  | .leave _ => none
  | .done _ _ _ => none
  | .tau => none

/-- An infinite execution: at each instant nothing or one step. `want i p`: the calls one of which PE `p` makes next (it stands at this call
of its program; none when the program has ended); it does not change its mind. -/
structure Inf (S : Sys) where
  mem : Mems
  st : Nat → G
  ev : Nat → Option Ev
  want : Nat → Nat → Ev → Prop
  start : st 0 = ginit mem
  step : ∀ i e, ev i = some e → Step S (st i) e (st (i + 1))
  idle : ∀ i, ev i = none → st (i + 1) = st i
  does : ∀ i e p, ev i = some e → e.own = some p → want i p e
  keeps : ∀ i p, (∀ e, ev i = some e → e.own ≠ some p) → want (i + 1) p = want i p

/-- the call waits for an answer of `tgt` to an active message: get, get_nbi, iget, AMOs with a result (rma_am_impl.h L47-82, L129-174,
amo_am_impl.h L13-93); `∃ gpu`: with automatic choice this depends on the buffer -/
def Ev.asks (S : Sys) (p tgt : Nat) : Ev → Prop
  | .put _ _ _ _ _ _ _ => False
  | .get q t _ _ _ _ _ => q = p ∧ t = tgt ∧ ∃ gpu, (S.cf p).isDirect .get gpu = false
  | .amo q t _ _ _ _ api _ => q = p ∧ t = tgt ∧ returns api = true ∧ ∃ gpu, (S.cf p).isDirect (amoKind api) gpu = false
  | .store _ _ _ => False
  | .poll _ _ _ _ => False
  | .touch _ _ => False
  | .call _ _ => False
  | .enter _ => False
  | .leave _ => False
  | .done _ _ _ => False
  | .tau => False

/-- The call PE `p` stands at cannot return before `x` is done: the order model no longer lists it afterwards (a call that asks another PE:
what was sent to that PE before, `Order.issueAm`). -/
def Waits (S : Sys) (g : G) (w : Ev → Prop) (p : Nat) (x : Fly) : Prop :=
  (∃ op s', w (.call p op) ∧ Order.step (S.cf p) (g.pe p) op = .ok s' ∧ x.pend ∉ s'.pend) ∨
    (∃ s', w (.enter p) ∧ Order.barrierLocal (S.cf p) (g.pe p) (List.range S.npes) = .ok s' ∧ x.pend ∉ s'.pend) ∨
    ∃ e tgt, w e ∧ e.asks S p tgt ∧ x.pend.via = .am ∧ x.pend.tgt = tgt

/-- PE `p` is blocked: in a call that waits for its own accesses, or at a call that waits for operations in flight -/
def Blocked (S : Sys) (g : G) (w : Ev → Prop) (p : Nat) : Prop :=
  g.busy p ≠ [] ∨ ∃ x ∈ g.fly p, x.todo ≠ [] ∧ Waits S g w p x

/-- Fairness of the environment. `perf`: while a PE is blocked and none of its accesses faults, some access of it is performed some time (MPI
progress inside `MPI_Win_flush*`; active messages: the flush and replies of C101). `pe`: a PE whose next call can return makes it.
`leave`: `MPI_Barrier` returns. -/
structure Inf.Fair {S : Sys} (R : Inf S) : Prop where
  perf : ∀ p < S.npes, ∀ i, (∀ j, i ≤ j → Blocked S (R.st j) (R.want j p) p) →
    (∀ j, i ≤ j → ∀ a own, At (R.st j) a p own → ∃ m', a.perform S.fp S.junk (R.st j).mem = .ok m') →
    ∃ j a r, i ≤ j ∧ R.ev j = some (.done p a r)
  pe : ∀ p < S.npes, ∀ i, (∀ j, i ≤ j → ∃ e g', R.want j p e ∧ e.own = some p ∧ Step S (R.st j) e g') →
    ∃ j e, i ≤ j ∧ R.ev j = some e ∧ e.own = some p
  leave : ∀ p < S.npes, ∀ i, (∀ j, i ≤ j → ∃ g', Step S (R.st j) (.leave p) g') → ∃ j, i ≤ j ∧ R.ev j = some (.leave p)

/-- no AMO of the execution can fault (C24: additions to signed types by active message can) -/
def Inf.Safe {S : Sys} (R : Inf S) : Prop := ∀ i e, R.ev i = some e → e.Safe S

/-- PE `p` has come to a barrier -/
def AtBarrier {S : Sys} (R : Inf S) (i p : Nat) : Prop := R.want i p = fun e => e = .enter p

/-- PE `p` has come to a call of quiet, fence, or a call on spaces and contexts -/
def AtCall {S : Sys} (R : Inf S) (i p : Nat) (op : Op) : Prop := R.want i p = fun e => e = .call p op

/-! ## Proof: completion by MPI does not change what a call does -/

theorem drop_drop (s : St) (a b : Pend → Bool) : (s.drop a).drop b = (s.drop b).drop a := by
  unfold Order.St.drop
  simp only [List.filter_filter, Bool.and_comm]

theorem setFlag_drop (s : St) (b : Bool) (l : Order.Loc) (d : Pend → Bool) : (s.drop d).setFlag b l = (s.setFlag b l).drop d := by
  cases l <;> rfl

theorem flushWin_drop (s : St) (w : Nat) (d : Pend → Bool) : (s.drop d).flushWin w = (s.flushWin w).drop d := drop_drop _ _ _

theorem flushLoc_drop {c : Cfg} {s s' : St} {loc : Order.Loc} (d : Pend → Bool) (h : Order.flushLoc c s loc = .ok s') :
    Order.flushLoc c (s.drop d) loc = .ok (s'.drop d) := by
  have e : (s.drop d).ictx loc = s.ictx loc := by cases loc <;> rfl
  unfold Order.flushLoc at h ⊢
  rw [e]
  cases hx : s.ictx loc with
  | none => rw [hx] at h; cases h
  | some x =>
    rw [hx] at h
    dsimp only at h ⊢
    split at h
    · rename_i hc
      rw [if_pos hc]
      cases h; rfl
    · rename_i hc
      rw [if_neg hc]
      cases hw : x.win with
      | none => rw [hw] at h; cases h
      | some w =>
        rw [hw] at h
        dsimp only at h ⊢
        cases h
        split
        · rw [flushWin_drop, setFlag_drop]
        · rw [flushWin_drop]

theorem flushLocs_drop {c : Cfg} (d : Pend → Bool) : ∀ (l : List Order.Loc) {s s' : St}, Order.flushLocs c s l = .ok s' →
    Order.flushLocs c (s.drop d) l = .ok (s'.drop d)
  | [], s, s', h => by cases h; rfl
  | x :: t, s, s', h => by
    unfold Order.flushLocs at h ⊢
    cases h1 : Order.flushLoc c s x with
    | ok s1 =>
      rw [h1, Res.bind_ok] at h
      rw [flushLoc_drop d h1, Res.bind_ok]
      exact flushLocs_drop d t h
    | abort => rw [h1] at h; cases h
    | ub => rw [h1] at h; cases h
    | hang => rw [h1] at h; cases h

theorem amFlush_drop (c : Cfg) (s : St) (pes : List Nat) (d : Pend → Bool) : Order.amFlush c (s.drop d) pes = (Order.amFlush c s pes).drop d := by
  unfold Order.amFlush
  split
  · rfl
  · dsimp only
    rw [drop_drop]
    rfl

theorem quiet_drop {c : Cfg} {s s' : St} {ctx : Option (Nat × Nat)} (d : Pend → Bool) (h : Order.quiet c s ctx = .ok s') :
    Order.quiet c (s.drop d) ctx = .ok (s'.drop d) := by
  cases ctx with
  | some x => exact flushLoc_drop d h
  | none =>
    unfold Order.quiet at h ⊢
    dsimp only at h ⊢
    rw [show Order.quietLocs c (s.drop d) = Order.quietLocs c s from rfl]
    cases h1 : Order.flushLocs c s (Order.quietLocs c s) with
    | ok s1 =>
      rw [h1, Res.bind_ok] at h
      rw [flushLocs_drop d _ h1, Res.bind_ok]
      cases h
      rw [amFlush_drop]
    | abort => rw [h1] at h; cases h
    | ub => rw [h1] at h; cases h
    | hang => rw [h1] at h; cases h

theorem winFlush_drop {s s' : St} {loc : Order.Loc} (d : Pend → Bool) (h : Order.winFlush s loc = .ok s') :
    Order.winFlush (s.drop d) loc = .ok (s'.drop d) := by
  have e : (s.drop d).ictx loc = s.ictx loc := by cases loc <;> rfl
  unfold Order.winFlush at h ⊢
  rw [e]
  cases hw : (s.ictx loc).bind (fun x => x.win) with
  | none => rw [hw] at h; cases h
  | some w =>
    rw [hw] at h
    dsimp only at h ⊢
    cases h
    rw [flushWin_drop]

theorem barrier_drop {c : Cfg} {s s' : St} {pes : List Nat} (d : Pend → Bool) (h : Order.barrierLocal c s pes = .ok s') :
    Order.barrierLocal c (s.drop d) pes = .ok (s'.drop d) := by
  have two : ∀ {s2 : St}, (if c.dyn then Order.winFlush s .symm else (Order.winFlush s .heap).bind fun s1 => Order.winFlush s1 .data) = .ok s2 →
      (if c.dyn then Order.winFlush (s.drop d) .symm
        else (Order.winFlush (s.drop d) .heap).bind fun s1 => Order.winFlush s1 .data) = .ok (s2.drop d) := by
    intro s2 h
    split at h
    · rename_i hd
      rw [if_pos hd]
      exact winFlush_drop d h
    · rename_i hd
      rw [if_neg hd]
      cases h1 : Order.winFlush s .heap with
      | ok s1 =>
        rw [h1, Res.bind_ok] at h
        rw [winFlush_drop d h1, Res.bind_ok]
        exact winFlush_drop d h
      | abort => rw [h1] at h; cases h
      | ub => rw [h1] at h; cases h
      | hang => rw [h1] at h; cases h
  unfold Order.barrierLocal at h ⊢
  cases h2 : (if c.dyn then Order.winFlush s .symm else (Order.winFlush s .heap).bind fun s1 => Order.winFlush s1 .data) with
  | ok s2 =>
    rw [h2, Res.bind_ok] at h
    rw [two h2, Res.bind_ok]
    cases h
    dsimp only
    rw [amFlush_drop]
    rfl
  | abort => rw [h2] at h; cases h
  | ub => rw [h2] at h; cases h
  | hang => rw [h2] at h; cases h

/-- a call does the same whether MPI has completed operations before it or not -/
theorem step_drop {c : Cfg} {s s' : St} {op : Op} (d : Pend → Bool) (hop : ∀ c ad n t k gp, op ≠ .issue c ad n t k gp)
    (h : Order.step c s op = .ok s') : Order.step c (s.drop d) op = .ok (s'.drop d) := by
  have hfind : ∀ nm, (s.drop d).find nm = s.find nm := fun _ => rfl
  cases op with
  | issue c ad n t k gp => exact absurd rfl (hop _ _ _ _ _ _)
  | complete done =>
    cases h
    exact congrArg Res.ok (drop_drop _ _ _)
  | quiet ctx => exact quiet_drop d h
  | fence ctx =>
    have h : Order.fence c s ctx = .ok s' := h
    show Order.fence c (s.drop d) ctx = _
    rw [Order.fence_quiet] at h ⊢
    exact quiet_drop d h
  | create name attr nctx =>
    unfold Order.step at h ⊢
    dsimp only at h ⊢
    rw [hfind]
    split at h
    · cases h
    · rename_i hc
      rw [if_neg hc]
      cases h; rfl
  | attach name =>
    unfold Order.step at h ⊢
    dsimp only at h ⊢
    rw [hfind]
    cases hf : s.find name with
    | none => rw [hf] at h; cases h
    | some x =>
      rw [hf] at h
      dsimp only at h ⊢
      split at h
      · cases h
      · rename_i hc
        rw [if_neg hc]
        cases h; rfl
  | detach name =>
    unfold Order.step at h ⊢
    dsimp only at h ⊢
    rw [hfind]
    cases hf : s.find name with
    | none => rw [hf] at h; cases h
    | some x =>
      rw [hf] at h
      dsimp only at h ⊢
      split at h
      · cases h
      · rename_i h1
        rw [if_neg h1]
        split at h
        · cases h
        · rename_i h2
          rw [if_neg h2]
          split at h
          · cases h
          · rename_i h3
            rw [if_neg h3]
            cases h
            unfold Order.St.freeWins
            rw [drop_drop]
            rfl
  | destroy name =>
    unfold Order.step at h ⊢
    dsimp only at h ⊢
    rw [hfind]
    cases hf : s.find name with
    | none => rw [hf] at h; cases h
    | some x => rw [hf] at h; cases h; rfl
  | ctxCreate name i =>
    unfold Order.step at h ⊢
    dsimp only at h ⊢
    rw [hfind]
    cases hf : (s.find name).bind (fun x => x.ctxs.bind (fun l => l[i]?)) with
    | none => rw [hf] at h; cases h
    | some y =>
      rw [hf] at h
      dsimp only at h ⊢
      split at h
      · cases h
      · rename_i hc
        rw [if_neg hc]
        cases h; rfl
  | ctxDestroy name i =>
    unfold Order.step at h ⊢
    dsimp only at h ⊢
    rw [hfind]
    cases hf : (s.find name).bind (fun x => x.ctxs.bind (fun l => l[i]?)) with
    | none => rw [hf] at h; cases h
    | some y =>
      rw [hf] at h
      dsimp only at h ⊢
      split at h
      · rename_i hc
        rw [if_pos hc]
        cases h; rfl
      · cases h

/-! ## Proof: what happens to a PE that makes no call -/

/-- how much is still to be performed for PE `p` -/
def weight (g : G) (p : Nat) : Nat := (g.busy p).length + ((g.fly p).map fun x => x.todo.length).sum

/-- between two states PE `p` made no call: MPI completed operations, accesses were performed -/
structure Rest (g g' : G) (p : Nat) : Prop where
  pe : ∃ d, g'.pe p = (g.pe p).drop d
  fly : ∀ x ∈ g'.fly p, ∃ y ∈ g.fly p, y.pend = x.pend ∧ ∀ a ∈ x.todo, a ∈ y.todo
  busy : ∀ a ∈ g'.busy p, a ∈ g.busy p
  arr : g'.arr p = g.arr p
  wt : weight g' p ≤ weight g p

theorem drop_none (s : St) : s.drop (fun _ => false) = s := by
  unfold Order.St.drop
  simp

theorem rest_refl (g : G) (p : Nat) : Rest g g p :=
  ⟨⟨_, (drop_none _).symm⟩, fun x hx => ⟨x, hx, rfl, fun _ h => h⟩, fun _ h => h, rfl, Nat.le_refl _⟩

theorem rest_trans {g1 g2 g3 : G} {p : Nat} (h : Rest g1 g2 p) (h' : Rest g2 g3 p) : Rest g1 g3 p := by
  obtain ⟨⟨d, e⟩, f1, b1, a1, w1⟩ := h
  obtain ⟨⟨d', e'⟩, f2, b2, a2, w2⟩ := h'
  refine ⟨⟨fun x => d x || d' x, ?_⟩, ?_, fun a ha => b1 a (b2 a ha), a2.trans a1, w2.trans w1⟩
  · rw [e', e]
    unfold Order.St.drop
    simp only [List.filter_filter]
    congr 1
    apply List.filter_congr
    intro x _
    cases d x <;> cases d' x <;> rfl
  · intro x hx
    obtain ⟨y, hy, e1, t1⟩ := f2 x hx
    obtain ⟨z, hz, e2, t2⟩ := f1 y hy
    exact ⟨z, hz, e2.trans e1, fun a ha => t2 a (t1 a ha)⟩

theorem rest_same {g g' : G} {p : Nat} (h1 : g'.pe p = g.pe p) (h2 : g'.fly p = g.fly p) (h3 : g'.busy p = g.busy p) (h4 : g'.arr p = g.arr p) :
    Rest g g' p :=
  ⟨⟨_, h1.trans (drop_none _).symm⟩, fun x hx => ⟨x, h2 ▸ hx, rfl, fun _ h => h⟩, fun _ h => h3 ▸ h, h4, by unfold weight; rw [h2, h3]⟩

theorem sum_filter_le (l : List Fly) (q : Fly → Bool) :
    ((l.filter q).map fun x => x.todo.length).sum ≤ (l.map fun x => x.todo.length).sum := by
  induction l with
  | nil => exact Nat.le_refl _
  | cons x t ih =>
    rw [List.filter_cons]
    split <;> simp only [List.map_cons, List.sum_cons] <;> omega

theorem rest_after {g : G} {p q : Nat} {s' : St} {new : List Atom} (h : q ≠ p) : Rest g (after g p s' new) q :=
  rest_same (by simp only [after, upd_at, if_neg h]) (by simp only [after, upd_at, if_neg h]) (by simp only [after, upd_at, if_neg h]) rfl

/-- a step that is not a call of PE `p`; a performed access of `p` leaves less to do -/
theorem rest_step {S : Sys} {g g' : G} {e : Ev} (h : Step S g e g') {p : Nat} (ho : e.own ≠ some p) :
    Rest g g' p ∧ ((∃ a r, e = .done p a r) → weight g' p < weight g p) := by
  cases h with
  | put q tgt nbi ctx addr src n gpu mode oc tc oty tty xs s' hf hm e hx d =>
    exact ⟨rest_after (fun e => ho (congrArg some e.symm)), fun ⟨_, _, h⟩ => by cases h⟩
  | get q tgt nbi ctx addr src n gpu mode oc tc oty tty xs s' hf hm e hx d =>
    exact ⟨rest_after (fun e => ho (congrArg some e.symm)), fun ⟨_, _, h⟩ => by cases h⟩
  | amo q tgt ctx addr r ty api gpu mode s' hf hm ht hk e hr d =>
    exact ⟨rest_after (fun e => ho (congrArg some e.symm)), fun ⟨_, _, h⟩ => by cases h⟩
  | amoRet q tgt ctx addr r ty api gpu mode s' hf hm ht hk e hr d =>
    have hne : p ≠ q := fun e => ho (congrArg some e.symm)
    refine ⟨rest_same ?_ ?_ ?_ rfl, fun ⟨_, _, h⟩ => by cases h⟩ <;> simp only [afterRet, after, upd_at, if_neg hne]
  | store q a v hf => exact ⟨rest_same rfl rfl rfl rfl, fun ⟨_, _, h⟩ => by cases h⟩
  | poll q addr r n mode hf hm hr => exact ⟨rest_same rfl rfl rfl rfl, fun ⟨_, _, h⟩ => by cases h⟩
  | touch q ws hf => exact ⟨rest_same rfl rfl rfl rfl, fun ⟨_, _, h⟩ => by cases h⟩
  | call q op s' hf l hop e d => exact ⟨rest_after (fun e => ho (congrArg some e.symm)), fun ⟨_, _, h⟩ => by cases h⟩
  | enter q s' hf e d =>
    have hne : p ≠ q := fun e => ho (congrArg some e.symm)
    refine ⟨rest_same ?_ ?_ ?_ ?_, fun ⟨_, _, h⟩ => by cases h⟩ <;> simp only [after, upd_at, if_neg hne]
  | leave q hp h1 ha => exact ⟨rest_same rfl rfl rfl rfl, fun ⟨_, _, h⟩ => by cases h⟩
  | perform q l1 l2 pd t1 t2 a m' hq hl e =>
    by_cases hp : p = q
    · subst hp
      have hw : weight { g with mem := m', fly := Function.update g.fly p (l1 ++ ⟨pd, t1 ++ t2⟩ :: l2) } p < weight g p := by
        unfold weight
        rw [hl]
        simp only [Function.update_self, List.map_append, List.map_cons, List.sum_append, List.sum_cons, List.length_append, List.length_cons]
        omega
      refine ⟨⟨⟨_, (drop_none _).symm⟩, ?_, fun _ h => h, rfl, hw.le⟩, fun _ => hw⟩
      intro x hx
      simp only [Function.update_self] at hx
      rw [hl]
      rcases List.mem_append.1 hx with hx | hx
      · exact ⟨x, List.mem_append_left _ hx, rfl, fun _ h => h⟩
      · rcases List.mem_cons.1 hx with rfl | hx
        · refine ⟨_, List.mem_append_right _ List.mem_cons_self, rfl, fun b hb => ?_⟩
          rcases List.mem_append.1 hb with hb | hb
          · exact List.mem_append_left _ hb
          · exact List.mem_append_right _ (List.mem_cons_of_mem _ hb)
        · exact ⟨x, List.mem_append_right _ (List.mem_cons_of_mem _ hx), rfl, fun _ h => h⟩
    · exact ⟨rest_same rfl (by simp only [upd_at, if_neg hp]) rfl rfl, fun ⟨_, _, h⟩ => by cases h; exact absurd rfl hp⟩
  | performBusy q t1 t2 a m' hq hl e =>
    by_cases hp : p = q
    · subst hp
      have hw : weight { g with mem := m', busy := Function.update g.busy p (t1 ++ t2) } p < weight g p := by
        unfold weight
        rw [hl]
        simp only [Function.update_self, List.length_append, List.length_cons]
        omega
      refine ⟨⟨⟨_, (drop_none _).symm⟩, fun x hx => ⟨x, hx, rfl, fun _ h => h⟩, ?_, rfl, hw.le⟩, fun _ => hw⟩
      intro b hb
      simp only [Function.update_self] at hb
      rw [hl]
      rcases List.mem_append.1 hb with hb | hb
      · exact List.mem_append_left _ hb
      · exact List.mem_append_right _ (List.mem_cons_of_mem _ hb)
    · exact ⟨rest_same rfl rfl (by simp only [upd_at, if_neg hp]) rfl, fun ⟨_, _, h⟩ => by cases h; exact absurd rfl hp⟩
  | fin q done hq d =>
    refine ⟨?_, fun ⟨_, _, h⟩ => by cases h⟩
    by_cases hp : p = q
    · subst hp
      refine ⟨⟨done, by simp only [Function.update_self]⟩, ?_, fun _ h => h, rfl, ?_⟩
      · intro x hx
        simp only [Function.update_self] at hx
        exact ⟨x, (List.mem_filter.1 hx).1, rfl, fun _ h => h⟩
      · unfold weight settle
        simp only [Function.update_self]
        exact Nat.add_le_add_left (sum_filter_le _ _) _
    · exact rest_same (by simp only [upd_at, if_neg hp]) (by simp only [upd_at, if_neg hp]) rfl rfl

theorem lv_step {S : Sys} {g g' : G} {e : Ev} (h : Step S g e g') (p : Nat) : g'.lv p = g.lv p ∨ (e = .leave p ∧ g'.lv p = g.lv p + 1) := by
  cases h with
  | leave q hp h1 ha =>
    by_cases hq : p = q
    · subst hq; exact Or.inr ⟨rfl, by simp only [Function.update_self]⟩
    · exact Or.inl (by simp only [upd_at, if_neg hq])
  | put _ _ _ _ _ _ _ _ _ _ _ _ _ _ _ _ _ _ _ _ => exact Or.inl rfl
  | get _ _ _ _ _ _ _ _ _ _ _ _ _ _ _ _ _ _ _ _ => exact Or.inl rfl
  | amo _ _ _ _ _ _ _ _ _ _ _ _ _ _ _ _ _ => exact Or.inl rfl
  | amoRet _ _ _ _ _ _ _ _ _ _ _ _ _ _ _ _ _ => exact Or.inl rfl
  | store _ _ _ _ => exact Or.inl rfl
  | poll _ _ _ _ _ _ _ _ => exact Or.inl rfl
  | touch _ _ _ => exact Or.inl rfl
  | call _ _ _ _ _ _ _ _ => exact Or.inl rfl
  | enter _ _ _ _ _ => exact Or.inl rfl
  | perform _ _ _ _ _ _ _ _ _ _ _ => exact Or.inl rfl
  | performBusy _ _ _ _ _ _ _ _ => exact Or.inl rfl
  | fin _ _ _ _ => exact Or.inl rfl

theorem leave_lv {S : Sys} {g g' : G} {p : Nat} (h : Step S g (.leave p) g') : p < S.npes ∧ g'.lv p = g.lv p + 1 := by
  cases h with
  | leave q hp h1 ha => exact ⟨hp, by simp only [Function.update_self]⟩

theorem arr_step {S : Sys} {g g' : G} {e : Ev} (h : Step S g e g') (p : Nat) : g.arr p ≤ g'.arr p := by
  cases h with
  | enter q s' hf e d =>
    by_cases hq : p = q
    · subst hq; simp only [Function.update_self]; omega
    · simp only [upd_at, if_neg hq, after]; exact Nat.le_refl _
  | leave q hp h1 ha => exact Nat.le_refl _
  | put _ _ _ _ _ _ _ _ _ _ _ _ _ _ _ _ _ _ _ _ => exact Nat.le_refl _
  | get _ _ _ _ _ _ _ _ _ _ _ _ _ _ _ _ _ _ _ _ => exact Nat.le_refl _
  | amo _ _ _ _ _ _ _ _ _ _ _ _ _ _ _ _ _ => exact Nat.le_refl _
  | amoRet _ _ _ _ _ _ _ _ _ _ _ _ _ _ _ _ _ => exact Nat.le_refl _
  | store _ _ _ _ => exact Nat.le_refl _
  | poll _ _ _ _ _ _ _ _ => exact Nat.le_refl _
  | touch _ _ _ => exact Nat.le_refl _
  | call _ _ _ _ _ _ _ _ => exact Nat.le_refl _
  | perform _ _ _ _ _ _ _ _ _ _ _ => exact Nat.le_refl _
  | performBusy _ _ _ _ _ _ _ _ => exact Nat.le_refl _
  | fin _ _ _ _ => exact Nat.le_refl _

/-- a PE that makes a call is not in another one -/
theorem own_free {S : Sys} {g g' : G} {e : Ev} (h : Step S g e g') {p : Nat} (ho : e.own = some p) : Free S g p := by
  cases h with
  | put q tgt nbi ctx addr src n gpu mode oc tc oty tty xs s' hf hm e hx d => cases ho; exact hf
  | get q tgt nbi ctx addr src n gpu mode oc tc oty tty xs s' hf hm e hx d => cases ho; exact hf
  | amo q tgt ctx addr r ty api gpu mode s' hf hm ht hk e hr d => cases ho; exact hf
  | amoRet q tgt ctx addr r ty api gpu mode s' hf hm ht hk e hr d => cases ho; exact hf
  | store q a v hf => cases ho; exact hf
  | poll q addr r n mode hf hm hr => cases ho; exact hf
  | touch q ws hf => cases ho; exact hf
  | call q op s' hf l hop e d => cases ho; exact hf
  | enter q s' hf e d => cases ho; exact hf
  | leave q hp h1 ha => cases ho
  | perform q l1 l2 pd t1 t2 a m' hq hl e => cases ho
  | performBusy q t1 t2 a m' hq hl e => cases ho
  | fin q done hq d => cases ho

section
variable {S : Sys} (R : Inf S)

/-- PE `p` makes no call at instant `j` -/
def Inf.Mute (j p : Nat) : Prop := ∀ e, R.ev j = some e → e.own ≠ some p

/-- the events of the instants from `i` on, `n` of them -/
def Inf.evs (i n : Nat) : List Ev := (List.range' i n).filterMap R.ev

theorem Inf.run (i n : Nat) : Run S (R.st i) (R.evs i n) (R.st (i + n)) := by
  induction n with
  | zero => exact Run.nil _
  | succ n ih =>
    have e : R.evs i (n + 1) = R.evs i n ++ (R.ev (i + n)).toList := by
      unfold Inf.evs
      rw [List.range'_concat, List.filterMap_append, Nat.one_mul]
      cases h : R.ev (i + n) <;> simp [h]
    rw [e]
    refine run_append ih ?_
    cases h : R.ev (i + n) with
    | none =>
      rw [show i + (n + 1) = i + n + 1 from rfl, R.idle _ h]
      exact Run.nil _
    | some e => exact Run.cons (R.step _ _ h) (Run.nil _)

theorem Inf.mem_evs {i n : Nat} {e : Ev} (h : e ∈ R.evs i n) : ∃ j, i ≤ j ∧ j < i + n ∧ R.ev j = some e := by
  obtain ⟨j, hj, h⟩ := List.mem_filterMap.1 h
  rw [List.mem_range'_1] at hj
  exact ⟨j, hj.1, hj.2, h⟩

theorem Inf.evs_mem {i n j : Nat} {e : Ev} (h1 : i ≤ j) (h2 : j < i + n) (h : R.ev j = some e) : e ∈ R.evs i n :=
  List.mem_filterMap.2 ⟨j, List.mem_range'_1.2 ⟨h1, h2⟩, h⟩

theorem Inf.reach (i : Nat) : Reach S (R.st i) := by
  have h := R.run 0 i
  rw [R.start, Nat.zero_add] at h
  exact ⟨_, _, h⟩

theorem Inf.allOk (hs : R.Safe) (i : Nat) : AllOk S (R.st i) := by
  have h := R.run 0 i
  rw [R.start, Nat.zero_add] at h
  refine allOk_run h ?_ (fun e he => ?_)
  · rintro a ⟨r, own, ⟨x, hx, _⟩ | ⟨_, hx⟩⟩ <;> cases hx
  · obtain ⟨j, _, _, h⟩ := R.mem_evs he
    exact hs j e h

theorem Inf.rest1 {j p : Nat} (h : R.Mute j p) : Rest (R.st j) (R.st (j + 1)) p ∧ R.want (j + 1) p = R.want j p := by
  refine ⟨?_, R.keeps j p h⟩
  cases he : R.ev j with
  | none => rw [R.idle j he]; exact rest_refl _ _
  | some e => exact (rest_step (R.step j e he) (h e he)).1

theorem Inf.rest {i p : Nat} (n : Nat) (h : ∀ j, i ≤ j → j < i + n → R.Mute j p) :
    Rest (R.st i) (R.st (i + n)) p ∧ R.want (i + n) p = R.want i p := by
  induction n with
  | zero => exact ⟨rest_refl _ _, rfl⟩
  | succ n ih =>
    obtain ⟨h1, h2⟩ := ih (fun j hj hj' => h j hj (by omega))
    obtain ⟨k1, k2⟩ := R.rest1 (h (i + n) (by omega) (by omega))
    exact ⟨rest_trans h1 k1, k2.trans h2⟩

theorem Inf.lv_mono (p i n : Nat) : (R.st i).lv p ≤ (R.st (i + n)).lv p := by
  induction n with
  | zero => exact Nat.le_refl _
  | succ n ih =>
    refine ih.trans ?_
    show _ ≤ (R.st (i + n + 1)).lv p
    cases he : R.ev (i + n) with
    | none => rw [R.idle _ he]
    | some e =>
      rcases lv_step (R.step _ e he) p with h | ⟨_, h⟩ <;> omega

theorem Inf.arr_mono (p i n : Nat) : (R.st i).arr p ≤ (R.st (i + n)).arr p := by
  induction n with
  | zero => exact Nat.le_refl _
  | succ n ih =>
    refine ih.trans ?_
    show _ ≤ (R.st (i + n + 1)).arr p
    cases he : R.ev (i + n) with
    | none => rw [R.idle _ he]
    | some e => exact arr_step (R.step _ e he) p

theorem Inf.lv_mono' {p i j : Nat} (h : i ≤ j) : (R.st i).lv p ≤ (R.st j).lv p := by
  obtain ⟨n, rfl⟩ := Nat.exists_eq_add_of_le h
  exact R.lv_mono p i n

theorem Inf.arr_mono' {p i j : Nat} (h : i ≤ j) : (R.st i).arr p ≤ (R.st j).arr p := by
  obtain ⟨n, rfl⟩ := Nat.exists_eq_add_of_le h
  exact R.arr_mono p i n

/-- a PE outside a barrier stays outside until it makes a call -/
theorem Inf.outside {i p : Nat} (n : Nat) (h : ∀ j, i ≤ j → j < i + n → R.Mute j p) (hb : (R.st i).arr p = (R.st i).lv p) :
    (R.st (i + n)).arr p = (R.st (i + n)).lv p := by
  have h1 := (R.rest n h).1.arr
  have h2 := R.lv_mono p i n
  by_cases hp : p < S.npes
  · have := (gi_reach (R.reach (i + n))).lv p hp p hp
    omega
  · -- PEs outside the job never move
    have : ∀ m, m ≤ n → (R.st (i + m)).lv p = (R.st i).lv p := by
      intro m
      induction m with
      | zero => exact fun _ => rfl
      | succ m ih =>
        intro hm
        have ih := ih (by omega)
        show (R.st (i + m + 1)).lv p = _
        cases he : R.ev (i + m) with
        | none => rw [R.idle _ he, ih]
        | some e =>
          rcases lv_step (R.step _ e he) p with h | ⟨rfl, _⟩
          · rw [h, ih]
          · exact absurd (leave_lv (R.step _ _ he)).1 hp
    rw [this n (Nat.le_refl _)]
    omega

end

/-- while a PE makes no call, it does not stay blocked for ever -/
theorem unblocks {S : Sys} {R : Inf S} (F : R.Fair) (hs : R.Safe) {p : Nat} (hp : p < S.npes) (w : Nat) :
    ∀ i, weight (R.st i) p ≤ w → (∀ j, i ≤ j → R.Mute j p) → ∃ j, i ≤ j ∧ ¬ Blocked S (R.st j) (R.want j p) p := by
  induction w with
  | zero =>
    intro i hw hm
    refine ⟨i, Nat.le_refl _, ?_⟩
    unfold weight at hw
    rintro (h | ⟨x, hx, hne, _⟩)
    · exact h (List.eq_nil_of_length_eq_zero (by omega))
    · have h0 : (((R.st i).fly p).map fun x => x.todo.length).sum = 0 := by omega
      rw [List.sum_eq_zero_iff] at h0
      exact hne (List.eq_nil_of_length_eq_zero (h0 _ (List.mem_map.2 ⟨x, hx, rfl⟩)))
  | succ w ih =>
    intro i hw hm
    by_contra hcon
    push Not at hcon
    obtain ⟨j, a, r, hj, he⟩ := F.perf p hp i hcon (fun j _ a own ha => R.allOk hs j a ⟨p, own, ha⟩ _)
    have h1 := (rest_step (R.step j _ he) (hm j hj _ he)).2 ⟨a, r, rfl⟩
    obtain ⟨n, rfl⟩ := Nat.exists_eq_add_of_le hj
    have h2 := (R.rest n (fun j h _ => hm j h)).1.wt
    obtain ⟨k, hk, hb⟩ := ih (i + n + 1) (by omega) (fun j h => hm j (by omega))
    exact hb (hcon k (by omega))

/-- **C102** (blocking calls): a PE in a blocking get or an AMO that returns a value gets out of it -/
theorem C102_blocking {S : Sys} {R : Inf S} (F : R.Fair) (hs : R.Safe) {p : Nat} (hp : p < S.npes) (i : Nat) :
    ∃ j, i ≤ j ∧ (R.st j).busy p = [] := by
  by_contra hcon
  push Not at hcon
  have hm : ∀ j, i ≤ j → R.Mute j p := fun j hj e he ho => hcon j hj (own_free (R.step j e he) ho).2.2
  obtain ⟨j, hj, hb⟩ := unblocks F hs hp _ i (Nat.le_refl _) hm
  exact hb (Or.inl (hcon j hj))

/-- the first call a PE makes -/
theorem first_own {S : Sys} {R : Inf S} {p i : Nat} (h : ¬ ∀ j, i ≤ j → R.Mute j p) :
    ∃ n e, (∀ j, i ≤ j → j < i + n → R.Mute j p) ∧ R.ev (i + n) = some e ∧ e.own = some p ∧ R.want i p e := by
  classical
  push Not at h
  obtain ⟨j, hj, hn⟩ := h
  obtain ⟨n, rfl⟩ := Nat.exists_eq_add_of_le hj
  have hex : ∃ n, ¬ R.Mute (i + n) p := ⟨n, hn⟩
  have hmin : ∀ j, i ≤ j → j < i + Nat.find hex → R.Mute j p := by
    intro j hj hlt
    obtain ⟨m, rfl⟩ := Nat.exists_eq_add_of_le hj
    exact Classical.not_not.1 (Nat.find_min hex (by omega))
  obtain ⟨e, he, ho⟩ : ∃ e, R.ev (i + Nat.find hex) = some e ∧ e.own = some p := by
    by_contra hcon
    exact Nat.find_spec hex fun e he ho => hcon ⟨e, he, ho⟩
  refine ⟨Nat.find hex, e, hmin, he, ho, ?_⟩
  rw [← (R.rest _ hmin).2]
  exact R.does _ e p he ho

/-- **C102** (calls return): quiet, fence and the calls on spaces and contexts. A PE outside a barrier that comes to a call that is accepted
(in the state it finds) returns from it, whatever is in flight and whatever the others do. -/
theorem C102_call {S : Sys} {R : Inf S} (F : R.Fair) (hs : R.Safe) {p : Nat} (hp : p < S.npes) {i : Nat} {op : Op} (hw : AtCall R i p op)
    (hb : (R.st i).arr p = (R.st i).lv p) (hl : Order.legal ((R.st i).pe p) op) (hop : ∀ c ad n t k gp, op ≠ .issue c ad n t k gp)
    (ha : ∃ s', Order.step (S.cf p) ((R.st i).pe p) op = .ok s') :
    ∃ j, i ≤ j ∧ R.ev j = some (.call p op) ∧ ∀ k, i ≤ k → k < j → R.Mute k p := by
  by_cases hm : ∀ j, i ≤ j → R.Mute j p
  · exfalso
    obtain ⟨s', e⟩ := ha
    obtain ⟨j, hj, hnb⟩ := unblocks F hs hp _ i (Nat.le_refl _) hm
    have hall : ∀ k, j ≤ k → ∃ e g', R.want k p e ∧ e.own = some p ∧ Step S (R.st k) e g' := by
      intro k hk
      obtain ⟨n, rfl⟩ := Nat.exists_eq_add_of_le hj
      obtain ⟨m, rfl⟩ := Nat.exists_eq_add_of_le hk
      obtain ⟨r1, w1⟩ := R.rest n (fun j h _ => hm j h)
      obtain ⟨r2, w2⟩ := R.rest m (i := i + n) (fun j h _ => hm j (by omega))
      have hwk : R.want (i + n + m) p = fun e => e = .call p op := by rw [w2, w1]; exact hw
      obtain ⟨d1, e1⟩ := r1.pe
      obtain ⟨d2, e2⟩ := r2.pe
      have s1 : Order.step (S.cf p) ((R.st (i + n)).pe p) op = .ok (s'.drop d1) := by rw [e1]; exact step_drop d1 hop e
      have s2 : Order.step (S.cf p) ((R.st (i + n + m)).pe p) op = .ok ((s'.drop d1).drop d2) := by rw [e2]; exact step_drop d2 hop s1
      refine ⟨.call p op, _, by rw [hwk], rfl, Step.call p op ((s'.drop d1).drop d2) ⟨hp, ?_, ?_⟩ ?_ hop s2 ?_⟩
      · have := R.outside (i := i) (p := p) (n + m) (fun j h _ => hm j h) hb
        rw [← Nat.add_assoc] at this
        exact this
      · have hbz : (R.st (i + n)).busy p = [] := by
          by_contra h
          exact hnb (Or.inl h)
        cases hz : (R.st (i + n + m)).busy p with
        | nil => rfl
        | cons a t =>
          have := r2.busy a (by rw [hz]; exact List.mem_cons_self)
          rw [hbz] at this
          cases this
      · rw [e2, e1]
        have : ∀ {s : St} (d : Pend → Bool), Order.legal s op → Order.legal (s.drop d) op := by
          intro s d h
          cases op <;> exact h
        exact this d2 (this d1 hl)
      · intro x hx hnx
        obtain ⟨y, hy, hye, ht⟩ := r2.fly x hx
        by_contra hne
        have hyne : y.todo ≠ [] := by
          intro h
          cases hxt : x.todo with
          | nil => exact hne hxt
          | cons a t =>
            have := ht a (by rw [hxt]; exact List.mem_cons_self)
            rw [h] at this
            cases this
        by_cases hyp : y.pend ∈ (s'.drop d1).pend
        · refine hnx ?_
          -- `x` is still in flight, so MPI has not completed it
          have hin := (gi_reach (R.reach (i + n + m))).fly p x hx
          rw [e2] at hin
          have hk := (List.mem_filter.1 hin).2
          rw [← hye] at hk ⊢
          exact List.mem_filter.2 ⟨hyp, hk⟩
        · refine hnb (Or.inr ⟨y, hy, hyne, Or.inl ⟨op, _, ?_, s1, hyp⟩⟩)
          rw [w1, hw]
    obtain ⟨k, e, hk, he, ho⟩ := F.pe p hp j hall
    exact hm k (by omega) e he ho
  · obtain ⟨n, e, h1, h2, h3, h4⟩ := first_own hm
    rw [hw] at h4
    subst h4
    exact ⟨i + n, by omega, h2, fun k hk hk' => h1 k hk hk'⟩

/-- **C102** (quiet and fence return), for the states of spaces in which the code's quiet returns at all (C56) -/
theorem C102_quiet_partial {S : Sys} {R : Inf S} (F : R.Fair) (hs : R.Safe) {p : Nat} (hp : p < S.npes) {i : Nat} {op : Op} (hw : AtCall R i p op)
    (ho : op = .quiet none ∨ op = .fence none) (hb : (R.st i).arr p = (R.st i).lv p)
    (hsp : ∀ x ∈ ((R.st i).pe p).spaces, x.att = true ∨
      (x.nctx = 0 ∧ ((S.cf p).dyn = true ∨ ((S.cf p).tracking = true ∧ x.dflt.flag = false)))) :
    ∃ j, i ≤ j ∧ R.ev j = some (.call p op) := by
  obtain ⟨s', e⟩ := Order.C56_quiet_partial (hist_reach (R.reach i) p) hsp
  obtain ⟨j, h1, h2, _⟩ := C102_call F hs hp hw hb (by rcases ho with rfl | rfl <;> exact trivial)
    (by rintro _ _ _ _ _ _ h; rcases ho with rfl | rfl <;> cases h) ⟨s', by rcases ho with rfl | rfl <;> exact e⟩
  exact ⟨j, h1, h2⟩

/-- **C102** (the barrier is entered): a PE that comes to a barrier gets through the flushes of `OSHMPI_barrier_all` to `MPI_Barrier` -/
theorem C102_enter {S : Sys} {R : Inf S} (F : R.Fair) (hs : R.Safe) {p : Nat} (hp : p < S.npes) {i : Nat} (hw : AtBarrier R i p)
    (hb : (R.st i).arr p = (R.st i).lv p) : ∃ j, i ≤ j ∧ R.ev j = some (.enter p) := by
  by_cases hm : ∀ j, i ≤ j → R.Mute j p
  · exfalso
    obtain ⟨s', e⟩ := Order.C56_barrier (hist_reach (R.reach i) p) (List.range S.npes)
    obtain ⟨j, hj, hnb⟩ := unblocks F hs hp _ i (Nat.le_refl _) hm
    have hall : ∀ k, j ≤ k → ∃ e g', R.want k p e ∧ e.own = some p ∧ Step S (R.st k) e g' := by
      intro k hk
      obtain ⟨n, rfl⟩ := Nat.exists_eq_add_of_le hj
      obtain ⟨m, rfl⟩ := Nat.exists_eq_add_of_le hk
      obtain ⟨r1, w1⟩ := R.rest n (fun j h _ => hm j h)
      obtain ⟨r2, w2⟩ := R.rest m (i := i + n) (fun j h _ => hm j (by omega))
      have hwk : R.want (i + n + m) p = fun e => e = .enter p := by rw [w2, w1]; exact hw
      obtain ⟨d1, e1⟩ := r1.pe
      obtain ⟨d2, e2⟩ := r2.pe
      have s1 : Order.barrierLocal (S.cf p) ((R.st (i + n)).pe p) (List.range S.npes) = .ok (s'.drop d1) := by
        rw [e1]; exact barrier_drop d1 e
      have s2 : Order.barrierLocal (S.cf p) ((R.st (i + n + m)).pe p) (List.range S.npes) = .ok ((s'.drop d1).drop d2) := by
        rw [e2]; exact barrier_drop d2 s1
      refine ⟨.enter p, _, by rw [hwk], rfl, Step.enter p ((s'.drop d1).drop d2) ⟨hp, ?_, ?_⟩ s2 ?_⟩
      · have := R.outside (i := i) (p := p) (n + m) (fun j h _ => hm j h) hb
        rw [← Nat.add_assoc] at this
        exact this
      · have hbz : (R.st (i + n)).busy p = [] := by
          by_contra h
          exact hnb (Or.inl h)
        cases hz : (R.st (i + n + m)).busy p with
        | nil => rfl
        | cons a t =>
          have := r2.busy a (by rw [hz]; exact List.mem_cons_self)
          rw [hbz] at this
          cases this
      · intro x hx hnx
        obtain ⟨y, hy, hye, ht⟩ := r2.fly x hx
        by_contra hne
        have hyne : y.todo ≠ [] := by
          intro h
          cases hxt : x.todo with
          | nil => exact hne hxt
          | cons a t =>
            have := ht a (by rw [hxt]; exact List.mem_cons_self)
            rw [h] at this
            cases this
        by_cases hyp : y.pend ∈ (s'.drop d1).pend
        · refine hnx ?_
          have hin := (gi_reach (R.reach (i + n + m))).fly p x hx
          rw [e2] at hin
          have hk := (List.mem_filter.1 hin).2
          rw [← hye] at hk ⊢
          exact List.mem_filter.2 ⟨hyp, hk⟩
        · refine hnb (Or.inr ⟨y, hy, hyne, Or.inr (Or.inl ⟨_, ?_, s1, hyp⟩)⟩)
          rw [w1, hw]
    obtain ⟨k, e, hk, he, ho⟩ := F.pe p hp j hall
    exact hm k (by omega) e he ho
  · obtain ⟨n, e, h1, h2, h3, h4⟩ := first_own hm
    rw [hw] at h4
    subst h4
    exact ⟨i + n, by omega, h2⟩

/-- which calls are not quiet, fence, calls on spaces or a barrier -/
def Ev.plain : Ev → Bool
  | .put _ _ _ _ _ _ _ => true
  | .get _ _ _ _ _ _ _ => true
  | .amo _ _ _ _ _ _ _ _ => true
  | .store _ _ _ => true
  | .poll _ _ _ _ => true
  | .touch _ _ => true
  | .call _ _ => false
  | .enter _ => false
  | .leave _ => false
  | .done _ _ _ => false
  | .tau => false

/-- the state without what PE `p` has in flight: would the library accept the call? -/
def G.clear (g : G) (p : Nat) : G := { g with fly := Function.update g.fly p [], busy := Function.update g.busy p [] }

/-- what an issued operation completes: what was sent to the PE that is asked -/
theorem issue_keeps {c : Cfg} {s s' : St} {ctx : Option (Nat × Nat)} {addr : BitVec 64} {n tgt : Nat} {k : Order.Kind} {gpu : Bool}
    (e : Order.step c s (.issue ctx addr n tgt k gpu) = .ok s') {pd : Pend} (h : pd ∈ s.pend) :
    pd ∈ s'.pend ∨ (c.isDirect k gpu = false ∧ k.amLeaves = false ∧ pd.via = .am ∧ pd.tgt = tgt) := by
  replace e : Order.issue c s ctx addr n tgt k gpu = .ok s' := e
  unfold Order.issue at e
  split at e
  · cases e; exact Or.inl h
  · split at e
    · cases e
    · cases hl : Order.lookup c s ctx addr with
      | ok r =>
        rw [hl, Res.bind_ok] at e
        split at e
        · unfold Order.issueDirect at e
          split at e
          · cases e
          · cases e
            left
            have hm : ∀ t : St, (Order.mark c k r.1 t).pend = t.pend := by
              intro t
              unfold Order.mark
              split
              · cases r.1 <;> rfl
              · rfl
            rw [hm]
            split
            · exact List.mem_append.2 (Or.inl h)
            · exact h
        · rename_i hd
          cases e
          unfold Order.issueAm
          dsimp only
          cases hk : k.amLeaves with
          | true =>
            left
            rw [if_pos rfl]
            exact List.mem_append.2 (Or.inl h)
          | false =>
            rw [if_neg (by decide)]
            by_cases hv : pd.via = .am ∧ pd.tgt = tgt
            · exact Or.inr ⟨by simpa using hd, rfl, hv.1, hv.2⟩
            · left
              refine List.mem_filter.2 ⟨h, ?_⟩
              simp only [Bool.not_eq_true', Bool.and_eq_false_iff, beq_eq_false_iff_ne]
              by_cases h1 : pd.via = .am
              · exact Or.inr fun h2 => hv ⟨h1, h2⟩
              · exact Or.inl h1
      | abort => rw [hl] at e; cases e
      | ub => rw [hl] at e; cases e
      | hang => rw [hl] at e; cases e

/-- a call that is accepted can return when nothing it waits for is left to do -/
theorem plain_enabled {S : Sys} {g g1 : G} (gi : GI S g) {p : Nat} {e : Ev} (hpl : e.plain = true) (ho : e.own = some p)
    (h : Step S (g.clear p) e g1) (hb : g.busy p = [])
    (hw : ∀ x ∈ g.fly p, x.todo ≠ [] → ∀ tgt, e.asks S p tgt → ¬ (x.pend.via = .am ∧ x.pend.tgt = tgt)) : ∃ g', Step S g e g' := by
  have hfr : ∀ {q : Nat}, q = p → Free S (g.clear p) q → Free S g q := by
    rintro q rfl hf
    exact ⟨hf.1, hf.2.1, hb⟩
  generalize hc : g.clear p = gc at h
  have hpe : gc.pe = g.pe := by rw [← hc]; rfl
  have harr : gc.arr = g.arr := by rw [← hc]; rfl
  have hme : gc.mem = g.mem := by rw [← hc]; rfl
  have hpr : procs S gc = procs S g := by unfold procs; rw [hpe]
  rw [hc] at hfr
  cases h with
  | put q tgt nbi ctx addr src n gpu mode oc tc oty tty xs s' hf hm e hx d =>
    cases ho
    rw [hpe] at e
    rw [harr, hpr, hpe] at *
    refine ⟨_, Step.put p tgt nbi ctx addr src n gpu mode oc tc oty tty xs s' (hfr rfl hf) hm e hx ?_⟩
    intro x hx' hn
    rcases issue_keeps e (gi.fly p x hx') with h1 | ⟨_, h1, _⟩
    · exact absurd h1 hn
    · cases nbi <;> cases h1
  | get q tgt nbi ctx addr src n gpu mode oc tc oty tty xs s' hf hm e hx d =>
    cases ho
    rw [harr, hpr, hpe] at *
    refine ⟨_, Step.get p tgt nbi ctx addr src n gpu mode oc tc oty tty xs s' (hfr rfl hf) hm e hx ?_⟩
    intro x hx' hn
    rcases issue_keeps e (gi.fly p x hx') with h1 | ⟨h0, _, h1, h2⟩
    · exact absurd h1 hn
    · by_contra hne
      exact hw x hx' hne tgt ⟨rfl, rfl, gpu, by cases nbi <;> exact h0⟩ ⟨h1, h2⟩
  | amo q tgt ctx addr r ty api gpu mode s' hf hm ht hk e hr d =>
    cases ho
    rw [harr, hpr, hpe] at *
    refine ⟨_, Step.amo p tgt ctx addr r ty api gpu mode s' (hfr rfl hf) hm ht hk e hr ?_⟩
    intro x hx' hn
    rcases issue_keeps e (gi.fly p x hx') with h1 | ⟨_, h1, _⟩
    · exact absurd h1 hn
    · exfalso
      cases api <;> first | (cases hk; done) | (cases h1; done)
  | amoRet q tgt ctx addr r ty api gpu mode s' hf hm ht hk e hr d =>
    cases ho
    rw [harr, hpr, hpe] at *
    refine ⟨_, Step.amoRet p tgt ctx addr r ty api gpu mode s' (hfr rfl hf) hm ht hk e hr ?_⟩
    intro x hx' hn
    rcases issue_keeps e (gi.fly p x hx') with h1 | ⟨h0, _, h1, h2⟩
    · exact absurd h1 hn
    · by_contra hne
      exact hw x hx' hne tgt ⟨rfl, rfl, hk, gpu, h0⟩ ⟨h1, h2⟩
  | store q a v hf => cases ho; exact ⟨_, Step.store p a v (hfr rfl hf)⟩
  | poll q addr r n mode hf hm hr =>
    cases ho
    rw [hpr] at hr
    rw [hme]
    exact ⟨_, Step.poll p addr r n mode (hfr rfl hf) hm hr⟩
  | touch q ws hf => cases ho; exact ⟨_, Step.touch p ws (hfr rfl hf)⟩
  | call q op s' hf l hop e d => cases hpl
  | enter q s' hf e d => cases hpl
  | leave q hp h1 ha => cases hpl
  | perform q l1 l2 pd t1 t2 a m' hq hl e => cases hpl
  | performBusy q t1 t2 a m' hq hl e => cases hpl
  | fin q done hq d => cases hpl

/-- **C102** (puts, gets, atomics and stores are made): a PE that stands at calls of which the library, as long as the PE waits,
always accepts one (apart from what the PE has in flight) makes one of them, whatever is in flight and whatever the others do. -/
theorem C102_issue {S : Sys} {R : Inf S} (F : R.Fair) (hs : R.Safe) {p : Nat} (hp : p < S.npes) {i : Nat}
    (ha : ∀ j, i ≤ j → (∀ k, i ≤ k → k < j → R.Mute k p) →
      ∃ e g', R.want j p e ∧ e.own = some p ∧ e.plain = true ∧ Step S ((R.st j).clear p) e g') :
    ∃ j e, i ≤ j ∧ R.ev j = some e ∧ e.own = some p ∧ R.want i p e ∧ ∀ k, i ≤ k → k < j → R.Mute k p := by
  by_cases hm : ∀ j, i ≤ j → R.Mute j p
  · exfalso
    obtain ⟨j, hj, hnb⟩ := unblocks F hs hp _ i (Nat.le_refl _) hm
    obtain ⟨k, e, hk, he, ho⟩ := F.pe p hp j (by
      intro k hk
      obtain ⟨e, g', h1, h2, h3, h4⟩ := ha k (by omega) (fun k hk _ => hm k hk)
      obtain ⟨m, rfl⟩ := Nat.exists_eq_add_of_le hk
      obtain ⟨r, w⟩ := R.rest m (i := j) (fun l h _ => hm l (by omega))
      have hbz : (R.st j).busy p = [] := by
        by_contra h
        exact hnb (Or.inl h)
      have hbk : (R.st (j + m)).busy p = [] := by
        cases hz : (R.st (j + m)).busy p with
        | nil => rfl
        | cons a t =>
          have := r.busy a (by rw [hz]; exact List.mem_cons_self)
          rw [hbz] at this
          cases this
      obtain ⟨g2, h5⟩ := plain_enabled (gi_reach (R.reach (j + m))) h3 h2 h4 hbk (by
        intro x hx hne tgt hask hv
        obtain ⟨y, hy, hye, ht⟩ := r.fly x hx
        refine hnb (Or.inr ⟨y, hy, ?_, Or.inr (Or.inr ⟨e, tgt, ?_, hask, ?_, ?_⟩)⟩)
        · intro h
          cases hxt : x.todo with
          | nil => exact hne hxt
          | cons a t =>
            have := ht a (by rw [hxt]; exact List.mem_cons_self)
            rw [h] at this
            cases this
        · rw [← w]; exact h1
        · rw [hye]; exact hv.1
        · rw [hye]; exact hv.2)
      exact ⟨e, g2, h1, h2, h5⟩)
    exact hm k (by omega) e he ho
  · obtain ⟨n, e, h1, h2, h3, h4⟩ := first_own hm
    exact ⟨i + n, e, by omega, h2, h3, h4, fun k hk hk' => h1 k hk hk'⟩

theorem enter_arr {S : Sys} {g g' : G} {p : Nat} (h : Step S g (.enter p) g') : g'.arr p = g.arr p + 1 := by
  cases h with
  | enter q s' hf e d => simp only [Function.update_self]

/-- a common bound -/
theorem all_by {n : Nat} {P : Nat → Nat → Prop} (hmono : ∀ p i j, i ≤ j → P i p → P j p) (h : ∀ p < n, ∃ i, P i p) :
    ∃ i, ∀ p < n, P i p := by
  induction n with
  | zero => exact ⟨0, fun p hp => absurd hp (Nat.not_lt_zero _)⟩
  | succ n ih =>
    obtain ⟨i, hi⟩ := ih (fun p hp => h p (by omega))
    obtain ⟨j, hj⟩ := h n (by omega)
    refine ⟨max i j, fun p hp => ?_⟩
    by_cases e : p = n
    · subst e; exact hmono _ _ _ (Nat.le_max_right _ _) hj
    · exact hmono _ _ _ (Nat.le_max_left _ _) (hi p (by omega))

/-- **C102** (barriers complete): if every PE, whenever it is out of its first barriers (fewer than `N`), comes to its next one, then all PEs
get through `N` barriers; nobody has to be lucky. -/
theorem C102_barrier {S : Sys} {R : Inf S} (F : R.Fair) (hs : R.Safe) {N : Nat}
    (hN : ∀ p < S.npes, ∀ i, (R.st i).arr p < N → (R.st i).arr p = (R.st i).lv p →
      ∃ j, i ≤ j ∧ ((R.st i).arr p < (R.st j).arr p ∨ (AtBarrier R j p ∧ (R.st j).arr p = (R.st j).lv p))) :
    ∃ i, ∀ p < S.npes, N ≤ (R.st i).lv p := by
  induction N with
  | zero => exact ⟨0, fun p _ => Nat.zero_le _⟩
  | succ N ih =>
    obtain ⟨i0, h0⟩ := ih (fun p hp i h => hN p hp i (by omega))
    -- everybody enters
    obtain ⟨i1, h1⟩ : ∃ i, ∀ p < S.npes, i0 ≤ i ∧ N < (R.st i).arr p := by
      refine all_by (P := fun i p => i0 ≤ i ∧ N < (R.st i).arr p) (fun p i j hij h => ⟨h.1.trans hij, lt_of_lt_of_le h.2 (R.arr_mono' hij)⟩) ?_
      intro p hp
      by_cases hlt : N < (R.st i0).arr p
      · exact ⟨i0, Nat.le_refl _, hlt⟩
      · have hlv := h0 p hp
        have hi := (gi_reach (R.reach i0)).lv p hp p hp
        obtain ⟨j, hj, h | ⟨hat, hout⟩⟩ := hN p hp i0 (by omega) (by omega)
        · exact ⟨j, hj, by omega⟩
        · obtain ⟨k, hk, he⟩ := C102_enter F hs hp hat hout
          refine ⟨k + 1, by omega, ?_⟩
          rw [enter_arr (R.step k _ he)]
          have h1 : (R.st i0).lv p ≤ (R.st k).lv p := R.lv_mono' (by omega)
          have h2 := (gi_reach (R.reach k)).lv p hp p hp
          omega
    -- everybody leaves
    refine all_by (P := fun i p => N + 1 ≤ (R.st i).lv p) (fun p i j hij h => h.trans (R.lv_mono' hij)) ?_
    intro p hp
    have hi01 := (h1 p hp).1
    by_contra hcon
    push Not at hcon
    have hlv : ∀ j, i1 ≤ j → (R.st j).lv p = N := by
      intro j hj
      have h1 := hcon j
      have h2 := h0 p hp
      have h3 : (R.st i0).lv p ≤ (R.st j).lv p := R.lv_mono' (by omega)
      omega
    have hen : ∀ j, i1 ≤ j → ∀ q < S.npes, (R.st j).lv p < (R.st j).arr q := by
      intro j hj q hq
      rw [hlv j hj]
      exact lt_of_lt_of_le (h1 q hq).2 (R.arr_mono' hj)
    obtain ⟨j, hj, he⟩ := F.leave p hp i1 (fun j hj => ⟨_, Step.leave p hp (hen j hj p hp) (hen j hj)⟩)
    have h2 := (leave_lv (R.step j _ he)).2
    have h3 := hlv (j + 1) (by omega)
    have h4 := hlv j hj
    omega

end Verif.Vis
