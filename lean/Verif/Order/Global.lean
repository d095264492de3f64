import Verif.Order.Win
/-!
# All PEs: `OSHMPI_barrier_all`

`/repo/src/internal/coll_impl.h` L12-32. Each PE runs its own calls; a barrier is the local part followed by
`MPI_Barrier` (through the progress loop, am_progress_impl.h L72-82): nobody leaves the k-th barrier before everybody
has entered it (MPI standard, trusted).
-/
namespace Verif.Order

/-- all PEs: their states, how many barriers each has entered, how many it has left -/
structure G where
  pe : Nat → St
  arr : Nat → Nat
  lv : Nat → Nat

/-- start -/
def ginit : G := ⟨fun _ => init, fun _ => 0, fun _ => 0⟩

/-- One step of some PE. -/
inductive GStep (c : Cfg) : G → G → Prop
  /-- a call on a PE that is outside the barrier -/
  | call {g : G} (p : Nat) (op : Op) (s' : St) (hp : p < c.npes) (h0 : g.arr p = g.lv p) (l : legal (g.pe p) op)
      (e : step c (g.pe p) op = .ok s') : GStep c g { g with pe := Function.update g.pe p s' }
  /-- MPI completes something, at any time -/
  | done {g : G} (p : Nat) (d : Pend → Bool) (hp : p < c.npes) :
      GStep c g { g with pe := Function.update g.pe p ((g.pe p).drop d) }
  /-- `OSHMPI_barrier_all` up to entering `MPI_Barrier` (coll_impl.h L14-31) -/
  | enter {g : G} (p : Nat) (s' : St) (hp : p < c.npes) (h0 : g.arr p = g.lv p)
      (e : barrierLocal c (g.pe p) (List.range c.npes) = .ok s') :
      GStep c g { g with pe := Function.update g.pe p s', arr := Function.update g.arr p (g.arr p + 1) }
  /-- `MPI_Barrier` returns -/
  | leave {g : G} (p : Nat) (hp : p < c.npes) (h0 : g.lv p < g.arr p) (ha : ∀ q < c.npes, g.lv p < g.arr q) :
      GStep c g { g with lv := Function.update g.lv p (g.lv p + 1) }

/-- every execution -/
inductive GReach (c : Cfg) : G → Prop
  | init : GReach c ginit
  | step {g g'} (h : GReach c g) (e : GStep c g g') : GReach c g'

/-- on a window or by active message, is this one of the operations the code's barrier completes? (Default context;
without dynamic windows not on the window of a space.) -/
def Covered (c : Cfg) (p : Pend) : Prop :=
  p.via = .am ∨ (p.ctx = none ∧ (c.dyn = true ∨ p.obj = .heap ∨ p.obj = .data))

theorem ep_step {c : Cfg} {s s' : St} {op : Op} (hi : Inv c s) (e : step c s op = .ok s') :
    s'.ep = s.ep ∧ ∀ p ∈ s'.pend, p ∈ s.pend ∨ p.ep = s.ep := by
  have hdrop : ∀ (s : St) d, ∀ p ∈ (s.drop d).pend, p ∈ s.pend := fun s d p hp => (List.mem_filter.mp hp).1
  have hpush : ∀ (q : Pend) , q.ep = s.ep → ∀ p ∈ (s.push q).pend, p ∈ s.pend ∨ p.ep = s.ep := by
    intro q hq p hp
    rcases List.mem_append.mp hp with hp | hp
    · exact Or.inl hp
    · rw [List.mem_singleton] at hp; subst hp; exact Or.inr hq
  cases op with
  | issue ctx addr n tgt k gpu =>
    simp only [step] at e
    unfold issue at e
    split at e
    · cases e; exact ⟨rfl, fun p hp => Or.inl hp⟩
    · split at e
      · cases e
      · cases hl : lookup c s ctx addr with
        | ok r =>
          rw [hl] at e
          simp only [Res.bind] at e
          split at e
          · unfold issueDirect at e
            split at e
            · cases e
            · rename_i w _
              cases e
              have h1 : (if k.leaves then s.push ⟨.win w, tgt, ctx, r.2, s.ep⟩ else s).ep = s.ep ∧
                  ∀ p ∈ (if k.leaves then s.push ⟨.win w, tgt, ctx, r.2, s.ep⟩ else s).pend,
                    p ∈ s.pend ∨ p.ep = s.ep := by
                split
                · exact ⟨rfl, hpush _ rfl⟩
                · exact ⟨rfl, fun p hp => Or.inl hp⟩
              unfold mark
              split
              · exact ⟨by rw [ep_setFlag]; exact h1.1, fun p hp => h1.2 p (by rw [pend_setFlag] at hp; exact hp)⟩
              · exact h1
          · cases e
            unfold issueAm
            dsimp only
            split
            · exact ⟨rfl, hpush _ rfl⟩
            · exact ⟨rfl, fun p hp => Or.inl (hdrop s _ p hp)⟩
        | abort => rw [hl] at e; cases e
        | ub => rw [hl] at e; cases e
        | hang => rw [hl] at e; cases e
  | complete d => cases e; exact ⟨rfl, fun p hp => Or.inl (hdrop s d p hp)⟩
  | quiet ctx => exact ⟨(quiet_inv hi e).2.2, fun p hp => Or.inl ((quiet_inv hi e).2.1 p hp)⟩
  | fence ctx =>
    have e' : quiet c s ctx = .ok s' := by rw [← fence_quiet]; exact e
    exact ⟨(quiet_inv hi e').2.2, fun p hp => Or.inl ((quiet_inv hi e').2.1 p hp)⟩
  | create nm a k =>
    simp only [step] at e
    split at e
    · cases e
    · cases e; exact ⟨rfl, fun p hp => Or.inl hp⟩
  | attach nm =>
    simp only [step] at e
    split at e
    · cases e
    · split at e
      · cases e
      · cases e; exact ⟨rfl, fun p hp => Or.inl hp⟩
  | detach nm =>
    simp only [step] at e
    split at e
    · cases e
    · split at e
      · cases e
      · split at e
        · cases e
        · split at e
          · cases e
          · cases e; exact ⟨rfl, fun p hp => Or.inl (hdrop s _ p hp)⟩
  | destroy nm =>
    simp only [step] at e
    split at e
    · cases e
    · cases e; exact ⟨rfl, fun p hp => Or.inl hp⟩
  | ctxCreate nm i =>
    simp only [step] at e
    split at e
    · cases e
    · split at e
      · cases e
      · cases e; exact ⟨rfl, fun p hp => Or.inl hp⟩
  | ctxDestroy nm i =>
    simp only [step] at e
    split at e
    · cases e
    · split at e
      · cases e; exact ⟨rfl, fun p hp => Or.inl hp⟩
      · cases e

/-- what the local part of a barrier leaves outstanding -/
theorem barrier_done {c : Cfg} {s s' : St} (hi : Inv c s) {pes : List Nat} (e : barrierLocal c s pes = .ok s') :
    s'.ep = s.ep + 1 ∧ (∀ p ∈ s'.pend, p ∈ s.pend) ∧
      ∀ p ∈ s'.pend, Covered c p → p.via = .am ∧ p.tgt ∉ pes := by
  obtain ⟨s2, m, rfl, h1, h2⟩ := barrierLocal_ok hi e
  refine ⟨by rw [← m.ep], fun p hp => m.pend p (amFlush_sub c s2 pes p hp), ?_⟩
  intro p hp hc
  have hp2 : p ∈ s2.pend := amFlush_sub c s2 pes p hp
  have hv : p.via = .am := by
    rcases hc with h | ⟨hctx, ho⟩
    · exact h
    · cases hv : p.via with
      | am => rfl
      | win w =>
        exfalso
        obtain ⟨l, _, x, hx, hw, _, hl⟩ := hi.win p (m.pend p hp2) w hv
        subst hl
        unfold slotOf at hx
        rw [hctx] at hx
        dsimp only at hx
        unfold Cfg.slot at hx
        cases hd : c.dyn with
        | true =>
          have : s.symm = x := by
            cases ho' : p.obj <;> rw [ho'] at hx <;> simp [hd, St.ictx] at hx <;> exact hx
          exact h1 hd w (by rw [this]; exact hw) p hp2 hv
        | false =>
          rcases ho with ho | ho | ho
          · rw [hd] at ho; cases ho
          · rw [ho] at hx
            simp only [hd, Bool.false_eq_true, if_false, St.ictx, Option.some.injEq] at hx
            exact h2 hd w (Or.inl (by rw [hx]; exact hw)) p hp2 hv
          · rw [ho] at hx
            simp only [hd, Bool.false_eq_true, if_false, St.ictx, Option.some.injEq] at hx
            exact h2 hd w (Or.inr (by rw [hx]; exact hw)) p hp2 hv
  exact ⟨hv, amFlush_none m.inv pes p hp hv⟩

/-- invariant of the whole system -/
structure GInv (c : Cfg) (g : G) : Prop where
  inv : ∀ p, Inv c (g.pe p)
  ep : ∀ p, (g.pe p).ep = g.arr p
  cov : ∀ p, ∀ o ∈ (g.pe p).pend, Covered c o → o.ep = g.arr p
  lv : ∀ p < c.npes, ∀ q < c.npes, g.lv p ≤ g.arr q

theorem upd_cases {α : Type} (f : Nat → α) (p q : Nat) (v : α) :
    (q = p ∧ Function.update f p v q = v) ∨ (q ≠ p ∧ Function.update f p v q = f q) := by
  by_cases h : q = p
  · subst h; exact Or.inl ⟨rfl, Function.update_self ..⟩
  · exact Or.inr ⟨h, Function.update_of_ne h ..⟩

theorem ginv_reach {c : Cfg} {g : G} (h : GReach c g) : GInv c g := by
  induction h with
  | init => exact ⟨fun _ => inv_init c, fun _ => rfl, by simp [ginit, init], fun _ _ _ _ => Nat.le_refl _⟩
  | @step g0 g1 h e ih =>
    cases e with
    | call p op s' hp h0 l e =>
      obtain ⟨e1, e2⟩ := ep_step (ih.inv p) e
      refine ⟨?_, ?_, ?_, ih.lv⟩
      · intro q
        rcases upd_cases g0.pe p q s' with ⟨_, h⟩ | ⟨_, h⟩ <;> simp only [h]
        · exact step_inv (ih.inv p) l e
        · exact ih.inv q
      · intro q
        rcases upd_cases g0.pe p q s' with ⟨hq, h⟩ | ⟨_, h⟩ <;> simp only [h]
        · rw [e1, hq]; exact ih.ep p
        · exact ih.ep q
      · intro q o ho hc
        rcases upd_cases g0.pe p q s' with ⟨hq, h⟩ | ⟨_, h⟩ <;> simp only [h] at ho
        · subst hq
          rcases e2 o ho with h' | h'
          · exact ih.cov q o h' hc
          · rw [h']; exact ih.ep q
        · exact ih.cov q o ho hc
    | done p d hp =>
      refine ⟨?_, ?_, ?_, ih.lv⟩
      · intro q
        rcases upd_cases g0.pe p q ((g0.pe p).drop d) with ⟨_, h⟩ | ⟨_, h⟩ <;> simp only [h]
        · exact inv_drop (ih.inv p) d
        · exact ih.inv q
      · intro q
        rcases upd_cases g0.pe p q ((g0.pe p).drop d) with ⟨hq, h⟩ | ⟨_, h⟩ <;> simp only [h]
        · rw [hq]; exact ih.ep p
        · exact ih.ep q
      · intro q o ho hc
        rcases upd_cases g0.pe p q ((g0.pe p).drop d) with ⟨hq, h⟩ | ⟨_, h⟩ <;> simp only [h] at ho
        · subst hq
          exact ih.cov q o (List.mem_filter.mp ho).1 hc
        · exact ih.cov q o ho hc
    | enter p s' hp h0 e =>
      obtain ⟨e1, e2, e3⟩ := barrier_done (ih.inv p) e
      refine ⟨?_, ?_, ?_, ?_⟩
      · intro q
        rcases upd_cases g0.pe p q s' with ⟨_, h⟩ | ⟨_, h⟩ <;> simp only [h]
        · exact barrierLocal_inv (ih.inv p) e
        · exact ih.inv q
      · intro q
        rcases upd_cases g0.pe p q s' with ⟨hq, h⟩ | ⟨hq, h⟩ <;> simp only [h]
        · subst hq; rw [Function.update_self, e1, ih.ep]
        · rw [Function.update_of_ne hq]; exact ih.ep q
      · intro q o ho hc
        rcases upd_cases g0.pe p q s' with ⟨hq, h⟩ | ⟨hq, h⟩ <;> simp only [h] at ho
        · subst hq
          exfalso
          obtain ⟨hv, ht⟩ := e3 o ho hc
          exact ht (List.mem_range.mpr ((ih.inv q).am o (e2 o ho) hv).2.1)
        · simp only [Function.update_of_ne hq]; exact ih.cov q o ho hc
      · intro q hq r hr
        have := ih.lv q hq r hr
        rcases upd_cases g0.arr p r (g0.arr p + 1) with ⟨hq, h⟩ | ⟨_, h⟩ <;> simp only [h]
        · rw [hq] at this; omega
        · exact this
    | leave p hp h0 ha =>
      refine ⟨ih.inv, ih.ep, ih.cov, ?_⟩
      intro q hq r hr
      rcases upd_cases g0.lv p q (g0.lv p + 1) with ⟨_, h⟩ | ⟨_, h⟩ <;> simp only [h]
      · exact ha r hr
      · exact ih.lv q hq r hr

end Verif.Order
