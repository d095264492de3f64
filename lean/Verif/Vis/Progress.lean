import Verif.Vis.Ex
import Mathlib.Algebra.Order.BigOperators.Group.Finset
import Mathlib.Data.Finset.Max
/-!
# C94: calls return

From every state of every execution there is a continuation in which everything in flight has been performed, in which any PE outside a
barrier can call quiet and fence and gets out of them, and in which all PEs get through any number of barriers. An obstacle is only undefined
behaviour of an AMO handler (overflow of a signed addition), and for quiet and fence the states of spaces of C56.

These are statements about what is possible: that MPI does what is possible (progress) is MPI's part.
-/
namespace Verif.Vis
open Verif.Sobj Verif.Rma
open Verif.Order (St Pend Cfg Op)
open Verif.Amo (TyIdx Fp)

/-! ## Specification -/

/-- the performing of an access -/
def Ev.isPerf : Ev → Prop
  | .done _ _ _ => True
  | .put _ _ _ _ _ _ _ => False
  | .get _ _ _ _ _ _ _ => False
  | .amo _ _ _ _ _ _ _ _ => False
  | .store _ _ _ => False
  | .poll _ _ _ _ => False
  | .touch _ _ => False
  | .call _ _ => False
  | .enter _ => False
  | .leave _ => False
  | .tau => False

/-- the performing of an access, or entering or leaving a barrier -/
def Ev.isSync : Ev → Prop
  | .done _ _ _ => True
  | .enter _ => True
  | .leave _ => True
  | .put _ _ _ _ _ _ _ => False
  | .get _ _ _ _ _ _ _ => False
  | .amo _ _ _ _ _ _ _ _ => False
  | .store _ _ _ => False
  | .poll _ _ _ _ => False
  | .touch _ _ => False
  | .call _ _ => False
  | .tau => False

/-- none of the accesses in flight faults, in whichever order they are performed -/
def NoFault (S : Sys) (g : G) : Prop := ∀ l g', Run S g l g' → (∀ e ∈ l, e.isPerf) → ∀ a, Flies g' a →
  ∃ m', a.perform S.fp S.junk g'.mem = .ok m'

/-- nothing is still to be performed -/
def Settled (g : G) : Prop := ∀ a, ¬ Flies g a

/-- an AMO that cannot fault: not by active message, or not of a signed type, or not an addition; other calls cannot fault -/
def Ev.Safe (S : Sys) : Ev → Prop
  | .amo p _ _ _ _ ty api _ => (S.cf p).amoDirect = true ∨ ty.kind ≠ .sint ty.bytes ∨ api.addend = none
  | .put _ _ _ _ _ _ _ => True
  | .get _ _ _ _ _ _ _ => True
  | .store _ _ _ => True
  | .poll _ _ _ _ => True
  | .touch _ _ => True
  | .call _ _ => True
  | .enter _ => True
  | .leave _ => True
  | .done _ _ _ => True
  | .tau => True

/-! ## Proof -/

theorem hist_run {S : Sys} {g g' : G} {l : List Ev} (h : Run S g l g') (h0 : ∀ p, Order.Hist (S.cf p) (g.pe p)) :
    ∀ p, Order.Hist (S.cf p) (g'.pe p) := by
  induction h with
  | nil g => exact h0
  | cons s r ih =>
    refine ih ?_
    have key : ∀ {g : G} {p : Nat} {s' : St}, (∀ p, Order.Hist (S.cf p) (g.pe p)) → Order.Hist (S.cf p) s' →
        ∀ q, Order.Hist (S.cf q) (Function.update g.pe p s' q) := by
      intro g p s' h h1 q
      rw [upd_at]
      split
      · rename_i e; rw [e]; exact h1
      · exact h q
    cases s with
    | put p tgt nbi ctx addr src n gpu mode oc tc oty tty xs s' hf hm e hx d => exact key h0 (Order.Hist.step _ (h0 p) (by exact trivial) e)
    | get p tgt nbi ctx addr src n gpu mode oc tc oty tty xs s' hf hm e hx d => exact key h0 (Order.Hist.step _ (h0 p) (by exact trivial) e)
    | amo p tgt ctx addr r ty api gpu mode s' hf hm ht hk e hr d => exact key h0 (Order.Hist.step _ (h0 p) (by exact trivial) e)
    | amoRet p tgt ctx addr r ty api gpu mode s' hf hm ht hk e hr d => exact key h0 (Order.Hist.step _ (h0 p) (by exact trivial) e)
    | store p a v hf => exact h0
    | poll p addr r n mode hf hm hr => exact h0
    | touch p ws hf => exact h0
    | call p op s' hf l hop e d => exact key h0 (Order.Hist.step _ (h0 p) l e)
    | enter p s' hf e d => exact key h0 (Order.Hist.barrier _ (h0 p) e)
    | leave p hp h1 ha => exact h0
    | perform q l1 l2 pd t1 t2 a m' hq hl e => exact h0
    | performBusy q t1 t2 a m' hq hl e => exact h0
    | fin q done hq d => exact key h0 (Order.Hist.step (.complete done) (h0 q) trivial rfl)

theorem hist_reach {S : Sys} {g : G} (h : Reach S g) (p : Nat) : Order.Hist (S.cf p) (g.pe p) := by
  obtain ⟨m, l, h⟩ := h
  exact hist_run h (fun p => Order.Hist.init) p

theorem reach_run {S : Sys} {g g' : G} {l : List Ev} (h : Reach S g) (r : Run S g l g') : Reach S g' := by
  obtain ⟨m, l0, h⟩ := h
  exact ⟨m, _, run_append h r⟩

/-- a safe AMO does not fault -/
theorem safe_ok {S : Sys} {p t : Nat} {a : Int} {ty : TyIdx} {api : Amo.Api} (ht : ty ∈ api.types) (k : Order.Kind) (hk : k.isRma = false)
    (gpu : Bool) (h : (S.cf p).amoDirect = true ∨ ty.kind ≠ .sint ty.bytes ∨ api.addend = none) (m : Mems) :
    ∃ m', (Atom.upd t a ty api (!(S.cf p).isDirect k gpu)).perform S.fp S.junk m = .ok m' := by
  have hd : (S.cf p).isDirect k gpu = (S.cf p).amoDirect := by unfold Order.Cfg.isDirect; rw [hk]; rfl
  rw [hd]
  cases h' : (S.cf p).amoDirect with
  | true => exact ⟨_, rfl⟩
  | false =>
    have : ∃ r, Amo.am S.fp S.junk (view (m t) a) 0 ty api = .ok r := by
      by_cases hf : ty = .float ∨ ty = .double
      · obtain ⟨r, e, _⟩ := Amo.C24_fp S.fp S.junk (view (m t) a) 0 ht hf
        exact ⟨r, e⟩
      · obtain ⟨r, e, _⟩ := Amo.am_int S.fp S.junk (view (m t) a) 0 ht ⟨fun e => hf (Or.inl e), fun e => hf (Or.inr e)⟩ (fun hs v hv => by
          rw [h'] at h
          rcases h with h | h | h
          · cases h
          · exact absurd hs h
          · rw [h] at hv; cases hv)
        exact ⟨r, e⟩
    obtain ⟨r, e⟩ := this
    exact ⟨_, by unfold Atom.perform; dsimp only; rw [if_pos (by decide), e, Res.bind_ok]⟩

theorem amoKind_rma (api : Amo.Api) : (amoKind api).isRma = false := by cases api <;> rfl

/-- no access in flight can fault -/
def AllOk (S : Sys) (g : G) : Prop := ∀ a, Flies g a → ∀ m, ∃ m', a.perform S.fp S.junk m = .ok m'

theorem allOk_step {S : Sys} {g g' : G} {e : Ev} (h : AllOk S g) (s : Step S g e g') (he : e.Safe S) : AllOk S g' := by
  rintro b ⟨r, own, hb⟩
  have pre : At g b r own → ∀ m, ∃ m', b.perform S.fp S.junk m = .ok m' := fun h' => h b ⟨r, own, h'⟩
  cases s with
  | put p tgt nbi ctx addr src n gpu mode oc tc oty tty xs s' hf hm e hx d =>
    rcases at_after hb with hb | ⟨_, _, hb⟩
    · exact pre hb
    · obtain ⟨x, _, rfl⟩ := List.mem_map.1 hb
      intro m
      split <;> exact ⟨_, rfl⟩
  | get p tgt nbi ctx addr src n gpu mode oc tc oty tty xs s' hf hm e hx d =>
    rcases at_after hb with hb | ⟨_, _, hb⟩
    · exact pre hb
    · obtain ⟨x, _, rfl⟩ := List.mem_map.1 hb
      exact fun m => ⟨_, rfl⟩
  | amo p tgt ctx addr r ty api gpu mode s' hf hm ht hk e hr d =>
    rcases at_after hb with hb | ⟨_, _, hb⟩
    · exact pre hb
    · rw [List.mem_singleton.1 hb]
      exact safe_ok ht _ (amoKind_rma api) gpu he
  | amoRet p tgt ctx addr r ty api gpu mode s' hf hm ht hk e hr d =>
    rcases at_afterRet hb with hb | ⟨_, _, hb⟩
    · exact pre hb
    · rw [List.mem_singleton.1 hb]
      exact safe_ok ht _ (amoKind_rma api) gpu he
  | store p a v hf => exact pre hb
  | poll p addr r n mode hf hm hr => exact pre hb
  | touch p ws hf => exact pre hb
  | call p op s' hf l hop e d =>
    rcases at_after hb with hb | ⟨_, _, hb⟩
    · exact pre hb
    · cases hb
  | enter p s' hf e d =>
    have hb : At (after g p s' []) b r own := hb
    rcases at_after hb with hb | ⟨_, _, hb⟩
    · exact pre hb
    · cases hb
  | leave p hp h1 ha => exact pre hb
  | perform q l1 l2 pd t1 t2 a m' hq hl e =>
    refine pre ?_
    rcases hb with ⟨x, hx, ho, ha⟩ | hb
    · simp only [upd_at] at hx
      split at hx
      · rename_i hr
        subst hr
        rcases List.mem_append.1 hx with hx | hx
        · exact Or.inl ⟨x, by rw [hl]; exact List.mem_append_left _ hx, ho, ha⟩
        · rcases List.mem_cons.1 hx with rfl | hx
          · refine Or.inl ⟨⟨pd, t1 ++ a :: t2⟩, by rw [hl]; simp, ho, ?_⟩
            rcases List.mem_append.1 ha with ha | ha
            · exact List.mem_append_left _ ha
            · exact List.mem_append_right _ (List.mem_cons_of_mem _ ha)
          · exact Or.inl ⟨x, by rw [hl]; exact List.mem_append_right _ (List.mem_cons_of_mem _ hx), ho, ha⟩
      · exact Or.inl ⟨x, hx, ho, ha⟩
    · exact Or.inr hb
  | performBusy q t1 t2 a m' hq hl e =>
    refine pre ?_
    rcases hb with hb | ⟨ho, ha⟩
    · exact Or.inl hb
    · refine Or.inr ⟨ho, ?_⟩
      simp only [upd_at] at ha
      split at ha
      · rename_i hr
        subst hr
        rw [hl]
        rcases List.mem_append.1 ha with ha | ha
        · exact List.mem_append_left _ ha
        · exact List.mem_append_right _ (List.mem_cons_of_mem _ ha)
      · exact ha
  | fin q done hq d =>
    refine pre ?_
    rcases hb with ⟨x, hx, ho, ha⟩ | hb
    · simp only [upd_at] at hx
      split at hx
      · rename_i hr
        subst hr
        exact Or.inl ⟨x, (List.mem_filter.1 hx).1, ho, ha⟩
      · exact Or.inl ⟨x, hx, ho, ha⟩
    · exact Or.inr hb

theorem allOk_run {S : Sys} {g g' : G} {l : List Ev} (r : Run S g l g') (h : AllOk S g) (hl : ∀ e ∈ l, e.Safe S) : AllOk S g' := by
  induction r with
  | nil g => exact h
  | cons s r ih => exact ih (allOk_step h s (hl _ (List.mem_cons_self ..))) (fun e he => hl e (List.mem_cons_of_mem _ he))

theorem perf_safe {S : Sys} {e : Ev} (h : e.isPerf) : e.Safe S := by cases e <;> first | exact trivial | cases h

/-- an execution whose AMOs are safe is not in danger -/
theorem noFault_safe {S : Sys} {m : Mems} {l : List Ev} {g : G} (h : Run S (ginit m) l g) (hl : ∀ e ∈ l, e.Safe S) : NoFault S g := by
  intro l' g' r hp a ha
  have h0 : AllOk S (ginit m) := by
    rintro a ⟨r, own, ⟨x, hx, _⟩ | ⟨_, hx⟩⟩ <;> cases hx
  exact allOk_run r (allOk_run h h0 hl) (fun e he => perf_safe (hp e he)) a ha g'.mem

theorem noFault_run {S : Sys} {g g' : G} {l : List Ev} (h : NoFault S g) (r : Run S g l g') (hl : ∀ e ∈ l, e.isPerf) : NoFault S g' := by
  intro l' g'' r' hl' a ha
  refine h _ _ (run_append r r') ?_ a ha
  intro e he
  rcases List.mem_append.1 he with he | he
  · exact hl e he
  · exact hl' e he

/-- everything of one PE can be performed -/
theorem settle_pe {S : Sys} {q : Nat} (hq : q < S.npes) : ∀ (n : Nat) {g : G}, (g.busy q).length + ((g.fly q).map fun x => x.todo.length).sum = n →
    NoFault S g → ∃ l g', Run S g l g' ∧ (∀ e ∈ l, e.isPerf) ∧ g'.busy q = [] ∧ (∀ x ∈ g'.fly q, x.todo = []) ∧
      (∀ p, p ≠ q → g'.busy p = g.busy p ∧ g'.fly p = g.fly p) ∧ g'.pe = g.pe ∧ g'.arr = g.arr ∧ g'.lv = g.lv := by
  intro n
  induction n with
  | zero =>
    intro g hn _
    refine ⟨[], g, Run.nil _, (fun e he => by cases he), List.eq_nil_of_length_eq_zero (by omega), ?_, fun _ _ => ⟨rfl, rfl⟩, rfl, rfl, rfl⟩
    intro x hx
    have h0 : ((g.fly q).map fun x => x.todo.length).sum = 0 := by omega
    rw [List.sum_eq_zero_iff] at h0
    exact List.eq_nil_of_length_eq_zero (h0 _ (List.mem_map.2 ⟨x, hx, rfl⟩))
  | succ n ih =>
    intro g hn hf
    have next : ∀ {a : Atom} {r : Nat} {g1 : G}, Step S g (.done q a r) g1 → (g1.busy q).length + ((g1.fly q).map fun x => x.todo.length).sum = n →
        (∀ p, p ≠ q → g1.busy p = g.busy p ∧ g1.fly p = g.fly p) → g1.pe = g.pe → g1.arr = g.arr → g1.lv = g.lv →
        ∃ l g', Run S g l g' ∧ (∀ e ∈ l, e.isPerf) ∧ g'.busy q = [] ∧ (∀ x ∈ g'.fly q, x.todo = []) ∧
          (∀ p, p ≠ q → g'.busy p = g.busy p ∧ g'.fly p = g.fly p) ∧ g'.pe = g.pe ∧ g'.arr = g.arr ∧ g'.lv = g.lv := by
      intro a r g1 s hn1 ho h1 h2 h3
      have r1 : Run S g [.done q a r] g1 := Run.cons s (Run.nil _)
      obtain ⟨l, g', r', a1, a2, a3, a4, a5, a6, a7⟩ := ih hn1 (noFault_run hf r1 (fun e he => by rw [List.mem_singleton.1 he]; exact trivial))
      refine ⟨_, g', Run.cons s r', ?_, a2, a3, ?_, by rw [a5, h1], by rw [a6, h2], by rw [a7, h3]⟩
      · intro e he
        rcases List.mem_cons.1 he with rfl | he
        · exact trivial
        · exact a1 e he
      · intro p hp
        rw [(a4 p hp).1, (a4 p hp).2]
        exact ho p hp
    cases hb : g.busy q with
    | cons a t =>
      obtain ⟨m', e⟩ := hf [] g (Run.nil _) (fun e he => by cases he) a ⟨q, none, Or.inr ⟨rfl, by rw [hb]; simp⟩⟩
      refine next (Step.performBusy q [] t a m' hq hb e) ?_ ?_ rfl rfl rfl
      · rw [hb, List.length_cons] at hn
        simp only [Function.update_self, List.nil_append]
        omega
      · intro p hp
        exact ⟨by simp only [upd_at, if_neg hp], rfl⟩
    | nil =>
      rw [hb, List.length_nil, Nat.zero_add] at hn
      have : ∃ x ∈ g.fly q, x.todo ≠ [] := by
        by_contra hcon
        push Not at hcon
        have h0 : ((g.fly q).map fun x => x.todo.length).sum = 0 := by
          rw [List.sum_eq_zero_iff]
          intro k hk
          obtain ⟨x, hx, rfl⟩ := List.mem_map.1 hk
          rw [hcon x hx]; rfl
        omega
      obtain ⟨x, hx, hne⟩ := this
      obtain ⟨l1, l2, hl⟩ := List.append_of_mem hx
      obtain ⟨pd, todo⟩ := x
      cases todo with
      | nil => exact absurd rfl hne
      | cons a t =>
        obtain ⟨m', e⟩ := hf [] g (Run.nil _) (fun e he => by cases he) a ⟨q, some pd, Or.inl ⟨_, hx, rfl, by simp⟩⟩
        refine next (Step.perform q l1 l2 pd [] t a m' hq hl e) ?_ ?_ rfl rfl rfl
        · rw [hl] at hn
          simp only [Function.update_self, List.nil_append, hb, List.length_nil, List.map_append, List.map_cons, List.sum_append, List.sum_cons,
            List.length_cons] at hn ⊢
          omega
        · intro p hp
          exact ⟨rfl, by simp only [upd_at, if_neg hp]⟩

theorem settle_pes {S : Sys} {g : G} (hf : NoFault S g) : ∀ n ≤ S.npes, ∃ l g', Run S g l g' ∧ (∀ e ∈ l, e.isPerf) ∧
    (∀ q < n, g'.busy q = [] ∧ ∀ x ∈ g'.fly q, x.todo = []) ∧ g'.pe = g.pe ∧ g'.arr = g.arr ∧ g'.lv = g.lv := by
  intro n
  induction n with
  | zero => exact fun _ => ⟨[], g, Run.nil _, (fun e he => by cases he), (fun q hq => by omega), rfl, rfl, rfl⟩
  | succ n ih =>
    intro hn
    obtain ⟨l, g1, r, h1, h2, h3, h4, h5⟩ := ih (by omega)
    obtain ⟨l', g2, r', k1, k2, k3, k4, k5, k6, k7⟩ := settle_pe (q := n) (by omega) _ rfl (noFault_run hf r h1)
    refine ⟨_, g2, run_append r r', ?_, ?_, by rw [k5, h3], by rw [k6, h4], by rw [k7, h5]⟩
    · intro e he
      rcases List.mem_append.1 he with he | he
      · exact h1 e he
      · exact k1 e he
    · intro q hq
      by_cases hqn : q = n
      · subst hqn; exact ⟨k2, k3⟩
      · rw [(k4 q hqn).1, (k4 q hqn).2]
        exact h2 q (by omega)

/-- **C94** (everything gets performed): from every state of every execution without a faulting AMO, the accesses in flight can be performed,
all of them; no PE's calls and barriers are touched by this -/
theorem C94_settles {S : Sys} {g : G} (hr : Reach S g) (hf : NoFault S g) : ∃ l g', Run S g l g' ∧ (∀ e ∈ l, e.isPerf) ∧ Settled g' ∧
    g'.pe = g.pe ∧ g'.arr = g.arr ∧ g'.lv = g.lv := by
  obtain ⟨l, g', r, h1, h2, h3, h4, h5⟩ := settle_pes hf S.npes (Nat.le_refl _)
  refine ⟨l, g', r, h1, ?_, h3, h4, h5⟩
  have hi := gi_reach (reach_run hr r)
  rintro a ⟨q, own, ha⟩
  by_cases hq : q < S.npes
  · rcases ha with ⟨x, hx, _, ha⟩ | ⟨_, ha⟩
    · rw [(h2 q hq).2 x hx] at ha; cases ha
    · rw [(h2 q hq).1] at ha; cases ha
  · obtain ⟨e1, e2⟩ := hi.pes q (by omega)
    rcases ha with ⟨x, hx, _, ha⟩ | ⟨_, ha⟩
    · rw [e1] at hx; cases hx
    · rw [e2] at ha; cases ha

theorem settled_done {g : G} (h : Settled g) (p : Nat) (s' : St) : Done (g.fly p) s' := by
  intro x hx _
  cases ht : x.todo with
  | nil => rfl
  | cons a t => exact absurd ⟨p, some x.pend, Or.inl ⟨x, hx, rfl, by rw [ht]; simp⟩⟩ (h a)

theorem settled_busy {g : G} (h : Settled g) (p : Nat) : g.busy p = [] := by
  cases ht : g.busy p with
  | nil => rfl
  | cons a t => exact absurd ⟨p, none, Or.inr ⟨rfl, by rw [ht]; simp⟩⟩ (h a)

/-- **C94** (calls return): a PE that is not in a barrier gets out of the call it is in, and a quiet or fence it calls then returns; spaces
as in C56 -/
theorem C94_quiet_partial {S : Sys} {g : G} (hr : Reach S g) (hf : NoFault S g) {p : Nat} (hp : p < S.npes) (hb : g.arr p = g.lv p)
    (hs : ∀ x ∈ (g.pe p).spaces, x.att = true ∨
      (x.nctx = 0 ∧ ((S.cf p).dyn = true ∨ ((S.cf p).tracking = true ∧ x.dflt.flag = false)))) {op : Op} (ho : op = .quiet none ∨ op = .fence none) :
    ∃ l g1 g2, Run S g l g1 ∧ (∀ e ∈ l, e.isPerf) ∧ Step S g1 (.call p op) g2 ∧ Settled g2 ∧ g2.arr = g.arr ∧ g2.lv = g.lv ∧
      ∀ q, q ≠ p → g2.pe q = g.pe q := by
  obtain ⟨l, g1, r, h1, h2, h3, h4, h5⟩ := C94_settles hr hf
  have hh := hist_reach (reach_run hr r) p
  have e : ∃ s', Order.step (S.cf p) (g1.pe p) op = .ok s' := by
    obtain ⟨s', e⟩ := Order.C56_quiet_partial hh (by rw [h3]; exact hs)
    rcases ho with rfl | rfl
    · exact ⟨s', e⟩
    · exact ⟨s', e⟩
  obtain ⟨s', e⟩ := e
  refine ⟨l, g1, _, r, h1, Step.call p op s' ⟨hp, by rw [h4, h5]; exact hb, settled_busy h2 p⟩ ?_ ?_ e (settled_done h2 p s'), ?_,
    h4, h5, fun q hq => (Function.update_of_ne hq _ _).trans (congrFun h3 q)⟩
  · rcases ho with rfl | rfl <;> exact trivial
  · rintro _ _ _ _ _ _ h
    rcases ho with rfl | rfl <;> cases h
  · rintro a ⟨q, own, ha⟩
    rcases at_after ha with ha | ⟨_, _, ha⟩
    · exact h2 a ⟨q, own, ha⟩
    · cases ha

/-- **C94** (calls can be made): the library's windows exist in every state, so every RMA and AMO call of a PE on an address of its heap or data
segment, on the default context, to a PE of the job, of whatever length, is accepted -/
theorem C94_issue {S : Sys} {g : G} (hr : Reach S g) (p : Nat) {addr : BitVec 64}
    (ha : inRange (S.cf p).heap addr = true ∨ inRange (S.cf p).data addr = true) (n : Nat) {tgt : Nat} (ht : tgt < S.npes) (k : Order.Kind)
    (gpu : Bool) : ∃ s', Order.step (S.cf p) (g.pe p) (.issue none addr n tgt k gpu) = .ok s' := by
  have hw := Order.hist_wins (hist_reach hr p)
  show ∃ s', Order.issue (S.cf p) (g.pe p) none addr n tgt k gpu = .ok s'
  unfold Order.issue
  split
  · exact ⟨_, rfl⟩
  · rw [if_neg (by rw [S.hn]; omega)]
    have hq : ∃ r, query ((S.cf p).proc (g.pe p)) addr = some r ∧ (r.1 = .heap ∨ r.1 = .data) := by
      unfold query
      split
      · exact ⟨_, rfl, Or.inl rfl⟩
      · rename_i h
        rcases ha with ha | ha
        · exact absurd ha h
        · rw [if_pos (show inRange ((S.cf p).proc (g.pe p)).data addr = true from ha)]
          exact ⟨_, rfl, Or.inr rfl⟩
    obtain ⟨r, hq, hr'⟩ := hq
    have hl : Order.lookup (S.cf p) (g.pe p) none addr = .ok ((S.cf p).slot r.1, r.1) := by
      unfold Order.lookup
      dsimp only
      rw [hq]
    rw [hl, Res.bind_ok]
    split
    · have hh : Order.Has (g.pe p) ((S.cf p).slot r.1) := by
        rcases hr' with h | h <;> rw [h] <;> unfold Order.Cfg.slot <;> dsimp only <;> split
        · exact hw.symm
        · exact hw.heap
        · exact hw.symm
        · exact hw.data
      obtain ⟨y, w, h1, h2⟩ := hh
      unfold Order.issueDirect
      dsimp only
      rw [h1, Option.bind_some, h2]
      exact ⟨_, rfl⟩
    · exact ⟨_, rfl⟩

/-- the distance to `N` barriers -/
def dist (S : Sys) (N : Nat) (g : G) : Nat := ∑ q ∈ Finset.range S.npes, ((N - g.arr q) + (N - g.lv q))

theorem dist_lt {S : Sys} {N : Nat} {g g' : G} {p : Nat} (hp : p < S.npes) (ha : ∀ q, g.arr q ≤ g'.arr q) (hl : ∀ q, g.lv q ≤ g'.lv q)
    (h : (g.arr p < g'.arr p ∧ g.arr p < N) ∨ (g.lv p < g'.lv p ∧ g.lv p < N)) : dist S N g' < dist S N g := by
  unfold dist
  refine Finset.sum_lt_sum (fun q _ => ?_) ⟨p, Finset.mem_range.2 hp, ?_⟩
  · have := ha q
    have := hl q
    omega
  · have := ha p
    have := hl p
    rcases h with ⟨_, _⟩ | ⟨_, _⟩ <;> omega

theorem through {S : Sys} {N : Nat} : ∀ (n : Nat) {g : G}, dist S N g = n → Reach S g → Settled g → (∀ p < S.npes, g.arr p ≤ N) →
    ∃ l g', Run S g l g' ∧ (∀ e ∈ l, e.isSync) ∧ Settled g' ∧ (∀ p < S.npes, g'.arr p = N ∧ g'.lv p = N) := by
  intro n
  induction n using Nat.strong_induction_on with
  | _ n ih =>
    intro g hn hr hs hN
    have hi := gi_reach hr
    by_cases hall : ∀ p < S.npes, g.arr p = N ∧ g.lv p = N
    · exact ⟨[], g, Run.nil _, (fun e he => by cases he), hs, hall⟩
    · -- a PE that has left the fewest barriers
      have next : ∀ {e : Ev} {g1 : G}, Step S g e g1 → e.isSync → dist S N g1 < n → Settled g1 → (∀ p < S.npes, g1.arr p ≤ N) →
          ∃ l g', Run S g l g' ∧ (∀ e ∈ l, e.isSync) ∧ Settled g' ∧ (∀ p < S.npes, g'.arr p = N ∧ g'.lv p = N) := by
        intro e g1 s he hd h1 h2
        obtain ⟨l, g', r, a1, a2, a3⟩ := ih _ hd rfl (reach_run hr (Run.cons s (Run.nil _))) h1 h2
        refine ⟨_, g', Run.cons s r, ?_, a2, a3⟩
        intro e' he'
        rcases List.mem_cons.1 he' with rfl | he'
        · exact he
        · exact a1 e' he'
      have hpos : 0 < S.npes := by
        rcases Nat.eq_zero_or_pos S.npes with h | h
        · exact absurd (fun p hp => by omega) hall
        · exact h
      obtain ⟨p, hp, hmin⟩ := Finset.exists_min_image (Finset.range S.npes) g.lv ⟨0, Finset.mem_range.2 hpos⟩
      have hp := Finset.mem_range.1 hp
      have hmin : ∀ q < S.npes, g.lv p ≤ g.lv q := fun q hq => hmin q (Finset.mem_range.2 hq)
      have hlt : g.lv p < N := by
        by_contra hcon
        refine hall fun q hq => ?_
        have h1 := hmin q hq
        have h2 := hi.lv q hq q hq
        have h3 := hN q hq
        omega
      by_cases hq : ∃ q < S.npes, g.arr q ≤ g.lv p
      · obtain ⟨q, hqn, hqa⟩ := hq
        have h1 := hmin q hqn
        have h2 := hi.lv q hqn q hqn
        obtain ⟨s', e⟩ := Order.C56_barrier (hist_reach hr q) (List.range S.npes)
        refine next (Step.enter q s' ⟨hqn, by omega, settled_busy hs q⟩ e (settled_done hs q s')) trivial ?_ ?_ ?_
        · rw [← hn]
          refine dist_lt hqn (fun r => ?_) (fun r => Nat.le_refl _) (Or.inl ⟨?_, by omega⟩)
          · simp only [upd_at]
            split
            · rename_i h; subst h; omega
            · exact Nat.le_refl _
          · simp only [Function.update_self]; omega
        · rintro a ⟨r, own, ha⟩
          have ha : At (after g q s' []) a r own := ha
          rcases at_after ha with ha | ⟨_, _, ha⟩
          · exact hs a ⟨r, own, ha⟩
          · cases ha
        · intro r hr'
          simp only [upd_at]
          split
          · rename_i h; subst h; omega
          · exact hN r hr'
      · push Not at hq
        refine next (Step.leave p hp (hq p hp) hq) trivial ?_ hs hN
        rw [← hn]
        refine dist_lt hp (fun r => Nat.le_refl _) (fun r => ?_) (Or.inr ⟨?_, hlt⟩)
        · simp only [upd_at]
          split
          · rename_i h; subst h; omega
          · exact Nat.le_refl _
        · simp only [Function.update_self]; omega

/-- **C94** (barriers complete): from every state of every execution without a faulting AMO, whatever is in flight and whichever PEs are in a
barrier already, if nobody has entered more than `N` barriers, there is a continuation in which the PEs do nothing but enter and leave
barriers, and at the end of which all have entered and left exactly `N`, and nothing is in flight -/
theorem C94_barrier {S : Sys} {g : G} (hr : Reach S g) (hf : NoFault S g) {N : Nat} (hN : ∀ p < S.npes, g.arr p ≤ N) :
    ∃ l g', Run S g l g' ∧ (∀ e ∈ l, e.isSync) ∧ Settled g' ∧ ∀ p < S.npes, g'.arr p = N ∧ g'.lv p = N := by
  obtain ⟨l, g1, r, h1, h2, h3, h4, h5⟩ := C94_settles hr hf
  obtain ⟨l', g', r', k1, k2, k3⟩ := through _ rfl (reach_run hr r) h2 (fun p hp => by rw [h4]; exact hN p hp)
  refine ⟨_, g', run_append r r', ?_, k2, k3⟩
  intro e he
  rcases List.mem_append.1 he with he | he
  · have := h1 e he
    cases e <;> first | exact trivial | cases this
  · exact k1 e he

/-- AMOs by active message: PE 0 has added 5 to an `unsigned int` of PE 1 and the message is in flight -/
theorem ex_amo : ∃ g1, Step (exS false) (ginit exM) (.amo 0 1 none 0x10018#64 (0x20018#64).toInt .uint (.add 5) 0) g1 ∧
    Flies g1 (.upd 1 (0x20018#64).toInt .uint (.add 5) true) ∧ (g1.pe 0).spaces = [] ∧ ∀ p, g1.arr p = 0 ∧ g1.lv p = 0 := by
  have st := Step.amo (S := exS false) (g := ginit exM) 0 1 none 0x10018#64 0x20018#64 .uint (.add 5) true .rel
    { Order.init.push ⟨.am, 1, none, .heap, 0⟩ with amFlag := fun q => if q = 1 then true else false } ⟨Nat.zero_lt_succ _, rfl, rfl⟩
    (fun h => by cases h) (by decide) rfl rfl (by decide +kernel) (done_nil rfl)
  exact ⟨_, st, ⟨0, some ⟨.am, 1, none, .heap, 0⟩, Or.inl ⟨⟨_, [.upd 1 (0x20018#64).toInt .uint (.add 5) true]⟩,
    List.mem_singleton.2 rfl, rfl, List.mem_singleton.2 rfl⟩⟩, rfl, fun p => ⟨rfl, rfl⟩⟩

/-- hypotheses of C94 met with something in flight: quiet returns, three barriers complete -/
example : ∃ g, ¬ Settled g ∧ (∃ l g1 g2, Run (exS false) g l g1 ∧ Step (exS false) g1 (.call 0 (.quiet none)) g2 ∧ Settled g2) ∧
    ∃ l g', Run (exS false) g l g' ∧ (∀ e ∈ l, e.isSync) ∧ Settled g' ∧ g'.lv 0 = 3 ∧ g'.lv 1 = 3 := by
  obtain ⟨g1, st, hfl, hsp, hal⟩ := ex_amo
  have hr : Reach (exS false) g1 := ⟨exM, _, Run.cons st (Run.nil _)⟩
  have hf : NoFault (exS false) g1 := noFault_safe (Run.cons st (Run.nil _)) (by
    intro e he
    rw [List.mem_singleton.1 he]
    exact Or.inr (Or.inl (by decide)))
  refine ⟨g1, fun h => h _ hfl, ?_, ?_⟩
  · obtain ⟨l, g2, g3, a, _, b, c, _⟩ := C94_quiet_partial hr hf (p := 0) (by decide) ((hal 0).1.trans (hal 0).2.symm)
      (fun x hx => by rw [hsp] at hx; cases hx) (Or.inl rfl)
    exact ⟨l, g2, g3, a, b, c⟩
  · obtain ⟨l, g', a, b, c, d⟩ := C94_barrier hr hf (N := 3) (fun p _ => by rw [(hal p).1]; omega)
    exact ⟨l, g', a, b, c, (d 0 (by decide)).2, (d 1 (by decide)).2⟩

end Verif.Vis
