import Verif.Mix.Props
import Verif.Crit.Exists
/-!
# C111: programs with locks and barriers can be run
-/
namespace Verif.Crit.Mix
open Verif.Rma Verif.Lock

/-- The library accepts the calls of the program, as `Crit.Accepts` (rma_impl.h L107-243). -/
def Accepts (T : Sys) (P : Prog) : Prop := ∀ p < T.lk.n, ∀ f, .data f ∈ P p → ∀ m g, Vis.Reach T.vis g → (∀ q, (g.pe q).spaces = []) →
  Vis.Free T.vis g p → ∃ e g', (f m).Does p e ∧ Vis.Step T.vis (g.clear p) e g'

/-- The same, and the operations of the actions `cov` can be ones that a barrier completes (C114). -/
def AcceptsC (T : Sys) (P : Prog) (cov : Nat → Nat → Prop) : Prop := ∀ p < T.lk.n, ∀ (i : Nat) (f : IMem → Call), (P p)[i]? = some (.data f) → ∀ m g,
  Vis.Reach T.vis g → (∀ q, (g.pe q).spaces = []) → Vis.Free T.vis g p →
  ∃ e g', (f m).Does p e ∧ Vis.Step T.vis (g.clear p) e g' ∧ (cov p i → EvCov T.vis e)

theorem Accepts.toC {T : Sys} {P : Prog} (hA : Accepts T P) : AcceptsC T P (fun _ _ => False) := by
  intro p hp i f hf m g h1 h2 h3
  obtain ⟨e, g', h4, h5⟩ := hA p hp f (List.mem_of_getElem? hf) m g h1 h2 h3
  exact ⟨e, g', h4, h5, fun h => h.elim⟩

/-- All PEs call `shmem_barrier_all` (coll_impl.h L12-32) equally often, and hold no lock then, nor at the end. -/
structure Balanced (n : Nat) (P : Prog) : Prop where
  same : ∀ p < n, ∀ q < n, epoch (P p) (P p).length = epoch (P q) (P q).length
  bars : ∀ p < n, ∀ i, (P p)[i]? = some .bar → ∀ l, ¬ Holds (P p) i l
  all : ∀ p < n, ∀ l, ¬ Holds (P p) (P p).length l

section
variable {T : Sys} {P : Prog} {cov : Nat → Nat → Prop}

/-- nothing is in flight after an execution of the program, and no PE is in a barrier -/
structure Got (T : Sys) (P : Prog) (cov : Nat → Nat → Prop) (x0 : PX) (m : Mems) (x : PX) : Prop where
  run : ∃ l, CRun T P cov x0 l x
  steps : ∃ l, Vis.Run T.vis (Vis.ginit m) l x.x.g ∧ ∀ e ∈ l, e.Safe T.vis
  settled : Vis.Settled x.x.g
  spaces : ∀ q, (x.x.g.pe q).spaces = []
  out : ∀ q < T.lk.n, x.x.g.arr q = x.x.g.lv q

theorem Got.reach {x0 x : PX} {m : Mems} (h : Got T P cov x0 m x) : Vis.Reach T.vis x.x.g := by
  obtain ⟨l, r, _⟩ := h.steps
  exact ⟨_, _, r⟩

theorem Got.free {x0 x : PX} {m : Mems} (h : Got T P cov x0 m x) {p : Nat} (hp : p < T.lk.n) : Vis.Free T.vis x.x.g p :=
  ⟨by rw [← T.hn]; exact hp, h.out p hp, Vis.settled_busy h.settled p⟩

theorem Got.wexec {x0 x : PX} {m : Mems} (h : Got T P cov x0 m x) (hP : Proper T P) (h0 : Start T x0.x) :
    ∃ wtr, WExec T.lk x.x.words wtr := by
  obtain ⟨l', r⟩ := h.run
  obtain ⟨tr, hr, hre⟩ := r.run.run hP
  exact (proj h0 hr hre).1

theorem Got.snoc_lock {x0 x y : PX} {m : Mems} (h : Got T P cov x0 m x) {k p : Nat} {a : Act} {evs : List Lock.Ev}
    {ws : List (Nat × Int × BitVec 8)} (s : PStep T P x (.lock k p a evs) y) (hv : Vis.Step T.vis x.x.g (.touch p ws) y.x.g) {mm : Mems}
    (hg : y.x.g = { x.x.g with mem := mm }) : Got T P cov x0 m y := by
  obtain ⟨l, r⟩ := h.run
  obtain ⟨l1, r1, s1⟩ := h.steps
  refine ⟨⟨_, r.snoc s fun _ h => by cases h⟩, ⟨_, Vis.run_append r1 (Vis.Run.cons hv (Vis.Run.nil _)), ?_⟩, ?_, ?_, ?_⟩
  · intro e he
    rcases List.mem_append.1 he with he | he
    · exact s1 e he
    · rw [List.mem_singleton.1 he]; exact trivial
  · rw [hg]; exact h.settled
  · rw [hg]; exact h.spaces
  · rw [hg]; exact h.out

theorem perf_run {x0 : PX} {g g' : Vis.G} {l' : List Vis.Ev} (h : Vis.Run T.vis g l' g') : ∀ {l : List Ev} {pc : Nat → Nat → PC}
    {pos : Nat → Nat}, (∀ e ∈ l', e.isPerf) → CRun T P cov x0 l ⟨⟨g, pc⟩, pos⟩ → ∃ l2, CRun T P cov x0 l2 ⟨⟨g', pc⟩, pos⟩ := by
  induction h with
  | nil g => intro l pc pos _ r; exact ⟨_, r⟩
  | @cons g g1 g2 e l1 s r ih =>
    intro l pc pos hl h
    have hpe := hl e (List.mem_cons_self ..)
    have ho : e.own = none := by cases e <;> first | exact (hpe : False).elim | rfl
    have hc : caller e = none := by cases e <;> first | exact (hpe : False).elim | rfl
    have hlv : ∀ q, e ≠ .leave q := by rintro q rfl; exact (hpe : False).elim
    exact ih (fun e he => hl e (List.mem_cons_of_mem _ he)) (h.snoc (.lib ho hlv (Step.rma (x := ⟨g, pc⟩) s (fun p h => by rw [hc] at h; cases h)))
      fun e' he' p hp => by cases he'; rw [ho] at hp; cases hp)

/-- an own call of `Vis`, and everything it has left in flight -/
theorem Got.own {x0 x : PX} {m : Mems} (h : Got T P cov x0 m x) {e : Vis.Ev} {g1 : Vis.G} {pos' : Nat → Nat}
    (s : PStep T P x (.rma e) ⟨⟨g1, x.x.pc⟩, pos'⟩) (st : Vis.Step T.vis x.x.g e g1) (hsafe : e.Safe T.vis)
    (hcall : ∀ p op, e = .call p op → op = .quiet none ∨ op = .fence none) (hen : ∀ q, e ≠ .enter q ∧ e ≠ .leave q)
    (hcv : ∀ p, e.own = some p → cov p (x.pos p) → EvCov T.vis e) :
    ∃ x', Got T P cov x0 m x' ∧ x'.pos = pos' ∧ x'.x.pc = x.x.pc := by
  obtain ⟨l, r⟩ := h.run
  obtain ⟨l1, r0, s1⟩ := h.steps
  have r1 := Vis.run_append r0 (Vis.Run.cons st (Vis.Run.nil _))
  have hsf : ∀ e' ∈ l1 ++ [e], e'.Safe T.vis := by
    intro e' he
    rcases List.mem_append.1 he with he | he
    · exact s1 e' he
    · rw [List.mem_singleton.1 he]; exact hsafe
  have hsp := Bsp.nospaces_step st hcall h.spaces
  obtain ⟨l2, g2, r2, h1, h2, h3, h4, h5⟩ := Vis.C94_settles ⟨_, _, r1⟩ (Vis.noFault_safe r1 hsf)
  refine ⟨⟨⟨g2, x.x.pc⟩, pos'⟩, ⟨perf_run r2 h1 (r.snoc s fun e' he' => by cases he'; exact hcv), ⟨_, Vis.run_append r1 r2, ?_⟩, h2, ?_, ?_⟩, rfl, rfl⟩
  · intro e' he
    rcases List.mem_append.1 he with he | he
    · exact hsf e' he
    · exact Vis.perf_safe (h1 e' he)
  · intro q; dsimp only; rw [h3]; exact hsp q
  · intro q hq
    show g2.arr q = g2.lv q
    rw [h4, h5, Bsp.arr_step st (fun q => (hen q).1), lv_keep st (fun q => (hen q).2)]
    exact h.out q hq

/-- `shmem_set_lock` of a lock nobody uses -/
theorem Got.set (wf : T.lk.WF) (un : T.lk.Uniform) (hP : Proper T P) {x0 x : PX} {m : Mems} (h0 : Start T x0.x)
    (h : Got T P cov x0 m x) (hfree : ∀ q, T.lk.free x.x.words q = true) {p k : Nat} (hp : p < T.lk.n) (hk : k < T.lk.m)
    (ha : (P p)[x.pos p]? = some (.set k)) (hi : ∀ r < T.lk.n, x.x.pc k r = .idle) :
    ∃ x', Got T P cov x0 m x' ∧ (∀ q, T.lk.free x'.x.words q = true) ∧ x'.pos = Function.update x.pos p (x.pos p + 1) ∧
      ∀ q, q ≠ p → ∀ k, x'.x.pc k q = x.x.pc k q := by
  obtain ⟨wtr, hw⟩ := h.wexec hP h0
  obtain ⟨q, hinv, _⟩ := exec_inv wf.max (wexec_view wf un hw k hk)
  have hz : (T.lk.view x.x.words k).last = 0 := last_zero hinv hi
  have hpc : (T.lk.view x.x.words k).pc p = .idle := hi p hp
  -- the call
  obtain ⟨y1, ws1, s1, v1, e1, p1, ⟨_, w1⟩, mm1, g1⟩ := lock_go wf un hw hk (h.free hp)
    (by simp only [Lock.step, hpc, if_true]; rfl : Lock.step (T.lk.view x.x.words k) p .callSet = some (_, _)) (Or.inr (hfree p))
  have G1 := h.snoc_lock (y := ⟨y1, Function.update x.pos p (x.pos p + 1)⟩) (.set p k ha s1) v1 g1
  -- `lock->next = 0`
  have hpc1 : (T.lk.view y1.words k).pc p = .setReset := by rw [e1]; exact upd_same ..
  obtain ⟨y2, ws2, s2, v2, e2, p2, ⟨_, w2⟩, mm2, g2⟩ := lock_go wf un w1 hk (G1.free hp)
    (by simp only [Lock.step, hpc1]; rfl : Lock.step (T.lk.view y1.words k) p .run = some (_, _)) (Or.inl rfl)
  have G2 := G1.snoc_lock (y := ⟨y2, Function.update x.pos p (x.pos p + 1)⟩) (.run p k s2) v2 g2
  -- the swap
  have hpc2 : (T.lk.view y2.words k).pc p = .setSwap := by rw [e2]; exact upd_same ..
  have hz2 : (T.lk.view y2.words k).last = 0 := by rw [e2]; show (T.lk.view y1.words k).last = 0; rw [e1]; exact hz
  obtain ⟨y3, ws3, s3, v3, e3, p3, ⟨_, w3⟩, mm3, g3⟩ := lock_go wf un w2 hk (G2.free hp)
    (by simp only [Lock.step, hpc2, hz2]; rw [if_neg (by simp)] : Lock.step (T.lk.view y2.words k) p .run = some (_, _)) (Or.inl rfl)
  have G3 := G2.snoc_lock (y := ⟨y3, Function.update x.pos p (x.pos p + 1)⟩) (.run p k s3) v3 g3
  have hpc3 : y3.pc k p = .held := by
    have : (T.lk.view y3.words k).pc p = .held := by rw [e3]; exact upd_same ..
    exact this
  have hoth : ∀ k' r, ¬ (k' = k ∧ r = p) → y3.pc k' r = x.x.pc k' r := fun k' r hn => by rw [p3 k' r hn, p2 k' r hn, p1 k' r hn]
  refine ⟨_, G3, ?_, rfl, fun q hq k' => hoth k' q (fun e => hq e.2)⟩
  intro q
  refine free_iff.2 fun k' hk' => ?_
  show (y3.pc k' q).rest = true
  by_cases e : k' = k ∧ q = p
  · rw [e.1, e.2, hpc3]; rfl
  · rw [hoth k' q e]; exact free_iff.1 (hfree q) k' hk'

/-- `shmem_clear_lock` when nobody else wants the lock -/
theorem Got.clear (wf : T.lk.WF) (un : T.lk.Uniform) (hP : Proper T P) {x0 x : PX} {m : Mems} (h0 : Start T x0.x)
    (h : Got T P cov x0 m x) (hfree : ∀ q, T.lk.free x.x.words q = true) {p k : Nat} (hp : p < T.lk.n) (hk : k < T.lk.m)
    (ha : (P p)[x.pos p]? = some (.clear k)) (hh : x.x.pc k p = .held) (hi : ∀ r < T.lk.n, r ≠ p → x.x.pc k r = .idle) :
    ∃ x', Got T P cov x0 m x' ∧ (∀ q, T.lk.free x'.x.words q = true) ∧ x'.pos = Function.update x.pos p (x.pos p + 1) ∧
      ∀ q, q ≠ p → ∀ k, x'.x.pc k q = x.x.pc k q := by
  obtain ⟨wtr, hw⟩ := h.wexec hP h0
  obtain ⟨q, hinv, _⟩ := exec_inv wf.max (wexec_view wf un hw k hk)
  have hz : (T.lk.view x.x.words k).last = myid p := last_mine hinv hh hi
  have hpc : (T.lk.view x.x.words k).pc p = .held := hh
  obtain ⟨y1, ws1, s1, v1, e1, p1, ⟨_, w1⟩, mm1, g1⟩ := lock_go wf un hw hk (h.free hp)
    (by simp only [Lock.step, hpc, if_true]; rfl : Lock.step (T.lk.view x.x.words k) p .callClear = some (_, _)) (Or.inr (hfree p))
  have G1 := h.snoc_lock (y := ⟨y1, Function.update x.pos p (x.pos p + 1)⟩) (.clear p k ha s1) v1 g1
  have hpc1 : (T.lk.view y1.words k).pc p = .clrCas := by rw [e1]; exact upd_same ..
  have hz1 : (T.lk.view y1.words k).last = myid p := by rw [e1]; exact hz
  obtain ⟨y3, ws3, s3, v3, e3, p3, ⟨_, w3⟩, mm3, g3⟩ := lock_go wf un w1 hk (G1.free hp)
    (by simp only [Lock.step, hpc1, hz1]; rw [if_neg (by simp)] : Lock.step (T.lk.view y1.words k) p .run = some (_, _)) (Or.inl rfl)
  have G3 := G1.snoc_lock (y := ⟨y3, Function.update x.pos p (x.pos p + 1)⟩) (.run p k s3) v3 g3
  have hpc3 : y3.pc k p = .idle := by
    have : (T.lk.view y3.words k).pc p = .idle := by rw [e3]; exact upd_same ..
    exact this
  have hoth : ∀ k' r, ¬ (k' = k ∧ r = p) → y3.pc k' r = x.x.pc k' r := fun k' r hn => by rw [p3 k' r hn, p1 k' r hn]
  refine ⟨_, G3, ?_, rfl, fun q hq k' => hoth k' q (fun e => hq e.2)⟩
  intro q
  refine free_iff.2 fun k' hk' => ?_
  show (y3.pc k' q).rest = true
  by_cases e : k' = k ∧ q = p
  · rw [e.1, e.2, hpc3]; rfl
  · rw [hoth k' q e]; exact free_iff.1 (hfree q) k' hk'

/-- one action of a PE while the others hold no lock -/
theorem Got.act (wf : T.lk.WF) (un : T.lk.Uniform) (hP : Proper T P) (hA : AcceptsC T P cov) {x0 x : PX} {m : Mems}
    (h0 : Start T x0.x) (hpos : x0.pos = fun _ => 0)
    (h : Got T P cov x0 m x) (hfree : ∀ q, T.lk.free x.x.words q = true) {p : Nat} (hp : p < T.lk.n) (hlt : x.pos p < (P p).length) (hnb : (P p)[x.pos p]? ≠ some .bar)
    (hi : ∀ r < T.lk.n, r ≠ p → ∀ k < T.lk.m, x.x.pc k r = .idle) :
    ∃ x', Got T P cov x0 m x' ∧ (∀ q, T.lk.free x'.x.words q = true) ∧ x'.pos = Function.update x.pos p (x.pos p + 1) ∧
      ∀ q, q ≠ p → ∀ k, x'.x.pc k q = x.x.pc k q := by
  obtain ⟨l1, r⟩ := h.run
  have inv := pcInv_run r.run (pcInv_init h0 hpos)
  obtain ⟨a, ha⟩ : ∃ a, (P p)[x.pos p]? = some a := ⟨_, List.getElem?_eq_getElem hlt⟩
  have hrest := fun k (hk : k < T.lk.m) => inv.rest p hp k hk (free_iff.1 (hfree p) k hk)
  cases a with
  | bar => exact absurd ha hnb
  | set k =>
    obtain ⟨hk, ho⟩ := hP.sets p hp _ k ha
    refine h.set wf un hP h0 hfree hp hk ha fun r hr => ?_
    by_cases hrp : r = p
    · subst hrp
      rcases rest_cases (free_iff.1 (hfree r) k hk) with h' | h'
      · exact h'
      · exact absurd ((hrest k hk).1 h') ho
    · exact hi r hr hrp k hk
  | clear k =>
    have hh := hP.clears p hp _ k ha
    obtain ⟨j, hj, hset, _⟩ := id hh
    have hk := (hP.sets p hp j k hset).1
    exact h.clear wf un hP h0 hfree hp hk ha ((hrest k hk).2 hh) fun r hr hrp => hi r hr hrp k hk
  | quiet =>
    have hf := h.free hp
    obtain ⟨s', e⟩ := Order.C56_quiet_partial (Vis.hist_reach h.reach p) (by rw [h.spaces p]; intro x hx; cases hx)
    have st := Vis.Step.call (S := T.vis) (g := x.x.g) p (.quiet none) s' hf trivial (fun _ _ _ _ _ _ h => by cases h) e (Vis.settled_done h.settled p s')
    obtain ⟨x', h1, h2, h3⟩ := h.own (.quiet p _ ha (Or.inl rfl) (Step.rma (x := x.x) st fun q _ => hfree q)) st trivial
      (fun p op h => by cases h; exact Or.inl rfl) (fun q => ⟨(fun h => by cases h), (fun h => by cases h)⟩) (fun _ _ _ => trivial)
    refine ⟨x', h1, fun q => free_iff.2 fun k hk => ?_, h2, fun q _ k => by rw [h3]⟩
    show (x'.x.pc k q).rest = true
    rw [h3]; exact free_iff.1 (hfree q) k hk
  | data f =>
    have hf := h.free hp
    obtain ⟨e, g1, hd, hst, hcv⟩ := hA p hp _ f ha (x.x.g.mem p) x.x.g h.reach h.spaces hf
    obtain ⟨g2, st⟩ := Vis.plain_enabled (Vis.gi_reach h.reach) (does_plain hd) (does_own hd) hst hf.2.2 (by
      intro y hy hne
      cases ht : y.todo with
      | nil => exact absurd ht hne
      | cons a t => exact absurd ⟨p, some y.pend, Or.inl ⟨y, hy, rfl, by rw [ht]; simp⟩⟩ (h.settled a))
    obtain ⟨x', h1, h2, h3⟩ := h.own (.data p f ha hd (Step.rma (x := x.x) st fun q _ => hfree q)) st (does_safe hd)
      (fun q op h => by
        subst h
        cases hc : f (x.x.g.mem p) with
        | put => rw [hc] at hd; obtain ⟨_, _, _, h⟩ := hd; cases h
        | get => rw [hc] at hd; obtain ⟨_, _, _, h⟩ := hd; cases h
        | store => rw [hc] at hd; cases hd)
      (fun q => ⟨does_noenter hd q, fun h => by
        have := does_own hd
        rw [h] at this
        cases this⟩)
      (fun q hq hc => by
        rw [does_own hd] at hq
        cases hq
        exact hcv hc)
    refine ⟨x', h1, fun q => free_iff.2 fun k hk => ?_, h2, fun q _ k => by rw [h3]⟩
    show (x'.x.pc k q).rest = true
    rw [h3]; exact free_iff.1 (hfree q) k hk

/-- a PE has left as many barriers as its place says -/
theorem lv_epoch {x0 x : PX} {l : List Ev} (r : PRun T P x0 l x) (h0 : Start T x0.x) (hpos : x0.pos = fun _ => 0) :
    ∀ q < T.lk.n, x.x.g.lv q = epoch (P q) (x.pos q) := by
  induction r with
  | nil =>
    intro q _
    obtain ⟨⟨m, hm⟩, _⟩ := h0
    rw [hm, hpos]; rfl
  | @snoc x y l e r s ih =>
    have inv := pcInv_run r (pcInv_init h0 hpos)
    intro q hq
    have ih := ih q hq
    have keep : ∀ {g g' : Vis.G} {e : Vis.Ev} {pos : Nat → Nat} {p : Nat}, Vis.Step T.vis g e g' → (∀ q, e ≠ .leave q) → (P p)[pos p]? ≠ some .bar →
        g.lv q = epoch (P q) (pos q) → g'.lv q = epoch (P q) (Function.update pos p (pos p + 1) q) := by
      intro g g' e pos p st hl hb h
      rw [lv_keep st hl, h]
      by_cases hqp : q = p
      · subst hqp; rw [Function.update_self, epoch_other hb]
      · rw [Function.update_of_ne hqp]
    have keep' : ∀ {lv : Nat → Nat} {pos : Nat → Nat} {p : Nat}, (P p)[pos p]? ≠ some .bar →
        lv q = epoch (P q) (pos q) → lv q = epoch (P q) (Function.update pos p (pos p + 1) q) := by
      intro lv pos p hb h
      rw [h]
      by_cases hqp : q = p
      · subst hqp; rw [Function.update_self, epoch_other hb]
      · rw [Function.update_of_ne hqp]
    cases s with
    | lib ho hl s => cases s with | rma hs hc => exact (congrFun (lv_keep hs hl) q).trans ih
    | data p f ha hd s =>
      cases s with | rma hs hc => exact keep hs (does_noleave hd) (by rw [ha]; exact fun h => by cases h) ih
    | quiet p op ha ho s =>
      cases s with | rma hs hc => exact keep hs (fun q h => by cases h) (by rw [ha]; exact fun h => by cases h) ih
    | enter p ha s => cases s with | rma hs hc => exact (congrFun (enter_busy hs).2.2 q).trans ih
    | @leave x y pos p s =>
      cases s with
      | rma hs hc =>
        obtain ⟨e1, hp, hlt, _⟩ := leave_step hs
        subst e1
        have hbar := (inv.wait p (by rw [T.hn]; exact hp) (by dsimp only; omega)).2.1
        dsimp only at hbar ih ⊢
        by_cases hqp : q = p
        · subst hqp
          rw [Function.update_self, Function.update_self, epoch_bar hbar, ih]
        · rw [Function.update_of_ne hqp, Function.update_of_ne hqp, ih]
    | set p k ha s => cases s with | lock _ _ _ hl hf hs => exact keep' (by rw [ha]; exact fun h => by cases h) ih
    | clear p k ha s => cases s with | lock _ _ _ hl hf hs => exact keep' (by rw [ha]; exact fun h => by cases h) ih
    | run p k s => cases s with | lock _ _ _ hl hf hs => exact ih

/-- the next action is a barrier, or there is none -/
def Stops (P : Prog) (x : PX) (p : Nat) : Prop := (P p)[x.pos p]? = some .bar ∨ x.pos p = (P p).length

/-- the actions of a PE up to its next barrier -/
theorem Got.acts (wf : T.lk.WF) (un : T.lk.Uniform) (hP : Proper T P) (hA : AcceptsC T P cov) {x0 : PX} {m : Mems}
    (h0 : Start T x0.x) (hpos : x0.pos = fun _ => 0) {p : Nat} (hp : p < T.lk.n) : ∀ (n : Nat) {x : PX},
    Got T P cov x0 m x → (∀ q, T.lk.free x.x.words q = true) → x.pos p + n = (P p).length →
    (∀ r < T.lk.n, r ≠ p → ∀ k < T.lk.m, x.x.pc k r = .idle) →
    ∃ x', Got T P cov x0 m x' ∧ (∀ q, T.lk.free x'.x.words q = true) ∧ Stops P x' p ∧ epoch (P p) (x'.pos p) = epoch (P p) (x.pos p) ∧
      x'.pos p ≤ (P p).length ∧ ∀ q, q ≠ p → x'.pos q = x.pos q := by
  intro n
  induction n with
  | zero => intro x h hf he _; exact ⟨x, h, hf, Or.inr (by omega), rfl, by omega, fun _ _ => rfl⟩
  | succ n ih =>
    intro x h hf he hi
    by_cases hb : (P p)[x.pos p]? = some .bar
    · exact ⟨x, h, hf, Or.inl hb, rfl, by omega, fun _ _ => rfl⟩
    · obtain ⟨x1, g1, f1, e1, c1⟩ := h.act wf un hP hA h0 hpos hf hp (by omega) hb hi
      obtain ⟨x2, g2, f2, e2, c2, c3, c4⟩ := ih g1 f1 (by rw [e1, Function.update_self]; omega) (fun r hr hrp k hk => by rw [c1 r hrp k]; exact hi r hr hrp k hk)
      refine ⟨x2, g2, f2, e2, ?_, c3, fun q hq => ?_⟩
      · rw [c2, e1, Function.update_self, epoch_other hb]
      · rw [c4 q hq, e1, Function.update_of_ne hq]

/-- all PEs are between two barriers, and hold no locks -/
structure Between (T : Sys) (P : Prog) (cov : Nat → Nat → Prop) (x0 : PX) (m : Mems) (E : Nat) (x : PX) : Prop where
  got : Got T P cov x0 m x
  free : ∀ q, T.lk.free x.x.words q = true
  ep : ∀ q < T.lk.n, epoch (P q) (x.pos q) = E
  pos : ∀ q < T.lk.n, x.pos q ≤ (P q).length
  locks : ∀ q < T.lk.n, ∀ l, ¬ Holds (P q) (x.pos q) l

theorem stops_locks (hB : Balanced T.lk.n P) {x : PX} {p : Nat} (hp : p < T.lk.n) (h : Stops P x p) (l : Nat) : ¬ Holds (P p) (x.pos p) l := by
  rcases h with h | h
  · exact hB.bars p hp _ h l
  · rw [h]; exact hB.all p hp l

/-- all PEs, one after the other, up to their next barriers -/
theorem Between.all (wf : T.lk.WF) (un : T.lk.Uniform) (hP : Proper T P) (hA : AcceptsC T P cov) (hB : Balanced T.lk.n P) {x0 : PX} {m : Mems}
    (h0 : Start T x0.x) (hpos : x0.pos = fun _ => 0) {E : Nat} {x : PX} (h : Between T P cov x0 m E x) : ∀ k, k ≤ T.lk.n →
    ∃ x', Between T P cov x0 m E x' ∧ ∀ q < k, Stops P x' q := by
  intro k
  induction k with
  | zero => intro _; exact ⟨x, h, fun q hq => absurd hq (Nat.not_lt_zero _)⟩
  | succ k ih =>
    intro hk
    obtain ⟨x1, b, hs⟩ := ih (by omega)
    obtain ⟨l1, r⟩ := b.got.run
    have inv := pcInv_run r.run (pcInv_init h0 hpos)
    obtain ⟨x2, g2, f2, e2, c2, c3, c4⟩ := Got.acts wf un hP hA h0 hpos (p := k) (by omega) ((P k).length - x1.pos k) b.got b.free
      (by have := b.pos k (by omega); omega) (by
        intro r hr hrk j hj
        rcases rest_cases (free_iff.1 (b.free r) j hj) with h' | h'
        · exact h'
        · exact absurd ((inv.rest r hr j hj (free_iff.1 (b.free r) j hj)).1 h') (b.locks r hr j))
    refine ⟨x2, ⟨g2, f2, ?_, ?_, ?_⟩, ?_⟩
    · intro q hq
      by_cases hqk : q = k
      · subst hqk; rw [c2]; exact b.ep q hq
      · rw [c4 q hqk]; exact b.ep q hq
    · intro q hq
      by_cases hqk : q = k
      · subst hqk; exact c3
      · rw [c4 q hqk]; exact b.pos q hq
    · intro q hq
      by_cases hqk : q = k
      · subst hqk; exact stops_locks hB hq e2
      · rw [c4 q hqk]; exact b.locks q hq
    · intro q hq
      by_cases hqk : q = k
      · subst hqk; exact e2
      · unfold Stops
        rw [c4 q hqk]; exact hs q (by omega)

/-- PEs enter a barrier, one after the other -/
theorem enters {x0 x : PX} {m : Mems} (h : Got T P cov x0 m x) (hfree : ∀ q, T.lk.free x.x.words q = true)
    (hbar : ∀ q < T.lk.n, (P q)[x.pos q]? = some .bar) : ∀ k, k ≤ T.lk.n →
    ∃ g l tr, CRun T P cov x0 l ⟨⟨g, x.x.pc⟩, x.pos⟩ ∧ Vis.Run T.vis (Vis.ginit m) tr g ∧ (∀ e ∈ tr, e.Safe T.vis) ∧ Vis.Settled g ∧
      (∀ q, (g.pe q).spaces = []) ∧ g.lv = x.x.g.lv ∧ ∀ q, g.arr q = if q < k then x.x.g.arr q + 1 else x.x.g.arr q := by
  intro k
  induction k with
  | zero =>
    intro _
    obtain ⟨l, r⟩ := h.run
    obtain ⟨l1, r1, s1⟩ := h.steps
    exact ⟨x.x.g, l, l1, r, r1, s1, h.settled, h.spaces, rfl, fun q => by rw [if_neg (Nat.not_lt_zero _)]⟩
  | succ k ih =>
    intro hk
    obtain ⟨g, l, tr, r, r1, s1, hs, hsp, hlv, harr⟩ := ih (by omega)
    obtain ⟨s', e⟩ := Order.C56_barrier (Vis.hist_reach ⟨_, _, r1⟩ k) (List.range T.vis.npes)
    have st := Vis.Step.enter (S := T.vis) (g := g) k s' ⟨by rw [← T.hn]; omega, by
      rw [hlv, harr, if_neg (Nat.lt_irrefl _)]; exact h.out k (by omega), Vis.settled_busy hs k⟩ e (Vis.settled_done hs k s')
    have hsp' := Bsp.nospaces_step st (fun p op h => by cases h) hsp
    refine ⟨_, _, _, r.snoc (.enter k (hbar k (by omega)) (Step.rma (x := ⟨g, x.x.pc⟩) st fun q _ => hfree q))
        (fun e' he' _ _ _ => by cases he'; exact trivial),
      Vis.run_append r1 (Vis.Run.cons st (Vis.Run.nil _)), ?_, ?_, hsp', ?_, ?_⟩
    · intro e he
      rcases List.mem_append.1 he with he | he
      · exact s1 e he
      · rw [List.mem_singleton.1 he]; exact trivial
    · rintro a ⟨r, own, ha⟩
      have ha : Vis.At (Vis.after g k s' []) a r own := ha
      rcases Vis.at_after ha with ha | ⟨_, _, ha⟩
      · exact hs a ⟨r, own, ha⟩
      · cases ha
    · exact (enter_busy st).2.2.trans hlv
    · intro q
      rw [(enter_busy st).2.1]
      by_cases hqk : q = k
      · subst hqk
        rw [Function.update_self, harr, if_neg (Nat.lt_irrefl _), if_pos (Nat.lt_succ_self _)]
      · rw [Function.update_of_ne hqk, harr]
        by_cases h' : q < k
        · rw [if_pos h', if_pos (by omega)]
        · rw [if_neg h', if_neg (by omega)]

/-- PEs leave a barrier, one after the other -/
theorem leaves {x0 : PX} {m : Mems} {g : Vis.G} {pc : Nat → Nat → PC} {pos : Nat → Nat} {l : List Ev} {tr : List Vis.Ev}
    (r : CRun T P cov x0 l ⟨⟨g, pc⟩, pos⟩) (r1 : Vis.Run T.vis (Vis.ginit m) tr g) (s1 : ∀ e ∈ tr, e.Safe T.vis) (E : Nat)
    (ha : ∀ q < T.lk.n, g.arr q = E + 1 ∧ g.lv q = E) : ∀ k, k ≤ T.lk.n →
    ∃ lv l tr, CRun T P cov x0 l ⟨⟨{ g with lv := lv }, pc⟩, fun q => if q < k then pos q + 1 else pos q⟩ ∧
      Vis.Run T.vis (Vis.ginit m) tr { g with lv := lv } ∧ (∀ e ∈ tr, e.Safe T.vis) ∧ ∀ q < T.lk.n, lv q = if q < k then E + 1 else E := by
  intro k
  induction k with
  | zero =>
    intro _
    refine ⟨g.lv, l, tr, ?_, r1, s1, fun q hq => by rw [if_neg (Nat.not_lt_zero _)]; exact (ha q hq).2⟩
    have : (fun q => if q < 0 then pos q + 1 else pos q) = pos := by funext q; rw [if_neg (Nat.not_lt_zero _)]
    rw [this]; exact r
  | succ k ih =>
    intro hk
    obtain ⟨lv, l, tr, r, r1, s1, hlv⟩ := ih (by omega)
    have hk' := hlv k (by omega)
    rw [if_neg (Nat.lt_irrefl _)] at hk'
    have st := Vis.Step.leave (S := T.vis) (g := { g with lv := lv }) k (by rw [← T.hn]; omega)
      (by dsimp only; rw [hk', (ha k (by omega)).1]; omega)
      (fun q hq => by dsimp only; rw [hk', (ha q (by rw [T.hn]; exact hq)).1]; omega)
    have ps : PStep T P _ _ _ := .leave (pos := fun q => if q < k then pos q + 1 else pos q) k (Step.rma (x := ⟨{ g with lv := lv }, pc⟩) st (fun q h => by cases h))
    refine ⟨Function.update lv k (lv k + 1), l ++ [.rma (.leave k)], _, ?_, Vis.run_append r1 (Vis.Run.cons st (Vis.Run.nil _)), ?_, ?_⟩
    · have : (fun q => if q < k + 1 then pos q + 1 else pos q) =
          Function.update (fun q => if q < k then pos q + 1 else pos q) k ((fun q => if q < k then pos q + 1 else pos q) k + 1) := by
        funext q
        by_cases hqk : q = k
        · subst hqk
          rw [Function.update_self, if_pos (Nat.lt_succ_self _)]
          dsimp only
          rw [if_neg (Nat.lt_irrefl _)]
        · rw [Function.update_of_ne hqk]
          by_cases h' : q < k
          · rw [if_pos h', if_pos (by omega)]
          · rw [if_neg h', if_neg (by omega)]
      rw [this]
      exact r.snoc ps fun e' he' _ _ _ => by cases he'; exact trivial
    · intro e he
      rcases List.mem_append.1 he with he | he
      · exact s1 e he
      · rw [List.mem_singleton.1 he]; exact trivial
    · intro q hq
      by_cases hqk : q = k
      · subst hqk
        rw [Function.update_self, hk', if_pos (Nat.lt_succ_self _)]
      · rw [Function.update_of_ne hqk, hlv q hq]
        by_cases h' : q < k
        · rw [if_pos h', if_pos (by omega)]
        · rw [if_neg h', if_neg (by omega)]

/-- a barrier -/
theorem Between.bar (hB : Balanced T.lk.n P) {x0 : PX} {m : Mems} {E : Nat} {x : PX} (h : Between T P cov x0 m E x) (hE : ∀ q < T.lk.n, x.x.g.lv q = E)
    (hbar : ∀ q < T.lk.n, (P q)[x.pos q]? = some .bar) :
    ∃ x', Between T P cov x0 m (E + 1) x' ∧ ∀ q < T.lk.n, x'.x.g.lv q = E + 1 := by
  obtain ⟨g, l, tr, r, r1, s1, hs, hsp, hlv, harr⟩ := enters h.got h.free hbar T.lk.n (Nat.le_refl _)
  obtain ⟨lv, l, tr, r, r1, s1, hlv'⟩ := leaves r r1 s1 E (fun q hq => by
    have h1 := h.got.out q hq
    have h2 := hE q hq
    rw [harr, if_pos hq, hlv]
    omega) T.lk.n (Nat.le_refl _)
  refine ⟨_, ⟨⟨⟨_, r⟩, ⟨_, r1, s1⟩, hs, hsp, ?_⟩, ?_, ?_, ?_, ?_⟩, ?_⟩
  · intro q hq
    have h1 := h.got.out q hq
    have h2 := hE q hq
    have h3 := hlv' q hq
    rw [if_pos hq] at h3
    show g.arr q = lv q
    rw [harr, if_pos hq, h3]
    omega
  · intro q
    exact free_iff.2 fun k hk => free_iff.1 (h.free q) k hk
  · intro q hq
    dsimp only
    rw [if_pos hq, epoch_bar (hbar q hq), h.ep q hq]
  · intro q hq
    dsimp only
    rw [if_pos hq]
    exact (List.getElem?_eq_some_iff.1 (hbar q hq)).1
  · intro q hq l
    dsimp only
    rw [if_pos hq, holds_other (by rw [hbar q hq]; exact fun h => by cases h) (by rw [hbar q hq]; exact fun h => by cases h)]
    exact h.locks q hq l
  · intro q hq
    show lv q = E + 1
    rw [hlv' q hq, if_pos hq]

theorem epoch_mono (as : List PAct) {i j : Nat} (h : i ≤ j) : epoch as i ≤ epoch as j := by
  induction h with
  | refl => exact Nat.le_refl _
  | @step j h ih =>
    refine Nat.le_trans ih ?_
    by_cases hb : as[j]? = some .bar
    · rw [epoch_bar hb]; omega
    · rw [epoch_other hb]

theorem epoch_stop {as : List PAct} {i : Nat} (hb : as[i]? = some .bar) : epoch as i < epoch as as.length := by
  have h1 := epoch_bar hb
  have h2 := epoch_mono as (Nat.succ_le_of_lt (List.getElem?_eq_some_iff.1 hb).1)
  have : i.succ = i + 1 := rfl
  rw [this] at h2
  omega

/-- all phases -/
theorem Between.phases (wf : T.lk.WF) (un : T.lk.Uniform) (hP : Proper T P) (hA : AcceptsC T P cov) (hB : Balanced T.lk.n P) {x0 : PX} {m : Mems}
    (h0 : Start T x0.x) (hpos : x0.pos = fun _ => 0) (N : Nat) (hN : ∀ q < T.lk.n, epoch (P q) (P q).length = N) : ∀ d E x, E + d = N →
    Between T P cov x0 m E x → (∀ q < T.lk.n, x.x.g.lv q = E) →
    ∃ x', Got T P cov x0 m x' ∧ (∀ q, T.lk.free x'.x.words q = true) ∧ ∀ q < T.lk.n, x'.pos q = (P q).length := by
  intro d
  induction d with
  | zero =>
    intro E x hd h _
    obtain ⟨x', b, hs⟩ := h.all wf un hP hA hB h0 hpos T.lk.n (Nat.le_refl _)
    refine ⟨x', b.got, b.free, fun q hq => ?_⟩
    rcases hs q hq with h' | h'
    · have h1 := epoch_stop h'
      rw [b.ep q hq, hN q hq] at h1
      omega
    · exact h'
  | succ d ih =>
    intro E x hd h hE
    obtain ⟨x', b, hs⟩ := h.all wf un hP hA hB h0 hpos T.lk.n (Nat.le_refl _)
    have hbar : ∀ q < T.lk.n, (P q)[x'.pos q]? = some .bar := by
      intro q hq
      rcases hs q hq with h' | h'
      · exact h'
      · have h1 := b.ep q hq
        rw [h', hN q hq] at h1
        omega
    obtain ⟨l1, r⟩ := b.got.run
    have hE' : ∀ q < T.lk.n, x'.x.g.lv q = E := fun q hq => by
      have := lv_epoch r.run h0 hpos q hq
      rw [this, b.ep q hq]
    obtain ⟨x2, b2, e2⟩ := b.bar hB hE' hbar
    exact ih (E + 1) x2 (by omega) b2 e2

/-- an execution to the end -/
theorem to_end (wf : T.lk.WF) (un : T.lk.Uniform) (hP : Proper T P) (hA : AcceptsC T P cov) (hB : Balanced T.lk.n P) (M : Mems)
    (hM : T.lk.Init (X.words ⟨Vis.ginit M, fun _ _ => .idle⟩)) :
    ∃ l y, Got T P cov ⟨⟨Vis.ginit M, fun _ _ => .idle⟩, fun _ => 0⟩ M y ∧ CRun T P cov ⟨⟨Vis.ginit M, fun _ _ => .idle⟩, fun _ => 0⟩ l y ∧
      (∀ p, T.lk.free y.x.words p = true) ∧ ∀ p < T.lk.n, y.pos p = (P p).length := by
  have h0 : Start T (⟨Vis.ginit M, fun _ _ => .idle⟩ : X) := ⟨⟨M, rfl⟩, hM⟩
  have hb : Between T P cov ⟨⟨Vis.ginit M, fun _ _ => .idle⟩, fun _ => 0⟩ M 0 ⟨⟨Vis.ginit M, fun _ _ => .idle⟩, fun _ => 0⟩ := by
    refine ⟨⟨⟨_, .nil _⟩, ⟨[], Vis.Run.nil _, fun e he => by cases he⟩, ?_, fun _ => rfl, fun _ _ => rfl⟩, ?_, fun _ _ => rfl, fun _ _ => Nat.zero_le _, ?_⟩
    · rintro a ⟨r, own, ⟨x, hx, _⟩ | ⟨_, hx⟩⟩ <;> cases hx
    · intro q
      exact free_iff.2 fun k _ => rfl
    · rintro q _ l ⟨j, hj, _⟩
      exact absurd hj (Nat.not_lt_zero _)
  rcases Nat.eq_zero_or_pos T.lk.n with hn | hn
  · exact ⟨[], _, hb.got, .nil _, hb.free, fun p hp => by omega⟩
  · obtain ⟨y, g, f, e⟩ := hb.phases wf un hP hA hB h0 rfl _ (fun q hq => hB.same q hq 0 hn) _ 0 _ (Nat.zero_add _) (fun _ _ => rfl)
    obtain ⟨l, r⟩ := g.run
    exact ⟨l, y, g, r, f, e⟩

/-- **They can be run.** Every program that follows the rules for locks, calls barriers equally often on all PEs with no locks held, and whose calls
    the library accepts, has an execution to its end, whatever the first contents of memory are (locks zero). -/
theorem C111_exists_partial (wf : T.lk.WF) (un : T.lk.Uniform) (hP : Proper T P) (hA : Accepts T P) (hB : Balanced T.lk.n P) (M : Mems)
    (hM : T.lk.Init (X.words ⟨Vis.ginit M, fun _ _ => .idle⟩)) :
    ∃ l y, PRun T P ⟨⟨Vis.ginit M, fun _ _ => .idle⟩, fun _ => 0⟩ l y ∧ (∀ p < T.lk.n, y.pos p = (P p).length) ∧
      ∀ p < T.lk.n, T.lk.free y.x.words p = true ∧ y.x.g.busy p = [] := by
  obtain ⟨l, y, g, r, f, e⟩ := to_end wf un hP hA.toC hB M hM
  exact ⟨l, y, r.run, e, fun p hp => ⟨f p, Vis.settled_busy g.settled p⟩⟩

end

end Verif.Crit.Mix
