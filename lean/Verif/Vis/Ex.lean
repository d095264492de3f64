import Verif.Vis.Props
import Verif.Vis.Sum
import Verif.Order.Props
/-!
# Visibility: concrete executions

Two PEs, static windows; heaps at 0x10000 and 0x20000. They show that the hypotheses of C65-C68 are met by real executions,
and how a put to a space survives a barrier.
-/
namespace Verif.Vis
open Verif.Sobj Verif.Rma
open Verif.Order (St Pend Cfg Op)

/-- configuration of the examples: no dynamic windows, no tracking, direct RMA -/
def exCf (amo : Bool) (p : Nat) : Cfg :=
  { dyn := false, tracking := false, rma := .direct, amoDirect := amo, npes := 2, heap := (exProcs false p).heap
    data := (exProcs false p).data }

def exS (amo : Bool) : Sys := ⟨2, exCf amo, fun _ => rfl, ⟨fun _ a _ => a, fun _ _ _ => true⟩, fun _ => 0⟩

/-- PE 0 holds ones, PE 1 zeros -/
def exM : Mems := fun p _ => if p = 0 then 1 else 0

theorem done_nil {fl : List Fly} {s' : St} (h : fl = []) : Done fl s' := by
  subst h; intro x hx; cases hx

theorem done_empty {fl : List Fly} {s' : St} (h : ∀ x ∈ fl, x.todo = []) : Done fl s' := fun x hx _ => h x hx

/-- a byte put from 0x10020 of PE 0 to offset 24 of the heap of PE 1 -/
theorem exPut (amo nbi : Bool) : ∃ g1, Step (exS amo) (ginit exM) (.put 0 1 nbi none 0x10018#64 [(0x20018, 0x10020)] 0) g1 ∧
    g1.fly 0 = [⟨⟨.win 1, 1, none, .heap, 0⟩, [if nbi then .mv 0 0x10020 1 0x20018 else .set 1 0x20018 1]⟩] ∧
    g1.fly 1 = [] ∧ (∀ p, g1.busy p = []) ∧ g1.mem = exM ∧ (∀ p, g1.arr p = 0 ∧ g1.lv p = 0) ∧ g1.pe 1 = Order.init ∧
    g1.pe 0 = Order.init.push ⟨.win 1, 1, none, .heap, 0⟩ := by
  refine ⟨_, Step.put 0 1 nbi none 0x10018#64 0x10020#64 1 true .rel 1 1 (Ty.basic 1) (Ty.basic 1) _
    (Order.init.push ⟨.win 1, 1, none, .heap, 0⟩) ⟨Nat.zero_lt_succ _, rfl, rfl⟩ (fun h => by cases h) ?_ ?_ (done_nil rfl),
    ?_, rfl, ?_, rfl, fun p => ⟨rfl, rfl⟩, rfl, rfl⟩
  · cases nbi <;> cases amo <;> rfl
  · rw [if_neg (by decide)]
    exact ⟨0x20018#64, by cases amo <;> decide +kernel, by decide +kernel⟩
  · cases nbi <;> rfl
  · intro p
    show (Function.update _ _ _) p = _
    rw [upd_at]
    split
    · rfl
    · rfl

/-- The access is performed, both PEs enter the barrier, PE 1 leaves it. -/
theorem exBarrier {a : Atom} {g1 : G} (hfly : g1.fly 0 = [⟨⟨.win 1, 1, none, .heap, 0⟩, [a]⟩]) {m' : Mems}
    (hper : a.perform (exS true).fp (exS true).junk g1.mem = .ok m')
    (hf1 : g1.fly 1 = []) (hb : ∀ p, g1.busy p = []) (hal : ∀ p, g1.arr p = 0 ∧ g1.lv p = 0) (h1 : g1.pe 1 = Order.init)
    (h0 : g1.pe 0 = Order.init.push ⟨.win 1, 1, none, .heap, 0⟩) :
    ∃ g, Run (exS true) g1 [.done 0 a (a.result (exS true).fp (exS true).junk g1.mem), .enter 0, .enter 1, .leave 1] g ∧ g.lv 1 = 1 := by
  have st1 := Step.perform (S := exS true) (g := g1) 0 [] [] _ [] [] _ m' (Nat.zero_lt_succ _) hfly hper
  generalize hg2 : ({ g1 with mem := m', fly := Function.update g1.fly 0 ([] ++ ⟨⟨.win 1, 1, none, .heap, 0⟩, [] ++ []⟩ :: []) } : G)
    = g2 at st1
  have e2 : Order.barrierLocal ((exS true).cf 0) (g2.pe 0) (List.range (exS true).npes) = .ok { Order.init with ep := 1 } := by
    rw [← hg2]
    show Order.barrierLocal _ (g1.pe 0) _ = _
    rw [h0]; rfl
  have st2 := Step.enter (S := exS true) (g := g2) 0 _ ⟨Nat.zero_lt_succ _, by rw [← hg2]; exact (hal 0).1.trans (hal 0).2.symm,
    by rw [← hg2]; exact hb 0⟩ e2 (done_empty (fun x hx => by
      rw [← hg2] at hx
      simp only [upd_at, if_true, List.append_nil, List.nil_append, List.mem_singleton] at hx
      rw [hx]))
  generalize hg3 : ({ after g2 0 { Order.init with ep := 1 } [] with arr := Function.update g2.arr 0 (g2.arr 0 + 1) } : G) = g3 at st2
  have e3 : Order.barrierLocal ((exS true).cf 1) (g3.pe 1) (List.range (exS true).npes) = .ok { Order.init with ep := 1 } := by
    rw [← hg3, ← hg2]
    show Order.barrierLocal _ (Function.update g1.pe 0 { Order.init with ep := 1 } 1) _ = _
    rw [Function.update_of_ne (by decide), h1]; rfl
  have st3 := Step.enter (S := exS true) (g := g3) 1 _ ⟨by decide, by rw [← hg3, ← hg2]; exact (hal 1).1.trans (hal 1).2.symm,
    by rw [← hg3, ← hg2]; exact hb 1⟩ e3 (done_nil (by rw [← hg3, ← hg2]; exact hf1))
  refine ⟨_, Run.cons st1 (Run.cons st2 (Run.cons st3 (Run.cons (Step.leave 1 (by decide) ?_ ?_) (Run.nil _)))), ?_⟩
  · rw [← hg3, ← hg2]
    show g1.lv 1 < Function.update (Function.update g1.arr 0 (g1.arr 0 + 1)) 1 (g1.arr 1 + 1) 1
    rw [upd_at, if_pos rfl, (hal 1).1, (hal 1).2]
    exact Nat.zero_lt_one
  · intro q hq
    rw [← hg3, ← hg2]
    show g1.lv 1 < Function.update (Function.update g1.arr 0 (g1.arr 0 + 1)) 1 (g1.arr 1 + 1) q
    rw [upd_at, upd_at, (hal 1).2]
    split
    · exact Nat.succ_pos _
    · split
      · exact Nat.succ_pos _
      · have : q < 2 := hq
        exact absurd this (by omega)
  · rw [← hg3, ← hg2]
    show Function.update g1.lv 1 (g1.lv 1 + 1) 1 = 1
    rw [upd_at, if_pos rfl, (hal 1).2]

/-- hypotheses of `C65_barrier_partial` met, for a blocking and a non-blocking put: an execution with the put and a barrier -/
example (nbi : Bool) : ∃ g, g.mem 1 0x20018 = 1 ∧ ∃ g1 l, Step (exS true) (ginit exM) (.put 0 1 nbi none 0x10018#64 [(0x20018, 0x10020)] 0) g1 ∧
    Run (exS true) g1 l g := by
  obtain ⟨g1, h1, a1, a2, a3, a4, a5, a6, a7⟩ := exPut true nbi
  obtain ⟨m', hper⟩ : ∃ m', (if nbi then Atom.mv 0 0x10020 1 0x20018 else .set 1 0x20018 1).perform (exS true).fp (exS true).junk
      g1.mem = .ok m' := by cases nbi <;> exact ⟨_, rfl⟩
  obtain ⟨g, h2, hlv⟩ := exBarrier a1 hper a2 a3 a5 a6 a7
  refine ⟨g, ?_, g1, _, h1, h2⟩
  refine (C65_barrier_partial (S := exS true) ⟨exM, [], Run.nil _⟩ h1 h2 (x := (0x20018, 0x10020)) (List.mem_singleton.mpr rfl)
    (fun y hy _ => List.mem_singleton.mp hy) (noWriter_init _ _) ?_ (fun _ => ⟨noWriter_init _ _, ?_⟩)
    (Or.inr ⟨rfl, Or.inr (Or.inl (by decide +kernel))⟩) (p := 1) (by decide) (by rw [hlv]; exact Nat.zero_lt_one)).1
  · intro e he
    simp only [List.mem_cons, List.not_mem_nil, or_false] at he
    rcases he with rfl | rfl | rfl | rfl <;> exact fun h => h
  · intro e he
    simp only [List.mem_cons, List.not_mem_nil, or_false] at he
    rcases he with rfl | rfl | rfl | rfl | rfl
    · rintro ⟨h, _⟩
      cases h
    all_goals exact fun h => h

/-- hypotheses of `C67_sum_partial` met: PE 0 adds 5 to a `long` of PE 1, both pass a barrier -/
example : ∃ g0 g l, Run (exS true) g0 l g ∧ wordAt (g.mem 1) 0x20018 .long = wordAt (g0.mem 1) 0x20018 .long + BitVec.ofNat _ 5 := by
  have st1 := Step.amo (S := exS true) (g := ginit exM) 0 1 none 0x10018#64 0x20018#64 .long (.add 5) true .rel
    (Order.init.push ⟨.win 1, 1, none, .heap, 0⟩) ⟨Nat.zero_lt_succ _, rfl, rfl⟩ (fun h => by cases h) (by decide) rfl rfl
    (by decide +kernel) (done_nil rfl)
  obtain ⟨m', hper⟩ : ∃ m', (Atom.upd 1 (0x20018#64).toInt .long (.add 5) false).perform (exS true).fp (exS true).junk
      (ginit exM).mem = .ok m' := ⟨_, rfl⟩
  obtain ⟨g, h2, hlv⟩ := exBarrier (g1 := after (ginit exM) 0 (Order.init.push ⟨.win 1, 1, none, .heap, 0⟩)
    [Atom.upd 1 (0x20018#64).toInt .long (.add 5) false]) rfl hper rfl
    (fun p => by
      show (Function.update _ _ _) p = _
      rw [upd_at]
      split
      · rfl
      · rfl) (fun p => ⟨rfl, rfl⟩) rfl rfl
  refine ⟨_, g, _, Run.cons st1 h2, ?_⟩
  refine (C67_sum_partial (S := exS true) ⟨exM, [], Run.nil _⟩ (Run.cons st1 h2) (t := 1) (a := 0x20018) (ty := .long) (by decide)
    (fun y _ _ => noWriter_init _ _) (p := 1) (by decide) ?_).trans ?_
  · intro e he
    simp only [List.mem_cons, List.not_mem_nil, or_false] at he
    rcases he with rfl | rfl | rfl | rfl | rfl
    · exact fun _ => ⟨⟨0, none, 0x10018#64, .add 5, 0, 5, rfl, rfl⟩, by rw [hlv]; exact Nat.zero_lt_one,
        Or.inr ⟨rfl, Or.inr (Or.inl (by decide +kernel))⟩⟩
    all_goals
      rintro ⟨_, _, _, h⟩
      exact absurd h (fun h => h)
  · rfl

/-- hypotheses of `C66_message` met: data put, fence, then PE 1 sees its flag change -/
example : ∃ g, g.mem 1 0x20050 = 5 ∧ g.mem 1 0x20018 = 1 ∧ ∃ g1 l,
    Step (exS true) (ginit exM) (.put 0 1 false none 0x10018#64 [(0x20018, 0x10020)] 0) g1 ∧ Run (exS true) g1 l g := by
  obtain ⟨g1, h1, a1, a2, a3, a4, a5, a6, a7⟩ := exPut true false
  have st1 := Step.perform (S := exS true) (g := g1) 0 [] [] _ [] [] _ _ (Nat.zero_lt_succ _) a1 rfl
  generalize hg2 : ({ g1 with
      mem := Function.update g1.mem 1 (Function.update (g1.mem 1) 0x20018 1)
      fly := Function.update g1.fly 0 ([] ++ ⟨⟨.win 1, 1, none, .heap, 0⟩, [] ++ []⟩ :: []) } : G) = g2 at st1
  have st2 := Step.call (S := exS true) (g := g2) 0 (.fence none) Order.init
    ⟨Nat.zero_lt_succ _, by rw [← hg2]; exact (a5 0).1.trans (a5 0).2.symm, by rw [← hg2]; exact a3 0⟩ (by exact trivial)
    (by rintro _ _ _ _ _ _ h; cases h)
    (by
      rw [← hg2]
      show Order.step _ (g1.pe 0) _ = _
      rw [a7]; rfl)
    (done_empty (fun x hx => by
      rw [← hg2] at hx
      simp only [upd_at, if_true, List.append_nil, List.nil_append, List.mem_singleton] at hx
      rw [hx]))
  generalize hg3 : after g2 0 Order.init [] = g3 at st2
  have st3 := Step.store (S := exS true) (g := g3) 1 0x20050 5 ⟨by decide, by
    rw [← hg3, ← hg2]; exact (a5 1).1.trans (a5 1).2.symm, by rw [← hg3, ← hg2]; exact a3 1⟩
  have hflag : ∀ m : Mems, Function.update m 1 (Function.update (m 1) (0x20050 : Int) (5 : BitVec 8)) 1 0x20050 = 5 := by
    intro m; rw [Function.update_self, Function.update_self]
  have h2 := Run.cons st1 (Run.cons st2 (Run.cons st3 (Run.nil _)))
  refine ⟨_, hflag g3.mem, ?_, g1, _, h1, h2⟩
  refine C66_message (S := exS true) ⟨exM, [], Run.nil _⟩ h1 h2 (x := (0x20018, 0x10020)) (List.mem_singleton.mpr rfl)
    (fun y hy _ => List.mem_singleton.mp hy) (noWriter_init _ _) ?_ (fun h => by cases h) (f := (1, 0x20050)) (noWriter_init _ _)
    ?_ ?_ ?_
  · intro e he
    simp only [List.mem_cons, List.not_mem_nil, or_false] at he
    rcases he with rfl | rfl | rfl
    · exact fun h => h
    · exact fun h => h
    · intro h
      have h := (Prod.mk.inj h).2
      revert h; decide
  · rintro ⟨_, y, hy, h⟩
    rw [List.mem_singleton] at hy
    subst hy
    revert h; decide
  · intro l1 e l2 hl hw
    rcases l1 with _ | ⟨e1, _ | ⟨e2, l1⟩⟩
    · cases hl; exact absurd hw (fun h => h)
    · cases hl; exact absurd hw (fun h => h)
    · simp only [List.cons_append, List.cons.injEq] at hl
      rw [← hl.2.1]
      exact Or.inl (List.mem_cons_of_mem _ (List.mem_cons_self ..))
  · show Function.update g3.mem 1 (Function.update (g3.mem 1) (0x20050 : Int) (5 : BitVec 8)) 1 0x20050 ≠ _
    rw [hflag]
    decide

/-- hypotheses of `C68_get` met: PE 1 reads a byte of PE 0 -/
example : ∃ g, g.mem 1 0x20020 = 1 ∧ ∃ g1 l,
    Step (exS true) (ginit exM) (.get 1 0 false none 0x20018#64 [(0x20020, 0x10018)] 0) g1 ∧ Run (exS true) g1 l g := by
  have st1 := Step.get (S := exS true) (g := ginit exM) 1 0 false none 0x20018#64 0x20020#64 1 true .rel 1 1 (Ty.basic 1)
    (Ty.basic 1) [(0x20020, 0x10018)] Order.init ⟨by decide, rfl, rfl⟩ (fun h => by cases h) rfl
    (by rw [if_neg (by decide)]; exact ⟨0x10018#64, by decide +kernel, by decide +kernel⟩) (done_nil rfl)
  have st2 := Step.performBusy (S := exS true) 1 [] [] (.mv 0 0x10018 1 0x20020) _ (by decide) (g := after (ginit exM) 1 Order.init
    ([(0x20020, 0x10018)].map fun x => .mv 0 x.2 1 x.1)) rfl rfl
  have h2 := Run.cons st2 (Run.nil _)
  refine ⟨_, ?_, _, _, st1, h2⟩
  refine C68_get (S := exS true) st1 h2 (x := (0x20020, 0x10018)) (List.mem_singleton.mpr rfl)
    (fun y hy _ => List.mem_singleton.mp hy) (noWriter_init _ _) (noWriter_init _ _) ?_ ?_ rfl
  · intro e he
    simp only [List.mem_cons, List.not_mem_nil, or_false] at he
    rcases he with rfl | rfl
    · rintro ⟨h, _⟩
      cases h
    · exact fun h => h
  · intro e he
    simp only [List.mem_cons, List.not_mem_nil, or_false] at he
    subst he
    exact fun h => h

/-! ## The barrier does not complete puts to spaces -/

/-- attribute of the example space: at 0x40000 on both PEs -/
def exSp (p : Nat) : Attr := setupAttr false .attached 1 2 (fun _ => 0x40000#64) 4096 p

/-- state of a PE that has created and attached the space -/
def exSt : Nat → St := fun p => { Order.init with
  nextWin := 4
  spaces := [{ name := 7, attr := exSp p, nctx := 0, dflt := ⟨some 3, false⟩, ctxs := none, att := true }] }

/-- state of a PE that has created the space only -/
def exSt0 : Nat → St := fun p => { Order.init with
  spaces := [{ name := 7, attr := exSp p, nctx := 0, dflt := ⟨none, false⟩, ctxs := none, att := false }] }

/-- **The code violates C65** without dynamic windows: both PEs create and attach a space, PE 0 puts a byte to it (blocking, default
context), both enter `shmem_barrier_all` and PE 1 leaves it: the byte on PE 1 is still the old one. (`OSHMPI_barrier_all` flushes
the windows of the heap and the data segment only, coll_impl.h L18-20.) -/
theorem C65_space_fails : ∃ (S : Sys) (g0 g1 g : G) (addr : BitVec 64) (x : Int × Int) (l : List Ev),
    Reach S g0 ∧ Step S g0 (.put 0 1 false none addr [x] 0) g1 ∧ Run S g1 l g ∧ NoWriter g0 (1, x.1) ∧
    (∀ e ∈ l, ¬ e.writes (1, x.1)) ∧ 1 < S.npes ∧ 0 < g.lv 1 ∧ g.mem 1 x.1 ≠ g0.mem 0 x.2 := by
  have hfree : ∀ {g : G} {p : Nat}, p < 2 → g.arr p = g.lv p → g.busy p = [] → Free (exS true) g p := fun a b c => ⟨a, b, c⟩
  have hat : ∀ (p : Nat) (s : St), s = (exSt0 p) → Order.legal s (.attach 7) := by
    rintro p s rfl x h
    have : some _ = some x := h
    cases this
    rfl
  have s1 := Step.call (S := exS true) (g := ginit exM) 0 (.create 7 (exSp 0) 0) (exSt0 0) (hfree (by decide) rfl rfl) (by exact trivial)
    (by rintro _ _ _ _ _ _ h; cases h) rfl (done_nil rfl)
  have s2 := Step.call (S := exS true) 0 (.attach 7) (exSt 0) (hfree (by decide) rfl rfl) (hat 0 _ rfl) (by rintro _ _ _ _ _ _ h; cases h) rfl
    (done_nil rfl) (g := after (ginit exM) 0 (exSt0 0) [])
  generalize hga : after (after (ginit exM) 0 (exSt0 0) []) 0 (exSt 0) [] = ga at s2
  have s3 := Step.call (S := exS true) (g := ga) 1 (.create 7 (exSp 1) 0) (exSt0 1) (by rw [← hga]; exact hfree (by decide) rfl rfl) (by exact trivial)
    (by rintro _ _ _ _ _ _ h; cases h) (by rw [← hga]; rfl) (by rw [← hga]; exact done_nil rfl)
  generalize hgb : after ga 1 (exSt0 1) [] = gb at s3
  have s4 := Step.call (S := exS true) (g := gb) 1 (.attach 7) (exSt 1) (by rw [← hgb, ← hga]; exact hfree (by decide) rfl rfl)
    (hat 1 _ (by rw [← hgb, ← hga]; rfl)) (by rintro _ _ _ _ _ _ h; cases h) (by rw [← hgb, ← hga]; rfl) (by rw [← hgb, ← hga]; exact done_nil rfl)
  generalize hgc : after gb 1 (exSt 1) [] = gc at s4
  have hpe : gc.pe 0 = exSt 0 ∧ gc.pe 1 = exSt 1 ∧ (∀ p, gc.fly p = [] ∧ gc.busy p = []) ∧ gc.mem = exM ∧
      (∀ p, gc.arr p = 0 ∧ gc.lv p = 0) := by
    rw [← hgc, ← hgb, ← hga]
    refine ⟨rfl, rfl, fun p => ?_, rfl, fun p => ⟨rfl, rfl⟩⟩
    match p with
    | 0 => exact ⟨rfl, rfl⟩
    | 1 => exact ⟨rfl, rfl⟩
    | p + 2 => exact ⟨rfl, rfl⟩
  have hreach : Reach (exS true) gc := ⟨exM, _, Run.cons s1 (Run.cons s2 (Run.cons s3 (Run.cons s4 (Run.nil _))))⟩
  clear s1 s2 s3 s4 hgc hgb hga hat
  obtain ⟨p0, p1, pf, pm, pa⟩ := hpe
  have hproc : ∀ q, q < 2 → procs (exS true) gc q = (exCf true q).proc (exSt q) := by
    intro q hq
    show (exCf true q).proc (gc.pe q) = _
    match q, hq with
    | 0, _ => rw [p0]
    | 1, _ => rw [p1]
  have s5 := Step.put (S := exS true) (g := gc) 0 1 false none 0x40018#64 0x10020#64 1 true .rel 1 1 (Ty.basic 1) (Ty.basic 1)
    [(0x40018, 0x10020)] ((exSt 0).push ⟨.win 3, 1, none, .space 7, 0⟩)
    ⟨by decide, (pa 0).1.trans (pa 0).2.symm, (pf 0).2⟩ (fun h => by cases h) (by rw [p0]; rfl)
    (by
      rw [if_neg (by decide)]
      refine ⟨0x40018#64, ?_, by decide +kernel⟩
      unfold resolve
      rw [hproc 0 (by decide), hproc 1 (by decide), p0]
      decide +kernel)
    (done_nil (pf 0).1)
  rw [(pa 0).1, pm] at s5
  generalize hg1 : after gc 0 ((exSt 0).push ⟨.win 3, 1, none, .space 7, 0⟩) ([(0x40018, 0x10020)].map fun x => if false = true then
    Atom.mv 0 x.2 1 x.1 else .set 1 x.1 (exM 0 x.2)) = g1 at s5
  have hq : pushed (gc.pe 0) ((exSt 0).push ⟨.win 3, 1, none, .space 7, 0⟩) = some ⟨.win 3, 1, none, .space 7, 0⟩ := by
    rw [p0]; rfl
  have hf1 : g1.fly 0 = [⟨⟨.win 3, 1, none, .space 7, 0⟩, [.set 1 0x40018 1]⟩] := by
    rw [← hg1]
    simp only [after, upd_at, if_true, hq, (pf 0).1]
    rfl
  have s6 := Step.enter (S := exS true) (g := g1) 0 { (exSt 0).push ⟨.win 3, 1, none, .space 7, 0⟩ with ep := 1 }
    ⟨by decide, by rw [← hg1]; exact (pa 0).1.trans (pa 0).2.symm, by
      rw [← hg1]
      simp only [after, upd_at, if_true, hq]⟩
    (by
      rw [← hg1]
      simp only [after, upd_at, if_true]
      rfl)
    (by
      rw [hf1]
      intro x hx hnot
      rw [List.mem_singleton] at hx
      subst hx
      exact absurd (List.mem_singleton.mpr rfl) hnot)
  generalize hg2 : ({ after g1 0 { (exSt 0).push ⟨.win 3, 1, none, .space 7, 0⟩ with ep := 1 } [] with
    arr := Function.update g1.arr 0 (g1.arr 0 + 1) } : G) = g2 at s6
  have s7 := Step.enter (S := exS true) (g := g2) 1 { exSt 1 with ep := 1 }
    ⟨by decide, by rw [← hg2, ← hg1]; exact (pa 1).1.trans (pa 1).2.symm, by
      rw [← hg2, ← hg1]
      simp only [after, upd_at, one_ne_zero, if_false]
      exact (pf 1).2⟩
    (by
      rw [← hg2, ← hg1]
      simp only [after, upd_at, one_ne_zero, if_false, p1]
      rfl)
    (done_nil (by
      rw [← hg2, ← hg1]
      simp only [after, upd_at, one_ne_zero, if_false]
      exact (pf 1).1))
  generalize hg3 : ({ after g2 1 { exSt 1 with ep := 1 } [] with arr := Function.update g2.arr 1 (g2.arr 1 + 1) } : G) = g3 at s7
  have harr : g3.arr 0 = 1 ∧ g3.arr 1 = 1 ∧ g3.lv = gc.lv := by
    rw [← hg3, ← hg2, ← hg1]
    refine ⟨?_, ?_, rfl⟩
    · show Function.update (Function.update gc.arr 0 (gc.arr 0 + 1)) 1 (gc.arr 1 + 1) 0 = 1
      rw [upd_at, upd_at, if_neg (by decide), if_pos rfl, (pa 0).1]
    · show Function.update (Function.update gc.arr 0 (gc.arr 0 + 1)) 1 (gc.arr 1 + 1) 1 = 1
      rw [upd_at, if_pos rfl, (pa 1).1]
  have s8 := Step.leave (S := exS true) (g := g3) 1 (by decide) (by rw [harr.2.1, harr.2.2, (pa 1).2]; exact Nat.zero_lt_one)
    (fun q hq => by
      rw [harr.2.2, (pa 1).2]
      have : q = 0 ∨ q = 1 := by
        have : q < 2 := hq
        omega
      rcases this with rfl | rfl
      · rw [harr.1]; exact Nat.zero_lt_one
      · rw [harr.2.1]; exact Nat.zero_lt_one)
  refine ⟨exS true, gc, g1, _, _, (0x40018, 0x10020), _, hreach, s5, Run.cons s6 (Run.cons s7 (Run.cons s8 (Run.nil _))), ?_, ?_,
    by decide, ?_, ?_⟩
  · rintro b ⟨r, own, h⟩
    rcases h with ⟨y, hy, _⟩ | ⟨_, hb⟩
    · rw [(pf r).1] at hy; cases hy
    · rw [(pf r).2] at hb; cases hb
  · intro e he
    simp only [List.mem_cons, List.not_mem_nil, or_false] at he
    rcases he with rfl | rfl | rfl <;> exact fun h => h
  · show 0 < Function.update g3.lv 1 (g3.lv 1 + 1) 1
    rw [upd_at, if_pos rfl]
    exact Nat.succ_pos _
  · show g3.mem 1 _ ≠ gc.mem 0 _
    rw [← hg3, ← hg2, ← hg1]
    show gc.mem 1 _ ≠ _
    rw [pm]
    decide

end Verif.Vis
