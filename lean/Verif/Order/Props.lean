import Verif.Order.Global
/-!
# Properties of quiet, fence and barriers (C29, C30, C31, C56, C57)
-/
namespace Verif.Order
open Verif.Sobj

/-! ## Concrete configurations and histories -/

/-- heap at 4096 (4096 bytes), data segment at 16384 (256 bytes), two PEs -/
abbrev cfg (dyn tracking : Bool) (rma : Rma) (amoDirect : Bool) : Cfg :=
  ⟨dyn, tracking, rma, amoDirect, 2, ⟨1#32, 4096#64, 4096, none⟩, ⟨0#32, 16384#64, 256, none⟩⟩

/-- attribute of a space at 32768 (1024 bytes) -/
abbrev spAttr : Attr := ⟨3#32, 32768#64, 1024, none⟩

/-- `legal`, decided -/
def legalB (s : St) : Op → Bool
  | .attach name => (s.find name).all (fun x => !x.att)
  | .destroy name => (s.find name).all (fun x => !x.att)
  | .issue _ _ _ _ _ _ => true
  | .complete _ => true
  | .quiet _ => true
  | .fence _ => true
  | .create _ _ _ => true
  | .detach _ => true
  | .ctxCreate _ _ => true
  | .ctxDestroy _ _ => true

theorem legal_of_B {s : St} {op : Op} (h : legalB s op = true) : legal s op := by
  cases op with
  | attach name => intro x hx; simp only [legalB, hx, Option.all_some, Bool.not_eq_true'] at h; exact h
  | destroy name => intro x hx; simp only [legalB, hx, Option.all_some, Bool.not_eq_true'] at h; exact h
  | issue _ _ _ _ _ _ => trivial
  | complete _ => trivial
  | quiet _ => trivial
  | fence _ => trivial
  | create _ _ _ => trivial
  | detach _ => trivial
  | ctxCreate _ _ => trivial
  | ctxDestroy _ _ => trivial

/-- legal sequence of calls -/
def runB (c : Cfg) (s : St) : List Op → Res St
  | [] => .ok s
  | op :: t => if legalB s op then (step c s op).bind fun s' => runB c s' t else .ub

theorem hist_runB {c : Cfg} {s s' : St} {ops : List Op} (h : Hist c s) (e : runB c s ops = .ok s') : Hist c s' := by
  induction ops generalizing s with
  | nil => cases e; exact h
  | cons op t ih =>
    simp only [runB] at e
    split at e
    · rename_i hl
      cases hs : step c s op with
      | ok s1 => rw [hs] at e; exact ih (Hist.step op h (legal_of_B hl) hs) e
      | abort => rw [hs] at e; cases e
      | ub => rw [hs] at e; cases e
      | hang => rw [hs] at e; cases e
    · cases e

/-! ## C29: quiet and fence on the default context -/

/-- **C29 (quiet).** After any history, when quiet on the default context returns, nothing this PE issued before is
outstanding: not on any window, static or dynamic, of the process, of any space or of any context, nor as an active
message. -/
theorem C29_quiet {c : Cfg} {s s' : St} (h : Hist c s) (e : step c s (.quiet none) = .ok s') : s'.pend = [] :=
  (quiet_none (hist_inv h) e).2.1

/-- **C29 (fence).** The same for fence. -/
theorem C29_fence {c : Cfg} {s s' : St} (h : Hist c s) (e : step c s (.fence none) = .ok s') : s'.pend = [] := by
  have e' : quiet c s none = .ok s' := by rw [← fence_quiet]; exact e
  exact (quiet_none (hist_inv h) e').2.1

/-- **C29 (tracking never skips an outstanding operation).** In every history, whenever the flag of a slot is 0, no
operation is outstanding on that slot's window. -/
theorem C29_skip {c : Cfg} {s : St} (h : Hist c s) (ht : c.tracking = true) {p : Pend} (hp : p ∈ s.pend) {w : Nat}
    (hw : p.via = .win w) : ∃ l x, s.ictx l = some x ∧ x.win = some w ∧ x.flag = true ∧ l ∈ quietLocs c s := by
  obtain ⟨l, hl, x, hx, hxw, hf, _⟩ := (hist_inv h).win p hp w hw
  exact ⟨l, x, hx, hxw, hf ht, hl⟩

/-- **C29 (recorded).** Every call that MPI may leave outstanding is counted as outstanding when it returns, so that
C29 speaks about it: direct path. -/
theorem C29_recorded {c : Cfg} {s s' : St} {ctx : Option (Nat × Nat)} {addr : BitVec 64} {n tgt : Nat} {k : Kind}
    {gpu : Bool} (e : step c s (.issue ctx addr n tgt k gpu) = .ok s') (hn : n ≠ 0)
    (hk : (c.isDirect k gpu = true ∧ k ≠ .get ∧ k ≠ .fetch true) ∨
      (c.isDirect k gpu = false ∧ (k = .put ∨ k = .putNbi ∨ k = .post))) :
    ∃ p ∈ s'.pend, p.tgt = tgt ∧ p.ctx = ctx ∧ p.ep = s.ep := by
  simp only [step] at e
  unfold issue at e
  split at e
  · rename_i h; simp [hn] at h
  · split at e
    · cases e
    · cases hl : lookup c s ctx addr with
      | ok r =>
        rw [hl] at e
        simp only [Res.bind] at e
        rcases hk with ⟨hd, h1, h2⟩ | ⟨hd, h1⟩
        · rw [if_pos hd] at e
          have hlv : k.leaves = true := by
            cases k with
            | fetch b => cases b with
              | true => exact absurd rfl h2
              | false => rfl
            | get => exact absurd rfl h1
            | put => rfl
            | putNbi => rfl
            | getNbi => rfl
            | post => rfl
            | cswap => rfl
          unfold issueDirect at e
          split at e
          · cases e
          · rename_i w _
            cases e
            refine ⟨⟨.win w, tgt, ctx, r.2, s.ep⟩, ?_, rfl, rfl, rfl⟩
            unfold mark
            rw [if_pos hlv]
            split
            · rw [pend_setFlag]; exact List.mem_append_right _ (List.mem_singleton.mpr rfl)
            · exact List.mem_append_right _ (List.mem_singleton.mpr rfl)
        · rw [hd] at e
          simp only [Bool.false_eq_true, if_false] at e
          cases e
          refine ⟨⟨.am, tgt, ctx, r.2, s.ep⟩, ?_, rfl, rfl, rfl⟩
          have hlv : k.amLeaves = true := by rcases h1 with rfl | rfl | rfl <;> rfl
          unfold issueAm
          simp only [hlv, if_true]
          exact List.mem_append_right _ (List.mem_singleton.mpr rfl)
      | abort => rw [hl] at e; cases e
      | ub => rw [hl] at e; cases e
      | hang => rw [hl] at e; cases e

/-- put to the heap, AMO to the data segment, create + attach a space with one context, nbi put to it, and a put on its
context -/
abbrev calls : List Op :=
  [.issue none 4100#64 1 1 .put true, .issue none 16390#64 1 1 .post true, .create 7 spAttr 1, .attach 7,
   .issue none 32800#64 2 1 .putNbi true, .ctxCreate 7 0, .issue (some (7, 0)) 32800#64 2 0 .put true]

/-- C29 is not vacuous: four operations outstanding (three windows and one active message), then a quiet -/
example : ∃ s s', Hist (cfg false true .auto false) s ∧ s.pend.length = 4 ∧
    step (cfg false true .auto false) s (.quiet none) = .ok s' ∧ s'.pend = [] :=
  ⟨_, _, hist_runB Hist.init (ops := calls) rfl, rfl, rfl, rfl⟩

example : ∃ s s', Hist (cfg true false .auto true) s ∧ s.pend.length = 4 ∧
    step (cfg true false .auto true) s (.fence none) = .ok s' ∧ s'.pend = [] :=
  ⟨_, _, hist_runB Hist.init (ops := calls) rfl, rfl, rfl, rfl⟩

/-- Attaching twice a space without contexts is not detected (space_impl.c L281 only checks `ctx_list`): the first
window is lost together with a put outstanding on it, and no later quiet completes it. Illegal use, so not a
counterexample to C29; it is why `legal` is assumed. -/
theorem C29_double_attach : ∃ s s', run (cfg false true .auto true) init
      [.create 7 spAttr 0, .attach 7, .issue none 32800#64 2 1 .put true, .attach 7] = .ok s ∧
    step (cfg false true .auto true) s (.quiet none) = .ok s' ∧ s'.pend.length = 1 :=
  ⟨_, _, rfl, rfl, rfl⟩

/-! ## C30: barrier over all PEs -/

/-- **C30, partial.** In every execution, once some PE has left `k` barriers, no operation that any PE issued before
entering its `k`-th barrier is outstanding, among those the code's barrier completes: active messages (any context),
and default-context operations on the heap and data segment — on spaces too with dynamic windows. Missing: without
dynamic windows, default-context operations on a space; operations on space contexts issued directly (the standard
leaves those to the context's quiet). -/
theorem C30_barrier_partial {c : Cfg} {g : G} (h : GReach c g) {p q : Nat} (hp : p < c.npes) (hq : q < c.npes)
    {o : Pend} (ho : o ∈ (g.pe q).pend) (hc : Covered c o) : g.lv p ≤ o.ep := by
  have hi := ginv_reach h
  rw [hi.cov q o ho hc]
  exact hi.lv p hp q hq

/-- C30 in full for default-context operations when windows are dynamic. -/
theorem C30_barrier_dyn {c : Cfg} {g : G} (h : GReach c g) (hd : c.dyn = true) {p q : Nat} (hp : p < c.npes)
    (hq : q < c.npes) {o : Pend} (ho : o ∈ (g.pe q).pend) (hc : o.ctx = none) : g.lv p ≤ o.ep :=
  C30_barrier_partial h hp hq ho (Or.inr ⟨hc, Or.inl hd⟩)

/-- Issue time: in every execution an outstanding operation carries the number of barriers its PE had entered when it
was issued, so that `g.lv p ≤ o.ep` does say "issued after". -/
theorem C30_stamp {c : Cfg} {g : G} (h : GReach c g) (q : Nat) : (g.pe q).ep = g.arr q := (ginv_reach h).ep q

/-- the calls of one PE inside the whole system -/
theorem greach_runB {c : Cfg} {g : G} (h : GReach c g) {p : Nat} (hp : p < c.npes) (h0 : g.arr p = g.lv p)
    {ops : List Op} {s' : St} (e : runB c (g.pe p) ops = .ok s') :
    GReach c { g with pe := Function.update g.pe p s' } := by
  induction ops generalizing g with
  | nil =>
    cases e
    have : { g with pe := Function.update g.pe p (g.pe p) } = g := by
      rw [Function.update_eq_self]
    rw [this]; exact h
  | cons op t ih =>
    simp only [runB] at e
    split at e
    · rename_i hl
      cases hs : step c (g.pe p) op with
      | ok s1 =>
        rw [hs] at e
        have h1 := GReach.step h (GStep.call p op s1 hp h0 (legal_of_B hl) hs)
        have h2 := @ih { g with pe := Function.update g.pe p s1 } h1 h0
          (by show runB c (Function.update g.pe p s1 p) t = _; rw [Function.update_self]; exact e)
        simp only [Function.update_idem] at h2
        exact h2
      | abort => rw [hs] at e; cases e
      | ub => rw [hs] at e; cases e
      | hang => rw [hs] at e; cases e
    · cases e

/-- PE 0 runs `ops`, then both PEs go through a barrier -/
theorem greach_barrier {c : Cfg} {ops : List Op} {s1 s2 s3 : St} (hc : c.npes = 2) (e : runB c init ops = .ok s1)
    (e2 : barrierLocal c s1 (List.range c.npes) = .ok s2) (e3 : barrierLocal c init (List.range c.npes) = .ok s3) :
    ∃ g, GReach c g ∧ g.pe 0 = s2 ∧ g.lv 0 = 1 ∧ g.lv 1 = 1 := by
  have h0 : (0 : Nat) < c.npes := by omega
  have h1 : (1 : Nat) < c.npes := by omega
  have g1 := greach_runB (GReach.init (c := c)) h0 rfl e
  have g2 := GReach.step g1 (GStep.enter 0 s2 h0 rfl (by simpa using e2))
  have g3 := GReach.step g2 (GStep.enter 1 s3 h1 rfl (by simpa [ginit] using e3))
  have g4 := GReach.step g3 (GStep.leave 0 h0 (by simp [ginit]) (by
    intro q hq
    rcases (by omega : q = 0 ∨ q = 1) with rfl | rfl <;> simp [ginit]))
  have g5 := GReach.step g4 (GStep.leave 1 h1 (by simp [ginit]) (by
    intro q hq
    rcases (by omega : q = 0 ∨ q = 1) with rfl | rfl <;> simp [ginit]))
  exact ⟨_, g5, by simp, by simp [ginit], by simp [ginit]⟩

/-- **The code violates C30 without dynamic windows**: PE 0 puts to an attached space on the default context; both PEs
go through a barrier; the put is still outstanding. (coll_impl.h L22-25 flushes the heap and data windows only.) -/
theorem C30_fails : ∃ g, GReach (cfg false true .auto true) g ∧ g.lv 0 = 1 ∧ g.lv 1 = 1 ∧
    ∃ o ∈ (g.pe 0).pend, o.ctx = none ∧ o.ep = 0 := by
  obtain ⟨g, hg, h0, h1, h2⟩ := greach_barrier (c := cfg false true .auto true)
    (ops := [.create 7 spAttr 0, .attach 7, .issue none 32800#64 2 1 .put true]) rfl rfl rfl rfl
  refine ⟨g, hg, h1, h2, ?_⟩
  rw [h0]
  exact ⟨_, List.mem_singleton.mpr rfl, rfl, rfl⟩

/-- C30_barrier_partial is not vacuous: a put and an AMO by active message outstanding, both gone after the barrier -/
example : ∃ g, GReach (cfg false true .auto false) g ∧ g.lv 0 = 1 ∧ g.lv 1 = 1 ∧ (g.pe 0).pend = [] := by
  obtain ⟨g, hg, h0, h1, h2⟩ := greach_barrier (c := cfg false true .auto false)
    (ops := [.issue none 4100#64 1 1 .put true, .issue none 16390#64 1 1 .post true]) rfl rfl rfl rfl
  exact ⟨g, hg, h1, h2, by rw [h0]; rfl⟩

/-- and with dynamic windows the space's put is covered -/
example : ∃ g, GReach (cfg true true .auto false) g ∧ g.lv 0 = 1 ∧ g.lv 1 = 1 ∧ (g.pe 0).pend = [] := by
  obtain ⟨g, hg, h0, h1, h2⟩ := greach_barrier (c := cfg true true .auto false)
    (ops := [.create 7 spAttr 0, .attach 7, .issue none 32800#64 2 1 .put true]) rfl rfl rfl rfl
  exact ⟨g, hg, h1, h2, by rw [h0]; rfl⟩

/-! ## C31: quiet on a space context -/

/-- **C31, partial.** When quiet on a space context returns, no operation issued on it is outstanding on a window.
Missing: operations sent as active messages (`C31_fails`). -/
theorem C31_ctx_quiet_partial {c : Cfg} {s s' : St} (h : Hist c s) {nm i : Nat}
    (e : step c s (.quiet (some (nm, i))) = .ok s') : ∀ p ∈ s'.pend, p.ctx = some (nm, i) → p.via = .am := by
  intro p hp hc
  have hi := (quiet_inv (ctx := some (nm, i)) (hist_inv h) e).1
  cases hv : p.via with
  | am => rfl
  | win w =>
    exfalso
    obtain ⟨l, _, x, hx, hw, hf, hl⟩ := hi.win p hp w hv
    have hl' : l = .ctx nm i := by rw [hl, slotOf, hc]
    subst hl'
    obtain ⟨_, cl, _⟩ := flushLoc_inv (hist_inv h) (l := .ctx nm i) e
    obtain ⟨c1, c2⟩ := cl x hx
    cases ht : c.tracking with
    | true => rw [c1 ht] at hf; exact absurd (hf ht) (by simp)
    | false => exact c2 ht w hw p hp hv

/-- C31 in full in builds and runs where nothing uses active messages. -/
theorem C31_ctx_quiet_direct {c : Cfg} {s s' : St} (h : Hist c s) (hd : c.amoDirect = true) (hr : c.rma = .direct)
    {nm i : Nat} (e : step c s (.quiet (some (nm, i))) = .ok s') : ∀ p ∈ s'.pend, p.ctx ≠ some (nm, i) := by
  intro p hp hc
  have hv := C31_ctx_quiet_partial h e p hp hc
  have hi := (quiet_inv (ctx := some (nm, i)) (hist_inv h) e).1
  exact (hi.am p hp hv).2.2 ⟨hd, hr⟩

/-- A context's quiet makes nothing outstanding. -/
theorem C31_only {c : Cfg} {s s' : St} (h : Hist c s) {nm i : Nat} (e : step c s (.quiet (some (nm, i))) = .ok s') :
    ∀ p ∈ s'.pend, p ∈ s.pend := (quiet_inv (ctx := some (nm, i)) (hist_inv h) e).2.1

/-- **The code violates C31 when AMOs go by active message**: an add on a space context is still outstanding after
quiet on that context (order_impl.h L69-72: the context path flushes the window only). -/
theorem C31_fails : ∃ s s', Hist (cfg false true .auto false) s ∧
    step (cfg false true .auto false) s (.quiet (some (7, 0))) = .ok s' ∧ ∃ o ∈ s'.pend, o.ctx = some (7, 0) := by
  refine ⟨_, _, hist_runB Hist.init
    (ops := [.create 7 spAttr 1, .attach 7, .ctxCreate 7 0, .issue (some (7, 0)) 32800#64 1 1 .post true]) rfl, rfl, ?_⟩
  exact ⟨_, List.mem_singleton.mpr rfl, rfl⟩

/-- C31 is not vacuous: a put outstanding on a context, completed by the context's quiet -/
example : ∃ s s', Hist (cfg false true .direct true) s ∧ s.pend.length = 1 ∧
    step (cfg false true .direct true) s (.quiet (some (7, 0))) = .ok s' ∧ s'.pend = [] :=
  ⟨_, _, hist_runB Hist.init
    (ops := [.create 7 spAttr 1, .attach 7, .ctxCreate 7 0, .issue (some (7, 0)) 32800#64 1 1 .put true]) rfl, rfl, rfl, rfl⟩

/-! ## C56: quiet, fence and barrier always return -/

/-- a slot on which `ctx_flush_impl` succeeds -/
def Safe (c : Cfg) (s : St) (l : Loc) : Prop := Has s l ∨ (c.tracking = true ∧ ∃ y, s.ictx l = some y ∧ y.flag = false)

theorem flushLoc_safe {c : Cfg} {s : St} {l : Loc} (h : Safe c s l) :
    ∃ s', flushLoc c s l = .ok s' ∧ ∀ l', Safe c s l' → Safe c s' l' := by
  unfold flushLoc
  rcases h with ⟨y, w, h1, h2⟩ | ⟨ht, y, h1, h2⟩
  · rw [h1]
    dsimp only
    split
    · exact ⟨s, rfl, fun _ h => h⟩
    · rw [h2]
      dsimp only
      refine ⟨_, rfl, ?_⟩
      intro l' hl'
      have h3 : Safe c (s.flushWin w) l' := by
        unfold Safe Has
        rw [ictx_flushWin]; exact hl'
      split
      · rcases h3 with h3 | ⟨a, y', b, d⟩
        · exact Or.inl (has_setFlag h3 false l)
        · refine Or.inr ⟨a, ?_⟩
          rw [ictx_setFlag]
          split
          · rw [b]; exact ⟨_, rfl, rfl⟩
          · exact ⟨y', b, d⟩
      · exact h3
  · rw [h1]
    dsimp only
    rw [if_pos (by simp [ht, h2])]
    exact ⟨s, rfl, fun _ h => h⟩

theorem flushLocs_safe {c : Cfg} {s : St} {ls : List Loc} (h : ∀ l ∈ ls, Safe c s l) :
    ∃ s', flushLocs c s ls = .ok s' := by
  induction ls generalizing s with
  | nil => exact ⟨s, rfl⟩
  | cons l t ih =>
    obtain ⟨s1, e1, m1⟩ := flushLoc_safe (h l (List.mem_cons_self ..))
    obtain ⟨s2, e2⟩ := ih (s := s1) (fun l' hl' => m1 l' (h l' (List.mem_cons_of_mem _ hl')))
    exact ⟨s2, by simp only [flushLocs, e1, Res.bind]; exact e2⟩

/-- **C56, partial.** After any history, quiet on the default context returns (no abort, no fault), provided every
space is attached, or is without contexts and either windows are dynamic or tracking is on and the space's flag is 0.
Missing: the other states of unattached spaces (`C56_fails_*`). -/
theorem C56_quiet_partial {c : Cfg} {s : St} (h : Hist c s)
    (hs : ∀ x ∈ s.spaces, x.att = true ∨
      (x.nctx = 0 ∧ (c.dyn = true ∨ (c.tracking = true ∧ x.dflt.flag = false)))) :
    ∃ s', step c s (.quiet none) = .ok s' := by
  have hw := hist_wins h
  have hi := hist_inv h
  have : ∀ l ∈ quietLocs c s, Safe c s l := by
    intro l hl
    rcases mem_quietLocs.mp hl with ⟨_, rfl⟩ | ⟨_, rfl | rfl⟩ | ⟨hd, x, hx, rfl⟩ | ⟨x, hx, i, hi', rfl⟩
    · exact Or.inl hw.symm
    · exact Or.inl hw.heap
    · exact Or.inl hw.data
    · rcases hs x hx with ha | ⟨_, h1 | ⟨h1, h2⟩⟩
      · exact Or.inl (hw.sp x hx ha _ (by unfold spaceLocs; simp [hd]))
      · rw [hd] at h1; cases h1
      · exact Or.inr ⟨h1, x.dflt, ictx_dflt (hi.uniq x hx), h2⟩
    · rcases hs x hx with ha | ⟨h1, _⟩
      · exact Or.inl (hw.sp x hx ha _ (by
          unfold spaceLocs
          exact List.mem_append_left _ (List.mem_map.mpr ⟨i, List.mem_range.mpr hi', rfl⟩)))
      · omega
  obtain ⟨s', e⟩ := flushLocs_safe this
  exact ⟨amFlush c s' (List.range c.npes), by simp only [step, quiet, e, Res.bind]⟩

/-- **C56 (barrier)**: the local part of a barrier never fails, whatever the spaces. -/
theorem C56_barrier {c : Cfg} {s : St} (h : Hist c s) (pes : List Nat) : ∃ s', barrierLocal c s pes = .ok s' := by
  have hw := hist_wins h
  have key : ∀ {s : St} {l : Loc}, Has s l → ∃ w, winFlush s l = .ok (s.flushWin w) := by
    rintro s l ⟨y, w, h1, h2⟩
    exact ⟨w, by unfold winFlush; rw [h1]; simp [h2]⟩
  unfold barrierLocal
  cases c.dyn with
  | true =>
    obtain ⟨w, e⟩ := key hw.symm
    rw [if_pos rfl, e]
    exact ⟨_, rfl⟩
  | false =>
    obtain ⟨w, e⟩ := key hw.heap
    obtain ⟨w2, e2⟩ := key (s := s.flushWin w) (l := .data) (has_congr hw.data (ictx_flushWin s w _))
    rw [if_neg (by simp), e]
    simp only [Res.bind, e2]
    exact ⟨_, rfl⟩

/-- **The code violates C56 (1)**: a space with contexts, created but not attached: quiet dereferences a NULL context
table (order_impl.h L86-87), in every build. -/
theorem C56_fails_null (dyn tracking : Bool) : ∃ s, Hist (cfg dyn tracking .auto true) s ∧
    step (cfg dyn tracking .auto true) s (.quiet none) = .ub := by
  cases dyn <;> cases tracking <;>
    exact ⟨_, hist_runB Hist.init (ops := [.create 7 spAttr 1]) rfl, rfl⟩

/-- **The code violates C56 (2)**: static windows, no tracking, a space created but not attached: quiet calls MPI with
`MPI_WIN_NULL` (order_impl.h L89). -/
theorem C56_fails_unattached : ∃ s, Hist (cfg false false .auto true) s ∧
    step (cfg false false .auto true) s (.quiet none) = .abort :=
  ⟨_, hist_runB Hist.init (ops := [.create 7 spAttr 0]) rfl, rfl⟩

/-- **The code violates C56 (3)**: static windows with tracking: put to a space, detach it, quiet. Detach completes the
put but leaves the flag set (space_impl.c L26-32), so quiet calls MPI with `MPI_WIN_NULL`. -/
theorem C56_fails_stale : ∃ s, Hist (cfg false true .auto true) s ∧
    step (cfg false true .auto true) s (.quiet none) = .abort :=
  ⟨_, hist_runB Hist.init
    (ops := [.create 7 spAttr 0, .attach 7, .issue none 32800#64 2 1 .put true, .detach 7]) rfl, rfl⟩

/-- hypotheses of C56_quiet_partial met: an attached space with a context and an unattached one without -/
example : ∃ s, Hist (cfg false true .auto true) s ∧ s.spaces.length = 2 ∧
    ∀ x ∈ s.spaces, x.att = true ∨ (x.nctx = 0 ∧ ((cfg false true .auto true).dyn = true ∨
      ((cfg false true .auto true).tracking = true ∧ x.dflt.flag = false))) := by
  refine ⟨_, hist_runB Hist.init (ops := [.create 7 spAttr 1, .attach 7, .create 8 spAttr 0]) rfl, rfl, ?_⟩
  intro x hx
  rcases List.mem_cons.mp hx with rfl | hx
  · exact Or.inl rfl
  · rw [List.mem_singleton.mp hx]; exact Or.inr ⟨rfl, Or.inr ⟨rfl, rfl⟩⟩

/-! ## C57: barrier on an active set -/

/-- **C57, partial.** After the local part of a barrier on any set of PEs, what is left outstanding among covered
operations are active messages to PEs outside the set. Missing: those (`C57_fails`), and what C30 misses. -/
theorem C57_active_barrier_partial {c : Cfg} {s s' : St} (h : Hist c s) {start lg size : Nat}
    (e : barrierLocal c s (activeSet start lg size) = .ok s') :
    ∀ p ∈ s'.pend, Covered c p → p.via = .am ∧ ∀ j < size, p.tgt ≠ start + j * 2 ^ lg := by
  intro p hp hc
  obtain ⟨h1, h2⟩ := (barrier_done (hist_inv h) e).2.2 p hp hc
  refine ⟨h1, fun j hj ht => h2 ?_⟩
  rw [ht]
  exact List.mem_map.mpr ⟨j, List.mem_range.mpr hj, rfl⟩

/-- **The code violates C57**: an add sent to PE 1 as an active message is still outstanding after PE 0's barrier on
the active set {0} (coll_activeset_impl.h L139 flushes the members of the set only), where shmem_barrier promises
that the caller's earlier updates have completed. -/
theorem C57_fails : ∃ s s', Hist (cfg false true .auto false) s ∧
    barrierLocal (cfg false true .auto false) s (activeSet 0 0 1) = .ok s' ∧ s'.pend ≠ [] := by
  refine ⟨_, _, hist_runB Hist.init (ops := [.issue none 16390#64 1 1 .post true]) rfl, rfl, ?_⟩
  intro h; cases h

/-- C57 not vacuous: an add to a member, completed -/
example : ∃ s s', Hist (cfg false true .auto false) s ∧ s.pend.length = 1 ∧
    barrierLocal (cfg false true .auto false) s (activeSet 1 0 1) = .ok s' ∧ s'.pend = [] :=
  ⟨_, _, hist_runB Hist.init (ops := [.issue none 16390#64 1 1 .post true]) rfl, rfl, rfl, rfl⟩

end Verif.Order
