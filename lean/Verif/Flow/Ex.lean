import Verif.Flow.Props
import Verif.Vis.Link
import Verif.Vis.Progress
/-!
# C93: calls and executions exist

A call of a routine within its limits on a symmetric address by a PE that is not in another call is a step; two concrete executions meet
the hypotheses of C93.
-/
namespace Verif.Flow
open Verif.Sobj Verif.Rma Verif.Vis Verif.Api
open Verif.Order (St Pend Cfg)

/-- a call moves something: the converse of `moving_pairs` -/
theorem moving_exists {cacheOn : Bool} {procs : Nat → Proc} {path : Path} {ctx : Option (Obj × Attr)} {me pe : Nat} {fn : Fn}
    {rt : RRt} {isCtx : Bool} {c : RCall} (hc : RRt.body fn.fam rt isCtx = some c) {a : RArgs} {r : BitVec 64}
    (hr : resolve procs path (if isCtx then ctx else none) me pe (rt.remote a) = .ok r) (hl : rt.InLimits fn path a) :
    ∃ oc tc oty tty xs, Moving cacheOn procs path ctx me pe fn c a xs ∧
      (if c.cnt.val a = 0 then xs = [] else if puts rt then PutPairs procs path (if isCtx then ctx else none) me pe (rt.remote a)
        (here rt a) oc tc oty tty xs else GetPairs procs path (if isCtx then ctx else none) me pe (rt.remote a) (here rt a) oc tc oty tty xs) := by
  have hctx := ((C88_routines rt fn isCtx).2 c hc).1
  by_cases h0 : c.cnt.val a = 0
  · refine ⟨0, 0, Ty.basic 1, Ty.basic 1, [], ?_, by rw [if_pos h0]⟩
    unfold Moving
    exact (if_pos h0).mpr rfl
  · have hcn : c.cnt.val a = count rt a := by
      cases fn <;> cases rt <;> cases isCtx <;> simp only [Fn.fam, RRt.body, Option.some.injEq, reduceCtorEq] at hc <;> subst hc <;> rfl
    have hta : c.target.addr a = rt.remote a := by
      cases fn <;> cases rt <;> cases isCtx <;> simp only [Fn.fam, RRt.body, Option.some.injEq, reduceCtorEq] at hc <;> subst hc <;> rfl
    have hoa : c.origin.addr a = here rt a := by
      cases fn <;> cases rt <;> cases isCtx <;> simp only [Fn.fam, RRt.body, Option.some.injEq, reduceCtorEq] at hc <;> subst hc <;> rfl
    have hst : (∃ s s', c.via = .iput s s') ∨ (∃ s s', c.via = .iget s s') → ∃ t, fn.mpi = some t := by
      intro h
      cases fn with
      | typed r => exact ⟨_, rfl⟩
      | sized r => exact ⟨_, rfl⟩
      | mem =>
        exfalso
        cases rt <;> cases isCtx <;> simp only [Fn.fam, RRt.body, Option.some.injEq, reduceCtorEq] at hc <;> subst hc <;> simp at h
    have hpv : isPut c.via = puts rt := by
      cases fn <;> cases rt <;> cases isCtx <;> simp only [Fn.fam, RRt.body, Option.some.injEq, reduceCtorEq] at hc <;> subst hc <;> rfl
    have hlt : c.cnt.val a < 2 ^ 31 := by
      rw [hcn]
      cases rt <;> first | exact hl.1 | (show 1 < 2 ^ 31; decide)
    have hr' : resolve procs path (if c.ctx then ctx else none) me pe (c.target.addr a) = .ok r := by rw [hctx, hta]; exact hr
    rw [← hta, ← hoa, ← hctx, ← hpv]
    unfold Moving
    cases hv : c.via with
    | put => exact ⟨_, _, _, _, _, (if_neg h0).mpr ⟨r, hr', rfl⟩, (if_neg h0).mpr ⟨r, hr', rfl⟩⟩
    | putNbi => exact ⟨_, _, _, _, _, (if_neg h0).mpr ⟨r, hr', rfl⟩, (if_neg h0).mpr ⟨r, hr', rfl⟩⟩
    | get => exact ⟨_, _, _, _, _, (if_neg h0).mpr ⟨r, hr', rfl⟩, (if_neg h0).mpr ⟨r, hr', rfl⟩⟩
    | getNbi => exact ⟨_, _, _, _, _, (if_neg h0).mpr ⟨r, hr', rfl⟩, (if_neg h0).mpr ⟨r, hr', rfl⟩⟩
    | iput s s' =>
      obtain ⟨t, ht⟩ := hst (Or.inl ⟨s, s', hv⟩)
      obtain ⟨oc, oty, tc, tty, hd⟩ := dtypes_exist cacheOn path (c.cnt.val a) t (s'.val a) (s.val a) hlt
      exact ⟨_, _, _, _, _, (if_neg h0).mpr ⟨t, oc, oty, tc, tty, ht, hd, r, hr', rfl⟩, (if_neg h0).mpr ⟨r, hr', rfl⟩⟩
    | iget s s' =>
      obtain ⟨t, ht⟩ := hst (Or.inr ⟨s, s', hv⟩)
      obtain ⟨oc, oty, tc, tty, hd⟩ := dtypes_exist cacheOn path (c.cnt.val a) t (s.val a) (s'.val a) hlt
      exact ⟨_, _, _, _, _, (if_neg h0).mpr ⟨t, oc, oty, tc, tty, ht, hd, r, hr', rfl⟩, (if_neg h0).mpr ⟨r, hr', rfl⟩⟩

/-- the kind of a routine in the order model -/
def kindOf (rt : RRt) : Order.Kind :=
  if puts rt then (if rt.nbi then .putNbi else .put) else (if rt.nbi then .getNbi else .get)

/-- **C93** (calls happen): a PE that is in no other call, on a symmetric address, within the limits of the routine: if the order model lets
the call proceed, it is a step, and its accesses are on their way -/
theorem C93_call {S : Sys} (cacheOn : Bool) {gpu : Bool} {mode : Mode} {rt : RRt} {fn : Fn} (hoff : rt.offered fn = true) {isCtx : Bool}
    {ctx : Option (Nat × Nat)} {a : RArgs} {q t : Nat} {g0 : G} (hfree : Free S g0 q) (hm : mode = .abs → (S.cf q).dyn = true)
    {bases : Nat → BitVec 64} {off : BitVec 64}
    (hs : SymAddr (procs S g0) S.npes q t (pathFor S q rt gpu mode) (if isCtx then ctxObj (g0.pe q) ctx else none) bases off)
    (ha : rt.remote a = bases q + off) (hl : rt.InLimits fn (pathFor S q rt gpu mode) a) {s' : St}
    (e : Order.step (S.cf q) (g0.pe q) (.issue (if isCtx then ctx else none) (rt.remote a) (count rt a) t (kindOf rt) gpu) = .ok s')
    (d : Done (g0.fly q) s') :
    ∃ xs, Calls S cacheOn gpu mode rt fn isCtx ctx a q t g0 xs (g0.arr q) (after g0 q s' (xs.map fun x =>
      if puts rt then (if rt.nbi then .mv q x.2 t x.1 else .set t x.1 (g0.mem q x.2)) else .mv t x.2 q x.1)) := by
  obtain ⟨c, hc⟩ := Option.isSome_iff_exists.1 ((C88_routines rt fn isCtx).1.trans hoff)
  have hcn : c.cnt.val a = count rt a := by
    cases fn <;> cases rt <;> cases isCtx <;> simp only [Fn.fam, RRt.body, Option.some.injEq, reduceCtorEq] at hc <;> subst hc <;> rfl
  have hta : c.target.addr a = rt.remote a := by
    cases fn <;> cases rt <;> cases isCtx <;> simp only [Fn.fam, RRt.body, Option.some.injEq, reduceCtorEq] at hc <;> subst hc <;> rfl
  have hpv : isPut c.via = puts rt := by
    cases fn <;> cases rt <;> cases isCtx <;> simp only [Fn.fam, RRt.body, Option.some.injEq, reduceCtorEq] at hc <;> subst hc <;> rfl
  obtain ⟨hctx, hblk⟩ := (C88_routines rt fn isCtx).2 c hc
  have hnb : (!c.via.blocking) = rt.nbi := by rw [hblk, Bool.not_not]
  have hobj : (if isCtx then ctxObj (g0.pe q) ctx else none) = ctxObj (g0.pe q) (if isCtx then ctx else none) := by
    cases isCtx <;> rfl
  obtain ⟨oc, tc, oty, tty, xs, h1, h2⟩ := moving_exists (cacheOn := cacheOn) hc (by rw [ha]; exact symm_resolve hs) hl
  rw [hcn, hobj] at h2
  refine ⟨xs, c, hc, ?_, hm, by rw [hpv]; exact h1⟩
  unfold event
  rw [hpv, hta, hctx, hnb]
  cases hp : puts rt with
  | true =>
    have hk : kindOf rt = if rt.nbi then .putNbi else .put := if_pos hp
    rw [hk] at e
    have hpath : pathFor S q rt gpu mode = pathOf (S.cf q) .put gpu mode := by unfold pathFor; rw [hp, if_pos rfl]
    rw [hp, hpath] at h2
    simp only [if_true] at h2 ⊢
    exact Step.put q t rt.nbi _ _ (here rt a) (count rt a) gpu mode oc tc oty tty xs s' hfree hm e h2 d
  | false =>
    have hk : kindOf rt = if rt.nbi then .getNbi else .get := if_neg (by rw [hp]; decide)
    rw [hk] at e
    have hpath : pathFor S q rt gpu mode = pathOf (S.cf q) .get gpu mode := by unfold pathFor; rw [hp, if_neg (by decide)]
    rw [hp, hpath] at h2
    simp only [Bool.false_eq_true, if_false] at h2 ⊢
    exact Step.get q t rt.nbi _ _ (here rt a) (count rt a) gpu mode oc tc oty tty xs s' hfree hm e h2 d

/-! ## Concrete executions -/

/-- the accesses of an operation can be performed one after the other -/
theorem drain {S : Sys} {q : Nat} (hq : q < S.npes) {l1 l2 : List Fly} {pd : Pend} :
    ∀ {todo : List Atom} {g : G}, g.fly q = l1 ++ ⟨pd, todo⟩ :: l2 →
      (∀ b ∈ todo, ∀ m, ∃ m', b.perform S.fp S.junk m = .ok m') →
    ∃ l g', Run S g l g' ∧ (∀ e ∈ l, ∃ b r, e = .done q b r) ∧ g'.fly = Function.update g.fly q (l1 ++ ⟨pd, []⟩ :: l2) ∧ g'.pe = g.pe ∧
      g'.busy = g.busy ∧ g'.arr = g.arr ∧ g'.lv = g.lv ∧ performs S.fp S.junk g.mem todo = .ok g'.mem := by
  intro todo
  induction todo with
  | nil =>
    intro g h _
    exact ⟨[], g, Run.nil _, (fun e he => by cases he), by rw [← h, Function.update_eq_self], rfl, rfl, rfl, rfl, rfl⟩
  | cons b todo ih =>
    intro g h hok
    obtain ⟨m', hm⟩ := hok b (List.mem_cons_self ..) g.mem
    have st := Step.perform (S := S) (g := g) q l1 l2 pd [] todo b m' hq h hm
    obtain ⟨l, g', r, h1, h2, h3, h4, h5, h6, h7⟩ := ih (g := { g with mem := m', fly := Function.update g.fly q (l1 ++ ⟨pd, [] ++ todo⟩ :: l2) })
      (by simp) (fun b' hb' => hok b' (List.mem_cons_of_mem _ hb'))
    refine ⟨_, g', Run.cons st r, ?_, ?_, h3, h4, h5, h6, ?_⟩
    · intro e he
      rcases List.mem_cons.1 he with rfl | he
      · exact ⟨_, _, rfl⟩
      · exact h1 e he
    · rw [h2]; simp
    · unfold performs
      rw [hm, Res.bind_ok]
      exact h7

/-- the same for the accesses of the blocking call a PE is in -/
theorem drain_busy {S : Sys} {q : Nat} (hq : q < S.npes) :
    ∀ {todo : List Atom} {g : G}, g.busy q = todo → (∀ b ∈ todo, ∀ m, ∃ m', b.perform S.fp S.junk m = .ok m') →
    ∃ l g', Run S g l g' ∧ (∀ e ∈ l, ∃ b r, e = .done q b r) ∧ g'.fly = g.fly ∧ g'.pe = g.pe ∧
      g'.busy = Function.update g.busy q [] ∧ g'.arr = g.arr ∧ g'.lv = g.lv ∧ performs S.fp S.junk g.mem todo = .ok g'.mem := by
  intro todo
  induction todo with
  | nil =>
    intro g h _
    exact ⟨[], g, Run.nil _, (fun e he => by cases he), rfl, rfl, by rw [← h, Function.update_eq_self], rfl, rfl, rfl⟩
  | cons b todo ih =>
    intro g h hok
    obtain ⟨m', hm⟩ := hok b (List.mem_cons_self ..) g.mem
    have st := Step.performBusy (S := S) (g := g) q [] todo b m' hq h hm
    obtain ⟨l, g', r, h1, h2, h3, h4, h5, h6, h7⟩ := ih (g := { g with mem := m', busy := Function.update g.busy q ([] ++ todo) })
      (by simp) (fun b' hb' => hok b' (List.mem_cons_of_mem _ hb'))
    refine ⟨_, g', Run.cons st r, ?_, h2, h3, ?_, h5, h6, ?_⟩
    · intro e he
      rcases List.mem_cons.1 he with rfl | he
      · exact ⟨_, _, rfl⟩
      · exact h1 e he
    · rw [h4]; simp
    · unfold performs
      rw [hm, Res.bind_ok]
      exact h7

/-- where the heaps of the two PEs lie -/
def exBases (i : Nat) : BitVec 64 := BitVec.ofNat 64 (0x10000 * (i + 1))

theorem ex_procs {g : G} (h : ∀ q, (g.pe q).spaces = []) : procs (exS true) g = exProcs false := by
  funext q
  show (exCf true q).proc (g.pe q) = _
  unfold Order.Cfg.proc
  rw [h q]
  rfl

theorem ex_sym {g : G} (h : ∀ q, (g.pe q).spaces = []) {q t : Nat} (ht : t < 2) (path : Path) (hp : path ≠ .direct .abs) {off : BitVec 64}
    (hq : query (exProcs false q) (exBases q + off) = some (.heap, setupAttr false .heap 0 2 exBases 4096 q)) (h0 : 0 ≤ off.toInt)
    (h1 : 0 < (exBases t + off).toInt) : SymAddr (procs (exS true) g) (exS true).npes q t path none exBases off := by
  rw [ex_procs h]
  refine ⟨.heap, false, .heap, 0, 4096, fun p _ => rfl, by decide, ht, Or.inr ⟨rfl, hq⟩, fun e => absurd e hp, ?_, h0, h1⟩
  exact (am_resolves_heap_data false 2 exBases (fun _ => 0x80000#64) 4096 4096 (exProcs false) (fun p _ => rfl) (fun p _ => rfl) ht).1

/-- `shmem_short_iput(dest, source, 3, 2, 2, 1)` on PE 0 -/
def exIput : RArgs := ⟨0x10018#64, 0x10100#64, 0x10f00#64, fun _ => 1, 3, 2, 2⟩
/-- `shmem_int_p(dest, 0x01010101, 1)` on PE 0, the parameter at 0x10f00 -/
def exFlag : RArgs := ⟨0x10050#64, 0x10100#64, 0x10f00#64, fun _ => 1, 3, 2, 2⟩

/-- what is in flight after the calls -/
def exPend : Pend := ⟨.win 1, 1, none, .heap, 0⟩

theorem ex_mv {S : Sys} {f : Int × Int → Atom} (hf : ∀ x, (∃ d y v, f x = .set d y v) ∨ ∃ s y d z, f x = .mv s y d z)
    (xs : List (Int × Int)) : ∀ b ∈ xs.map f, ∀ m, ∃ m', b.perform S.fp S.junk m = .ok m' := by
  intro b hb m
  obtain ⟨x, _, rfl⟩ := List.mem_map.1 hb
  rcases hf x with ⟨d, y, v, e⟩ | ⟨s, y, d, z, e⟩ <;> rw [e] <;> exact ⟨_, rfl⟩

/-- an event that is the performing of an access writes nothing by itself -/
theorem done_writes {l : List Ev} {q : Nat} (h : ∀ e ∈ l, ∃ b r, e = .done q b r) {e : Ev} (he : e ∈ l) (k : Nat × Int) : ¬ e.writes k := by
  obtain ⟨b, r, rfl⟩ := h e he
  exact fun h => h

theorem ex_iput_limits : RRt.iput.InLimits (.typed ⟨.short, .short⟩) (pathFor (exS true) 0 .iput true .rel) exIput :=
  ⟨by decide, ⟨by decide, by decide⟩, by decide, by decide⟩

theorem ex_short : (Fn.typed ⟨.short, .short⟩).Exists := by show _ ∈ rmaRows; decide

theorem ex_int : (Fn.typed ⟨.int, .int⟩).Exists := by show _ ∈ rmaRows; decide

/-- the data put -/
theorem ex_data : ∃ xs g1, Calls (exS true) true true .rel .iput (.typed ⟨.short, .short⟩) false none exIput 0 1 (ginit exM) xs 0 g1 ∧
    g1.fly 0 = [⟨exPend, xs.map fun x => .set 1 x.1 (exM 0 x.2)⟩] ∧ (∀ p, g1.busy p = []) ∧ g1.pe 0 = Order.init.push exPend ∧
    (∀ p, p ≠ 0 → g1.pe p = Order.init ∧ g1.fly p = []) ∧ (∀ p, g1.arr p = 0 ∧ g1.lv p = 0) ∧
    g1.mem = exM := by
  obtain ⟨xs, h⟩ := C93_call (S := exS true) true (gpu := true) (mode := .rel) (rt := .iput) (fn := .typed ⟨.short, .short⟩) rfl
    (isCtx := false) (ctx := none) (a := exIput) (q := 0) (t := 1) (g0 := ginit exM) ⟨Nat.zero_lt_succ _, rfl, rfl⟩ (fun h => by cases h)
    (bases := exBases) (off := 0x18#64)
    (ex_sym (fun _ => rfl) (by decide) _ (fun h => by cases h) rfl (by decide) (by decide)) rfl ex_iput_limits
    (s' := Order.init.push exPend) rfl (done_nil rfl)
  refine ⟨xs, _, h, rfl, ?_, rfl, ?_, fun p => ⟨rfl, rfl⟩, rfl⟩
  · intro p
    show (Function.update _ _ _) p = _
    rw [upd_at]
    split <;> rfl
  · intro p hp
    constructor
    · show (Function.update _ _ _) p = _
      rw [upd_at, if_neg hp]; rfl
    · show (Function.update _ _ _) p = _
      rw [upd_at, if_neg hp]; rfl

/-- hypotheses of `C93_fence`, `C93_message` and `C93_poll` met: PE 0 puts two strided shorts to PE 1, calls fence, puts an `int` flag; PE 1
waits until the flag is greater than 7, and finds the data -/
example : ∃ (h : Nat → G) (m' : Mems) (k : Nat), (∀ i < 2, ∀ b < 2, m' 1 (byteOf 0x20018 2 3 i b) = 1) ∧
    PRt.waitUntil.run (exProcs false) .rel 1 ⟨.int, .int⟩ 0x20050#64 P2p.Cmp.gt.code (7 : BitVec 32) (fun j _ => (h j).mem) 3 exM =
      .ok (.done k m') ∧ 0 < k := by
  obtain ⟨xs, g1, c1, a1, a2, a3, a4, a5, a6⟩ := ex_data
  obtain ⟨st, ex⟩ := calls_put rfl ex_short c1 (ex_sym (q := 0) (t := 1) (off := 0x18#64) (fun _ => rfl) (by decide) _ (fun h => by cases h) rfl
    (by decide) (by decide)) rfl ex_iput_limits
  -- the data arrive
  obtain ⟨l1, g2, r1, d1, f2, p2, b2, t2, v2, e2⟩ := drain (S := exS true) (q := 0) (l1 := []) (l2 := []) (by decide) a1
    (ex_mv (fun x => Or.inl ⟨_, _, _, rfl⟩) xs)
  -- fence
  have s3 := Step.call (S := exS true) (g := g2) 0 (.fence none) Order.init
    ⟨Nat.zero_lt_succ _, by rw [t2, v2]; exact (a5 0).1.trans (a5 0).2.symm, by rw [b2]; exact a2 0⟩ (by exact trivial)
    (by rintro _ _ _ _ _ _ h; cases h) (by rw [p2, a3]; rfl)
    (done_empty (fun x hx => by
      rw [f2, Function.update_self, List.nil_append, List.mem_singleton] at hx
      rw [hx]))
  have hpu : pushed (g2.pe 0) Order.init = none := by rw [p2, a3]; rfl
  generalize hg3 : after g2 0 Order.init [] = g3 at s3
  have q3 : ∀ p, g3.pe p = Order.init := by
    intro p
    rw [← hg3]
    show Function.update g2.pe 0 Order.init p = _
    rw [upd_at]
    split
    · rfl
    · rename_i hp
      rw [p2]; exact (a4 p hp).1
  have f3 : g3.fly 0 = [] := by
    rw [← hg3]
    simp only [after, Function.update_self, hpu, f2]
    rfl
  have b3 : ∀ p, g3.busy p = [] := by
    intro p
    rw [← hg3]
    simp only [after, upd_at, hpu, b2]
    split
    · rfl
    · exact a2 p
  have t3 : ∀ p, g3.arr p = 0 ∧ g3.lv p = 0 := by
    intro p
    rw [← hg3]
    show g2.arr p = 0 ∧ g2.lv p = 0
    rw [t2, v2]; exact a5 p
  -- the flag
  obtain ⟨ys, c4⟩ := C93_call (S := exS true) true (gpu := true) (mode := .rel) (rt := .p) (fn := .typed ⟨.int, .int⟩) rfl
    (isCtx := false) (ctx := none) (a := exFlag) (q := 0) (t := 1) (g0 := g3) ⟨Nat.zero_lt_succ _, (t3 0).1.trans (t3 0).2.symm, b3 0⟩
    (fun h => by cases h) (bases := exBases) (off := 0x50#64)
    (ex_sym (fun q => by rw [q3 q]; rfl) (by decide) _ (fun h => by cases h) rfl (by decide) (by decide)) rfl trivial
    (s' := Order.init.push exPend) (by rw [q3]; rfl) (done_nil f3)
  obtain ⟨st4, ey⟩ := calls_put rfl ex_int c4 (ex_sym (q := 0) (t := 1) (off := 0x50#64) (fun q => by rw [q3 q]; rfl) (by decide) _
    (fun h => by cases h) rfl (by decide) (by decide)) rfl trivial
  have f4 : (after g3 0 (Order.init.push exPend) (ys.map fun x => .set 1 x.1 (g3.mem 0 x.2))).fly 0 =
      [] ++ ⟨exPend, ys.map fun x => .set 1 x.1 (g3.mem 0 x.2)⟩ :: [] := by
    simp only [after, Function.update_self, f3, q3]
    rfl
  obtain ⟨l4, g5, r5, d5, _, _, _, _, _, e5⟩ := drain (S := exS true) (q := 0) (by decide) f4 (ex_mv (fun x => Or.inl ⟨_, _, _, rfl⟩) ys)
  -- what PE 1 reads
  rw [performs_set, Res.ok.injEq] at e2 e5
  have m3 : g3.mem = g2.mem := by rw [← hg3]; rfl
  have hm1 : g5.mem 1 = writes (writes (exM 1) ((pairs 0x20018 0x10100 2 2 3 2).map fun x => (x.1, exM 0 x.2)))
      ((pairs 0x20050 0x10f00 1 4 1 1).map fun x => (x.1, exM 0 x.2)) := by
    have h20 : g2.mem 0 = exM 0 := by rw [← e2, a6, Function.update_of_ne (by decide)]
    have h21 : g2.mem 1 = writes (exM 1) ((pairs 0x20018 0x10100 2 2 3 2).map fun x => (x.1, exM 0 x.2)) := by
      rw [← e2, Function.update_self, a6, ex]; rfl
    rw [← e5, Function.update_self]
    show writes (g3.mem 1) _ = _
    rw [m3, h20, h21, ey]; rfl
  -- the execution up to the reads
  have hrun : Run (exS true) g1 (l1 ++ (Ev.call 0 (.fence none) :: (Ev.put 0 1 RRt.p.nbi none 0x10050#64 ys (g3.arr 0) :: l4))) g5 :=
    run_append r1 (Run.cons s3 (Run.cons st4 r5))
  have hno : ∀ k : Nat × Int, ∀ e ∈ l1 ++ [Ev.call 0 (.fence none)], ¬ e.writes k := by
    intro k e he
    rcases List.mem_append.1 he with he | he
    · exact done_writes d1 he k
    · rw [List.mem_singleton.1 he]; exact fun h => h
  have hrel : (PRt.waitUntil.cmp .gt).rel (numAt .int (g5.mem 1) 0x20050) (numOf .int (7 : BitVec 32)) := by
    rw [hm1]
    exact (by decide +kernel : numAt .int (writes (writes (exM 1) ((pairs 0x20018 0x10100 2 2 3 2).map fun x => (x.1, exM 0 x.2)))
      ((pairs 0x20050 0x10f00 1 4 1 1).map fun x => (x.1, exM 0 x.2))) 0x20050 > numOf .int (7 : BitVec 32))
  have h0 : ¬ (PRt.waitUntil.cmp .gt).rel (numAt .int (exM 1) 0x20050) (numOf .int (7 : BitVec 32)) :=
    (by decide +kernel : ¬ numAt .int (exM 1) 0x20050 > numOf .int (7 : BitVec 32))
  generalize hlbig : l1 ++ (Ev.call 0 (.fence none) :: (Ev.put 0 1 RRt.p.nbi none 0x10050#64 ys (g3.arr 0) :: l4)) = big at hrun
  have hbig : ∀ k : Nat × Int, ∀ e ∈ big, e.writes k → e = Ev.put 0 1 RRt.p.nbi none 0x10050#64 ys (g3.arr 0) := by
    intro k e he hw
    rw [← hlbig] at he
    rcases List.mem_append.1 he with he | he
    · exact absurd hw (done_writes d1 he k)
    · rcases List.mem_cons.1 he with rfl | he
      · exact absurd hw (fun h => h)
      · rcases List.mem_cons.1 he with rfl | he
        · rfl
        · exact absurd hw (done_writes d5 he k)
  have hdat : ∀ l, (∀ e ∈ l, e ∈ big) → Undisturbed (ginit exM) l 1 (exBases 1 + 0x18#64).toInt (count .iput exIput)
      (Fn.typed ⟨.short, .short⟩).elem (dstride .iput exIput) := by
    intro l hl i hi b hb
    refine ⟨noWriter_init _ _, fun e he hw => ?_⟩
    rw [hbig _ e (hl e he) hw] at hw
    obtain ⟨_, x, hx, hxe⟩ := hw
    rw [ey] at hx
    have : ∀ x ∈ pairs 0x20050 0x10f00 1 4 1 1, ∀ i < 2, ∀ b < 2, x.1 ≠ byteOf 0x20018 2 3 i b := by decide +kernel
    exact this x hx i hi b hb hxe
  have hflag : ∀ l, l = [] ∨ l = big → FlagAfter (ginit exM) (.put 0 1 RRt.iput.nbi none (RRt.iput.remote exIput) xs 0) l 0 1 (0x20050#64).toInt 4 := by
    intro l hl b hb
    refine ⟨noWriter_init _ _, ?_, ?_⟩
    · rintro ⟨_, x, hx, hxe⟩
      rw [ex] at hx
      have : ∀ x ∈ pairs 0x20018 0x10100 2 2 3 2, ∀ b < 4, x.1 ≠ 0x20050 + (b : Nat) := by decide +kernel
      exact this x hx b hb hxe
    · intro la e lb hle hw
      rcases hl with rfl | rfl
      · cases la <;> cases hle
      · rw [hbig _ e (by rw [hle]; simp) hw] at hle
        left
        -- the fence comes before the flag
        rw [← hlbig] at hle
        rcases List.append_eq_append_iff.1 hle with ⟨ma, h1, h2⟩ | ⟨mc, h1, h2⟩
        · cases ma with
          | nil => cases h2
          | cons y ma =>
            rw [h1]
            have := (List.cons.inj h2).1
            rw [← this]; simp
        · cases mc with
          | nil => cases h2
          | cons y mc =>
            cases h2
            exact absurd (h1 ▸ List.mem_append_right _ (List.mem_cons_self ..) : Ev.put 0 1 RRt.p.nbi none 0x10050#64 ys (g3.arr 0) ∈ l1)
              (fun h => by obtain ⟨_, _, h⟩ := d1 _ h; cases h)
  -- PE 1 reads once at once and then after all that
  let hh : Nat → G := fun j => if j = 0 then g1 else g5
  let ll : Nat → List Ev := fun j => if j = 0 then [] else big
  have hsym : SymObj (exProcs false) 2 .heap false .heap 0 exBases 4096 := fun p _ => rfl
  have hquery : query (exProcs false 1) 0x20050#64 = some (.heap, setupAttr false .heap 0 2 exBases 4096 1) := rfl
  obtain ⟨k, m', hk, hk1⟩ := C91_live hsym (by decide) (by decide) hquery (mode := .rel) (fun h => by cases h) (by decide) (by decide)
    (rt := .waitUntil) rfl (r := ⟨.int, .int⟩) (by decide) .gt (7 : BitVec 32) (fun j _ => (hh j).mem) exM (n := 1) hrel (fuel := 3) (by decide)
  have hpos : 0 < k := by
    obtain ⟨out, e, _, hout⟩ := C91_wait hsym (by decide) (by decide) hquery (mode := .rel) (fun h => by cases h) (by decide) (by decide)
      (rt := .waitUntil) rfl (r := ⟨.int, .int⟩) (by decide) .gt (7 : BitVec 32) (fun j _ => (hh j).mem) 3 exM
    rw [hk] at e
    rcases Nat.eq_zero_or_pos k with rfl | h
    · exfalso
      have := ((hout 0 m').1 (Res.ok.inj e).symm).2.2.1
      rw [show others (fun j _ => (hh j).mem) exM 0 = exM from a6] at this
      exact h0 this
    · exact h
  refine ⟨hh, m', k, ?_, hk, hpos⟩
  intro i hi b hb
  refine (C93_message (S := exS true) ⟨exM, [], Run.nil _⟩ (rt := .iput) rfl ex_short c1 (ex_sym (q := 0) (t := 1) (off := 0x18#64)
    (fun _ => rfl) (by decide) _ (fun h => by cases h) rfl (by decide) (by decide)) rfl ex_iput_limits (h := hh) (l := ll) ?_ ?_
    (fun h => by cases h) (w := 1) (pr := .waitUntil) rfl (row := ⟨.int, .int⟩) (by decide) ?_ (ps := exProcs false) (wmode := .rel)
    (by decide +kernel) .gt (7 : BitVec 32) h0 hk hi hb).trans rfl
  · intro j
    by_cases hj : j = 0
    · simp only [hh, ll, if_pos hj]; exact Run.nil _
    · simp only [hh, ll, if_neg hj]; exact hrun
  · intro j
    refine hdat _ (fun e he => ?_)
    by_cases hj : j = 0
    · simp only [ll, if_pos hj] at he; cases he
    · simp only [ll, if_neg hj] at he; exact he
  · intro j
    refine hflag _ ?_
    by_cases hj : j = 0
    · simp only [ll, if_pos hj]; exact Or.inl trivial
    · simp only [ll, if_neg hj]; exact Or.inr trivial

/-- hypotheses of `C93_barrier_partial` met: the same put, then both PEs pass a barrier -/
example : ∃ g : G, g.lv 1 = 1 ∧ ∀ i < 2, ∀ b < 2, g.mem 1 (byteOf 0x20018 2 3 i b) = 1 := by
  obtain ⟨xs, g1, c1, _, _, _, _, a5, _⟩ := ex_data
  have hsym := ex_sym (g := ginit exM) (q := 0) (t := 1) (off := 0x18#64) (fun _ => rfl) (by decide)
    (pathFor (exS true) 0 .iput true .rel) (fun h => by cases h) rfl (by decide) (by decide)
  obtain ⟨st, _⟩ := calls_put rfl ex_short c1 hsym rfl ex_iput_limits
  have r1 : Run (exS true) (ginit exM) _ g1 := Run.cons st (Run.nil _)
  obtain ⟨l, g, r, hs, _, hlv⟩ := C94_barrier (S := exS true) (g := g1) ⟨exM, _, r1⟩ (noFault_safe r1 (fun e he => by
    rw [List.mem_singleton.1 he]; exact trivial)) (N := 1) (fun p _ => by rw [(a5 p).1]; omega)
  have hw : ∀ e ∈ l, ∀ k, ¬ e.writes k := by
    intro e he k h
    have := hs e he
    cases e <;> first | exact h | exact this
  refine ⟨g, (hlv 1 (by decide)).2, fun i hi b hb => ?_⟩
  exact (C93_barrier_partial (S := exS true) ⟨exM, [], Run.nil _⟩ (rt := .iput) rfl ex_short c1 hsym rfl ex_iput_limits r
    (fun i _ b _ => ⟨noWriter_init _ _, fun e he => hw e he _⟩) (fun h => by cases h) (Or.inr ⟨rfl, Or.inr (Or.inl (by decide +kernel))⟩)
    (p := 1) (by decide) (by rw [(hlv 1 (by decide)).2]; exact Nat.zero_lt_one) hi hb).trans rfl

/-- hypotheses of `C93_get` met: PE 0 gets three ints from PE 1's heap -/
example : ∃ g : G, Reach (exS true) g ∧ g.busy 0 = [] ∧ ∀ i < 3, ∀ b < 4, g.mem 0 (byteOf 0x10100 4 1 i b) = exM 1 (byteOf 0x20018 4 1 i b) := by
  obtain ⟨xs, c1⟩ := C93_call (S := exS true) true (gpu := true) (mode := .rel) (rt := .get) (fn := .typed ⟨.int, .int⟩) rfl
    (isCtx := false) (ctx := none) (a := ⟨0x10100#64, 0x10018#64, 0x10f00#64, fun _ => 1, 3, 2, 3⟩) (q := 0) (t := 1) (g0 := ginit exM)
    ⟨Nat.zero_lt_succ _, rfl, rfl⟩ (fun h => by cases h) (bases := exBases) (off := 0x18#64)
    (ex_sym (fun _ => rfl) (by decide) _ (fun h => by cases h) rfl (by decide) (by decide)) rfl ⟨by decide, fun h => by cases h⟩
    (s' := Order.init) rfl (done_nil rfl)
  have hsym := ex_sym (g := ginit exM) (q := 0) (t := 1) (off := 0x18#64) (fun _ => rfl) (by decide)
    (pathFor (exS true) 0 .get true .rel) (fun h => by cases h) rfl (by decide) (by decide)
  obtain ⟨st, ex⟩ := calls_get rfl ex_int c1 hsym rfl ⟨by decide, fun h => by cases h⟩
  obtain ⟨l, g, r, d, _, _, b', _, _, _⟩ := drain_busy (S := exS true) (q := 0) (by decide) (todo := xs.map fun x => .mv 1 x.2 0 x.1)
    (g := after (ginit exM) 0 Order.init (xs.map fun x =>
      if puts .get then (if RRt.get.nbi then .mv 0 x.2 1 x.1 else .set 1 x.1 ((ginit exM).mem 0 x.2)) else .mv 1 x.2 0 x.1)) rfl
    (ex_mv (fun x => Or.inr ⟨_, _, _, _, rfl⟩) xs)
  have hret : g.busy 0 = [] := by rw [b', Function.update_self]
  refine ⟨g, ⟨exM, _, Run.cons st r⟩, hret, fun i hi b hb => ?_⟩
  refine (C93_get (S := exS true) rfl rfl ex_int c1 hsym rfl ⟨by decide, fun h => by cases h⟩ r
    (fun i _ b _ => ⟨noWriter_init _ _, fun e he => done_writes d he _⟩) (fun i hi b hb => ⟨noWriter_init _ _, fun e he hw => ?_⟩) hret hi hb)
  rcases List.mem_cons.1 he with rfl | he
  · exact absurd (show (1 : Nat) = 0 from hw.1) (by decide)
  · exact done_writes d he _ hw

end Verif.Flow
