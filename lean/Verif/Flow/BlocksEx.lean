import Verif.Flow.Blocks
/-!
# C95: a concrete job

Two PEs with heaps of 4096 bytes at 0x10000 and 0x20000. Both allocate 40 bytes and 4 bytes. PE 0 puts five longs into the first block of PE 1,
calls fence, and puts a flag into the second block; PE 1 waits for the flag. Second: a block for which remote access aborts.
-/
namespace Verif.Flow
open Verif.Sobj Verif.Rma Verif.Vis Verif.Api
open Verif.Heap (heapSize trueSize Call)

/-! ## A PE without spaces -/

theorem nospaces_flag {s : Order.St} (b : Bool) (l : Order.Loc) (h : s.spaces = []) : (s.setFlag b l).spaces = [] := by
  obtain ⟨f, _, e⟩ := Order.spaces_of_setFlag s b l
  rw [e, h]; rfl

theorem nospaces_flushLoc {c : Order.Cfg} {s s' : Order.St} {l : Order.Loc} (e : Order.flushLoc c s l = .ok s') (h : s.spaces = []) :
    s'.spaces = [] := by
  unfold Order.flushLoc at e
  split at e
  · cases e
  · split at e
    · cases e; exact h
    · split at e
      · cases e
      · cases e
        split
        · exact nospaces_flag _ _ h
        · exact h

theorem nospaces_flushLocs {c : Order.Cfg} {ls : List Order.Loc} : ∀ {s s' : Order.St}, Order.flushLocs c s ls = .ok s' → s.spaces = [] →
    s'.spaces = [] := by
  induction ls with
  | nil => intro s s' e h; cases e; exact h
  | cons l t ih =>
    intro s s' e h
    simp only [Order.flushLocs] at e
    cases hf : Order.flushLoc c s l with
    | ok s1 => rw [hf] at e; exact ih e (nospaces_flushLoc hf h)
    | abort => rw [hf] at e; cases e
    | ub => rw [hf] at e; cases e
    | hang => rw [hf] at e; cases e

theorem nospaces_am {c : Order.Cfg} {s : Order.St} {pes : List Nat} (h : s.spaces = []) : (Order.amFlush c s pes).spaces = [] := by
  unfold Order.amFlush
  split
  · exact h
  · exact h

theorem nospaces_fence {c : Order.Cfg} {s s' : Order.St} (e : Order.step c s (.fence none) = .ok s') (h : s.spaces = []) : s'.spaces = [] := by
  simp only [Order.step, Order.fence] at e
  cases hf : Order.flushLocs c s (Order.fenceLocs c s) with
  | ok s1 => rw [hf] at e; cases e; exact nospaces_am (nospaces_flushLocs hf h)
  | abort => rw [hf] at e; cases e
  | ub => rw [hf] at e; cases e
  | hang => rw [hf] at e; cases e

theorem nospaces_issue {c : Order.Cfg} {s s' : Order.St} {ctx : Option (Nat × Nat)} {addr : BitVec 64} {n tgt : Nat} {k : Order.Kind} {gpu : Bool}
    (e : Order.step c s (.issue ctx addr n tgt k gpu) = .ok s') (h : s.spaces = []) : s'.spaces = [] := by
  simp only [Order.step, Order.issue] at e
  split at e
  · cases e; exact h
  · split at e
    · cases e
    · cases hl : Order.lookup c s ctx addr with
      | ok r =>
        rw [hl, Res.bind_ok] at e
        split at e
        · unfold Order.issueDirect at e
          split at e
          · cases e
          · cases e
            unfold Order.mark
            split
            · refine nospaces_flag _ _ ?_
              split <;> exact h
            · split <;> exact h
        · cases e
          unfold Order.issueAm
          dsimp only
          split <;> exact h
      | abort => rw [hl] at e; cases e
      | ub => rw [hl] at e; cases e
      | hang => rw [hl] at e; cases e

/-- events of a program without spaces and barriers -/
def Plain : Ev → Prop
  | .put _ _ _ _ _ _ _ => True
  | .done _ _ _ => True
  | .call _ op => op = .fence none
  | .get _ _ _ _ _ _ _ => False
  | .amo _ _ _ _ _ _ _ _ => False
  | .store _ _ _ => False
  | .poll _ _ _ _ => False
  | .touch _ _ => False
  | .enter _ => False
  | .leave _ => False
  | .tau => False

theorem nospaces_run {S : Sys} {g g' : G} {l : List Ev} (r : Run S g l g') (hl : ∀ e ∈ l, Plain e) (h : ∀ p, (g.pe p).spaces = []) :
    ∀ p, (g'.pe p).spaces = [] := by
  induction r with
  | nil g => exact h
  | cons s r ih =>
    refine ih (fun e he => hl e (List.mem_cons_of_mem _ he)) ?_
    have he := hl _ (List.mem_cons_self ..)
    have key : ∀ {g : G} {p : Nat} {s' : Order.St}, (∀ p, (g.pe p).spaces = []) → s'.spaces = [] → ∀ q, (Function.update g.pe p s' q).spaces = [] := by
      intro g p s' h h1 q
      rw [upd_at]
      split
      · exact h1
      · exact h q
    cases s with
    | put p tgt nbi ctx addr src n gpu mode oc tc oty tty xs s' hf hm e hx d => exact key h (nospaces_issue e (h p))
    | get p tgt nbi ctx addr src n gpu mode oc tc oty tty xs s' hf hm e hx d => cases he
    | amo p tgt ctx addr r ty api gpu mode s' hf hm ht hk e hr d => cases he
    | amoRet p tgt ctx addr r ty api gpu mode s' hf hm ht hk e hr d => cases he
    | store p a v hf => cases he
    | poll p addr r n mode hf hm hr => cases he
    | touch p ws hf => cases he
    | call p op s' hf l hop e d =>
      have he : op = .fence none := he
      rw [he] at e
      exact key h (nospaces_fence e (h p))
    | enter p s' hf e d => cases he
    | leave p hp h1 ha => cases he
    | perform q l1 l2 pd t1 t2 a m' hq hl e => exact h
    | performBusy q t1 t2 a m' hq hl e => exact h
    | fin q done hq d => cases he

theorem perf_plain {e : Ev} (h : e.isPerf) : Plain e := by cases e <;> first | exact trivial | cases h

/-! ## The job -/

def exB (p : Nat) : Nat := 0x10000 * (p + 1)

theorem ex_job : Job (exS true) 12 4096 exB := by
  have hz : heapSize 12 4096 = 4096 := by decide
  refine ⟨fun p hp => ⟨by decide, by decide, by decide, ?_, ?_⟩, false, fun _ => 0x80000#64, 4096, fun p hp => ⟨rfl, ?_, rfl⟩⟩
  · unfold exB; omega
  · have hp : p < 2 := hp
    unfold exB; omega
  · rw [hz]; rfl

/-- both PEs call `shmem_malloc(40)` and `shmem_malloc(4)` -/
def exCalls : List (Call × Bool) := [(.malloc 40, false), (.malloc 4, false)]

theorem ex_cong : Congruent (exS true) exB exCalls := by
  intro p _ q _ k hk
  cases hk

theorem ex_made : ∃ s, Made 12 4096 exB 0 exCalls s [some 0, some 48] ∧ s.live = [(48, 4), (0, 40)] := by
  have h : Dl.seen (Dl.run (exB 0 + 960) (Dl.new (trueSize 12 4096)) exCalls) =
      some (⟨[⟨48, .user 40⟩, ⟨32, .user 4⟩], some 7088⟩, [(48, 4), (0, 40)], [some 0, some 48]) := by decide +kernel
  obtain ⟨b, e, _⟩ := Dl.reach_seen (by decide) h
  exact ⟨_, e, rfl⟩

/-- `shmem_long_put(p0, source, 5, 1)`, `p0` the first block of PE 0 -/
def exPutArgs : RArgs := ⟨0x103C0#64, 0x30000#64, 0x30100#64, fun _ => 1, 1, 1, 5⟩
/-- `shmem_int_p(p1, value, 1)`, `p1` the second block of PE 0 -/
def exPArgs : RArgs := ⟨0x103F0#64, 0x30000#64, 0x30100#64, fun _ => 1, 1, 1, 1⟩

theorem ex_use {s : Dl.St} (h : s.live = [(48, 4), (0, 40)]) :
    Use (exS true) 12 4096 exB s (0, 40) 0 0 1 true .rel .put (.typed ⟨.long, .long⟩) false none exPutArgs where
  exist := by show _ ∈ rmaRows; decide
  origin := by decide
  target := by decide
  held := by rw [h]; decide
  inside := by decide
  start := by decide
  fits := by decide +kernel
  remote := by decide
  dflt := fun h => by cases h
  limits := ⟨by decide, fun h => by cases h⟩

theorem ex_use' {s : Dl.St} (h : s.live = [(48, 4), (0, 40)]) :
    Use (exS true) 12 4096 exB s (48, 4) 0 0 1 true .rel .p (.typed ⟨.int, .int⟩) false none exPArgs where
  exist := by show _ ∈ rmaRows; decide
  origin := by decide
  target := by decide
  held := by rw [h]; decide
  inside := by decide
  start := by decide
  fits := by decide +kernel
  remote := by decide
  dflt := fun h => by cases h
  limits := trivial

theorem ginit_settled (m : Mems) : Settled (ginit m) := by
  rintro a ⟨q, own, ⟨x, hx, _⟩ | ⟨_, hx⟩⟩ <;> cases hx

/-- **C95** (message), the hypotheses met: the wait returns, the data are in the first block of PE 1 -/
example : ∃ (h : Nat → G) (gw : G) (m' : Mems) (n : Nat),
    PRt.waitUntil.run (procs (exS true) gw) .rel 1 ⟨.int, .int⟩ (BitVec.ofNat 64 (adr exB 1 (48, 4) 0)) P2p.Cmp.gt.code (7 : BitVec 32)
      (fun j _ => (h j).mem) 3 exM = .ok (.done n m') ∧ ∀ j < 40, m' 1 (adr exB 1 (0, 40) j : Nat) = 1 := by
  obtain ⟨s, hm, hlive⟩ := ex_made
  have u := ex_use hlive
  have u' := ex_use' hlive
  have r0 : Reach (exS true) (ginit exM) := ⟨exM, [], Run.nil _⟩
  -- the data
  obtain ⟨xs, g1, c1, a1, v1, o1⟩ := C95_call_partial ex_job u (fun h => by cases h) rfl true r0 ⟨by decide, rfl, rfl⟩ (ginit_settled exM)
  obtain ⟨_, st1, w1, n1⟩ := C95_put_partial ex_job ex_cong hm u rfl c1
  have run1 : Run (exS true) (ginit exM) _ g1 := Run.cons st1 (Run.nil _)
  have f1 : NoFault (exS true) g1 := noFault_safe run1 (fun e he => by rw [List.mem_singleton.1 he]; exact trivial)
  have pl1 : ∀ e ∈ [Ev.put 0 1 RRt.put.nbi none (RRt.put.remote exPutArgs) xs ((ginit exM).arr 0)], Plain e := fun e he => by
    rw [List.mem_singleton.1 he]; exact trivial
  have sp1 := nospaces_run run1 pl1 (fun _ => rfl)
  -- fence
  obtain ⟨l1, g2, g3, r2, p2, s3, set3, a3, v3, _⟩ := C94_quiet_partial (reach_run r0 run1) f1 (p := 0) (by decide) (by rw [a1, v1]; rfl)
    (fun x hx => by rw [sp1] at hx; cases hx) (op := .fence none) (Or.inr rfl)
  have run3 : Run (exS true) g1 (l1 ++ [.call 0 (.fence none)]) g3 := run_append r2 (Run.cons s3 (Run.nil _))
  have pl3 : ∀ e ∈ l1 ++ [Ev.call 0 (.fence none)], Plain e := by
    intro e he
    rcases List.mem_append.1 he with he | he
    · exact perf_plain (p2 e he)
    · rw [List.mem_singleton.1 he]; exact rfl
  have r3 := reach_run (reach_run r0 run1) run3
  -- the flag
  obtain ⟨ys, g4, c4, a4, v4, _⟩ := C95_call_partial ex_job u' (fun h => by cases h) rfl true r3
    ⟨by decide, by rw [a3, v3, a1, v1]; rfl, settled_busy set3 0⟩ set3
  obtain ⟨_, st4, w4, n4⟩ := C95_put_partial ex_job ex_cong hm u' rfl c4
  have run4 : Run (exS true) g3 [_] g4 := Run.cons st4 (Run.nil _)
  have pl4 : ∀ e ∈ [Ev.put 0 1 RRt.p.nbi none (RRt.p.remote exPArgs) ys (g3.arr 0)], Plain e := fun e he => by
    rw [List.mem_singleton.1 he]; exact trivial
  -- another fence
  have big4 := run_append run1 (run_append run3 run4)
  have plain_safe : ∀ {e : Ev}, Plain e → e.Safe (exS true) := by
    intro e h
    cases e <;> first | exact trivial | cases h
  have pl : ∀ e ∈ [Ev.put 0 1 RRt.put.nbi none (RRt.put.remote exPutArgs) xs ((ginit exM).arr 0)] ++ (l1 ++ [Ev.call 0 (.fence none)] ++
      [Ev.put 0 1 RRt.p.nbi none (RRt.p.remote exPArgs) ys (g3.arr 0)]), Plain e := by
    intro e he
    rcases List.mem_append.1 he with he | he
    · exact pl1 e he
    · rcases List.mem_append.1 he with he | he
      · exact pl3 e he
      · exact pl4 e he
  obtain ⟨l5, g5, g6, r5, p5, s6, _, _, _, _⟩ := C94_quiet_partial (reach_run r0 big4) (noFault_safe big4 (fun e he => plain_safe (pl e he))) (p := 0)
    (by decide) (by rw [a4, v4, a3, v3, a1, v1]; rfl) (fun x hx => by rw [nospaces_run big4 pl (fun _ => rfl)] at hx; cases hx)
    (op := .fence none) (Or.inr rfl)
  have run6 : Run (exS true) g4 (l5 ++ [.call 0 (.fence none)]) g6 := run_append r5 (Run.cons s6 (Run.nil _))
  -- the flag's value
  have quietEv : ∀ {l : List Ev}, (∀ e ∈ l, e.isPerf) → ∀ e ∈ l ++ [Ev.call 0 (.fence none)], ∀ k, ¬ e.writes k := by
    intro l hl e he k hw
    rcases List.mem_append.1 he with he | he
    · have := hl e he
      cases e <;> first | exact hw | exact this
    · rw [List.mem_singleton.1 he] at hw; exact hw
  have hset : ∀ {g : G} (_ : Settled g) (k : Nat × Int), NoWriter g k := fun h k a ha => absurd ha (h a)
  have hsrc : ∀ y, g3.mem 0 y = 1 := by
    intro y
    refine (noWriter_run (run_append run1 run3) (k := (0, y)) (hset (ginit_settled exM) _) ?_).2
    intro e he hw
    rcases List.mem_append.1 he with he | he
    · rw [List.mem_singleton.1 he] at hw
      exact absurd (w1 _ _ hw).1 (by decide)
    · exact quietEv p2 e he _ hw
  have hflagv : ∀ b < 4, g6.mem 1 (0x203F0 + (b : Nat)) = 1 := by
    intro b hb
    obtain ⟨j, hj, e1, e2⟩ := C95_fence_partial ex_job u' rfl r3 c4 run6 (fun j _ => ⟨hset set3 _, fun e he => quietEv p5 e he _⟩)
      (fun h => by cases h) (Or.inl (by simp)) (i := 0) (b := b) (by decide) hb
    rw [hsrc] at e2
    have : j = b := by
      unfold byteOf at e1
      simp only [Int.natCast_zero, Int.zero_mul, Int.zero_add] at e1
      omega
    rw [← e2, this]
    unfold adr exB
    congr 1
  have hrel : (PRt.waitUntil.cmp .gt).rel (numAt .int (g6.mem 1) 0x203F0) (numOf .int (7 : BitVec 32)) := by
    rw [num_congr (t := .int) (m := g6.mem 1) (m' := fun _ => 1) (a := 0x203F0) hflagv]
    exact (by decide +kernel : numAt .int (fun _ => 1) 0x203F0 > numOf .int (7 : BitVec 32))
  have h0 : ¬ (PRt.waitUntil.cmp .gt).rel (numAt .int (exM 1) 0x203F0) (numOf .int (7 : BitVec 32)) :=
    (by decide +kernel : ¬ numAt .int (exM 1) 0x203F0 > numOf .int (7 : BitVec 32))
  -- PE 1 reads once at once and then after all that
  have runAll := run_append run3 (run_append run4 run6)
  generalize hbig : l1 ++ [Ev.call 0 (.fence none)] ++ ([Ev.put 0 1 RRt.p.nbi none (RRt.p.remote exPArgs) ys (g3.arr 0)] ++
    (l5 ++ [Ev.call 0 (.fence none)])) = big at runAll
  have hwr : ∀ e ∈ big, ∀ k, e.writes k → e = Ev.put 0 1 RRt.p.nbi none (RRt.p.remote exPArgs) ys (g3.arr 0) := by
    intro e he k hw
    rw [← hbig] at he
    rcases List.mem_append.1 he with he | he
    · exact absurd hw (quietEv p2 e he k)
    · rcases List.mem_append.1 he with he | he
      · exact List.mem_singleton.1 he
      · exact absurd hw (quietEv p5 e he k)
  let hh : Nat → G := fun j => if j = 0 then g1 else g6
  let ll : Nat → List Ev := fun j => if j = 0 then [] else big
  have hps : procs (exS true) (ginit exM) = exProcs false := ex_procs (fun _ => rfl)
  have hiv : BitVec.ofNat 64 (adr exB 1 (48, 4) 0) = 0x203F0#64 := by decide
  have hsym : SymObj (exProcs false) 2 .heap false .heap 0 exBases 4096 := fun p _ => rfl
  have hquery : query (exProcs false 1) 0x203F0#64 = some (.heap, setupAttr false .heap 0 2 exBases 4096 1) := rfl
  obtain ⟨n, m', hk, _⟩ := C91_live hsym (by decide) (by decide) hquery (mode := .rel) (fun h => by cases h) (by decide) (by decide)
    (rt := .waitUntil) rfl (r := ⟨.int, .int⟩) (by decide) .gt (7 : BitVec 32) (fun j _ => (hh j).mem) exM (n := 1) hrel (fuel := 3) (by decide)
  have hA : ∀ j, Run (exS true) g1 (ll j) (hh j) := by
    intro j
    by_cases hj : j = 0
    · simp only [hh, ll, if_pos hj]; exact Run.nil _
    · simp only [hh, ll, if_neg hj]; exact runAll
  have hB : ∀ j, Alone exB (ginit exM) (ll j) 1 (0, 40) := by
    intro j i hi
    refine ⟨hset (ginit_settled exM) _, fun e he hw => ?_⟩
    by_cases hj : j = 0
    · simp only [ll, if_pos hj] at he; cases he
    · simp only [ll, if_neg hj] at he
      rw [hwr e he _ hw] at hw
      exact n4 (0, 40) (by rw [hlive]; decide) (by decide) 1 i hi hw
  have hC : ∀ j, ∀ b < 4, NoWriter (ginit exM) (1, ((adr exB 1 (48, 4) (0 + b) : Nat) : Int)) ∧
      ∀ la e lb, ll j = la ++ e :: lb → e.writes (1, ((adr exB 1 (48, 4) (0 + b) : Nat) : Int)) →
        Ev.call 0 (.fence none) ∈ la ∨ Ev.call 0 (.quiet none) ∈ la := by
    intro j b hb
    refine ⟨hset (ginit_settled exM) _, fun la e lb hle hw => ?_⟩
    by_cases hj : j = 0
    · simp only [ll, if_pos hj] at hle
      cases la <;> cases hle
    · simp only [ll, if_neg hj] at hle
      have hnf : ∀ e' ∈ l1 ++ [Ev.call 0 (.fence none)], e' ≠ e := fun e' he' h => quietEv p2 e' he' _ (h ▸ hw)
      left
      rw [← hbig] at hle
      rcases List.append_eq_append_iff.1 hle with ⟨ma, h1, _⟩ | ⟨mc, h1, h2⟩
      · rw [h1]; simp
      · cases mc with
        | nil => rw [List.append_nil] at h1; rw [← h1]; simp
        | cons z mc => exact absurd (List.cons.inj h2).1.symm (hnf z (by rw [h1]; simp))
  refine ⟨hh, ginit exM, m', n, by rw [hps, hiv]; exact hk, fun j hj => ?_⟩
  obtain ⟨j', hj', e1, e2⟩ := C95_message_partial ex_job ex_cong hm u rfl r0 c1 hA hB (fun h => by cases h) (y := (48, 4))
    (by rw [hlive]; decide) (by decide) (by decide) (w := 1) (by decide) (f := 0) (row := ⟨.int, .int⟩) (pr := .waitUntil) rfl (by decide)
    (by decide) hC (wmode := .rel) (fun h => by cases h) (ginit exM) .gt (7 : BitVec 32) h0 (by rw [hps, hiv]; exact hk) (i := j / 8) (b := j % 8)
    (show j / 8 < 5 by omega) (show j % 8 < 8 by omega)
  have : j' = j := by
    have e1 : (j' : Int) = byteOf (0 : Nat) 8 1 (j / 8) (j % 8) := e1
    unfold byteOf at e1
    omega
  rw [← this, e2]
  rfl

/-- hypotheses of `C95_barrier_partial` met -/
example : ∃ g : G, g.lv 1 = 1 ∧ ∀ j < 40, g.mem 1 (adr exB 1 (0, 40) j : Nat) = 1 := by
  obtain ⟨s, hm, hlive⟩ := ex_made
  have u := ex_use hlive
  have r0 : Reach (exS true) (ginit exM) := ⟨exM, [], Run.nil _⟩
  obtain ⟨xs, g1, c1, a1, v1, _⟩ := C95_call_partial ex_job u (fun h => by cases h) rfl true r0 ⟨by decide, rfl, rfl⟩ (ginit_settled exM)
  obtain ⟨_, st1, _, _⟩ := C95_put_partial ex_job ex_cong hm u rfl c1
  have run1 : Run (exS true) (ginit exM) _ g1 := Run.cons st1 (Run.nil _)
  obtain ⟨l, g, r, hs, _, hlv⟩ := C94_barrier (reach_run r0 run1) (noFault_safe run1 (fun e he => by rw [List.mem_singleton.1 he]; exact trivial))
    (N := 1) (fun p _ => by rw [a1]; exact Nat.zero_le _)
  refine ⟨g, (hlv 1 (by decide)).2, fun j hj => ?_⟩
  obtain ⟨j', hj', e1, e2⟩ := C95_barrier_partial ex_job u rfl r0 c1 r (fun i _ => ⟨fun a ha => absurd ha (ginit_settled exM a), fun e he hw => by
    have := hs e he
    cases e <;> first | exact hw | exact this⟩) (fun h => by cases h) (p := 1) (by decide) (by rw [(hlv 1 (by decide)).2]; exact Nat.zero_lt_one)
    (i := j / 8) (b := j % 8) (show j / 8 < 5 by omega) (show j % 8 < 8 by omega)
  have : j' = j := by
    have e1 : (j' : Int) = byteOf (0 : Nat) 8 1 (j / 8) (j % 8) := e1
    unfold byteOf at e1
    omega
  rw [← this, e2]
  rfl

/-- `shmem_long_get(dest, p0, 5, 1)`, `p0` the first block of PE 0 -/
def exGetArgs : RArgs := ⟨0x30000#64, 0x103C0#64, 0x30100#64, fun _ => 1, 1, 1, 5⟩

/-- hypotheses of `C95_get_partial` and `C95_read_partial` met -/
example : ∃ g : G, g.busy 0 = [] ∧ ∀ j < 40, g.mem 0 (0x30000 + (j : Nat)) = exM 1 (adr exB 1 (0, 40) j : Nat) := by
  obtain ⟨s, hm, hlive⟩ := ex_made
  have u : Use (exS true) 12 4096 exB s (0, 40) 0 0 1 true .rel .get (.typed ⟨.long, .long⟩) false none exGetArgs :=
    { exist := by show _ ∈ rmaRows; decide
      origin := by decide
      target := by decide
      held := by rw [hlive]; decide
      inside := by decide
      start := by decide
      fits := by decide +kernel
      remote := by decide
      dflt := fun h => by cases h
      limits := ⟨by decide, fun h => by cases h⟩ }
  have r0 : Reach (exS true) (ginit exM) := ⟨exM, [], Run.nil _⟩
  obtain ⟨xs, g1, c1, a1, v1, _⟩ := C95_call_partial ex_job u (fun h => by cases h) rfl true r0 ⟨by decide, rfl, rfl⟩ (ginit_settled exM)
  obtain ⟨_, st1, _⟩ := C95_get_partial ex_job ex_cong hm u rfl c1
  have run1 : Run (exS true) (ginit exM) _ g1 := Run.cons st1 (Run.nil _)
  obtain ⟨l, g, r, hs, hset, _⟩ := C94_settles (reach_run r0 run1) (noFault_safe run1 (fun e he => by rw [List.mem_singleton.1 he]; exact trivial))
  have hw : ∀ e ∈ l, ∀ k, ¬ e.writes k := fun e he k hw => by
    have := hs e he
    cases e <;> first | exact hw | exact this
  refine ⟨g, settled_busy hset 0, fun j hj => ?_⟩
  obtain ⟨j', hj', e1, e2⟩ := C95_read_partial ex_job u rfl rfl c1 r
    (fun i _ b _ => ⟨fun a ha => absurd ha (ginit_settled exM a), fun e he => hw e he _⟩)
    (fun i _ => ⟨fun a ha => absurd ha (ginit_settled exM a), fun e he hwe => by
      rcases List.mem_cons.1 he with rfl | he
      · exact absurd (show (1 : Nat) = 0 from hwe.1) (by decide)
      · exact hw e he _ hwe⟩) (settled_busy hset 0) (i := j / 8) (b := j % 8) (show j / 8 < 5 by omega) (show j % 8 < 8 by omega)
  have : j' = j := by
    have e1 : (j' : Int) = byteOf (0 : Nat) 8 1 (j / 8) (j % 8) := e1
    unfold byteOf at e1
    omega
  refine Eq.trans ?_ (e2.trans (by rw [this]; rfl))
  congr 1
  show _ = byteOf 0x30000 8 1 (j / 8) (j % 8)
  unfold byteOf
  omega

/-- the full statement of C95 fails: both PEs call `shmem_malloc(4096)` in a heap of 4096 bytes and get a block, and a put to the block's last
byte aborts (C47: the bytes the allocator keeps at the start of the heap are not added to the heap's size) -/
theorem C95_fails : Job (exS true) 12 4096 exB ∧ ∃ s, Made 12 4096 exB 0 [(.malloc 4096, false)] s [some 0] ∧
    Made 12 4096 exB 1 [(.malloc 4096, false)] s [some 0] ∧ (0, 4096) ∈ s.live ∧
    Order.step ((exS true).cf 0) Order.init (.issue none (BitVec.ofNat 64 (adr exB 0 (0, 4096) 4095)) 1 1 .put true) = .abort := by
  have h : Dl.seen (Dl.run (exB 0 + 960) (Dl.new (trueSize 12 4096)) [(.malloc 4096, false)]) =
      some (⟨[⟨4112, .user 4096⟩], some 3056⟩, [(0, 4096)], [some 0]) := by decide +kernel
  obtain ⟨b, e, _⟩ := Dl.reach_seen (by decide) h
  refine ⟨ex_job, _, e, made_all (S := exS true) (fun p _ q _ k hk => by cases hk) (by decide) (by decide) e,
    List.mem_singleton.2 rfl, rfl⟩

end Verif.Flow
