import Verif.Vis.Fair
/-!
# C102: data arrive; fair executions exist
-/
namespace Verif.Vis
open Verif.Sobj Verif.Rma
open Verif.Order (St Pend Cfg Op)

/-- **C102** (data arrive): a byte put by `q` at instant `i`; `q` comes to a quiet or fence later. From some instant on the byte is in the
memory of the target for good, if nobody else writes it (non-blocking: nor the source). A PE that polls it in `shmem_wait_until` sees it. -/
theorem C102_arrives_partial {S : Sys} {R : Inf S} (F : R.Fair) (hs : R.Safe) {q t : Nat} {nbi : Bool} {ctx : Option (Nat × Nat)} {addr : BitVec 64}
    {xs : List (Int × Int)} {ep i : Nat} (h1 : R.ev i = some (.put q t nbi ctx addr xs ep)) {x : Int × Int} (hx : x ∈ xs)
    (hu : ∀ y ∈ xs, y.1 = x.1 → y = x) (hn : NoWriter (R.st i) (t, x.1)) (hk : ∀ j e, i < j → R.ev j = some e → ¬ e.writes (t, x.1))
    (hsrc : nbi = true → NoWriter (R.st i) (q, x.2) ∧ ∀ j e, i ≤ j → R.ev j = some e → ¬ e.writes (q, x.2))
    {i' : Nat} (hi' : i < i') {op : Op} (hw : AtCall R i' q op) (hop : op = .quiet none ∨ op = .fence none)
    (hb : (R.st i').arr q = (R.st i').lv q)
    (hsp : ∀ x ∈ ((R.st i').pe q).spaces, x.att = true ∨
      (x.nctx = 0 ∧ ((S.cf q).dyn = true ∨ ((S.cf q).tracking = true ∧ x.dflt.flag = false)))) :
    ∃ j, ∀ k, j ≤ k → (R.st k).mem t x.1 = (R.st i).mem q x.2 := by
  have hq : q < S.npes := (own_free (R.step i _ h1) rfl).1
  obtain ⟨j, hj, he⟩ := C102_quiet_partial F hs hq hw hop hb hsp
  refine ⟨j + 1, fun k hk' => ?_⟩
  obtain ⟨n, rfl⟩ := Nat.exists_eq_add_of_le (show i + 1 ≤ k by omega)
  refine C66_fence (R.reach i) (R.step i _ h1) (R.run (i + 1) n) hx hu hn ?_ ?_ ?_
  · intro e hm
    obtain ⟨m, h1, h2, h3⟩ := R.mem_evs hm
    exact hk m e (by omega) h3
  · intro hnb
    refine ⟨(hsrc hnb).1, fun e hm => ?_⟩
    rcases List.mem_cons.1 hm with rfl | hm
    · exact (hsrc hnb).2 i _ (Nat.le_refl _) h1
    · obtain ⟨m, h1, h2, h3⟩ := R.mem_evs hm
      exact (hsrc hnb).2 m e (by omega) h3
  · have := R.evs_mem (i := i + 1) (n := n) (by omega) (by omega) he
    rcases hop with rfl | rfl
    · exact Or.inr this
    · exact Or.inl this

/-- **C102** (data arrive by a barrier): if the PEs come to their barriers, up to the one after the put, the byte arrives (for the puts a
barrier completes, `hc`, as in C65) -/
theorem C102_arrives_barrier_partial {S : Sys} {R : Inf S} (F : R.Fair) (hs : R.Safe) {q t : Nat} {nbi : Bool} {ctx : Option (Nat × Nat)}
    {addr : BitVec 64} {xs : List (Int × Int)} {ep i : Nat} (h1 : R.ev i = some (.put q t nbi ctx addr xs ep)) {x : Int × Int} (hx : x ∈ xs)
    (hu : ∀ y ∈ xs, y.1 = x.1 → y = x) (hn : NoWriter (R.st i) (t, x.1)) (hk : ∀ j e, i < j → R.ev j = some e → ¬ e.writes (t, x.1))
    (hsrc : nbi = true → NoWriter (R.st i) (q, x.2) ∧ ∀ j e, i ≤ j → R.ev j = some e → ¬ e.writes (q, x.2))
    (hc : BarCov (S.cf q) ((S.cf q).rma == .am) ctx addr)
    (hN : ∀ p < S.npes, ∀ i, (R.st i).arr p < ep + 1 → (R.st i).arr p = (R.st i).lv p →
      ∃ j, i ≤ j ∧ ((R.st i).arr p < (R.st j).arr p ∨ (AtBarrier R j p ∧ (R.st j).arr p = (R.st j).lv p))) :
    ∃ j, ∀ k, j ≤ k → (R.st k).mem t x.1 = (R.st i).mem q x.2 := by
  have hq : q < S.npes := (own_free (R.step i _ h1) rfl).1
  obtain ⟨j, hj⟩ := C102_barrier F hs hN
  refine ⟨max j (i + 1), fun k hk' => ?_⟩
  have hjk : j ≤ k := (Nat.le_max_left _ _).trans hk'
  have hik : i + 1 ≤ k := (Nat.le_max_right _ _).trans hk'
  obtain ⟨n, rfl⟩ := Nat.exists_eq_add_of_le hik
  refine (C65_barrier_partial (R.reach i) (R.step i _ h1) (R.run (i + 1) n) hx hu hn ?_ ?_ hc hq ?_).1
  · intro e hm
    obtain ⟨m, h1, h2, h3⟩ := R.mem_evs hm
    exact hk m e (by omega) h3
  · intro hnb
    refine ⟨(hsrc hnb).1, fun e hm => ?_⟩
    rcases List.mem_cons.1 hm with rfl | hm
    · exact (hsrc hnb).2 i _ (Nat.le_refl _) h1
    · obtain ⟨m, h1, h2, h3⟩ := R.mem_evs hm
      exact (hsrc hnb).2 m e (by omega) h3
  · exact lt_of_lt_of_le (Nat.lt_of_succ_le (hj q hq)) (R.lv_mono' hjk)

/-- **C102** (message passing ends, with the data): `q` puts a byte of data, fences, puts a flag whose value differs from what is there, and
comes to a quiet. Then the flag has changed from some instant on for good, so a PE that waits for it goes on, and whenever the flag is found
changed, the byte of data is there. Blocking puts. -/
theorem C102_message_partial {S : Sys} {R : Inf S} (F : R.Fair) (hs : R.Safe) {q t t' : Nat} {c c' : Option (Nat × Nat)} {ad ad' : BitVec 64}
    {xs xs' : List (Int × Int)} {ep ep' i i1 i2 i3 : Nat} (hd : R.ev i = some (.put q t false c ad xs ep)) {x : Int × Int} (hx : x ∈ xs)
    (hu : ∀ y ∈ xs, y.1 = x.1 → y = x) (hn : NoWriter (R.st i) (t, x.1)) (hk : ∀ j e, i < j → R.ev j = some e → ¬ e.writes (t, x.1))
    (h01 : i < i1) (hf : R.ev i1 = some (.call q (.fence none))) (h12 : i1 < i2) (hg : R.ev i2 = some (.put q t' false c' ad' xs' ep'))
    {y : Int × Int} (hy : y ∈ xs') (hu' : ∀ z ∈ xs', z.1 = y.1 → z = y) (hn' : NoWriter (R.st i) (t', y.1))
    (hk' : ∀ j e, i ≤ j → j ≠ i2 → R.ev j = some e → ¬ e.writes (t', y.1)) (hv : (R.st i2).mem q y.2 ≠ (R.st i).mem t' y.1)
    (h23 : i2 < i3) (hw : AtCall R i3 q (.quiet none)) (hb : (R.st i3).arr q = (R.st i3).lv q)
    (hsp : ∀ x ∈ ((R.st i3).pe q).spaces, x.att = true ∨
      (x.nctx = 0 ∧ ((S.cf q).dyn = true ∨ ((S.cf q).tracking = true ∧ x.dflt.flag = false)))) :
    (∃ j, ∀ k, j ≤ k → (R.st k).mem t' y.1 ≠ (R.st i).mem t' y.1) ∧
    ∀ k, i < k → (R.st k).mem t' y.1 ≠ (R.st i).mem t' y.1 → (R.st k).mem t x.1 = (R.st i).mem q x.2 := by
  constructor
  · obtain ⟨n, rfl⟩ := Nat.exists_eq_add_of_le (show i ≤ i2 by omega)
    have hnw : NoWriter (R.st (i + n)) (t', y.1) := (noWriter_run (R.run i n) hn' (fun e he => by
      obtain ⟨m, a1, a2, a3⟩ := R.mem_evs he
      exact hk' m e a1 (by omega) a3)).1
    obtain ⟨j, hj⟩ := C102_arrives_partial F hs hg hy hu' hnw (fun j e hj he => hk' j e (by omega) (by omega) he) (fun h => by cases h) h23 hw
      (Or.inl rfl) hb hsp
    exact ⟨j, fun k h => by rw [hj k h]; exact hv⟩
  · intro k hik hc
    obtain ⟨n, rfl⟩ := Nat.exists_eq_add_of_le (show i + 1 ≤ k by omega)
    by_cases hl : i1 < i + 1 + n
    · exact C66_fence (R.reach i) (R.step i _ hd) (R.run (i + 1) n) hx hu hn (fun e he => by
        obtain ⟨m, a1, a2, a3⟩ := R.mem_evs he
        exact hk m e (by omega) a3) (fun h => by cases h) (Or.inl (R.evs_mem (by omega) hl hf))
    · exfalso
      refine hc ?_
      rw [Nat.add_assoc]
      exact (noWriter_run (R.run i (1 + n)) hn' (fun e he => by
        obtain ⟨m, a1, a2, a3⟩ := R.mem_evs he
        exact hk' m e a1 (by omega) a3)).2

/-! ## Fair executions exist -/

/-- the states of a finite execution -/
theorem run_states {S : Sys} {g g' : G} {l : List Ev} (h : Run S g l g') : ∃ st : Nat → G, st 0 = g ∧
    (∀ i e, l[i]? = some e → Step S (st i) e (st (i + 1))) ∧ ∀ i, l.length ≤ i → st i = g' := by
  induction h with
  | nil g => exact ⟨fun _ => g, rfl, fun i e h => by simp at h, fun _ _ => rfl⟩
  | @cons g g1 g2 e l s r ih =>
    obtain ⟨st, h0, h1, h2⟩ := ih
    refine ⟨fun i => match i with | 0 => g | i + 1 => st i, rfl, ?_, ?_⟩
    · rintro (_ | i) e' h
      · simp only [List.getElem?_cons_zero, Option.some.injEq] at h
        subst h
        dsimp only
        rw [h0]; exact s
      · exact h1 i e' (by simpa using h)
    · rintro (_ | i) h
      · exact absurd h (by simp)
      · exact h2 i (by simpa using h)

/-- the same, through a given state -/
theorem run_states_mid {S : Sys} {g gm g' : G} {l1 l2 : List Ev} (h1 : Run S g l1 gm) (h2 : Run S gm l2 g') : ∃ st : Nat → G, st 0 = g ∧
    st l1.length = gm ∧ (∀ i e, (l1 ++ l2)[i]? = some e → Step S (st i) e (st (i + 1))) ∧ ∀ i, (l1 ++ l2).length ≤ i → st i = g' := by
  induction h1 with
  | nil g =>
    obtain ⟨st, a, b, c⟩ := run_states h2
    exact ⟨st, a, a, b, c⟩
  | @cons g g1 g2 e l s r ih =>
    obtain ⟨st, h0, hm, h1, h2⟩ := ih h2
    refine ⟨fun i => match i with | 0 => g | i + 1 => st i, rfl, hm, ?_, ?_⟩
    · rintro (_ | i) e' h
      · simp only [List.cons_append, List.getElem?_cons_zero, Option.some.injEq] at h
        subst h
        dsimp only
        rw [h0]; exact s
      · exact h1 i e' (by simpa using h)
    · rintro (_ | i) h
      · exact absurd h (by simp)
      · exact h2 i (by simpa using h)

/-- the next call of PE `p` in a list of events -/
def nextOwn (l : List Ev) (p : Nat) : Option Ev := l.find? fun e => decide (e.own = some p)

theorem nextOwn_skip {l : List Ev} {p i : Nat} (h : ∀ e, l[i]? = some e → e.own ≠ some p) : nextOwn (l.drop (i + 1)) p = nextOwn (l.drop i) p := by
  by_cases hl : i < l.length
  · rw [List.drop_eq_getElem_cons hl]
    unfold nextOwn
    rw [List.find?_cons_of_neg]
    have := h l[i] (List.getElem?_eq_getElem hl)
    simpa using this
  · rw [List.drop_eq_nil_of_le (by omega), List.drop_eq_nil_of_le (by omega)]

/-- a finite execution by its states, followed by nothing -/
theorem states_fair {S : Sys} {m : Mems} {l : List Ev} {st : Nat → G} {g : G} (h0 : st 0 = ginit m)
    (h1 : ∀ i e, l[i]? = some e → Step S (st i) e (st (i + 1))) (h2 : ∀ i, l.length ≤ i → st i = g) (hg : Settled g)
    (hb : ∀ p < S.npes, g.arr p = g.lv p) :
    ∃ R : Inf S, R.Fair ∧ R.mem = m ∧ (∀ i, R.ev i = l[i]?) ∧ (∀ i p e, R.want i p e ↔ nextOwn (l.drop i) p = some e) ∧ R.st = st := by
  refine ⟨⟨m, st, fun i => l[i]?, fun i p e => nextOwn (l.drop i) p = some e, h0, h1, ?_, ?_, ?_⟩, ⟨?_, ?_, ?_⟩, rfl, fun _ => rfl,
    fun _ _ _ => Iff.rfl, rfl⟩
  · intro i h
    have := List.getElem?_eq_none_iff.1 h
    rw [h2 i this, h2 (i + 1) (by omega)]
  · intro i e p h ho
    obtain ⟨hl, rfl⟩ := List.getElem?_eq_some_iff.1 h
    rw [List.drop_eq_getElem_cons hl]
    unfold nextOwn
    rw [List.find?_cons_of_pos]
    simpa using ho
  · intro i p h
    funext e
    rw [nextOwn_skip h]
  · intro p hp i hbl _
    exfalso
    have hi : i ≤ max i l.length := Nat.le_max_left _ _
    have hst := h2 _ (Nat.le_max_right i l.length)
    have hw : ∀ e, nextOwn (l.drop (max i l.length)) p ≠ some e := by
      intro e
      rw [List.drop_eq_nil_of_le (Nat.le_max_right _ _)]
      intro h; cases h
    rcases hbl _ hi with h | ⟨x, hx, hne, h⟩
    · dsimp only at h
      rw [hst, settled_busy hg] at h
      exact h rfl
    · rcases h with ⟨op, s', h, _⟩ | ⟨s', h, _⟩ | ⟨e, t, h, _⟩ <;> exact hw _ h
  · intro p hp i hen
    exfalso
    obtain ⟨e, g', h, _⟩ := hen _ (Nat.le_max_left i l.length)
    dsimp only at h
    rw [List.drop_eq_nil_of_le (Nat.le_max_right _ _)] at h
    cases h
  · intro p hp i hen
    exfalso
    obtain ⟨g', h⟩ := hen _ (Nat.le_max_left i l.length)
    dsimp only at h
    rw [h2 _ (Nat.le_max_right _ _)] at h
    have hbp := hb p hp
    cases h with
    | leave q hq ha _ => omega

/-- **C102** (such executions exist): every finite execution that ends with nothing in flight and nobody in a barrier, followed by nothing, is
a fair infinite execution, in which each PE stands at its next call (`gm`: any state the execution goes through) -/
theorem C102_exists {S : Sys} {m : Mems} {l1 l2 : List Ev} {gm g : G} (ha : Run S (ginit m) l1 gm) (hz : Run S gm l2 g) (hg : Settled g)
    (hb : ∀ p < S.npes, g.arr p = g.lv p) :
    ∃ R : Inf S, R.Fair ∧ R.mem = m ∧ (∀ i, R.ev i = (l1 ++ l2)[i]?) ∧ (∀ i p e, R.want i p e ↔ nextOwn ((l1 ++ l2).drop i) p = some e) ∧
      R.st l1.length = gm ∧ ∀ i, (l1 ++ l2).length ≤ i → R.st i = g := by
  obtain ⟨st, h0, hmid, h1, h2⟩ := run_states_mid ha hz
  obtain ⟨R, hF, hm, hev, hw, hst⟩ := states_fair h0 h1 h2 hg hb
  exact ⟨R, hF, hm, hev, hw, by rw [hst]; exact hmid, by rw [hst]; exact h2⟩

/-! ## Hypotheses met -/

theorem nextOwn_perf {l : List Ev} {p : Nat} (h : ∀ e ∈ l, e.isPerf) (l' : List Ev) : nextOwn (l ++ l') p = nextOwn l' p := by
  induction l with
  | nil => rfl
  | cons e t ih =>
    have he := h e List.mem_cons_self
    rw [List.cons_append]
    unfold nextOwn
    rw [List.find?_cons_of_neg]
    · exact ih (fun e he => h e (List.mem_cons_of_mem _ he))
    · cases e <;> first | exact (he : False).elim | simp [Ev.own]

/-- PE 0 puts a byte (blocking or not) to PE 1 and calls quiet: a fair execution with these calls, in which the byte arrives; the
hypotheses of `C102_arrives_partial` (and with it `C102_quiet_partial`, `C102_call`) are met -/
example (nbi : Bool) : ∃ R : Inf (exS true), R.Fair ∧ R.ev 0 = some (.put 0 1 nbi none 0x10018#64 [(0x20018, 0x10020)] 0) ∧
    (R.st 0).mem 1 0x20018 = 0 ∧ ∃ j, ∀ k, j ≤ k → (R.st k).mem 1 0x20018 = 1 := by
  obtain ⟨g1, hput, a1, a2, a3, a4, a5, a6, a7⟩ := exPut true nbi
  have r1 : Run (exS true) (ginit exM) [.put 0 1 nbi none 0x10018#64 [(0x20018, 0x10020)] 0] g1 := Run.cons hput (Run.nil _)
  have hf : NoFault (exS true) g1 := noFault_safe r1 (by intro e he; rw [List.mem_singleton.1 he]; exact trivial)
  have hsp : ∀ x ∈ (g1.pe 0).spaces, x.att = true ∨ (x.nctx = 0 ∧ (((exS true).cf 0).dyn = true ∨
      (((exS true).cf 0).tracking = true ∧ x.dflt.flag = false))) := by rw [a7]; intro x hx; cases hx
  obtain ⟨l, g2, g3, r2, hl, hq, hset, har, hlv, _⟩ := C94_quiet_partial ⟨exM, _, r1⟩ hf (p := 0) (by decide)
    ((a5 0).1.trans (a5 0).2.symm) hsp (op := .quiet none) (Or.inl rfl)
  obtain ⟨R, hF, hm, hev, hwant, hmid, hend⟩ := C102_exists r1 (run_append r2 (Run.cons hq (Run.nil _))) hset
    (fun p _ => by rw [har, hlv, (a5 p).1, (a5 p).2])
  have hmid : R.st 1 = g1 := hmid
  have hmem : ∀ e ∈ ([.put 0 1 nbi none 0x10018#64 [(0x20018, 0x10020)] 0] ++ (l ++ [.call 0 (.quiet none)]) : List Ev), e.Safe (exS true) := by
    intro e he
    rcases List.mem_append.1 he with he | he
    · rw [List.mem_singleton.1 he]; exact trivial
    · rcases List.mem_append.1 he with he | he
      · exact perf_safe (hl e he)
      · rw [List.mem_singleton.1 he]; exact trivial
  have hS : R.Safe := fun i e he => hmem e (by rw [hev] at he; exact List.mem_of_getElem? he)
  have h0 : R.ev 0 = some (.put 0 1 nbi none 0x10018#64 [(0x20018, 0x10020)] 0) := by rw [hev]; rfl
  have hst : R.st 0 = ginit exM := by rw [R.start, hm]
  have hnow : ∀ k : Nat × Int, ∀ j e, 0 < j → R.ev j = some e → ¬ e.writes k := by
    intro k j e hj he
    rw [hev] at he
    obtain ⟨n, rfl⟩ := Nat.exists_eq_add_of_le' hj
    rw [List.singleton_append, List.getElem?_cons_succ] at he
    rcases List.mem_append.1 (List.mem_of_getElem? he) with he | he
    · have := hl e he
      cases e <;> first | exact (this : False).elim | exact id
    · rw [List.mem_singleton.1 he]; exact id
  have hw : AtCall R 1 0 (.quiet none) := by
    funext e
    apply propext
    rw [hwant, show ([.put 0 1 nbi none 0x10018#64 [(0x20018, 0x10020)] 0] ++ (l ++ [.call 0 (.quiet none)]) : List Ev).drop 1 =
      l ++ [.call 0 (.quiet none)] from rfl, nextOwn_perf hl]
    exact ⟨fun h => (Option.some.inj h).symm, fun h => congrArg some h.symm⟩
  refine ⟨R, hF, h0, by rw [hst]; rfl, ?_⟩
  obtain ⟨j, hj⟩ := C102_arrives_partial hF hS h0 (x := (0x20018, 0x10020)) (List.mem_singleton.2 rfl) (fun y hy _ => List.mem_singleton.1 hy)
    (by rw [hst]; exact noWriter_init _ _) (hnow _) (fun _ => ⟨by rw [hst]; exact noWriter_init _ _, fun j e hj he => by
      rcases Nat.eq_zero_or_pos j with rfl | hj
      · rw [h0] at he
        cases he
        rintro ⟨h, _⟩
        cases h
      · exact hnow _ j e hj he⟩) Nat.zero_lt_one hw (Or.inl rfl) (by rw [hmid, (a5 0).1, (a5 0).2])
    (by rw [hmid]; exact hsp)
  exact ⟨j, fun k hk => by rw [hj k hk, hst]; rfl⟩

/-- PE 0 puts a byte to PE 1 and all PEs call three barriers: a fair execution with these calls; the hypotheses of `C102_barrier` and
`C102_arrives_barrier_partial` are met -/
example : ∃ R : Inf (exS true), R.Fair ∧ R.ev 0 = some (.put 0 1 false none 0x10018#64 [(0x20018, 0x10020)] 0) ∧
    (∃ i, ∀ p < 2, 3 ≤ (R.st i).lv p) ∧ ∃ j, ∀ k, j ≤ k → (R.st k).mem 1 0x20018 = 1 := by
  obtain ⟨g1, hput, a1, a2, a3, a4, a5, a6, a7⟩ := exPut true false
  have r1 : Run (exS true) (ginit exM) [.put 0 1 false none 0x10018#64 [(0x20018, 0x10020)] 0] g1 := Run.cons hput (Run.nil _)
  have hf : NoFault (exS true) g1 := noFault_safe r1 (by intro e he; rw [List.mem_singleton.1 he]; exact trivial)
  obtain ⟨l, g2, r2, hl, hset, hN⟩ := C94_barrier (N := 3) ⟨exM, _, r1⟩ hf (fun p _ => by rw [(a5 p).1]; omega)
  obtain ⟨R, hF, hm, hev, hwant, hmid, hend⟩ := C102_exists r1 r2 hset (fun p hp => by rw [(hN p hp).1, (hN p hp).2])
  have hmid : R.st 1 = g1 := hmid
  have h0 : R.ev 0 = some (.put 0 1 false none 0x10018#64 [(0x20018, 0x10020)] 0) := by rw [hev]; rfl
  have hst : R.st 0 = ginit exM := by rw [R.start, hm]
  have hsync : ∀ j e, 0 < j → R.ev j = some e → e.isSync := by
    intro j e hj he
    rw [hev] at he
    obtain ⟨n, rfl⟩ := Nat.exists_eq_add_of_le' hj
    rw [List.singleton_append, List.getElem?_cons_succ] at he
    exact hl e (List.mem_of_getElem? he)
  have hS : R.Safe := by
    intro i e he
    rcases Nat.eq_zero_or_pos i with rfl | hi
    · rw [h0] at he; cases he; exact trivial
    · have := hsync i e hi he
      cases e <;> first | exact (this : False).elim | exact trivial
  have late : ∀ p < 2, ∀ i, 0 < i → (R.st i).arr p < 3 → AtBarrier R i p := by
    intro p hp i hi hlt
    by_cases hmu : ∀ j, i ≤ j → R.Mute j p
    · have h1 := (R.rest ((([.put 0 1 false none 0x10018#64 [(0x20018, 0x10020)] 0] ++ l : List Ev)).length) (fun j h _ => hmu j h)).1.arr
      rw [hend _ (by omega), (hN p hp).1] at h1
      omega
    · obtain ⟨n, e, b1, b2, b3, b4⟩ := first_own hmu
      have hs := hsync _ e (by omega) b2
      have he : e = .enter p := by
        cases e <;> first | exact (hs : False).elim | cases b3
        rfl
      subst he
      funext e'
      apply propext
      rw [hwant] at b4
      rw [hwant, b4]
      exact ⟨fun h => (Option.some.inj h).symm, fun h => congrArg some h.symm⟩
  have hgo : ∀ N, N ≤ 3 → ∀ p < (exS true).npes, ∀ i, (R.st i).arr p < N → (R.st i).arr p = (R.st i).lv p →
      ∃ j, i ≤ j ∧ ((R.st i).arr p < (R.st j).arr p ∨ (AtBarrier R j p ∧ (R.st j).arr p = (R.st j).lv p)) := by
    intro N hN3 p hp i hlt hout
    rcases Nat.eq_zero_or_pos i with rfl | hi
    · exact ⟨1, Nat.zero_le _, Or.inr ⟨late p hp 1 Nat.zero_lt_one (by rw [hmid, (a5 p).1]; omega), by rw [hmid, (a5 p).1, (a5 p).2]⟩⟩
    · exact ⟨i, Nat.le_refl _, Or.inr ⟨late p hp i hi (by omega), hout⟩⟩
  refine ⟨R, hF, h0, C102_barrier hF hS (hgo 3 (Nat.le_refl _)), ?_⟩
  obtain ⟨j, hj⟩ := C102_arrives_barrier_partial hF hS h0 (x := (0x20018, 0x10020)) (List.mem_singleton.2 rfl)
    (fun y hy _ => List.mem_singleton.1 hy) (by rw [hst]; exact noWriter_init _ _) (fun j e hj he => by
      have := hsync j e hj he
      cases e <;> first | exact (this : False).elim | exact id) (fun h => by cases h)
    (Or.inr ⟨rfl, Or.inr (Or.inl (by decide +kernel))⟩) (hgo 1 (by omega))
  exact ⟨j, fun k hk => by rw [hj k hk, hst]; rfl⟩

/-- PE 0 puts the byte 1 from 0x10020 to offset 0x50 of the heap of PE 1, in any state with nothing of PE 0 in flight -/
theorem exFlag {g : G} (hpe : g.pe = fun _ => Order.init) (hfly : g.fly 0 = []) (hb : g.busy 0 = []) (ha : g.arr 0 = g.lv 0) :
    ∃ g1, Step (exS true) g (.put 0 1 false none 0x10050#64 [(0x20050, 0x10020)] (g.arr 0)) g1 ∧ (g1.pe 0).spaces = [] ∧
      g1.arr = g.arr ∧ g1.lv = g.lv := by
  have hp : procs (exS true) g = procs (exS true) (ginit exM) := by funext q; unfold procs; rw [hpe]; rfl
  refine ⟨_, Step.put 0 1 false none 0x10050#64 0x10020#64 1 true .rel 1 1 (Ty.basic 1) (Ty.basic 1) _
    (Order.init.push ⟨.win 1, 1, none, .heap, 0⟩) ⟨Nat.zero_lt_succ _, ha, hb⟩ (fun h => by cases h) ?_ ?_ (done_nil hfly), ?_, rfl, rfl⟩
  · rw [hpe]; rfl
  · rw [if_neg (by decide), hp, hpe]
    exact ⟨0x20050#64, by decide +kernel, by decide +kernel⟩
  · show ((Function.update g.pe 0 _) 0).spaces = []
    rw [Function.update_self]; rfl

/-- data, fence, flag, quiet: a fair execution in which the flag arrives after the data; the hypotheses of `C102_message_partial` are met -/
example : ∃ R : Inf (exS true), R.Fair ∧ (R.st 0).mem 1 0x20050 = 0 ∧ (∃ j, ∀ k, j ≤ k → (R.st k).mem 1 0x20050 ≠ 0) ∧
    ∀ k, 0 < k → (R.st k).mem 1 0x20050 ≠ 0 → (R.st k).mem 1 0x20018 = 1 := by
  obtain ⟨g1, hput, a1, a2, a3, a4, a5, a6, a7⟩ := exPut true false
  have hp1 : ∀ q, q ≠ 0 → g1.pe q = Order.init := by
    intro q hq
    obtain ⟨d, e⟩ := (rest_step hput (p := q) (fun h => hq (Option.some.inj h).symm)).1.pe
    rw [e]; rfl
  have st1 := Step.perform (S := exS true) (g := g1) 0 [] [] _ [] [] _ _ (Nat.zero_lt_succ _) a1 rfl
  generalize hg2 : ({ g1 with
      mem := Function.update g1.mem 1 (Function.update (g1.mem 1) 0x20018 1)
      fly := Function.update g1.fly 0 ([] ++ ⟨⟨.win 1, 1, none, .heap, 0⟩, [] ++ []⟩ :: []) } : G) = g2 at st1
  have st2 := Step.call (S := exS true) (g := g2) 0 (.fence none) Order.init
    ⟨Nat.zero_lt_succ _, by rw [← hg2]; exact (a5 0).1.trans (a5 0).2.symm, by rw [← hg2]; exact a3 0⟩ (by exact trivial)
    (by rintro _ _ _ _ _ _ h; cases h)
    (by
      rw [← hg2]
      show Order.step _ (g1.pe 0) _ = _
      rw [a7]; rfl)
    (done_empty (fun x hx => by
      rw [← hg2] at hx
      simp only [upd_at, if_true, List.append_nil, List.nil_append, List.mem_singleton] at hx
      rw [hx]))
  have r3 := Run.cons hput (Run.cons st1 (Run.cons st2 (Run.nil _)))
  generalize hg3 : after g2 0 Order.init [] = g3 at st2 r3
  have hpe : g3.pe = fun _ => Order.init := by
    funext q
    rw [← hg3, ← hg2]
    show Function.update g1.pe 0 Order.init q = _
    rw [upd_at]
    split
    · rfl
    · rename_i h; exact hp1 q h
  have h3f := quiet_step (gi_run (gi_init _ _) (Run.cons hput (Run.cons st1 (Run.nil _)))) (Or.inr rfl) st2
  have h3a : ∀ p, g3.arr p = 0 ∧ g3.lv p = 0 := by intro p; rw [← hg3, ← hg2]; exact a5 p
  obtain ⟨g4, st4, h4s, h4a, h4l⟩ := exFlag hpe h3f.1 h3f.2 ((h3a 0).1.trans (h3a 0).2.symm)
  rw [(h3a 0).1] at st4
  have r4 := run_append r3 (Run.cons st4 (Run.nil _))
  have hf : NoFault (exS true) g4 := noFault_safe r4 (by
    intro e he
    simp only [List.cons_append, List.nil_append, List.mem_cons, List.not_mem_nil, or_false] at he
    rcases he with rfl | rfl | rfl | rfl <;> exact trivial)
  have hsp : ∀ x ∈ (g4.pe 0).spaces, x.att = true ∨ (x.nctx = 0 ∧ (((exS true).cf 0).dyn = true ∨
      (((exS true).cf 0).tracking = true ∧ x.dflt.flag = false))) := by rw [h4s]; intro x hx; cases hx
  obtain ⟨l, g5, g6, r5, hl, hq, hset, har, hlv, _⟩ := C94_quiet_partial ⟨exM, _, r4⟩ hf (p := 0) (by decide)
    (by rw [h4a, h4l, (h3a 0).1, (h3a 0).2]) hsp (op := .quiet none) (Or.inl rfl)
  obtain ⟨R, hF, hm, hev, hwant, hmid, hend⟩ := C102_exists r4 (run_append r5 (Run.cons hq (Run.nil _))) hset
    (fun p _ => by rw [har, hlv, h4a, h4l, (h3a p).1, (h3a p).2])
  have hst : R.st 0 = ginit exM := by rw [R.start, hm]
  have hmid : R.st 4 = g4 := hmid
  have late : ∀ j e, 3 < j → R.ev j = some e → (e.isPerf ∨ e = .call 0 (.quiet none)) := by
    intro j e hj he
    rw [hev, List.getElem?_append_right (by simp only [List.length_append, List.length_cons, List.length_nil]; omega)] at he
    rcases List.mem_append.1 (List.mem_of_getElem? he) with he | he
    · exact Or.inl (hl e he)
    · exact Or.inr (List.mem_singleton.1 he)
  have early : ∀ j e, R.ev j = some e → j = 0 ∧ e = .put 0 1 false none 0x10018#64 [(0x20018, 0x10020)] 0 ∨
      j = 3 ∧ e = .put 0 1 false none 0x10050#64 [(0x20050, 0x10020)] 0 ∨ (e.Safe (exS true) ∧ ∀ k, ¬ e.writes k) := by
    intro j e he
    by_cases hj : 3 < j
    · refine Or.inr (Or.inr ?_)
      rcases late j e hj he with h | rfl
      · refine ⟨perf_safe h, fun k => ?_⟩
        cases e <;> first | exact (h : False).elim | exact id
      · exact ⟨trivial, fun k => id⟩
    · rw [hev, List.getElem?_append_left (by simp only [List.length_append, List.length_cons, List.length_nil]; omega)] at he
      match j, hj, he with
      | 0, _, he => exact Or.inl ⟨rfl, (Option.some.inj he).symm⟩
      | 1, _, he => rw [← Option.some.inj he]; exact Or.inr (Or.inr ⟨trivial, fun k => id⟩)
      | 2, _, he => rw [← Option.some.inj he]; exact Or.inr (Or.inr ⟨trivial, fun k => id⟩)
      | 3, _, he => exact Or.inr (Or.inl ⟨rfl, (Option.some.inj he).symm⟩)
      | j + 4, hj, _ => omega
  have hS : R.Safe := by
    intro i e he
    rcases early i e he with ⟨_, rfl⟩ | ⟨_, rfl⟩ | ⟨h, _⟩
    · exact trivial
    · exact trivial
    · exact h
  have h0 : R.ev 0 = some (.put 0 1 false none 0x10018#64 [(0x20018, 0x10020)] 0) := by rw [hev]; rfl
  have h2 : R.ev 2 = some (.call 0 (.fence none)) := by rw [hev]; rfl
  have h3 : R.ev 3 = some (.put 0 1 false none 0x10050#64 [(0x20050, 0x10020)] 0) := by rw [hev]; rfl
  have hw : AtCall R 4 0 (.quiet none) := by
    funext e
    apply propext
    rw [hwant, List.drop_append_of_le_length (by simp), List.drop_eq_nil_of_le (by simp), List.nil_append, nextOwn_perf hl]
    exact ⟨fun h => (Option.some.inj h).symm, fun h => congrArg some h.symm⟩
  have hval : (R.st 3).mem 0 0x10020 = 1 := by
    have hnow : ∀ e ∈ R.evs 0 3, ¬ e.writes (0, 0x10020) := by
      intro e he
      obtain ⟨j, _, b2, b3⟩ := R.mem_evs he
      rcases early j e b3 with ⟨_, rfl⟩ | ⟨_, rfl⟩ | ⟨_, h⟩
      · rintro ⟨h, _⟩; cases h
      · rintro ⟨h, _⟩; cases h
      · exact h _
    have := (noWriter_run (R.run 0 3) (by rw [hst]; exact noWriter_init _ _) hnow).2
    rw [hst] at this
    exact this
  have hz : (R.st 0).mem 1 0x20050 = 0 := by rw [hst]; rfl
  have key := C102_message_partial hF hS (t := 1) (t' := 1) h0 (x := (0x20018, 0x10020)) (List.mem_singleton.2 rfl)
    (fun y hy _ => List.mem_singleton.1 hy) (by rw [hst]; exact noWriter_init _ _) (fun j e hj he => by
      rcases early j e he with ⟨rfl, _⟩ | ⟨_, rfl⟩ | ⟨_, h⟩
      · omega
      · rintro ⟨_, y, hy, h⟩
        rw [List.mem_singleton.1 hy] at h
        revert h; decide
      · exact h _) (i1 := 2) (by decide) h2 (by decide) h3 (y := (0x20050, 0x10020)) (List.mem_singleton.2 rfl)
    (fun y hy _ => List.mem_singleton.1 hy) (by rw [hst]; exact noWriter_init _ _) (fun j e _ hj he => by
      rcases early j e he with ⟨_, rfl⟩ | ⟨h, _⟩ | ⟨_, h⟩
      · rintro ⟨_, y, hy, h⟩
        rw [List.mem_singleton.1 hy] at h
        revert h; decide
      · exact absurd h hj
      · exact h _) (by rw [hval, hz]; decide) (i3 := 4) (by decide) hw (by rw [hmid, h4a, h4l, (h3a 0).1, (h3a 0).2]) (by rw [hmid]; exact hsp)
  rw [hz] at key
  refine ⟨R, hF, hz, key.1, fun k hk hne => ?_⟩
  rw [key.2 k hk hne, hst]; rfl

end Verif.Vis
