import Verif.Am.Tags
import Verif.Am.Fin
import Verif.Am.Exec
import Verif.Env.Model
/-!
# Properties of the active-message system: C21, C22, C23, C25, C26, C27, C28, C32

Every theorem quantifies over all configurations (number of PEs, threads, kind of progress, handlers), all programs and all
interleavings: `Reach c s` is any state of any execution.
-/
namespace Verif.Am
variable {I : Iface}

/-! ## Concrete system used in the examples: the memory is a number -/

/-- a counter: put stores, the replying operation is fetch-and-increment, post adds -/
abbrev cnt : Iface where
  σ := Nat
  D := Unit
  P := Nat
  Q := Unit
  V := Nat
  U := Nat
  write := fun _ x _ => x
  read := fun _ m => (m + 1, m)
  upd := fun u m => m + u

/-- `n` PEs with `T` threads -/
def cfg (n T : Nat) (async : Bool) (ub : Nat) : Cfg cnt := ⟨n, fun _ t => t < T, async, ub, fun _ => 0⟩

instance (n T : Nat) (async : Bool) (ub : Nat) : ∀ p t, Decidable ((cfg n T async ub).thr p t) :=
  fun _ t => inferInstanceAs (Decidable (t < T))

/-- the asynchronous thread of PE `p` takes and handles a packet of thread `t` of PE `src` -/
def serve (p src t : Nat) : List (Mv cnt) := [.mat p src t, .start p none, .act p]

/-- a post by thread `t` of PE `p` from call to return -/
def doPost (p t u dst : Nat) : List (Mv cnt) := [.call p t (.post u dst), .go p t, .go p t, .go p t]

/-- a put by thread `t` of PE `p` from call to return -/
def doPut (p t x dst : Nat) : List (Mv cnt) := [.call p t (.put () x dst), .go p t, .go p t, .go p t, .go p t]

/-! ## C21 -/

/-- **C21** — when the flush of a quiet or fence is about to return on a PE used by one thread, every operation this PE has sent
to a flushed PE has been applied there, in order, and the memory there is the result -/
theorem C21_flush {c : Cfg I} {s : St I} (h : Reach c s) {p t : Nat} (h1 : ∀ u, c.thr p u → u = t) {pes : List Nat}
    (hr : s.pc p t = .fRet pes) {d : Nat} (hd : d ∈ pes) :
    opsOf p t (s.log d) = s.issued p t d ∧ s.mem d = replay (c.mem₀ d) (s.log d) := by
  have hf := flag_reach (single_reachP h1 h)
  rw [hr] at hf
  have hi := (inv_reach h).iss p t d
  rw [hf.2 d hd] at hi
  simp only [List.map_nil, List.filter_nil, List.append_nil] at hi
  exact ⟨hi.symm, (inv_reach h).mem d⟩

/-- **C21**, the shortcut — the flush returns without looking at the flags (am_impl.h L33-34, L87-88) only if neither AMOs nor
puts and gets use active messages. `rmaConfig`: `OSHMPI_ENABLE_DIRECT_RMA_CONFIG`, oshmpi_impl.h L85-92 -/
theorem flush_skip (amo : Env.AmoCfg) (rma : Env.RmaCfg) (adbg rdbg : Env.Dbg) (amo_direct : Bool)
    (hskip : Env.directAmo amo adbg amo_direct = true ∧ rma = .direct) :
    Env.directAmo amo adbg amo_direct = true ∧
      ∀ features dev kind op, Env.directRma rma rdbg features dev kind op = .ok true := by
  refine ⟨hskip.1, fun _ _ _ _ => ?_⟩
  rw [hskip.2]
  rfl

/-- post and put to PE 1, then a flush of PEs 0 and 1 -/
def flushDemo : List (Mv cnt) :=
  doPost 0 0 5 1 ++ doPut 0 0 7 1 ++ [.call 0 0 (.flush [0, 1]), .go 0 0, .go 0 0, .go 0 0, .go 0 0, .go 0 0, .go 0 0] ++
  serve 1 0 0 ++ serve 1 0 0 ++ serve 1 0 0 ++ [.ack 0 0 1, .go 0 0, .go 0 0, .go 0 0, .go 0 0]

-- the hypotheses of C21_flush hold in an execution with two operations; before the handlers ran, nothing was applied
example : ∃ s, Reach (cfg 2 1 true 9000) s ∧ s.pc 0 0 = .fRet [0, 1] ∧ s.log 1 = [.am 0 0 (.upd 5), .am 0 0 (.put () 7)] ∧
    s.mem 1 = (7 : Nat) :=
  ⟨after (cfg 2 1 true 9000) flushDemo rfl, after_reach _ _, rfl, rfl, rfl⟩
example : ∃ s, Reach (cfg 2 1 true 9000) s ∧ s.pc 0 0 = .fWait [0, 1] [1] 2004 ∧ s.log 1 = [] :=
  ⟨after (cfg 2 1 true 9000) (flushDemo.take 16) rfl, after_reach _ _, rfl, rfl⟩
example : ∀ u, (cfg 2 1 true 9000).thr 0 u → u = 0 := fun _ h => Nat.lt_one_iff.1 h
example : Env.directAmo .auto .auto true = true ∧ Env.RmaCfg.direct = .direct := ⟨rfl, rfl⟩

/-! ## C22 -/

/-- **C22** — the operations of a thread are applied at their target in the order issued, each once: those applied are a
prefix of those issued -/
theorem C22_order {c : Cfg I} {s : St I} (h : Reach c s) (p t d : Nat) : opsOf p t (s.log d) <+: s.issued p t d :=
  ⟨_, ((inv_reach h).iss p t d).symm⟩

/-- **C22** — and nothing gets lost on the way as long as the target handles messages: what has not been applied is on the
wire or being sent or handled -/
theorem C22_none_lost {c : Cfg I} {s : St I} (h : Reach c s) {p t d : Nat} (hd : s.cb d ≠ .dead) (hc : s.chan p t d = [])
    (hh : ∀ o m, s.cb d ≠ .handling o p t m) (hm : ∀ m, s.cb d ≠ .matched p t m) (hu : ∀ x tag, s.pc p t ≠ .putPl x d tag) :
    opsOf p t (s.log d) = s.issued p t d := by
  have hI := inv_reach h
  have h1 := hI.chan p t d hd
  have h2 : hdrAt (s.cb d) p t = [] := by
    cases hcb : s.cb d with
    | posted a => rfl
    | dead => rfl
    | matched a b m =>
      simp only [hdrAt]
      rw [if_neg]
      rintro ⟨rfl, rfl⟩
      exact hm m hcb
    | handling o a b m =>
      simp only [hdrAt]
      rw [if_neg]
      rintro ⟨rfl, rfl⟩
      exact hh o m hcb
  have h3 : unsent (s.pc p t) d = [] := by
    have := hu
    cases hpc : s.pc p t <;> simp only [unsent]
    rename_i x dst tag
    rw [if_neg]
    rintro rfl
    exact hu x tag hpc
  rw [h2, h3, hc] at h1
  have h4 : s.infl p t d = [] := by
    cases hi : s.infl p t d with
    | nil => rfl
    | cons e l =>
      obtain ⟨k, tl, he, _⟩ := enc_cons e
      rw [hi, List.flatMap_cons, he] at h1
      cases h1
  have h5 := hI.iss p t d
  rw [h4] at h5
  simpa using h5.symm

/-- **C22** — a get, fetch or compare-swap that returns `v` was applied after all earlier operations of its thread on that
target, and `v` is the value at that moment -/
theorem C22_read_own {c : Cfg I} {s : St I} (h : Reach c s) {p t d : Nat} {q : I.Q} {v : I.V} (hr : s.pc p t = .rdFlag d q v) :
    ∃ l1 l2 earlier, s.log d = l1 ++ .am p t (.rd q) :: l2 ∧ opsOf p t l1 = earlier ∧ s.issued p t d = earlier ++ [.rd q] ∧
      v = (I.read q (replay (c.mem₀ d) l1)).2 := by
  have hI := inv_reach h
  have h1 := rd_reach h p t
  rw [hr] at h1
  obtain ⟨hinf, L, hL⟩ := h1
  have h2 := hI.iss p t d
  rw [hinf, hL] at h2
  simp only [List.map_nil, List.filter_nil, List.append_nil] at h2
  obtain ⟨l1, l2, e1, e2, e3⟩ := opsOf_split h2.symm
  refine ⟨l1, l2, L, e1, e2, hL, ?_⟩
  obtain ⟨pend, hp1, hp2⟩ := hI.pend p t d
  rw [hr] at hp2
  simp only [PendC, await, got, if_true] at hp2
  rw [hp2.2.2, e1, seqRets_append] at hp1
  simp only [seqRets, and_self, if_true, valOf, seqRets_none e3] at hp1
  have := congrArg List.getLast? hp1
  simp only [List.append_nil, List.getLast?_append, List.getLast?_singleton, Option.some_or] at this
  cases this
  rfl

/-- put 7 to PE 1, then fetch-increment there -/
def readDemo : List (Mv cnt) :=
  doPut 0 0 7 1 ++ [.call 0 0 (.rd () 1), .go 0 0] ++ serve 1 0 0 ++ serve 1 0 0 ++ [.ack 0 0 1]

example : ∃ s, Reach (cfg 2 1 true 9000) s ∧ s.pc 0 0 = .rdFlag 1 () (7 : Nat) ∧
    s.log 1 = [.am 0 0 (.put () 7), .am 0 0 (.rd ())] ∧ s.chan 0 0 1 = [] ∧ s.cb 1 = .posted true :=
  ⟨after (cfg 2 1 true 9000) readDemo rfl, after_reach _ _, rfl, rfl, rfl, rfl⟩

/-! ## C23 -/

/-- the log of a PE only grows -/
theorem log_step {c : Cfg I} {s s' : St I} {l : Lbl} (hs : Step c s l s') (d : Nat) : s.log d <+: s'.log d := by
  have hfin : ∀ (p src t : Nat) (o : Op I) (m : I.σ), s.log d <+: (finish c s p src t o m).log d := by
    intro p src t o m
    show s.log d <+: Function.update s.log p (s.log p ++ if o.app then [.am src t o] else []) d
    by_cases e : d = p
    · subst e; rw [Function.update_self]; exact List.prefix_append _ _
    · rw [Function.update_of_ne e]
  cases hs with
  | env a f =>
    show s.log d <+: Function.update s.log a (s.log a ++ [.env f]) d
    by_cases e : d = a
    · subst e; rw [Function.update_self]; exact List.prefix_append _ _
    · rw [Function.update_of_ne e]
  | actPut a hp o src u d tag hc t' tag' x hm => exact hfin a src u (.put d x) (s.mem a)
  | actRd a hp o src u q tag hc => exact hfin a src u (.rd q) (s.mem a)
  | actPost a hp o src u x hc => exact hfin a src u (.upd x) (s.mem a)
  | actFlush a hp o src u tag hc => exact hfin a src u .flush (s.mem a)
  | actTerm a hp o src u hc => exact hfin a src u .term (s.mem a)
  | loc a u hp pc' fl hl => exact List.prefix_refl _
  | alloc a u hp f ha hub => exact List.prefix_refl _
  | allocFail a u hp f ha hub => exact List.prefix_refl _
  | send a u hp dst m o pc' hs => exact List.prefix_refl _
  | reply a u hp q dst tag hc ho k ha v hv => exact List.prefix_refl _
  | replyBad a u hp q dst tag hc k ha hv => exact List.prefix_refl _
  | rdRet a u hp dst q v hc => exact List.prefix_refl _
  | flushAck a u hp pes pend tag d hc hd ho k ha hv => exact List.prefix_refl _
  | flushBad a u hp pes pend tag d hc hd k ha v hv => exact List.prefix_refl _
  | «match» a hp any hc src u m hm => exact List.prefix_refl _
  | start a hp o src u m hc ho => exact List.prefix_refl _
  | actPutBad a hp o src u d tag hc t' k hm => exact List.prefix_refl _
  | actBad a hp o src u tag x hc => exact List.prefix_refl _
  | bar a u hp ht hc => exact List.prefix_refl _
  | fin a u hp ht hc => exact List.prefix_refl _
  | finDrop a u hp hc hc' src t' m hm => exact List.prefix_refl _

/-- **C23** — all operations on a PE are applied one at a time: there is one sequence of operations per PE, extending every
thread's program order, such that the memory is the result of executing it and the values returned are those it yields
(one value at most has been computed but not returned yet, none if the thread is outside the library) -/
theorem C23_linear {c : Cfg I} {s : St I} (h : Reach c s) (d : Nat) :
    ∃ order : List (Ev I), s.mem d = replay (c.mem₀ d) order ∧
      ∀ p t, opsOf p t order <+: s.issued p t d ∧ s.rets p t d <+: seqRets p t (c.mem₀ d) order ∧
        (s.pc p t = .idle → s.rets p t d = seqRets p t (c.mem₀ d) order) := by
  refine ⟨s.log d, (inv_reach h).mem d, fun p t => ⟨C22_order h p t d, ?_, fun hpc => ?_⟩⟩
  · obtain ⟨pend, hp, _⟩ := (inv_reach h).pend p t d
    exact ⟨pend, hp.symm⟩
  · obtain ⟨pend, hp, hp2⟩ := (inv_reach h).pend p t d
    rw [hpc] at hp2
    have : pend = [] := hp2.2.2
    rw [this, List.append_nil] at hp
    exact hp.symm

/-- **C23**, real time — the sequence is never reordered: later it is an extension of what it was. With `C22_read_own` (a
returning operation is in the sequence) and `C22_order` (an operation not yet sent is not), an operation that returned before
another was called precedes it. -/
theorem C23_realtime {c : Cfg I} {s s' : St I} {k : Nat} (hr : Run c s k s') (d : Nat) : s.log d <+: s'.log d := by
  induction hr with
  | nil s => exact List.prefix_refl _
  | cons hs _ _ _ ih => exact (log_step hs d).trans ih

/-- two PEs fetch-increment the counter of PE 2 concurrently; the second request is handled first -/
def fincDemo : List (Mv cnt) :=
  [.call 0 0 (.rd () 2), .call 1 0 (.rd () 2), .go 0 0, .go 1 0] ++ serve 2 1 0 ++ serve 2 0 0 ++
  [.ack 0 0 2, .ack 1 0 2, .go 0 0, .go 1 0]

example : ∃ s, Reach (cfg 3 1 true 9000) s ∧ s.mem 2 = (2 : Nat) ∧ s.rets 0 0 2 = [((), (1 : Nat))] ∧
    s.rets 1 0 2 = [((), (0 : Nat))] ∧ s.pc 0 0 = .idle :=
  ⟨after (cfg 3 1 true 9000) fincDemo rfl, after_reach _ _, rfl, rfl, rfl, rfl⟩
example : ∃ s s' k, Run (cfg 1 1 true 9000) s k s' ∧ k = 1 ∧ s.log 0 = [] := by
  refine ⟨after (cfg 1 1 true 9000) (doPost 0 0 5 0 ++ [.mat 0 0 0]) rfl, _, 1,
    .cons (.start 0 (by decide) none 0 0 (.hdr (.post (5 : Nat)) : Msg cnt) rfl ?_) nofun nofun (.nil _), rfl, rfl⟩
  exact rfl

/-! ## C25 -/

/-- **C25** — the pending receive of headers, with the packet tag or with any tag, is only ever matched with headers, and with
the oldest message of their thread -/
theorem C25_header {c : Cfg I} {s : St I} (h : Reach c s) {p a t : Nat} {any : Bool} {m : Msg I} (hc : s.cb p = .posted any)
    (hm : (s.chan a t p).find? (fits any pktTag) = some m) : (∃ k, m = .hdr k) ∧ (s.chan a t p).head? = some m := by
  obtain ⟨k, hk, he⟩ := matchable (inv_reach h) hc hm
  refine ⟨⟨k, hk⟩, ?_⟩
  rw [he]
  rfl

/-- **C25** — the payload receive of a put, which names source and tag but not the thread, takes the payload of that very put -/
theorem C25_payload {c : Cfg I} {s : St I} (h : Reach c s) {p a t : Nat} {o : Option Nat} {d : I.D} {tag : Nat}
    (hc : s.cb p = .handling o a t (.hdr (.put d tag))) {t' : Nat} {m : Msg I}
    (hm : (s.chan a t' p).find? (fits false tag) = some m) :
    t' = t ∧ ∃ x rest, s.infl a t p = (.put d x, tag) :: rest ∧ m = .pl tag x := by
  obtain ⟨h1, x, l, h2, h3, _⟩ := payload (inv_reach h) hc hm
  exact ⟨h1, x, l, h2, h3⟩

/-- **C25** — no receive ever takes a message that was not meant for it (headers, payloads, replies, acknowledgements) -/
theorem C25_never_bad {c : Cfg I} {s : St I} (h : Reach c s) : s.bad = false := (inv_reach h).notbad

-- two threads of PE 0 put to PE 1, their messages interleave, the receive is re-posted with any tag
def twoPuts : List (Mv cnt) :=
  [.call 0 0 (.put () 7 1), .call 0 1 (.put () 8 1), .go 0 0, .go 0 1, .go 0 1, .go 0 0] ++ serve 1 0 1

example : ∃ s, Reach (cfg 2 2 true 9000) s ∧ s.cb 1 = .posted true ∧
    (s.chan 0 0 1).find? (fits true pktTag) = some (.hdr (.put () 2003)) ∧ s.mem 1 = (8 : Nat) :=
  ⟨after (cfg 2 2 true 9000) twoPuts rfl, after_reach _ _, rfl, rfl, rfl⟩
example : ∃ s, Reach (cfg 2 2 true 9000) s ∧ s.cb 1 = .handling none 0 1 (.hdr (.put () 2004)) ∧
    s.chan 0 1 1 = [.pl 2004 8] ∧ s.chan 0 0 1 = [.hdr (.put () 2003), .pl 2003 7] :=
  ⟨after (cfg 2 2 true 9000) (twoPuts.take 8) rfl, after_reach _ _, rfl, rfl, rfl⟩
example : [(.pl 2004 8 : Msg cnt)].find? (fits false 2004) = some (.pl 2004 8) := by simp [fits, Msg.tag]

/-! ## C26 -/

/-- **C26** (partial: as long as the program gets that far) — operations in flight on one PE never share a private tag, except
the packets of one flush to different PEs; tags in flight differ from the header tag and are below the bound. Missing: "for the
whole life of the program", which `C26_exhausted` refutes. -/
theorem C26_unique_partial {c : Cfg I} {s : St I} (h : Reach c s) {p : Nat} :
    (∀ t d, (((s.infl p t d).filter (·.1.tagged)).map (·.2)).Nodup) ∧
    (∀ t d t' d', ∀ e ∈ s.infl p t d, ∀ e' ∈ s.infl p t' d', e.1.tagged = true → e'.1.tagged = true → e.2 = e'.2 →
      t = t' ∧ (d = d' ∨ (e.1 = .flush ∧ e'.1 = .flush))) ∧
    (∀ t d, ∀ e ∈ s.infl p t d, e.1.tagged = true → e.2 ≠ pktTag ∧ e.2 < c.ub) ∧
    (∀ t τ, pcTag (s.pc p t) = some τ → τ ≠ pktTag ∧ τ < c.ub) := by
  have hI := inv_reach h
  have hr : ∀ t τ, TagOk s p t τ → τ ≠ pktTag ∧ τ < c.ub := by
    rintro t τ ⟨h1, h2, _⟩
    have h0 := ctr_reach h p
    have h3 : ptagStart = 2003 := rfl
    have h4 : pktTag = 2000 := rfl
    exact ⟨by omega, by omega⟩
  refine ⟨fun t d => ?_, fun t d t' d' e he e' he' h1 h2 h3 => ?_, fun t d e he ht => hr t _ (hI.tagI p t d e he ht),
    fun t τ ht => hr t τ (hI.tagP p t τ ht)⟩
  · have := (tag_reach h p t).order d
    rw [List.Nodup, List.pairwise_map, List.pairwise_filter]
    exact this.imp (fun {a b} hab ha hb => Nat.ne_of_lt (hab ha hb))
  · have e1 := (hI.tagI p t d e he h1).2.2
    have e2 := (hI.tagI p t' d' e' he' h2).2.2
    rw [h3] at e1
    have : t = t' := e1.symm.trans e2
    subst this
    refine ⟨rfl, ?_⟩
    by_cases ed : d = d'
    · exact Or.inl ed
    · exact Or.inr ((tag_reach h p t).cross d d' ed e he e' he' h1 h2 h3)

example : ∃ s, Reach (cfg 2 2 true 9000) s ∧ s.infl 0 0 1 = [(.put () 7, 2003)] ∧ s.infl 0 1 1 = [(.put () 8, 2004)] :=
  ⟨after (cfg 2 2 true 9000) (twoPuts.take 6) rfl, after_reach _ _, rfl, rfl⟩

/-- a put that has returned took a tag -/
theorem one_put {ub : Nat} {s : St cnt} (h : Reach (cfg 1 1 false ub) s) (hpc : s.pc 0 0 = .idle) (hcb : s.cb 0 = .posted false)
    (hub : s.ctr 0 + ptagStart < ub) :
    ∃ s', Reach (cfg 1 1 false ub) s' ∧ s'.pc 0 0 = .idle ∧ s'.cb 0 = .posted false ∧ s'.ctr 0 = s.ctr 0 + 1 := by
  have hp : 0 < (cfg 1 1 false ub).n := Nat.one_pos
  have ht : (cfg 1 1 false ub).thr 0 0 := Nat.one_pos
  have ho : ∀ s : St cnt, s.cb 0 = .posted false → ¬ Owner s 0 0 := by
    rintro s hc ⟨_, _, _, e⟩; rw [hc] at e; cases e
  have h1 := h.step (.alloc 0 0 hp _ (by rw [hpc]; exact .put () (0 : Nat) 0 hp ht) hub)
  have h2 := h1.step (.send 0 0 hp _ _ _ _ (by simp only [set2_self]; exact .putHdr (I := cnt) () (0 : Nat) 0 (s.ctr 0 + ptagStart)))
  have h3 := h2.step (.send 0 0 hp _ _ _ _ (by simp only [set2_self]; exact .putPl (I := cnt) (0 : Nat) 0 (s.ctr 0 + ptagStart)))
  have h4 := h3.step (.loc 0 0 hp _ _ (by simp only [set2_self]; exact .putDone 0 (ho _ hcb)))
  have h5 := h4.step (.loc 0 0 hp _ _ (by simp only [set2_self]; exact .putRet 0))
  exact ⟨_, h5, by simp only [set2_self], hcb, by simp only [Function.update_self]⟩

/-- **C26, refuted for the whole life of the program**: the counter is never reset, so whatever the tag bound is, a program
that keeps putting (one PE, one thread, one call after the other) is aborted -/
theorem C26_exhausted (ub : Nat) : ∃ s, Reach (cfg 1 1 false ub) s ∧ s.pc 0 0 = .aborted := by
  have key : ∀ k, k = 0 ∨ k + ptagStart ≤ ub →
      ∃ s, Reach (cfg 1 1 false ub) s ∧ s.pc 0 0 = .idle ∧ s.cb 0 = .posted false ∧ s.ctr 0 = k := by
    intro k
    induction k with
    | zero => exact fun _ => ⟨_, .init, rfl, rfl, rfl⟩
    | succ k ih =>
      intro hk
      have hk' : k + 1 + ptagStart ≤ ub := hk.resolve_left (Nat.succ_ne_zero k)
      obtain ⟨s, h1, h2, h3, h4⟩ := ih (Or.inr (by omega))
      obtain ⟨s', h5, h6, h7, h8⟩ := one_put h1 h2 h3 (by omega)
      exact ⟨s', h5, h6, h7, by omega⟩
  obtain ⟨s, h1, h2, h3, h4⟩ := key (ub - ptagStart) (by omega)
  have hp : 0 < (cfg 1 1 false ub).n := Nat.one_pos
  have ht : (cfg 1 1 false ub).thr 0 0 := Nat.one_pos
  refine ⟨_, h1.step (.allocFail 0 0 hp _ (by rw [h2]; exact .put () (0 : Nat) 0 hp ht) ?_), by simp only [set2_self]⟩
  show ub ≤ _
  omega

/-! ## C27 -/

/-- **C27** — as long as some thread is inside a blocking active-message call, some step of the library is possible: a message
can be sent, matched, handled or received, or a call can go on. Sends may complete late (only once everything sent has been
received). Without the asynchronous thread every PE must be inside some call of the library (a barrier or a waiting loop will
do). Tags must not have run out and the handlers must not have been shut down. -/
theorem C27_progress {c : Cfg I} {s : St I} (h : Reach c s) (hub : ∀ p, s.ctr p + ptagStart < c.ub)
    (hd : ∀ q, s.cb q ≠ .dead) (hH : c.async = true ∨ ∀ q < c.n, ∃ u, inLib (s.pc q u))
    {p t : Nat} (hin : inCall (s.pc p t) = true) :
    ∃ l s', Step c s l s' ∧ l ≠ .call ∧ l ≠ .env ∧ (∀ p t d, l = .sent p t d → s.chan p t d = []) ∧
      ∀ p t, s'.pc p t = .aborted → s.pc p t = .aborted :=
  can_step (inv_reach h) (bnd_reach h) hub hd hH hin

/-- **C27** — the library cannot go on forever without new calls: there is a bound on the number of its steps -/
theorem C27_bounded {c : Cfg I} {s : St I} (h : Reach c s) {T : Nat} (hT : ∀ p t, c.thr p t → t < T) :
    ∃ b, ∀ k s', Run c s k s' → k ≤ b :=
  ⟨bound c.n T s, fun k s' hr => by have := run_bound hT h hr; omega⟩

/-- **C27** — hence all calls return: with the asynchronous thread, from every reachable state the library reaches, without new
calls, a state in which no further step is possible, and there no thread is inside a call (unless tags ran out or the handlers
were shut down) -/
theorem C27_return {c : Cfg I} {s : St I} (h : Reach c s) (ha : c.async = true) {T : Nat} (hT : ∀ p t, c.thr p t → t < T) :
    ∃ k s', Run c s k s' ∧ ((∀ p, s'.ctr p + ptagStart < c.ub) → (∀ q, s'.cb q ≠ .dead) → ∀ p t, inCall (s'.pc p t) = false) := by
  obtain ⟨k, s', hr, hn⟩ := run_end hT (bound c.n T s) s h (Nat.le_refl _)
  refine ⟨k, s', hr, fun hub hd p t => ?_⟩
  cases hin : inCall (s'.pc p t) with
  | false => rfl
  | true => exact absurd (can_step (inv_reach (run_reach h hr)) (bnd_reach (run_reach h hr)) hub hd (Or.inl ha) hin) hn

-- two PEs without asynchronous thread, each waiting in a fetch toward the other
example : ∃ s, Reach (cfg 2 1 false 9000) s ∧ inCall (s.pc 0 0) = true ∧ inCall (s.pc 1 0) = true ∧
    s.pc 0 0 = .rdWait () 1 2003 ∧ s.pc 1 0 = .rdWait () 0 2003 ∧ (∀ q < 2, ∃ u, inLib (s.pc q u)) := by
  refine ⟨after (cfg 2 1 false 9000) [.call 0 0 (.rd () 1), .call 1 0 (.rd () 0), .go 0 0, .go 1 0] rfl, after_reach _ _, rfl, rfl,
    rfl, rfl, ?_⟩
  intro q hq
  refine ⟨0, ?_⟩
  match q, hq with
  | 0, _ => exact ⟨nofun, nofun, nofun⟩
  | 1, _ => exact ⟨nofun, nofun, nofun⟩
-- and they finish by serving each other while they wait
example : ∃ s, Reach (cfg 2 1 false 9000) s ∧ s.rets 0 0 1 = [((), (0 : Nat))] ∧ s.rets 1 0 0 = [((), (0 : Nat))] :=
  ⟨after (cfg 2 1 false 9000) [.call 0 0 (.rd () 1), .call 1 0 (.rd () 0), .go 0 0, .go 1 0, .mat 1 0 0, .mat 0 1 0, .start 1 (some 0),
    .start 0 (some 0), .act 1, .act 0, .ack 0 0 1, .ack 1 0 0, .go 0 0, .go 1 0] rfl, after_reach _ _, rfl, rfl⟩

/-! ## C28 -/

/-- **C28** (partial: programs that complete their active messages, e.g. with `shmem_quiet`, before calling finalize, PEs with
one thread) — when a PE has stopped handling active messages, every operation ever issued to it has been applied. `FinProg nb`:
finalize is the `nb + 1`-st barrier on every PE and nothing is in flight when it is called. Missing: finalize itself does not
complete outstanding operations, see `C28_fails`. -/
theorem C28_finalize_partial {c : Cfg I} {s : St I} {nb : Nat} (hone : ∀ p t, c.thr p t → t = 0) (h : ReachP c (FinProg nb) s)
    {d : Nat} (hd : s.cb d = .dead) (p t : Nat) : opsOf p t (s.log d) = s.issued p t d := by
  have hF := fin_reach hone h
  have hi := (inv_reach h.reach).iss p t d
  have : ((s.infl p t d).map (·.1)).filter Op.app = [] := by
    rw [List.filter_eq_nil_iff]
    intro o ho
    obtain ⟨e, he, rfl⟩ := List.mem_map.1 ho
    have hb := (bnd_reach h.reach).infl p t d (List.ne_nil_of_mem he)
    rw [hF.app p t (hF.ent p t hb.2.1 (hF.dead d hd p hb.1)) d e he]
    decide
  rw [this, List.append_nil] at hi
  exact hi.symm

/-- moves through states that pass a check -/
def execsP (c : Cfg I) [∀ p t, Decidable (c.thr p t)] (chk : St I → Bool) : St I → List (Mv I) → Option (St I)
  | s, [] => some s
  | s, mv :: l => match exec c s mv with
    | some s' => if chk s' then execsP c chk s' l else none
    | none => none

theorem execsP_reach {c : Cfg I} [∀ p t, Decidable (c.thr p t)] {chk : St I → Bool} {P : St I → Prop}
    (hP : ∀ s, Reach c s → chk s = true → P s) {l : List (Mv I)} {s s' : St I} (h : ReachP c P s)
    (he : execsP c chk s l = some s') : ReachP c P s' := by
  induction l generalizing s with
  | nil => cases he; exact h
  | cons mv l ih =>
    simp only [execsP] at he
    split at he
    · rename_i h1
      obtain ⟨l, hs⟩ := exec_sound h1
      split at he
      · rename_i h2
        exact ih (.step h hs (hP _ (.step h.reach hs) h2)) he
      · cases he
    · cases he

/-- `FinProg 0` for two PEs with one thread, checked -/
def chkFin (s : St cnt) : Bool := [0, 1].all fun p =>
  (!(s.pc p 0 matches .finBar) || (s.ent p == 1 && (s.infl p 0 0).isEmpty && (s.infl p 0 1).isEmpty)) &&
  !(s.pc p 0 matches .bar)

theorem chkFin_spec (async : Bool) (s : St cnt) (h : Reach (cfg 2 1 async 9000) s) (hc : chkFin s = true) : FinProg 0 s := by
  have hB := bnd_reach h
  have hT := thr_reach h
  have hcc : ∀ p, p < 2 → ((s.pc p 0 = .finBar → s.ent p = 1 ∧ s.infl p 0 0 = [] ∧ s.infl p 0 1 = []) ∧ s.pc p 0 ≠ .bar) := by
    intro p hp
    simp only [chkFin, List.all_cons, List.all_nil, Bool.and_true, Bool.and_eq_true] at hc
    have : p = 0 ∨ p = 1 := by omega
    rcases this with rfl | rfl
    · obtain ⟨⟨h1, h2⟩, _⟩ := hc
      refine ⟨fun e => ?_, fun e => ?_⟩
      · simpa [e, and_assoc] using h1
      · simp [e] at h2
    · obtain ⟨_, h1, h2⟩ := hc
      refine ⟨fun e => ?_, fun e => ?_⟩
      · simpa [e, and_assoc] using h1
      · simp [e] at h2
  have hpt : ∀ p t, s.pc p t ≠ .idle → p < 2 ∧ t = 0 := fun p t hne =>
    ⟨hB.pc p t hne, Nat.lt_one_iff.1 (hT p t hne)⟩
  refine ⟨fun p t e => ?_, fun p t e => ?_⟩
  · obtain ⟨hp, rfl⟩ := hpt p t (by rw [e]; exact nofun)
    obtain ⟨h1, h2, h3⟩ := (hcc p hp).1 e
    refine ⟨h1, fun d => ?_⟩
    by_contra hne
    have hd : d < 2 := (hB.infl p 0 d hne).2.2
    have : d = 0 ∨ d = 1 := by omega
    rcases this with rfl | rfl
    · exact hne h2
    · exact hne h3
  · obtain ⟨hp, rfl⟩ := hpt p t (by rw [e]; exact nofun)
    exact absurd e (hcc p hp).2

/-- PE 0 posts to PE 1 and flushes, then both finalize -/
def savedDemo : List (Mv cnt) :=
  doPost 0 0 5 1 ++ [.call 0 0 (.flush [0, 1]), .go 0 0, .go 0 0, .go 0 0, .go 0 0, .go 0 0, .go 0 0] ++ serve 1 0 0 ++ serve 1 0 0 ++
  [.ack 0 0 1, .go 0 0, .go 0 0, .go 0 0, .go 0 0, .go 0 0, .call 0 0 .fin, .call 1 0 .fin, .go 0 0, .go 1 0, .go 1 0] ++ serve 1 1 0

-- the hypotheses of C28_finalize_partial are met by an execution in which PE 1 has stopped and one operation was issued
example : ∃ s, ReachP (cfg 2 1 true 9000) (FinProg 0) s ∧ s.cb 1 = .dead ∧ s.issued 0 0 1 = [.upd 5] ∧
    s.log 1 = [.am 0 0 (.upd 5)] := by
  have hsome : (execsP (cfg 2 1 true 9000) chkFin (init (cfg 2 1 true 9000)) savedDemo).isSome = true := rfl
  refine ⟨(execsP (cfg 2 1 true 9000) chkFin (init (cfg 2 1 true 9000)) savedDemo).get hsome, ?_, rfl, rfl, rfl⟩
  exact execsP_reach (chkFin_spec true) (.init (chkFin_spec true _ .init rfl)) (Option.some_get hsome).symm
example : ∀ p t, (cfg 2 1 true 9000).thr p t → t = 0 := fun _ _ h => Nat.lt_one_iff.1 h

/-- PE 0 posts to PE 1, both call finalize, PE 1 takes the packet as the last one and throws it away -/
def lostDemo : List (Mv cnt) :=
  doPost 0 0 5 1 ++ [.call 0 0 .fin, .call 1 0 .fin, .go 0 0, .go 1 0, .go 1 0, .mat 1 0 0, .drop 1 0]

/-- **C28 is violated**: an AMO whose call returned before `shmem_finalize` is never applied: the target completes its last
receive with that packet and does not look at it -/
theorem C28_fails : ∃ s, Reach (cfg 2 1 false 9000) s ∧ s.issued 0 0 1 = [.upd 5] ∧ s.cb 1 = .dead ∧ s.log 1 = [] ∧
    s.pc 1 0 = .finDone :=
  ⟨after (cfg 2 1 false 9000) lostDemo rfl, after_reach _ _, rfl, rfl, rfl, rfl⟩

/-- with the asynchronous thread the terminate packet may overtake the packet of another PE -/
def lostAsync : List (Mv cnt) :=
  doPost 0 0 5 1 ++ [.call 0 0 .fin, .call 1 0 .fin, .go 0 0, .go 1 0, .go 1 0, .mat 1 1 0, .start 1 none, .act 1]

/-- **C28 is violated** with the asynchronous progress thread as well -/
theorem C28_fails_async : ∃ s, Reach (cfg 2 1 true 9000) s ∧ s.issued 0 0 1 = [.upd 5] ∧ s.cb 1 = .dead ∧ s.log 1 = [] :=
  ⟨after (cfg 2 1 true 9000) lostAsync rfl, after_reach _ _, rfl, rfl, rfl⟩

/-! ## C32 -/

/-- **C32** (partial: the other threads of the PE are never about to reset an outstanding flag, that is they use only puts and
non-fetching AMOs) — when the flush of a thread is about to return, all operations this thread has sent to the flushed PEs have
been applied, whatever the other threads issue concurrently. Missing: see `C32_fails`. -/
theorem C32_threads_partial {c : Cfg I} {s : St I} {p t : Nat}
    (h : ReachP c (fun s => ∀ u, u ≠ t → resets (s.pc p u) = false) s) {pes : List Nat}
    (hr : s.pc p t = .fRet pes) {d : Nat} (hd : d ∈ pes) : opsOf p t (s.log d) = s.issued p t d := by
  have hf := flag_reach h
  rw [hr] at hf
  have hi := (inv_reach h.reach).iss p t d
  rw [hf.2 d hd] at hi
  simpa using hi.symm

/-- thread 0 posts, thread 1 puts, both to PE 1; thread 0 flushes -/
def mixDemo : List (Mv cnt) :=
  [.call 0 1 (.put () 9 1), .go 0 1] ++ doPost 0 0 5 1 ++ [.go 0 1, .go 0 1, .call 0 0 (.flush [1]), .go 0 0, .go 0 0, .go 0 0, .go 0 0] ++
  serve 1 0 1 ++ [.go 0 1] ++ serve 1 0 0 ++ serve 1 0 0 ++ [.ack 0 0 1, .go 0 0, .go 0 0, .go 0 0]

-- the hypotheses of C32_threads_partial are met by an execution with two threads issuing
example : ∃ s, ReachP (cfg 2 2 true 9000) (fun s => ∀ u, u ≠ 0 → resets (s.pc 0 u) = false) s ∧ s.pc 0 0 = .fRet [1] ∧
    s.log 1 = [.am 0 1 (.put () 9), .am 0 0 (.upd 5)] := by
  have hsome : (execsP (cfg 2 2 true 9000) (fun s => !resets (s.pc 0 1)) (init (cfg 2 2 true 9000)) mixDemo).isSome = true := rfl
  refine ⟨(execsP (cfg 2 2 true 9000) (fun s => !resets (s.pc 0 1)) (init (cfg 2 2 true 9000)) mixDemo).get hsome, ?_, rfl, rfl⟩
  refine execsP_reach (fun s h hc u hu => ?_) (.init (fun _ _ => rfl)) (Option.some_get hsome).symm
  by_cases e : s.pc 0 u = .idle
  · rw [e]; rfl
  · have : u < 2 := thr_reach h 0 u e
    have : u = 1 := by omega
    subst this
    simpa using hc

/-- thread 1 fetches, thread 0 posts and returns, thread 1 resets the flag, thread 0 flushes -/
def raceDemo : List (Mv cnt) :=
  [.call 0 1 (.rd () 1), .go 0 1] ++ serve 1 0 1 ++ [.ack 0 1 1] ++ doPost 0 0 5 1 ++ [.go 0 1] ++
  [.call 0 0 (.flush [0, 1]), .go 0 0, .go 0 0, .go 0 0]

/-- **C32 is violated**: the quiet of the very thread that issued an AMO returns before the AMO is applied, because a fetch of
another thread to the same PE reset the outstanding flag in between -/
theorem C32_fails : ∃ s, Reach (cfg 2 2 true 9000) s ∧ s.pc 0 0 = .fRet [0, 1] ∧ s.issued 0 0 1 = [.upd 5] ∧
    opsOf 0 0 (s.log 1) = [] ∧ s.mem 1 = (1 : Nat) :=
  ⟨after (cfg 2 2 true 9000) raceDemo rfl, after_reach _ _, rfl, rfl, rfl, rfl⟩

end Verif.Am
