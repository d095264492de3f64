import Verif.Am.Flush
import Mathlib.Algebra.BigOperators.Group.Finset.Basic
import Mathlib.Algebra.Order.BigOperators.Group.Finset
/-!
# Progress and termination of the blocking calls
-/
namespace Verif.Am
variable {I : Iface}

/-- destinations the thread may still send to -/
def pcTgt (pc : Pc I) : List Nat := match pc with
  | .putHdr _ _ dst _ => [dst]
  | .putPl _ dst _ => [dst]
  | .rdHdr _ dst _ => [dst]
  | .postSend _ dst => [dst]
  | .fCount pes _ _ => pes
  | .fSend _ rest _ _ => rest
  | .idle => []
  | .putWait _ => []
  | .putFlag _ => []
  | .rdWait _ _ _ => []
  | .rdFlag _ _ _ => []
  | .postWait _ => []
  | .postFlag _ => []
  | .fWait _ _ _ => []
  | .fReset _ _ => []
  | .fRet _ => []
  | .bar => []
  | .poll => []
  | .finBar => []
  | .finTerm => []
  | .finWait => []
  | .finDone => []
  | .aborted => []

/-- everything happens on PEs that exist -/
structure Bnd (c : Cfg I) (s : St I) : Prop where
  pc : ∀ p t, s.pc p t ≠ .idle → p < c.n
  tgt : ∀ p t, ∀ d ∈ pcTgt (s.pc p t), d < c.n
  infl : ∀ p t d, s.infl p t d ≠ [] → p < c.n ∧ c.thr p t ∧ d < c.n
  cb : ∀ p, s.cb p ≠ .posted false → p < c.n

theorem bnd_pc {c : Cfg I} {s : St I} (h : Bnd c s) {a u : Nat} {pc' : Pc I} (hp : a < c.n)
    (ht : ∀ d ∈ pcTgt pc', d < c.n) :
    (∀ p t, set2 s.pc a u pc' p t ≠ .idle → p < c.n) ∧ (∀ p t, ∀ d ∈ pcTgt (set2 s.pc a u pc' p t), d < c.n) := by
  refine ⟨fun p t hne => ?_, fun p t d hd => ?_⟩
  · by_cases e : p = a ∧ t = u
    · rw [e.1]; exact hp
    · rw [set2_ne _ _ e] at hne; exact h.pc p t hne
  · by_cases e : p = a ∧ t = u
    · rw [e.1, e.2, set2_self] at hd; exact ht d hd
    · rw [set2_ne _ _ e] at hd; exact h.tgt p t d hd

theorem bnd_cb {c : Cfg I} {s : St I} (h : Bnd c s) {a : Nat} (x : Cb I) (hp : a < c.n) :
    ∀ p, Function.update s.cb a x p ≠ .posted false → p < c.n := by
  intro p hne
  by_cases e : p = a
  · rw [e]; exact hp
  · rw [Function.update_of_ne e] at hne; exact h.cb p hne

theorem bnd_infl {c : Cfg I} {s : St I} (h : Bnd c s) {src u q : Nat} :
    ∀ p t d, set3 s.infl src u q (s.infl src u q).tail p t d ≠ [] → p < c.n ∧ c.thr p t ∧ d < c.n := by
  intro p t d hne
  by_cases e : s.infl p t d = []
  · exact absurd (finish_infl e) hne
  · exact h.infl p t d e

theorem bnd_step {c : Cfg I} {s s' : St I} {l : Lbl} (hs : Step c s l s') (hthr : ∀ p t, s.pc p t ≠ .idle → c.thr p t)
    (h : Bnd c s) : Bnd c s' := by
  cases hs with
  | loc a u hp pc' fl hl =>
    have ht : ∀ d ∈ pcTgt pc', d < c.n := by
      have h0 := h.tgt a u
      generalize s.pc a u = pc at hl h0
      cases hl <;> first
        | (intro d hd; cases hd; done)
        | exact h0
        | (intro d hd; exact h0 d (List.mem_cons_of_mem _ hd))
        | (intro d hd; cases List.mem_singleton.1 hd; assumption)
        | assumption
    obtain ⟨k1, k2⟩ := bnd_pc (u := u) h hp ht
    exact ⟨k1, k2, h.infl, h.cb⟩
  | alloc a u hp f ha hub =>
    have ht : ∀ d ∈ pcTgt (f (s.ctr a + ptagStart)), d < c.n := by
      have h0 := h.tgt a u
      generalize s.pc a u = pc at ha h0
      cases ha <;> first
        | exact h0
        | (intro d hd; cases List.mem_singleton.1 hd; assumption)
    obtain ⟨k1, k2⟩ := bnd_pc (u := u) h hp ht
    exact ⟨k1, k2, h.infl, h.cb⟩
  | allocFail a u hp f ha hub =>
    obtain ⟨k1, k2⟩ := bnd_pc (u := u) (pc' := .aborted) h hp (fun d hd => by cases hd)
    exact ⟨k1, k2, h.infl, h.cb⟩
  | send a u hp dst m o pc' hs =>
    have hthr : c.thr a u := hthr a u (by intro e; rw [e] at hs; cases hs)
    have ht : dst < c.n ∧ ∀ d ∈ pcTgt pc', d < c.n := by
      have h0 := h.tgt a u
      generalize s.pc a u = pc at hs h0
      cases hs with
      | putHdr d x dst tag => exact ⟨h0 _ List.mem_cons_self, h0⟩
      | putPl x dst tag => exact ⟨h0 _ List.mem_cons_self, fun d hd => by cases hd⟩
      | rd q dst tag => exact ⟨h0 _ List.mem_cons_self, fun d hd => by cases hd⟩
      | post x dst => exact ⟨h0 _ List.mem_cons_self, fun d hd => by cases hd⟩
      | flush pes d r sent tag hf => exact ⟨h0 _ List.mem_cons_self, fun d hd => h0 d (List.mem_cons_of_mem _ hd)⟩
      | term => exact ⟨hp, fun d hd => by cases hd⟩
    obtain ⟨k1, k2⟩ := bnd_pc (u := u) h hp ht.2
    refine ⟨k1, k2, fun p t d hne => ?_, h.cb⟩
    simp only at hne
    by_cases e : p = a ∧ t = u ∧ d = dst
    · rw [e.1, e.2.1, e.2.2]; exact ⟨hp, hthr, ht.1⟩
    · rw [set3_ne _ _ e] at hne; exact h.infl p t d hne
  | reply a u hp q dst tag hpc ho k ha v hv =>
    obtain ⟨k1, k2⟩ := bnd_pc (u := u) (pc' := .rdFlag dst q v) h hp (fun d hd => by cases hd)
    exact ⟨k1, k2, h.infl, h.cb⟩
  | replyBad a u hp q dst tag hpc k ha hv => exact ⟨h.pc, h.tgt, h.infl, h.cb⟩
  | rdRet a u hp dst q v hpc =>
    obtain ⟨k1, k2⟩ := bnd_pc (u := u) (pc' := .idle) h hp (fun d hd => by cases hd)
    exact ⟨k1, k2, h.infl, h.cb⟩
  | flushAck a u hp pes pend tag d hpc hd ho k ha hv =>
    obtain ⟨k1, k2⟩ := bnd_pc (u := u) (pc' := .fWait pes (pend.erase d) tag) h hp (fun d hd => by cases hd)
    exact ⟨k1, k2, h.infl, h.cb⟩
  | flushBad a u hp pes pend tag d hpc hd k ha v hv => exact ⟨h.pc, h.tgt, h.infl, h.cb⟩
  | «match» a hp any hc src u m hm => exact ⟨h.pc, h.tgt, h.infl, bnd_cb h _ hp⟩
  | start a hp o src u m hc ho => exact ⟨h.pc, h.tgt, h.infl, bnd_cb h _ hp⟩
  | actPut a hp o src u d tag hc t' tag' x hm => exact ⟨h.pc, h.tgt, bnd_infl h, bnd_cb h _ hp⟩
  | actPutBad a hp o src u d tag hc t' k hm => exact ⟨h.pc, h.tgt, h.infl, h.cb⟩
  | actRd a hp o src u q tag hc => exact ⟨h.pc, h.tgt, bnd_infl h, bnd_cb h _ hp⟩
  | actPost a hp o src u x hc => exact ⟨h.pc, h.tgt, bnd_infl h, bnd_cb h _ hp⟩
  | actFlush a hp o src u tag hc => exact ⟨h.pc, h.tgt, bnd_infl h, bnd_cb h _ hp⟩
  | actTerm a hp o src u hc => exact ⟨h.pc, h.tgt, bnd_infl h, bnd_cb h _ hp⟩
  | actBad a hp o src u tag x hc => exact ⟨h.pc, h.tgt, h.infl, h.cb⟩
  | bar a u hp ht hpc =>
    obtain ⟨k1, k2⟩ := bnd_pc (u := u) (pc' := .bar) h hp (fun d hd => by cases hd)
    exact ⟨k1, k2, h.infl, h.cb⟩
  | fin a u hp ht hpc =>
    obtain ⟨k1, k2⟩ := bnd_pc (u := u) (pc' := .finBar) h hp (fun d hd => by cases hd)
    exact ⟨k1, k2, h.infl, h.cb⟩
  | finDrop a u hp hc hpc src t' m hm =>
    obtain ⟨k1, k2⟩ := bnd_pc (u := u) (pc' := .finDone) h hp (fun d hd => by cases hd)
    exact ⟨k1, k2, h.infl, bnd_cb h _ hp⟩
  | env a f => exact ⟨h.pc, h.tgt, h.infl, h.cb⟩

theorem bnd_reach {c : Cfg I} {s : St I} (h : Reach c s) : Bnd c s := by
  induction h with
  | init =>
    exact ⟨fun p t h => absurd rfl h, fun p t d hd => (by cases hd), fun p t d h => absurd rfl h, fun p h => absurd rfl h⟩
  | step h hs ih => exact bnd_step hs (thr_reach h) ih

/-- inside a blocking active-message call: put, get, fetch, compare-swap, post, flush -/
def inCall : Pc I → Bool
  | .putHdr _ _ _ _ => true
  | .putPl _ _ _ => true
  | .putWait _ => true
  | .putFlag _ => true
  | .rdHdr _ _ _ => true
  | .rdWait _ _ _ => true
  | .rdFlag _ _ _ => true
  | .postSend _ _ => true
  | .postWait _ => true
  | .postFlag _ => true
  | .fCount _ _ _ => true
  | .fSend _ _ _ _ => true
  | .fWait _ _ _ => true
  | .fReset _ _ => true
  | .fRet _ => true
  | .idle => false
  | .bar => false
  | .poll => false
  | .finBar => false
  | .finTerm => false
  | .finWait => false
  | .finDone => false
  | .aborted => false

/-- some step other than a new call or a step of the environment is possible; completion of a send is used only when MPI
guarantees it, because its messages have been received; no thread aborts in it -/
def CanStep (c : Cfg I) (s : St I) : Prop :=
  ∃ l s', Step c s l s' ∧ l ≠ .call ∧ l ≠ .env ∧ (∀ p t d, l = .sent p t d → s.chan p t d = []) ∧
    ∀ p t, s'.pc p t = .aborted → s.pc p t = .aborted

theorem not_aborted {s : St I} {a u : Nat} {pc' : Pc I} (hne : pc' ≠ .aborted) :
    ∀ p t, set2 s.pc a u pc' p t = .aborted → s.pc p t = .aborted := by
  intro p t h
  by_cases e : p = a ∧ t = u
  · rw [e.1, e.2, set2_self] at h; exact absurd h hne
  · rw [set2_ne _ _ e] at h; exact h

theorem can_loc {c : Cfg I} {s : St I} {p t : Nat} {pc pc' : Pc I} {fl : Nat → Bool} (hp : p < c.n) (hpc : s.pc p t = pc)
    (hl : Local c s p t pc pc' fl) (hlbl : locLbl p t pc = .prog) (hne : pc' ≠ .aborted) : CanStep c s := by
  subst hpc
  refine ⟨_, _, Step.loc p t hp pc' fl hl, ?_, ?_, ?_, not_aborted hne⟩
  · rw [hlbl]; intro e; cases e
  · rw [hlbl]; intro e; cases e
  · intro a b d e; rw [hlbl] at e; cases e

theorem can_send {c : Cfg I} {s : St I} {p t : Nat} {pc pc' : Pc I} {dst : Nat} {m : Msg I} {o : Option (Op I × Nat)}
    (hp : p < c.n) (hpc : s.pc p t = pc) (hs : Send s p pc dst m o pc') (hne : pc' ≠ .aborted) : CanStep c s := by
  subst hpc
  exact ⟨_, _, Step.send p t hp dst m o pc' hs, nofun, nofun,
    nofun, not_aborted hne⟩

/-- a thread inside the library that is not waiting can go on -/
theorem can_go {c : Cfg I} {s : St I} (hub : ∀ p, s.ctr p + ptagStart < c.ub) {p t : Nat} (hp : p < c.n)
    (h1 : waiting (s.pc p t) = false) (h2 : inCall (s.pc p t) = true ∨ s.pc p t = .finTerm) : CanStep c s := by
  cases hpc : s.pc p t with
  | putHdr d x dst tag => exact can_send hp hpc (.putHdr d x dst tag) nofun
  | putPl x dst tag => exact can_send hp hpc (.putPl x dst tag) nofun
  | putFlag dst => exact can_loc hp hpc (.putRet dst) rfl nofun
  | rdHdr q dst tag => exact can_send hp hpc (.rd q dst tag) nofun
  | rdFlag dst q v =>
    exact ⟨_, _, Step.rdRet p t hp dst q v hpc, nofun, nofun, nofun,
      not_aborted nofun⟩
  | postSend u dst => exact can_send hp hpc (.post u dst) nofun
  | postFlag dst => exact can_loc hp hpc (.postRet dst) rfl nofun
  | fCount pes rest f =>
    cases rest with
    | cons d r => exact can_loc hp hpc (.count pes d r f) rfl nofun
    | nil =>
      cases f with
      | false => exact can_loc hp hpc (.countNone pes) rfl nofun
      | true =>
        have ha : Alloc c p t (s.pc p t) (.fSend pes pes []) := by rw [hpc]; exact .flush pes
        refine ⟨_, _, Step.alloc p t hp _ ha (hub p), ?_, ?_, ?_, not_aborted nofun⟩
        · rw [hpc]; intro e; cases e
        · rw [hpc]; intro e; cases e
        · intro a b d e; rw [hpc] at e; cases e
  | fSend pes rest sent tag =>
    cases rest with
    | nil => exact can_loc hp hpc (.sendEnd pes sent tag) rfl nofun
    | cons d r =>
      cases hf : s.flag p d with
      | false => exact can_loc hp hpc (.skip pes d r sent tag hf) rfl nofun
      | true => exact can_send hp hpc (.flush pes d r sent tag hf) nofun
  | fReset pes rest =>
    cases rest with
    | nil => exact can_loc hp hpc (.resetEnd pes) rfl nofun
    | cons d r => exact can_loc hp hpc (.reset pes d r) rfl nofun
  | fRet pes => exact can_loc hp hpc (.flushRet pes) rfl nofun
  | finTerm => exact can_send hp hpc .term nofun
  | idle => rw [hpc] at h2; rcases h2 with h2 | h2 <;> cases h2
  | putWait dst => rw [hpc] at h1; cases h1
  | rdWait q dst tag => rw [hpc] at h1; cases h1
  | postWait dst => rw [hpc] at h1; cases h1
  | fWait pes pend tag => rw [hpc] at h1; cases h1
  | bar => rw [hpc] at h1; cases h1
  | poll => rw [hpc] at h1; cases h1
  | finBar => rw [hpc] at h1; cases h1
  | finWait => rw [hpc] at h2; rcases h2 with h2 | h2 <;> cases h2
  | finDone => rw [hpc] at h2; rcases h2 with h2 | h2 <;> cases h2
  | aborted => rw [hpc] at h2; rcases h2 with h2 | h2 <;> cases h2

/-- a running handler can finish -/
theorem can_handle {c : Cfg I} {s : St I} (hI : Inv c s) (hB : Bnd c s) {p a t : Nat}
    {o : Option Nat} {m : Msg I} (hc : s.cb p = .handling o a t m) : CanStep c s := by
  have hp : p < c.n := hB.cb p (by rw [hc]; intro e; cases e)
  obtain ⟨e, l, k, tl, hl, he, hk, hch⟩ := taken hI (Or.inl ⟨o, hc⟩)
  subst hk
  have hab : ∀ p t, s.pc p t = .aborted → s.pc p t = .aborted := fun _ _ h => h
  cases k with
  | rd q tag =>
    exact ⟨_, _, Step.actRd p hp o a t q tag hc, nofun, nofun, nofun, hab⟩
  | post u =>
    exact ⟨_, _, Step.actPost p hp o a t u hc, nofun, nofun, nofun, hab⟩
  | flush tag =>
    exact ⟨_, _, Step.actFlush p hp o a t tag hc, nofun, nofun, nofun, hab⟩
  | term =>
    exact ⟨_, _, Step.actTerm p hp o a t hc, nofun, nofun, nofun, hab⟩
  | put d tag =>
    obtain ⟨op, τ⟩ := e
    cases op with
    | rd q => simp [enc] at he
    | upd u => simp [enc] at he
    | flush => simp [enc] at he
    | term => simp [enc] at he
    | put d' x =>
      simp only [enc, List.cons.injEq, Msg.hdr.injEq, Pkt.put.injEq] at he
      obtain ⟨⟨rfl, rfl⟩, rfl⟩ := he
      cases hcl : s.chan a t p with
      | cons m' r =>
        rw [hcl] at hch
        simp only [List.cons_append, List.cons.injEq] at hch
        have hm : (s.chan a t p).find? (fits false τ) = some (.pl τ x) := by
          rw [hcl, hch.1, List.find?_cons_of_pos (by simp [fits, Msg.tag])]
        exact ⟨_, _, Step.actPut p hp o a t d' τ hc t τ x hm, nofun, nofun,
          nofun, hab⟩
      | nil =>
        rw [hcl, List.nil_append] at hch
        cases hpc : s.pc a t with
        | putPl y dst tag =>
          exact can_send (hB.pc a t (by rw [hpc]; intro e; cases e)) hpc (.putPl y dst tag) nofun
        | idle => rw [hpc] at hch; cases hch
        | putHdr d x dst tag => rw [hpc] at hch; cases hch
        | putFlag dst => rw [hpc] at hch; cases hch
        | rdHdr q dst tag => rw [hpc] at hch; cases hch
        | rdFlag dst q v => rw [hpc] at hch; cases hch
        | postSend u dst => rw [hpc] at hch; cases hch
        | postFlag dst => rw [hpc] at hch; cases hch
        | fCount pes rest f => rw [hpc] at hch; cases hch
        | fSend pes rest sent tag => rw [hpc] at hch; cases hch
        | fReset pes rest => rw [hpc] at hch; cases hch
        | fRet pes => rw [hpc] at hch; cases hch
        | finTerm => rw [hpc] at hch; cases hch
        | putWait dst => rw [hpc] at hch; cases hch
        | rdWait q dst tag => rw [hpc] at hch; cases hch
        | postWait dst => rw [hpc] at hch; cases hch
        | fWait pes pend tag => rw [hpc] at hch; cases hch
        | bar => rw [hpc] at hch; cases hch
        | poll => rw [hpc] at hch; cases hch
        | finBar => rw [hpc] at hch; cases hch
        | finWait => rw [hpc] at hch; cases hch
        | finDone => rw [hpc] at hch; cases hch
        | aborted => rw [hpc] at hch; cases hch

/-- inside the library: in a call, a barrier, a polling loop or finalize -/
def inLib (pc : Pc I) : Prop := pc ≠ .idle ∧ pc ≠ .finDone ∧ pc ≠ .aborted

theorem can_step {c : Cfg I} {s : St I} (hI : Inv c s) (hB : Bnd c s) (hub : ∀ p, s.ctr p + ptagStart < c.ub)
    (hd : ∀ q, s.cb q ≠ .dead) (hH : c.async = true ∨ ∀ q < c.n, ∃ u, inLib (s.pc q u))
    {p t : Nat} (hin : inCall (s.pc p t) = true) : CanStep c s := by
  have hab : ∀ p t, s.pc p t = .aborted → s.pc p t = .aborted := fun _ _ h => h
  have hp : p < c.n := hB.pc p t (by intro e; rw [e] at hin; cases hin)
  -- a thread that can go on
  by_cases hgo : ∃ a u, waiting (s.pc a u) = false ∧ (inCall (s.pc a u) = true ∨ s.pc a u = .finTerm)
  · obtain ⟨a, u, h1, h2⟩ := hgo
    refine can_go hub (hB.pc a u ?_) h1 h2
    intro e
    rw [e] at h2
    rcases h2 with h2 | h2 <;> cases h2
  -- a running handler
  by_cases hh : ∃ q o a u m, s.cb q = .handling o a u m
  · obtain ⟨q, o, a, u, m, hc⟩ := hh
    exact can_handle hI hB hc
  -- a matched receive
  by_cases hm : ∃ q a u m, s.cb q = .matched a u m
  · obtain ⟨q, a, u, m, hc⟩ := hm
    have hq : q < c.n := hB.cb q (by rw [hc]; intro e; cases e)
    cases has : c.async with
    | true =>
      exact ⟨_, _, Step.start q hq none a u m hc (by rw [has]; rfl), nofun, nofun,
        nofun, hab⟩
    | false =>
      obtain ⟨v, hv1, hv2, hv3⟩ := (hH.resolve_left (by rw [has]; decide)) q hq
      by_cases hw : waiting (s.pc q v) = true
      · exact ⟨_, _, Step.start q hq (some v) a u m hc (by rw [has]; exact ⟨v, rfl, hw⟩), nofun,
          nofun, nofun, hab⟩
      · have hw : waiting (s.pc q v) = false := by simpa using hw
        have hf : s.pc q v = .finWait := by
          have hno : ¬ (inCall (s.pc q v) = true ∨ s.pc q v = .finTerm) := fun e => hgo ⟨q, v, hw, e⟩
          cases hpc : s.pc q v <;> rw [hpc] at hw hv1 hv2 hv3 hno <;> first
            | rfl
            | exact absurd rfl hv1
            | exact absurd rfl hv2
            | exact absurd rfl hv3
            | exact absurd (Or.inl rfl) hno
            | exact absurd (Or.inr rfl) hno
            | cases hw
        exact ⟨_, _, Step.finDrop q v hq has hf a u m hc, nofun, nofun,
          nofun, not_aborted nofun⟩
  -- all receives are posted
  have hpost : ∀ q, ∃ any, s.cb q = .posted any := by
    intro q
    cases hc : s.cb q with
    | posted any => exact ⟨any, rfl⟩
    | matched a u m => exact absurd ⟨q, a, u, m, hc⟩ hm
    | handling o a u m => exact absurd ⟨q, o, a, u, m, hc⟩ hh
    | dead => exact absurd hc (hd q)
  have hunsent : ∀ a u d, unsent (s.pc a u) d = [] := by
    intro a u d
    cases hpc : s.pc a u <;> first | rfl | exact absurd ⟨a, u, by rw [hpc]; rfl, Or.inl (by rw [hpc]; rfl)⟩ hgo
  have hchan : ∀ a u d, s.chan a u d = (s.infl a u d).flatMap enc := by
    intro a u d
    obtain ⟨any, hc⟩ := hpost d
    have := hI.chan a u d (hd d)
    rw [hc, hunsent] at this
    simpa [hdrAt] using this
  -- a message on its way
  by_cases hmsg : ∃ a u d, s.infl a u d ≠ []
  · obtain ⟨a, u, d, hne⟩ := hmsg
    obtain ⟨any, hc⟩ := hpost d
    have hdn := (hB.infl a u d hne).2.2
    have hf : ∃ m, (s.chan a u d).find? (fits any pktTag) = some m := by
      rw [hchan]
      cases hl : s.infl a u d with
      | nil => exact absurd hl hne
      | cons e l =>
        obtain ⟨k, tl, he, _⟩ := enc_cons e
        rw [List.flatMap_cons, he]
        exact ⟨.hdr k, by rw [List.cons_append, List.find?_cons_of_pos (by simp [fits, Msg.tag])]⟩
    obtain ⟨m, hm⟩ := hf
    exact ⟨_, _, Step.match d hdn any hc a u m hm, nofun, nofun, nofun, hab⟩
  have hinf : ∀ a u d, s.infl a u d = [] := by
    intro a u d
    by_contra hne
    exact hmsg ⟨a, u, d, hne⟩
  have hch0 : ∀ a u d, s.chan a u d = [] := by
    intro a u d; rw [hchan, hinf]; rfl
  have hno : ¬ Owner s p t := by
    rintro ⟨a, b, m, e⟩
    exact hh ⟨p, _, a, b, m, e⟩
  -- an acknowledgement is there for whoever waits for one
  have hack : ∀ d o τ, await (s.pc p t) d = some (o, τ) → ∃ k, (s.ack d p).find? (fun a => a.tag == τ) = some k := by
    intro d o τ hw
    obtain ⟨pend, _, e2⟩ := hI.pend p t d
    unfold PendC at e2
    rw [hw, hinf] at e2
    simp only at e2
    have hmem : ∃ v, (⟨τ, v⟩ : Ack I) ∈ acks s p t d := by
      rcases e2 with ⟨l, hl, _⟩ | ⟨_, ⟨_, hk, _⟩ | ⟨q, v, _, hk, _⟩⟩
      · simp at hl
      · exact ⟨none, by rw [hk]; exact List.mem_singleton.2 rfl⟩
      · exact ⟨some v, by rw [hk]; exact List.mem_singleton.2 rfl⟩
    obtain ⟨v, hmem⟩ := hmem
    have := (List.mem_filter.1 hmem).1
    cases hf : (s.ack d p).find? (fun a => a.tag == τ) with
    | some k => exact ⟨k, rfl⟩
    | none =>
      have := List.find?_eq_none.1 hf _ this
      simp at this
  cases hpc : s.pc p t with
  | putWait dst =>
    refine ⟨_, _, Step.loc p t hp (.putFlag dst) (s.flag p) (by rw [hpc]; exact .putDone dst hno), ?_, ?_, ?_,
      not_aborted nofun⟩
    · rw [hpc]; intro e; cases e
    · rw [hpc]; intro e; cases e
    · intro a b d e; exact hch0 a b d
  | postWait dst =>
    refine ⟨_, _, Step.loc p t hp (.postFlag dst) (s.flag p) (by rw [hpc]; exact .postDone dst hno), ?_, ?_, ?_,
      not_aborted nofun⟩
    · rw [hpc]; intro e; cases e
    · rw [hpc]; intro e; cases e
    · intro a b d e; exact hch0 a b d
  | rdWait q dst tag =>
    have hw : await (s.pc p t) dst = some (.rd q, tag) := by rw [hpc]; simp [await]
    obtain ⟨k, hk⟩ := hack dst _ _ hw
    obtain ⟨_, _, _, h4⟩ := take_ack hI hw hk
    rcases h4 with ⟨e, _⟩ | ⟨q', v, _, hv, _⟩
    · cases e
    · exact ⟨_, _, Step.reply p t hp q dst tag hpc hno k hk v hv, nofun, nofun,
        nofun, not_aborted nofun⟩
  | fWait pes pend tag =>
    cases pend with
    | nil => exact can_loc hp hpc (.waitEnd pes tag hno) rfl nofun
    | cons d r =>
      have hw : await (s.pc p t) d = some (.flush, tag) := by rw [hpc]; simp [await]
      obtain ⟨k, hk⟩ := hack d _ _ hw
      obtain ⟨_, _, _, h4⟩ := take_ack hI hw hk
      rcases h4 with ⟨_, hv, _⟩ | ⟨q', v, e, _⟩
      · exact ⟨_, _, Step.flushAck p t hp pes (d :: r) tag d hpc List.mem_cons_self hno k hk hv, nofun,
          nofun, nofun, not_aborted nofun⟩
      · cases e
  | idle => rw [hpc] at hin; cases hin
  | bar => rw [hpc] at hin; cases hin
  | poll => rw [hpc] at hin; cases hin
  | finBar => rw [hpc] at hin; cases hin
  | finTerm => rw [hpc] at hin; cases hin
  | finWait => rw [hpc] at hin; cases hin
  | finDone => rw [hpc] at hin; cases hin
  | aborted => rw [hpc] at hin; cases hin
  | putHdr d x dst tag => exact absurd ⟨p, t, by rw [hpc]; rfl, Or.inl hin⟩ hgo
  | putPl x dst tag => exact absurd ⟨p, t, by rw [hpc]; rfl, Or.inl hin⟩ hgo
  | putFlag dst => exact absurd ⟨p, t, by rw [hpc]; rfl, Or.inl hin⟩ hgo
  | rdHdr q dst tag => exact absurd ⟨p, t, by rw [hpc]; rfl, Or.inl hin⟩ hgo
  | rdFlag dst q v => exact absurd ⟨p, t, by rw [hpc]; rfl, Or.inl hin⟩ hgo
  | postSend u dst => exact absurd ⟨p, t, by rw [hpc]; rfl, Or.inl hin⟩ hgo
  | postFlag dst => exact absurd ⟨p, t, by rw [hpc]; rfl, Or.inl hin⟩ hgo
  | fCount pes rest f => exact absurd ⟨p, t, by rw [hpc]; rfl, Or.inl hin⟩ hgo
  | fSend pes rest sent tag => exact absurd ⟨p, t, by rw [hpc]; rfl, Or.inl hin⟩ hgo
  | fReset pes rest => exact absurd ⟨p, t, by rw [hpc]; rfl, Or.inl hin⟩ hgo
  | fRet pes => exact absurd ⟨p, t, by rw [hpc]; rfl, Or.inl hin⟩ hgo

/-! ## Termination -/

/-- steps a thread may still take by itself, counting 3 for each header and 1 for each payload it sends -/
def wPc : Pc I → Nat
  | .idle => 0
  | .putHdr _ _ _ _ => 8
  | .putPl _ _ _ => 4
  | .putWait _ => 2
  | .putFlag _ => 1
  | .rdHdr _ _ _ => 6
  | .rdWait _ _ _ => 2
  | .rdFlag _ _ _ => 1
  | .postSend _ _ => 6
  | .postWait _ => 2
  | .postFlag _ => 1
  | .fCount pes rest _ => 5 + 6 * pes.length + rest.length
  | .fSend pes rest sent _ => 4 + pes.length + sent.length + 5 * rest.length
  | .fWait pes pend _ => 3 + pes.length + pend.length
  | .fReset _ rest => 2 + rest.length
  | .fRet _ => 1
  | .bar => 1
  | .poll => 0
  | .finBar => 6
  | .finTerm => 5
  | .finWait => 1
  | .finDone => 0
  | .aborted => 0

/-- steps a message causes -/
def wMsg : Msg I → Nat
  | .hdr _ => 3
  | .pl _ _ => 1

/-- steps the messages of a channel cause -/
def wChan (l : List (Msg I)) : Nat := (l.map wMsg).sum

/-- steps of a receive that has been matched -/
def wCb : Cb I → Nat
  | .posted _ => 0
  | .matched _ _ _ => 2
  | .handling _ _ _ _ => 1
  | .dead => 0

/-- bound on the number of steps that are not calls, for `n` PEs with at most `T` threads -/
def bound (n T : Nat) (s : St I) : Nat :=
  (Finset.range n ×ˢ Finset.range T).sum (fun x => wPc (s.pc x.1 x.2)) +
  (Finset.range n ×ˢ (Finset.range T ×ˢ Finset.range n)).sum (fun x => wChan (s.chan x.1 x.2.1 x.2.2)) +
  (Finset.range n).sum (fun p => wCb (s.cb p))

theorem sum_upd {α : Type} [DecidableEq α] {S : Finset α} {f g : α → Nat} {i : α} (hi : i ∈ S) (h : ∀ j, j ≠ i → g j = f j) :
    S.sum (fun x => g x) + f i = S.sum (fun x => f x) + g i := by
  have h1 := Finset.add_sum_erase S f hi
  have h2 := Finset.add_sum_erase S g hi
  have : (S.erase i).sum (fun x => g x) = (S.erase i).sum (fun x => f x) := Finset.sum_congr rfl (fun j hj => h j (Finset.ne_of_mem_erase hj))
  omega

theorem pc_upd {n T : Nat} {s : St I} {p t : Nat} (pc' : Pc I) (hp : p < n) (ht : t < T) :
    (Finset.range n ×ˢ Finset.range T).sum (fun x => wPc (set2 s.pc p t pc' x.1 x.2)) + wPc (s.pc p t) =
      (Finset.range n ×ˢ Finset.range T).sum (fun x => wPc (s.pc x.1 x.2)) + wPc pc' := by
  have := sum_upd (S := Finset.range n ×ˢ Finset.range T) (f := fun x => wPc (s.pc x.1 x.2))
    (g := fun x => wPc (set2 s.pc p t pc' x.1 x.2)) (i := (p, t))
    (Finset.mem_product.2 ⟨Finset.mem_range.2 hp, Finset.mem_range.2 ht⟩)
    (fun j hj => by
      rw [set2_ne _ _ (fun e => hj (Prod.ext e.1 e.2))])
  simpa only [set2_self] using this

theorem chan_upd {n T : Nat} {s : St I} {p t d : Nat} (l : List (Msg I)) (hp : p < n) (ht : t < T) (hd : d < n) :
    (Finset.range n ×ˢ (Finset.range T ×ˢ Finset.range n)).sum (fun x => wChan (set3 s.chan p t d l x.1 x.2.1 x.2.2)) +
        wChan (s.chan p t d) =
      (Finset.range n ×ˢ (Finset.range T ×ˢ Finset.range n)).sum (fun x => wChan (s.chan x.1 x.2.1 x.2.2)) + wChan l := by
  have := sum_upd (S := Finset.range n ×ˢ (Finset.range T ×ˢ Finset.range n)) (f := fun x => wChan (s.chan x.1 x.2.1 x.2.2))
    (g := fun x => wChan (set3 s.chan p t d l x.1 x.2.1 x.2.2)) (i := (p, t, d))
    (Finset.mem_product.2 ⟨Finset.mem_range.2 hp, Finset.mem_product.2 ⟨Finset.mem_range.2 ht, Finset.mem_range.2 hd⟩⟩)
    (fun j hj => by
      rw [set3_ne _ _ (fun e => hj (Prod.ext e.1 (Prod.ext e.2.1 e.2.2)))])
  simpa only [set3_self] using this

theorem cb_upd {n : Nat} {s : St I} {p : Nat} (b : Cb I) (hp : p < n) {x y : Nat} (hx : wCb (s.cb p) = x) (hy : wCb b = y) :
    (Finset.range n).sum (fun q => wCb (Function.update s.cb p b q)) + x =
      (Finset.range n).sum (fun q => wCb (s.cb q)) + y := by
  subst hx hy
  have := sum_upd (S := Finset.range n) (f := fun q => wCb (s.cb q)) (g := fun q => wCb (Function.update s.cb p b q)) (i := p)
    (Finset.mem_range.2 hp) (fun j hj => by
      rw [Function.update_of_ne hj])
  simpa only [Function.update_self] using this

theorem wChan_append (l l' : List (Msg I)) : wChan (l ++ l') = wChan l + wChan l' := by
  simp [wChan]

theorem local_weight {c : Cfg I} {s : St I} {p t : Nat} {pc pc' : Pc I} {fl : Nat → Bool} (hl : Local c s p t pc pc' fl)
    (h : locLbl p t pc ≠ .call) : wPc pc' < wPc pc := by
  cases hl <;> first
    | exact absurd rfl h
    | (simp only [wPc, List.length_cons, List.length_nil]; omega)

theorem send_weight {s : St I} {p : Nat} {pc pc' : Pc I} {dst : Nat} {m : Msg I} {o : Option (Op I × Nat)}
    (hs : Send s p pc dst m o pc') : wPc pc' + wMsg m < wPc pc := by
  cases hs <;> simp only [wPc, wMsg, List.length_cons] <;> omega

/-- every step that is not a call uses up some of the bound -/
theorem bound_step {c : Cfg I} {s s' : St I} {l : Lbl} {T : Nat} (hT : ∀ p t, c.thr p t → t < T) (hI : Inv c s) (hB : Bnd c s)
    (hthr : ∀ p t, s.pc p t ≠ .idle → c.thr p t) (hs : Step c s l s') (h1 : l ≠ .call) (h2 : l ≠ .env) :
    bound c.n T s' < bound c.n T s := by
  have hTT : ∀ p t, s.pc p t ≠ .idle → t < T := fun p t h => hT p t (hthr p t h)
  have pc_only : ∀ (a u : Nat) (pc' : Pc I), a < c.n → s.pc a u ≠ .idle → wPc pc' < wPc (s.pc a u) →
      (Finset.range c.n ×ˢ Finset.range T).sum (fun x => wPc (set2 s.pc a u pc' x.1 x.2)) <
        (Finset.range c.n ×ˢ Finset.range T).sum (fun x => wPc (s.pc x.1 x.2)) := by
    intro a u pc' hp hne hw
    have := pc_upd (s := s) pc' hp (hTT a u hne)
    omega
  have act : ∀ (a : Nat) (o : Option Nat) (src u : Nat) (m : Msg I) (b : Cb I), a < c.n → s.cb a = .handling o src u m →
      wCb b = 0 →
      (Finset.range c.n).sum (fun q => wCb (Function.update s.cb a b q)) < (Finset.range c.n).sum (fun q => wCb (s.cb q)) := by
    intro a o src u m b hp hc hb
    have := cb_upd (s := s) b hp (x := 1) (by rw [hc]; rfl) hb
    omega
  cases hs with
  | loc a u hp pc' fl hl =>
    have hw := local_weight hl h1
    have hne : s.pc a u ≠ .idle := by intro e; rw [e] at h1; exact h1 rfl
    have := pc_only a u pc' hp hne hw
    simp only [bound]
    omega
  | alloc a u hp f ha hub =>
    have hne : s.pc a u ≠ .idle := by intro e; rw [e] at h1; exact h1 rfl
    have hw : wPc (f (s.ctr a + ptagStart)) < wPc (s.pc a u) := by
      generalize s.pc a u = pc at ha hne
      cases ha with
      | put d x dst hd ht => exact absurd rfl hne
      | rd q dst hd ht => exact absurd rfl hne
      | flush pes => simp only [wPc, List.length_nil]; omega
    have := pc_only a u _ hp hne hw
    simp only [bound]
    omega
  | allocFail a u hp f ha hub =>
    have hne : s.pc a u ≠ .idle := by intro e; rw [e] at h1; exact h1 rfl
    have hw : wPc (.aborted : Pc I) < wPc (s.pc a u) := by
      generalize s.pc a u = pc at ha hne
      cases ha with
      | put d x dst hd ht => exact absurd rfl hne
      | rd q dst hd ht => exact absurd rfl hne
      | flush pes => simp only [wPc, List.length_nil]; omega
    have := pc_only a u _ hp hne hw
    simp only [bound]
    omega
  | send a u hp dst m o pc' hs =>
    have hne : s.pc a u ≠ .idle := by intro e; rw [e] at hs; cases hs
    have hw := send_weight hs
    have hd : dst < c.n := by
      have h0 := hB.tgt a u
      generalize s.pc a u = pc at hs h0
      cases hs <;> first | exact h0 _ List.mem_cons_self | exact hp
    have k1 := pc_upd (s := s) pc' hp (hTT a u hne)
    have k2 := chan_upd (s := s) (s.chan a u dst ++ [m]) hp (hTT a u hne) hd
    rw [wChan_append] at k2
    have k3 : wChan [m] = wMsg m := by simp [wChan]
    simp only [bound]
    omega
  | reply a u hp q dst tag hpc ho k ha v hv =>
    have := pc_only a u (.rdFlag dst q v) hp (by rw [hpc]; nofun) (by rw [hpc]; simp only [wPc]; omega)
    simp only [bound]
    omega
  | replyBad a u hp q dst tag hpc k ha hv =>
    have := (inv_step hI (Step.replyBad a u hp q dst tag hpc k ha hv)).notbad
    cases this
  | rdRet a u hp dst q v hpc =>
    have := pc_only a u .idle hp (by rw [hpc]; nofun) (by rw [hpc]; simp only [wPc]; omega)
    simp only [bound]
    omega
  | flushAck a u hp pes pend tag d hpc hd ho k ha hv =>
    have hl := List.length_erase_of_mem hd
    have hpos : 0 < pend.length := List.length_pos_of_mem hd
    have := pc_only a u (.fWait pes (pend.erase d) tag) hp (by rw [hpc]; nofun)
      (by rw [hpc]; simp only [wPc]; rw [hl]; omega)
    simp only [bound]
    omega
  | flushBad a u hp pes pend tag d hpc hd k ha v hv =>
    have := (inv_step hI (Step.flushBad a u hp pes pend tag d hpc hd k ha v hv)).notbad
    cases this
  | «match» a hp any hc src u m hm =>
    obtain ⟨k, hk, hch⟩ := matchable hI hc hm
    have hne : s.infl src u a ≠ [] := by
      intro e
      have := hI.chan src u a (by rw [hc]; nofun)
      rw [hc, e, hch] at this
      simp at this
    obtain ⟨b1, b2, b3⟩ := hB.infl src u a hne
    have k2 := chan_upd (s := s) ((s.chan src u a).eraseP (fits any pktTag)) b1 (hT _ _ b2) b3
    have k3 := cb_upd (s := s) (.matched src u m) hp (x := 0) (y := 2) (by rw [hc]; rfl) rfl
    have k4 : wChan (s.chan src u a) = 3 + wChan ((s.chan src u a).eraseP (fits any pktTag)) := by
      rw [hk] at hch
      conv => lhs; rw [hch]
      simp [wChan, wMsg]
    simp only [bound]
    omega
  | start a hp o src u m hc ho =>
    have k3 := cb_upd (s := s) (.handling o src u m) hp (x := 2) (y := 1) (by rw [hc]; rfl) rfl
    simp only [bound]
    omega
  | actPut a hp o src u d tag hc t' tag' x hm =>
    obtain ⟨rfl, y, l, hl, hy, hch, _⟩ := payload hI hc hm
    obtain ⟨b1, b2, b3⟩ := hB.infl src t' a (by rw [hl]; nofun)
    have k2 := chan_upd (s := s) ((s.chan src t' a).eraseP (fits false tag)) b1 (hT _ _ b2) b3
    have k3 := act a o src t' _ (repost c) hp hc rfl
    have k4 : wChan (s.chan src t' a) = 1 + wChan ((s.chan src t' a).eraseP (fits false tag)) := by
      conv => lhs; rw [hch]
      simp [wChan, wMsg]
    simp only [bound, finish]
    omega
  | actPutBad a hp o src u d tag hc t' k hm =>
    have := (inv_step hI (Step.actPutBad a hp o src u d tag hc t' k hm)).notbad
    cases this
  | actRd a hp o src u q tag hc =>
    have k3 := act a o src u _ (repost c) hp hc rfl
    simp only [bound, finish]
    omega
  | actPost a hp o src u x hc =>
    have k3 := act a o src u _ (repost c) hp hc rfl
    simp only [bound, finish]
    omega
  | actFlush a hp o src u tag hc =>
    have k3 := act a o src u _ (repost c) hp hc rfl
    simp only [bound, finish]
    omega
  | actTerm a hp o src u hc =>
    have k3 := act a o src u _ (if c.async then .dead else repost c) hp hc (by split <;> rfl)
    simp only [bound, finish]
    omega
  | actBad a hp o src u tag x hc =>
    have := (inv_step hI (Step.actBad a hp o src u tag x hc)).notbad
    cases this
  | bar a u hp ht hpc => exact absurd rfl h1
  | fin a u hp ht hpc => exact absurd rfl h1
  | finDrop a u hp hc hpc src t' m hm =>
    have k1 := pc_only a u .finDone hp (by rw [hpc]; nofun) (by rw [hpc]; simp only [wPc]; omega)
    have k3 := cb_upd (s := s) .dead hp (x := 2) (y := 0) (by rw [hm]; rfl) rfl
    simp only [bound]
    omega
  | env a f => exact absurd rfl h2

/-- `k` steps that are neither calls nor steps of the environment -/
inductive Run (c : Cfg I) : St I → Nat → St I → Prop where
  | nil (s : St I) : Run c s 0 s
  | cons {s s' s'' : St I} {l : Lbl} {k : Nat} (h : Step c s l s') (h1 : l ≠ .call) (h2 : l ≠ .env) (hr : Run c s' k s'') :
      Run c s (k + 1) s''

theorem run_bound {c : Cfg I} {s s' : St I} {k T : Nat} (hT : ∀ p t, c.thr p t → t < T) (h : Reach c s) (hr : Run c s k s') :
    k + bound c.n T s' ≤ bound c.n T s := by
  induction hr with
  | nil s => omega
  | cons hs h1 h2 hr ih =>
    have := ih (.step h hs)
    have := bound_step hT (inv_reach h) (bnd_reach h) (thr_reach h) hs h1 h2
    omega

theorem run_reach {c : Cfg I} {s s' : St I} {k : Nat} (h : Reach c s) (hr : Run c s k s') : Reach c s' := by
  induction hr with
  | nil s => exact h
  | cons hs _ _ _ ih => exact ih (.step h hs)

/-- running until nothing but calls is possible -/
theorem run_end {c : Cfg I} {T : Nat} (hT : ∀ p t, c.thr p t → t < T) :
    ∀ (b : Nat) (s : St I), Reach c s → bound c.n T s ≤ b → ∃ k s', Run c s k s' ∧ ¬ CanStep c s' := by
  intro b
  induction b with
  | zero =>
    intro s h hb
    refine ⟨0, s, .nil s, ?_⟩
    rintro ⟨l, s', hs, h1, h2, _⟩
    have := bound_step hT (inv_reach h) (bnd_reach h) (thr_reach h) hs h1 h2
    omega
  | succ b ih =>
    intro s h hb
    by_cases hc : CanStep c s
    · obtain ⟨l, s', hs, h1, h2, _⟩ := hc
      have := bound_step hT (inv_reach h) (bnd_reach h) (thr_reach h) hs h1 h2
      obtain ⟨k, s'', hr, hn⟩ := ih s' (.step h hs) (by omega)
      exact ⟨k + 1, s'', .cons hs h1 h2 hr, hn⟩
    · exact ⟨0, s, .nil s, hc⟩

end Verif.Am
