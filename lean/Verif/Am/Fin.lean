import Verif.Am.Live
/-!
# Finalize
-/
namespace Verif.Am
variable {I : Iface}

/-- inside or after finalize -/
def finS : Pc I → Bool
  | .finBar => true
  | .finTerm => true
  | .finWait => true
  | .finDone => true
  | .idle => false
  | .putHdr _ _ _ _ => false
  | .putPl _ _ _ => false
  | .putWait _ => false
  | .putFlag _ => false
  | .rdHdr _ _ _ => false
  | .rdWait _ _ _ => false
  | .rdFlag _ _ _ => false
  | .postSend _ _ => false
  | .postWait _ => false
  | .postFlag _ => false
  | .fCount _ _ _ => false
  | .fSend _ _ _ _ => false
  | .fWait _ _ _ => false
  | .fReset _ _ => false
  | .fRet _ => false
  | .bar => false
  | .poll => false
  | .aborted => false

/-- past the barrier of finalize -/
def finPast : Pc I → Bool
  | .finTerm => true
  | .finWait => true
  | .finDone => true
  | .finBar => false
  | .idle => false
  | .putHdr _ _ _ _ => false
  | .putPl _ _ _ => false
  | .putWait _ => false
  | .putFlag _ => false
  | .rdHdr _ _ _ => false
  | .rdWait _ _ _ => false
  | .rdFlag _ _ _ => false
  | .postSend _ _ => false
  | .postWait _ => false
  | .postFlag _ => false
  | .fCount _ _ _ => false
  | .fSend _ _ _ _ => false
  | .fWait _ _ _ => false
  | .fReset _ _ => false
  | .fRet _ => false
  | .bar => false
  | .poll => false
  | .aborted => false

theorem local_fin {c : Cfg I} {s : St I} {p t : Nat} {pc pc' : Pc I} {fl : Nat → Bool} (hl : Local c s p t pc pc' fl) :
    finS pc' = finS pc ∧ (finPast pc' = true → finPast pc = true ∨ (pc = .finBar ∧ ∀ q < c.n, s.ent p ≤ s.ent q)) := by
  cases hl <;> refine ⟨rfl, fun h => ?_⟩ <;> first
    | exact Or.inr ⟨rfl, by assumption⟩
    | exact Or.inl h

theorem alloc_fin {c : Cfg I} {p t : Nat} {pc : Pc I} {f : Nat → Pc I} (ha : Alloc c p t pc f) (τ : Nat) :
    finS pc = false ∧ finS (f τ) = false ∧ finPast (f τ) = false := by
  cases ha <;> exact ⟨rfl, rfl, rfl⟩

theorem send_fin {s : St I} {p : Nat} {pc pc' : Pc I} {dst : Nat} {m : Msg I} {o : Option (Op I × Nat)}
    (hs : Send s p pc dst m o pc') :
    finS pc' = finS pc ∧ finPast pc' = finPast pc ∧ (finS pc = true → ∀ e ∈ optL o, e.1.app = false) ∧
      (∀ e ∈ optL o, e.1 = .term → finPast pc = true) := by
  cases hs <;> refine ⟨rfl, rfl, fun h => ?_, fun e he ht => ?_⟩ <;> first
    | (intro e he; cases List.mem_singleton.1 he; rfl)
    | cases h
    | rfl
    | (cases List.mem_singleton.1 he; cases ht)
    | (cases he)

/-- the program finalizes as its `nb + 1`-st barrier on every PE, after its active messages have been completed -/
def FinProg (nb : Nat) (s : St I) : Prop :=
  (∀ p t, s.pc p t = .finBar → s.ent p = nb + 1 ∧ ∀ d, s.infl p t d = []) ∧ ∀ p t, s.pc p t = .bar → s.ent p ≤ nb

structure FinInv (c : Cfg I) (nb : Nat) (s : St I) : Prop where
  past : ∀ p t, finPast (s.pc p t) = true → ∀ q < c.n, nb + 1 ≤ s.ent q
  ent : ∀ p t, c.thr p t → nb + 1 ≤ s.ent p → finS (s.pc p t) = true
  app : ∀ p t, finS (s.pc p t) = true → ∀ d, ∀ e ∈ s.infl p t d, e.1.app = false
  dead : ∀ d, s.cb d = .dead → ∀ q < c.n, nb + 1 ≤ s.ent q
  term : ∀ p t d, ∀ e ∈ s.infl p t d, e.1 = .term → ∀ q < c.n, nb + 1 ≤ s.ent q

theorem fin_cb {c : Cfg I} {nb : Nat} {s : St I} (h : FinInv c nb s) {a : Nat} {x : Cb I} (hx : x ≠ .dead) :
    ∀ d, Function.update s.cb a x d = .dead → ∀ q < c.n, nb + 1 ≤ s.ent q := by
  intro d hd
  by_cases e : d = a
  · rw [e, Function.update_self] at hd; exact absurd hd hx
  · rw [Function.update_of_ne e] at hd; exact h.dead d hd

theorem fin_sub {s : St I} {src u a p t d : Nat} {e : Op I × Nat}
    (he : e ∈ set3 s.infl src u a (s.infl src u a).tail p t d) : e ∈ s.infl p t d := by
  by_cases h : p = src ∧ t = u ∧ d = a
  · obtain ⟨rfl, rfl, rfl⟩ := h
    rw [set3_self] at he; exact List.mem_of_mem_tail he
  · rw [set3_ne _ _ h] at he; exact he

/-- steps that change the program counter of one thread and nothing else that matters -/
theorem fin_pc {c : Cfg I} {nb : Nat} {s : St I} (h : FinInv c nb s) {a u : Nat} {pc' : Pc I}
    (h1 : finS pc' = finS (s.pc a u)) (h2 : finPast pc' = true → ∀ q < c.n, nb + 1 ≤ s.ent q) :
    (∀ p t, finPast (set2 s.pc a u pc' p t) = true → ∀ q < c.n, nb + 1 ≤ s.ent q) ∧
    (∀ p t, c.thr p t → nb + 1 ≤ s.ent p → finS (set2 s.pc a u pc' p t) = true) ∧
    (∀ p t, finS (set2 s.pc a u pc' p t) = true → finS (s.pc p t) = true) := by
  refine ⟨fun p t => ?_, fun p t => ?_, fun p t => ?_⟩ <;> by_cases e : p = a ∧ t = u
  · obtain ⟨rfl, rfl⟩ := e; rw [set2_self]; exact h2
  · rw [set2_ne _ _ e]; exact h.past p t
  · obtain ⟨rfl, rfl⟩ := e; rw [set2_self, h1]; exact h.ent p t
  · rw [set2_ne _ _ e]; exact h.ent p t
  · obtain ⟨rfl, rfl⟩ := e; rw [set2_self, h1]; exact id
  · rw [set2_ne _ _ e]; exact id

theorem fin_step {c : Cfg I} {nb : Nat} {s s' : St I} {l : Lbl} (hone : ∀ p t, c.thr p t → t = 0) (hI : Inv c s)
    (hP : FinProg nb s) (hP' : FinProg nb s') (hs : Step c s l s') (h : FinInv c nb s) : FinInv c nb s' := by
  have hpc : ∀ {a u : Nat} {pc' : Pc I}, finS (s.pc a u) = false → finS pc' = false → finPast pc' = false →
      FinInv c nb { s with pc := set2 s.pc a u pc' } := by
    intro a u pc' h1 h2 h3
    obtain ⟨f1, f2, f3⟩ := fin_pc h (a := a) (u := u) (pc' := pc') (by rw [h1, h2]) (fun e => by rw [h3] at e; cases e)
    exact ⟨f1, f2, fun p t hf => h.app p t (f3 p t hf), h.dead, h.term⟩
  have hfin : ∀ (src u a : Nat) (x : Cb I), x ≠ .dead →
      FinInv c nb { s with infl := set3 s.infl src u a (s.infl src u a).tail, cb := Function.update s.cb a x } :=
    fun src u a x hx => ⟨h.past, h.ent, fun p t hf d e he => h.app p t hf d e (fin_sub he), fin_cb h hx,
      fun p t d e he => h.term p t d e (fin_sub he)⟩
  have hrep : repost c ≠ .dead := nofun
  cases hs with
  | loc a u hp pc' fl hl =>
    obtain ⟨g1, g2⟩ := local_fin hl
    obtain ⟨f1, f2, f3⟩ := fin_pc h (a := a) (u := u) (pc' := pc') g1 (by
      intro hp'
      rcases g2 hp' with g | ⟨g, g'⟩
      · exact h.past a u g
      · intro q hq
        have := g' q hq
        rw [(hP.1 a u g).1] at this
        exact this)
    exact ⟨f1, f2, fun p t hf => h.app p t (f3 p t hf), h.dead, h.term⟩
  | alloc a u hp f ha hub =>
    obtain ⟨g1, g2, g3⟩ := alloc_fin ha (s.ctr a + ptagStart)
    have := hpc g1 g2 g3
    exact ⟨this.past, this.ent, this.app, this.dead, this.term⟩
  | allocFail a u hp f ha hub => exact hpc (alloc_fin ha 0).1 rfl rfl
  | send a u hp dst m o pc' hs =>
    obtain ⟨g1, g2, g3, g4⟩ := send_fin hs
    obtain ⟨f1, f2, f3⟩ := fin_pc h (a := a) (u := u) (pc' := pc') g1 (by rw [g2]; exact h.past a u)
    refine ⟨f1, f2, fun p t hf d e he => ?_, h.dead, fun p t d e he ht => ?_⟩
    · have hf' := f3 p t hf
      by_cases e1 : p = a ∧ t = u ∧ d = dst
      · obtain ⟨rfl, rfl, rfl⟩ := e1
        simp only [set3_self] at he
        rcases List.mem_append.1 he with he | he
        · exact h.app p t hf' d e he
        · exact g3 hf' e he
      · simp only [set3_ne _ _ e1] at he
        exact h.app p t hf' d e he
    · by_cases e1 : p = a ∧ t = u ∧ d = dst
      · obtain ⟨rfl, rfl, rfl⟩ := e1
        simp only [set3_self] at he
        rcases List.mem_append.1 he with he | he
        · exact h.term p t d e he ht
        · exact h.past p t (g4 e he ht)
      · simp only [set3_ne _ _ e1] at he
        exact h.term p t d e he ht
  | reply a u hp q dst tag hc ho k ha v hv =>
    have := hpc (a := a) (u := u) (pc' := .rdFlag dst q v) (by rw [hc]; rfl) rfl rfl
    exact ⟨this.past, this.ent, this.app, this.dead, this.term⟩
  | replyBad a u hp q dst tag hc k ha hv => exact ⟨h.past, h.ent, h.app, h.dead, h.term⟩
  | rdRet a u hp dst q v hc =>
    have := hpc (a := a) (u := u) (pc' := .idle) (by rw [hc]; rfl) rfl rfl
    exact ⟨this.past, this.ent, this.app, this.dead, this.term⟩
  | flushAck a u hp pes pend tag d hc hd ho k ha hv =>
    have := hpc (a := a) (u := u) (pc' := .fWait pes (pend.erase d) tag) (by rw [hc]; rfl) rfl rfl
    exact ⟨this.past, this.ent, this.app, this.dead, this.term⟩
  | flushBad a u hp pes pend tag d hc hd k ha v hv => exact ⟨h.past, h.ent, h.app, h.dead, h.term⟩
  | «match» a hp any hc src u m hm => exact ⟨h.past, h.ent, h.app, fin_cb h nofun, h.term⟩
  | start a hp o src u m hc ho => exact ⟨h.past, h.ent, h.app, fin_cb h nofun, h.term⟩
  | actPut a hp o src u d tag hc t' tag' x hm =>
    have := hfin src u a _ hrep
    exact ⟨this.past, this.ent, this.app, this.dead, this.term⟩
  | actPutBad a hp o src u d tag hc t' k hm => exact ⟨h.past, h.ent, h.app, h.dead, h.term⟩
  | actRd a hp o src u q tag hc =>
    have := hfin src u a _ hrep
    exact ⟨this.past, this.ent, this.app, this.dead, this.term⟩
  | actPost a hp o src u x hc =>
    have := hfin src u a _ hrep
    exact ⟨this.past, this.ent, this.app, this.dead, this.term⟩
  | actFlush a hp o src u tag hc =>
    have := hfin src u a _ hrep
    exact ⟨this.past, this.ent, this.app, this.dead, this.term⟩
  | actTerm a hp o src u hc =>
    have hT : ∀ q < c.n, nb + 1 ≤ s.ent q := by
      obtain ⟨e, l, k, tl, hl, he, hk, _⟩ := taken hI (Or.inl ⟨o, hc⟩)
      apply h.term src u a e (by rw [hl]; exact List.mem_cons_self)
      cases hk
      obtain ⟨op, τ⟩ := e
      cases op with
      | put d' x => simp [enc] at he
      | rd q => simp [enc] at he
      | upd u => simp [enc] at he
      | flush => simp [enc] at he
      | term => rfl
    have := hfin src u a _ hrep
    exact ⟨this.past, this.ent, this.app, fun _ _ => hT, this.term⟩
  | actBad a hp o src u tag x hc => exact ⟨h.past, h.ent, h.app, h.dead, h.term⟩
  | bar a u hp ht hc =>
    have hu : u = 0 := hone a u ht
    have hmono : ∀ q, s.ent q ≤ Function.update s.ent a (s.ent a + 1) q := by
      intro q
      by_cases e : q = a
      · subst e; rw [Function.update_self]; omega
      · rw [Function.update_of_ne e]
    refine ⟨fun p t hf q hq => ?_, fun p t ht' he => ?_, fun p t hf => ?_, fun d hd q hq => ?_, fun p t d e he hte q hq => ?_⟩
    · have : finPast (s.pc p t) = true := by
        by_cases e : p = a ∧ t = u
        · simp only [e.1, e.2, set2_self] at hf; cases hf
        · simp only [set2_ne _ _ e] at hf; exact hf
      exact (h.past p t this q hq).trans (hmono q)
    · by_cases e : p = a
      · subst e
        have h0 := hP'.2 p u (by simp only [set2_self])
        have he' : nb + 1 ≤ Function.update s.ent p (s.ent p + 1) p := he
        have h0' : Function.update s.ent p (s.ent p + 1) p ≤ nb := h0
        omega
      · simp only [Function.update_of_ne e] at he
        simp only [set2_ne _ _ (fun x : p = a ∧ t = u => e x.1)]
        exact h.ent p t ht' he
    · apply h.app
      by_cases e : p = a ∧ t = u
      · simp only [e.1, e.2, set2_self] at hf; cases hf
      · simp only [set2_ne _ _ e] at hf; exact hf
    · exact (h.dead d hd q hq).trans (hmono q)
    · exact (h.term p t d e he hte q hq).trans (hmono q)
  | fin a u hp ht hc =>
    have hmono : ∀ q, s.ent q ≤ Function.update s.ent a (s.ent a + 1) q := by
      intro q
      by_cases e : q = a
      · subst e; rw [Function.update_self]; omega
      · rw [Function.update_of_ne e]
    refine ⟨fun p t hf q hq => ?_, fun p t ht' he => ?_, fun p t hf => ?_, fun d hd q hq => ?_, fun p t d e he hte q hq => ?_⟩
    · have : finPast (s.pc p t) = true := by
        by_cases e : p = a ∧ t = u
        · simp only [e.1, e.2, set2_self] at hf; cases hf
        · simp only [set2_ne _ _ e] at hf; exact hf
      exact (h.past p t this q hq).trans (hmono q)
    · by_cases e : p = a
      · have : t = u := (hone p t ht').trans (hone a u ht).symm
        subst e this
        simp only [set2_self]
        rfl
      · simp only [Function.update_of_ne e] at he
        simp only [set2_ne _ _ (fun x : p = a ∧ t = u => e x.1)]
        exact h.ent p t ht' he
    · by_cases e : p = a ∧ t = u
      · obtain ⟨rfl, rfl⟩ := e
        have := (hP'.1 p t (by simp only [set2_self])).2
        intro d e he
        rw [this d] at he
        cases he
      · simp only [set2_ne _ _ e] at hf
        exact h.app p t hf
    · exact (h.dead d hd q hq).trans (hmono q)
    · exact (h.term p t d e he hte q hq).trans (hmono q)
  | finDrop a u hp hc hpc' src t' m hm =>
    have hT := h.past a u (by rw [hpc']; rfl)
    obtain ⟨f1, f2, f3⟩ := fin_pc h (a := a) (u := u) (pc' := .finDone) (by rw [hpc']; rfl) (fun _ => hT)
    exact ⟨f1, f2, fun p t hf => h.app p t (f3 p t hf), fun _ _ => hT, h.term⟩
  | env a f => exact ⟨h.past, h.ent, h.app, h.dead, h.term⟩

theorem fin_reach {c : Cfg I} {nb : Nat} {s : St I} (hone : ∀ p t, c.thr p t → t = 0) (h : ReachP c (FinProg nb) s) :
    FinInv c nb s := by
  induction h with
  | init _ =>
    exact ⟨nofun, fun p t _ h => absurd h (Nat.not_succ_le_zero nb), nofun, nofun, nofun⟩
  | step h hs hp ih => exact fin_step hone (inv_reach h.reach) h.prop hp hs ih

end Verif.Am
