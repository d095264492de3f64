import Verif.Am.Step
/-!
# The outstanding-operation flags and the flush
-/
namespace Verif.Am
variable {I : Iface}

/-- states reachable through states satisfying `P` only -/
inductive ReachP (c : Cfg I) (P : St I → Prop) : St I → Prop where
  | init : P (init c) → ReachP c P (init c)
  | step {s s' : St I} {l : Lbl} : ReachP c P s → Step c s l s' → P s' → ReachP c P s'

theorem ReachP.reach {c : Cfg I} {P : St I → Prop} {s : St I} (h : ReachP c P s) : Reach c s := by
  induction h with
  | init _ => exact .init
  | step _ hs _ ih => exact .step ih hs

theorem ReachP.prop {c : Cfg I} {P : St I → Prop} {s : St I} (h : ReachP c P s) : P s := by
  cases h with
  | init h => exact h
  | step _ _ h => exact h

/-- what the flags of a PE say about the operations in flight of one of its threads, by program point: `fl` are the flags,
`inf d` the operations in flight to `d` -/
def FlagOk (pc : Pc I) (fl : Nat → Bool) (inf : Nat → List (Op I × Nat)) : Prop :=
  match pc with
  | .idle => ∀ d, fl d = false → inf d = []
  | .putHdr _ _ _ _ => ∀ d, fl d = false → inf d = []
  | .putPl _ dst _ => ∀ d, d ≠ dst → fl d = false → inf d = []
  | .putWait dst => ∀ d, d ≠ dst → fl d = false → inf d = []
  | .putFlag dst => ∀ d, d ≠ dst → fl d = false → inf d = []
  | .rdHdr _ _ _ => ∀ d, fl d = false → inf d = []
  | .rdWait _ dst _ => ∀ d, d ≠ dst → fl d = false → inf d = []
  | .rdFlag dst _ _ => ∀ d, d = dst ∨ fl d = false → inf d = []
  | .postSend _ _ => ∀ d, fl d = false → inf d = []
  | .postWait dst => ∀ d, d ≠ dst → fl d = false → inf d = []
  | .postFlag dst => ∀ d, d ≠ dst → fl d = false → inf d = []
  | .fCount pes rest f => (∀ d, fl d = false → inf d = []) ∧ (f = false → ∀ d ∈ pes, d ∉ rest → inf d = [])
  | .fSend pes rest sent _ => (∀ d, fl d = false → inf d = []) ∧ ∀ d ∈ pes, d ∉ rest → d ∉ sent → inf d = []
  | .fWait pes pend _ => (∀ d, fl d = false → inf d = []) ∧ ∀ d ∈ pes, d ∉ pend → inf d = []
  | .fReset pes rest => (∀ d, fl d = false → inf d = []) ∧ ∀ d, d ∈ pes ∨ d ∈ rest → inf d = []
  | .fRet pes => (∀ d, fl d = false → inf d = []) ∧ ∀ d ∈ pes, inf d = []
  | .bar => ∀ d, fl d = false → inf d = []
  | .poll => ∀ d, fl d = false → inf d = []
  | .finBar => ∀ d, fl d = false → inf d = []
  | .finTerm => True
  | .finWait => True
  | .finDone => True
  | .aborted => True

/-- setting flags and completing operations keep it -/
theorem FlagOk.mono {pc : Pc I} {fl fl' : Nat → Bool} {inf inf' : Nat → List (Op I × Nat)} (h : FlagOk pc fl inf)
    (hf : ∀ d, fl' d = false → fl d = false) (hi : ∀ d, inf d = [] → inf' d = []) : FlagOk pc fl' inf' := by
  cases pc <;> simp only [FlagOk] at h ⊢ <;> first
    | trivial
    | exact fun d hd => hi d (h d (hf d hd))
    | exact fun d hn hd => hi d (h d hn (hf d hd))
    | exact fun d hd => hi d (h d (hd.imp id (hf d)))
    | exact ⟨fun d hd => hi d (h.1 d (hf d hd)), fun a d b e => hi d (h.2 a d b e)⟩
    | exact ⟨fun d hd => hi d (h.1 d (hf d hd)), fun a d b => hi a (h.2 a d b)⟩
    | exact ⟨fun d hd => hi d (h.1 d (hf d hd)), fun a d b e => hi a (h.2 a d b e)⟩
    | exact ⟨fun d hd => hi d (h.1 d (hf d hd)), fun a d => hi a (h.2 a d)⟩

/-- steps of the thread itself -/
theorem flag_local {c : Cfg I} {s : St I} {p t : Nat} {pc pc' : Pc I} {fl : Nat → Bool} {inf : Nat → List (Op I × Nat)}
    (hl : Local c s p t pc pc' fl) (h : FlagOk pc (s.flag p) inf) : FlagOk pc' fl inf := by
  cases hl with
  | putDone dst ho => exact h
  | putRet dst =>
    intro d hd
    by_cases e : d = dst
    · subst e; rw [Function.update_self] at hd; cases hd
    · rw [Function.update_of_ne e] at hd; exact h d e hd
  | callPost u dst hd ht => exact h
  | postDone dst ho => exact h
  | postRet dst =>
    intro d hd
    by_cases e : d = dst
    · subst e; rw [Function.update_self] at hd; cases hd
    · rw [Function.update_of_ne e] at hd; exact h d e hd
  | callFlush pes hd hn ht => exact ⟨h, fun _ d hd hn => absurd hd hn⟩
  | count pes d r f =>
    refine ⟨h.1, fun hf a ha hr => ?_⟩
    simp only [Bool.or_eq_false_iff] at hf
    by_cases e : a = d
    · subst e; exact h.1 a hf.2
    · exact h.2 hf.1 a ha (by simp [e, hr])
  | countNone pes => exact ⟨h.1, fun d hd => h.2 rfl d hd (by simp)⟩
  | skip pes d r sent tag hf =>
    refine ⟨h.1, fun a ha hr hs => ?_⟩
    by_cases e : a = d
    · subst e; exact h.1 a hf
    · exact h.2 a ha (by simp [e, hr]) hs
  | sendEnd pes sent tag => exact ⟨h.1, fun d hd hn => h.2 d hd (by simp) hn⟩
  | waitEnd pes tag ho => exact ⟨h.1, fun d hd => h.2 d (hd.elim id id) (by simp)⟩
  | reset pes d r =>
    refine ⟨fun a ha => ?_, fun a ha => h.2 a (ha.imp id (List.mem_cons_of_mem _))⟩
    by_cases e : a = d
    · subst e; exact h.2 a (Or.inr List.mem_cons_self)
    · rw [Function.update_of_ne e] at ha; exact h.1 a ha
  | resetEnd pes => exact ⟨h.1, fun d hd => h.2 d (Or.inl hd)⟩
  | flushRet pes => exact h.1
  | barDone ho ha => exact h
  | pollEnter ht => exact h
  | pollLeave ho => exact h
  | finBarDone ho ha => trivial
  | finStopped ha hd => trivial

theorem flag_alloc {c : Cfg I} {p t : Nat} {pc : Pc I} {f : Nat → Pc I} {fl : Nat → Bool} {inf : Nat → List (Op I × Nat)}
    (ha : Alloc c p t pc f) (h : FlagOk pc fl inf) (τ : Nat) : FlagOk (f τ) fl inf := by
  cases ha with
  | put d x dst hd ht => exact h
  | rd q dst hd ht => exact h
  | flush pes => exact ⟨h.1, fun d hd hr => absurd hd hr⟩

theorem flag_send {s : St I} {p : Nat} {pc pc' : Pc I} {dst : Nat} {m : Msg I} {o : Option (Op I × Nat)}
    {inf : Nat → List (Op I × Nat)} (hs : Send s p pc dst m o pc') (h : FlagOk pc (s.flag p) inf) :
    FlagOk pc' (s.flag p) (fun d => if d = dst then inf d ++ optL o else inf d) := by
  cases hs with
  | putHdr d x dst tag =>
    intro a hn ha
    simp only [if_neg hn]
    exact h a ha
  | putPl x dst tag =>
    intro a hn ha
    simp only [if_neg hn]
    exact h a hn ha
  | rd q dst tag =>
    intro a hn ha
    simp only [if_neg hn]
    exact h a ha
  | post u dst =>
    intro a hn ha
    simp only [if_neg hn]
    exact h a ha
  | flush pes d r sent tag hf =>
    refine ⟨fun a ha => ?_, fun a ha hr hs => ?_⟩
    · have e : a ≠ dst := fun e => by subst e; rw [hf] at ha; cases ha
      simp only [if_neg e]
      exact h.1 a ha
    · have e : a ≠ dst := fun e => hs (by subst e; exact List.mem_cons_self)
      simp only [if_neg e]
      exact h.2 a ha (by simp [e, hr]) (fun x => hs (List.mem_cons_of_mem _ x))
  | term => trivial

/-- program points at which a flag is about to be reset -/
def resets : Pc I → Bool
  | .rdFlag _ _ _ => true
  | .fReset _ _ => true
  | .idle => false
  | .putHdr _ _ _ _ => false
  | .putPl _ _ _ => false
  | .putWait _ => false
  | .putFlag _ => false
  | .rdHdr _ _ _ => false
  | .rdWait _ _ _ => false
  | .postSend _ _ => false
  | .postWait _ => false
  | .postFlag _ => false
  | .fCount _ _ _ => false
  | .fSend _ _ _ _ => false
  | .fWait _ _ _ => false
  | .fRet _ => false
  | .bar => false
  | .poll => false
  | .finBar => false
  | .finTerm => false
  | .finWait => false
  | .finDone => false
  | .aborted => false

/-- local steps of other threads only set flags, unless they are at a resetting point -/
theorem local_sets {c : Cfg I} {s : St I} {p t : Nat} {pc pc' : Pc I} {fl : Nat → Bool} (hl : Local c s p t pc pc' fl)
    (hr : resets pc = false) : ∀ d, fl d = false → s.flag p d = false := by
  cases hl with
  | putRet dst =>
    intro d hd
    by_cases e : d = dst
    · subst e; rw [Function.update_self] at hd; cases hd
    · rw [Function.update_of_ne e] at hd; exact hd
  | postRet dst =>
    intro d hd
    by_cases e : d = dst
    · subst e; rw [Function.update_self] at hd; cases hd
    · rw [Function.update_of_ne e] at hd; exact hd
  | reset pes d r => cases hr
  | putDone dst ho => exact fun _ h => h
  | callPost u dst hd ht => exact fun _ h => h
  | postDone dst ho => exact fun _ h => h
  | callFlush pes hd hn ht => exact fun _ h => h
  | count pes d r f => exact fun _ h => h
  | countNone pes => exact fun _ h => h
  | skip pes d r sent tag hf => exact fun _ h => h
  | sendEnd pes sent tag => exact fun _ h => h
  | waitEnd pes tag ho => exact fun _ h => h
  | resetEnd pes => exact fun _ h => h
  | flushRet pes => exact fun _ h => h
  | barDone ho ha => exact fun _ h => h
  | pollEnter ht => exact fun _ h => h
  | pollLeave ho => exact fun _ h => h
  | finBarDone ho ha => exact fun _ h => h
  | finStopped ha hd => exact fun _ h => h

theorem finish_infl {s : St I} {src t p a u d : Nat} (h : s.infl a u d = []) :
    set3 s.infl src t p (s.infl src t p).tail a u d = [] := by
  by_cases e : a = src ∧ u = t ∧ d = p
  · obtain ⟨rfl, rfl, rfl⟩ := e
    rw [set3_self, h]; rfl
  · rw [set3_ne _ _ e]; exact h

/-- `FlagOk` of thread `t` of PE `p` is kept by every step, if no other thread of `p` is about to reset a flag -/
theorem flag_step {c : Cfg I} {s s' : St I} {l : Lbl} (hI : Inv c s) (hs : Step c s l s') {p t : Nat}
    (h : FlagOk (s.pc p t) (s.flag p) (s.infl p t)) (hr : ∀ u, u ≠ t → resets (s.pc p u) = false) :
    FlagOk (s'.pc p t) (s'.flag p) (s'.infl p t) := by
  have hfin : ∀ src u q, FlagOk (s.pc p t) (s.flag p)
      (fun d => set3 s.infl src u q (s.infl src u q).tail p t d) :=
    fun src u q => h.mono (fun _ h => h) (fun d hd => finish_infl hd)
  cases hs with
  | loc a u hp pc' fl hl =>
    simp only
    by_cases e : a = p
    · subst e
      rw [Function.update_self]
      by_cases e : u = t
      · subst e
        rw [set2_self]
        exact flag_local hl h
      · rw [set2_ne _ _ (fun x => e x.2.symm)]
        exact h.mono (local_sets hl (hr u e)) (fun _ h => h)
    · rw [set2_ne _ _ (fun x => e x.1.symm), Function.update_of_ne (Ne.symm e)]
      exact h
  | alloc a u hp f ha hub =>
    simp only
    by_cases e : p = a ∧ t = u
    · obtain ⟨rfl, rfl⟩ := e
      rw [set2_self]
      exact flag_alloc ha h _
    · rw [set2_ne _ _ e]; exact h
  | allocFail a u hp f ha hub =>
    simp only
    by_cases e : p = a ∧ t = u
    · obtain ⟨rfl, rfl⟩ := e
      rw [set2_self]; trivial
    · rw [set2_ne _ _ e]; exact h
  | send a u hp dst m o pc' hs =>
    simp only
    by_cases e : p = a ∧ t = u
    · obtain ⟨rfl, rfl⟩ := e
      rw [set2_self]
      refine (flag_send hs h).mono (fun _ h => h) (fun d hd => ?_)
      by_cases e : d = dst
      · subst e
        rw [set3_self]
        rw [if_pos rfl] at hd
        exact hd
      · rw [set3_ne _ _ (fun x => e x.2.2)]
        rw [if_neg e] at hd
        exact hd
    · rw [set2_ne _ _ e]
      refine h.mono (fun _ h => h) (fun d hd => ?_)
      rw [set3_ne _ _ (fun x => e ⟨x.1, x.2.1⟩)]
      exact hd
  | reply a u hp q dst tag hpc ho k ha v hv =>
    simp only
    by_cases e : p = a ∧ t = u
    · obtain ⟨rfl, rfl⟩ := e
      rw [set2_self]
      have hw : await (s.pc p t) dst = some (.rd q, tag) := by rw [hpc]; simp [await]
      rw [hpc] at h
      intro d hd
      by_cases e : d = dst
      · subst e; exact (take_ack hI hw ha).1
      · exact h d e (hd.resolve_left e)
    · rw [set2_ne _ _ e]; exact h
  | replyBad a u hp q dst tag hpc k ha hv => exact h
  | rdRet a u hp dst q v hpc =>
    simp only
    by_cases e : p = a
    · subst e
      rw [Function.update_self]
      by_cases e : t = u
      · subst e
        rw [set2_self]
        rw [hpc] at h
        intro d hd
        by_cases e : d = dst
        · exact h d (Or.inl e)
        · rw [Function.update_of_ne e] at hd; exact h d (Or.inr hd)
      · have := hr u (Ne.symm e)
        rw [hpc] at this
        cases this
    · rw [set2_ne _ _ (fun x => e x.1), Function.update_of_ne e]
      exact h
  | flushAck a u hp pes pend tag d hpc hd ho k ha hv =>
    simp only
    by_cases e : p = a ∧ t = u
    · obtain ⟨rfl, rfl⟩ := e
      rw [set2_self]
      have hw : await (s.pc p t) d = some (.flush, tag) := by rw [hpc]; simp [await, hd]
      rw [hpc] at h
      refine ⟨h.1, fun x hx hn => ?_⟩
      by_cases e : x = d
      · subst e; exact (take_ack hI hw ha).1
      · exact h.2 x hx (fun hm => hn ((List.mem_erase_of_ne e).2 hm))
    · rw [set2_ne _ _ e]; exact h
  | flushBad a u hp pes pend tag d hpc hd k ha v hv => exact h
  | «match» a hp any hc src u m hm => exact h
  | start a hp o src u m hc ho => exact h
  | actPut a hp o src u d tag hc t' tag' x hm => exact hfin src u a
  | actPutBad a hp o src u d tag hc t' k hm => exact h
  | actRd a hp o src u q tag hc => exact hfin src u a
  | actPost a hp o src u x hc => exact hfin src u a
  | actFlush a hp o src u tag hc => exact hfin src u a
  | actTerm a hp o src u hc => exact hfin src u a
  | actBad a hp o src u tag x hc => exact h
  | bar a u hp ht hpc =>
    simp only
    by_cases e : p = a ∧ t = u
    · obtain ⟨rfl, rfl⟩ := e
      rw [set2_self]
      rw [hpc] at h
      exact h
    · rw [set2_ne _ _ e]; exact h
  | fin a u hp ht hpc =>
    simp only
    by_cases e : p = a ∧ t = u
    · obtain ⟨rfl, rfl⟩ := e
      rw [set2_self]
      rw [hpc] at h
      exact h
    · rw [set2_ne _ _ e]; exact h
  | finDrop a u hp hc hpc src t' m hm =>
    simp only
    by_cases e : p = a ∧ t = u
    · obtain ⟨rfl, rfl⟩ := e
      rw [set2_self]; trivial
    · rw [set2_ne _ _ e]; exact h
  | env a f => exact h

theorem flag_reach {c : Cfg I} {s : St I} {p t : Nat}
    (h : ReachP c (fun s => ∀ u, u ≠ t → resets (s.pc p u) = false) s) : FlagOk (s.pc p t) (s.flag p) (s.infl p t) := by
  induction h with
  | init _ => exact fun _ _ => rfl
  | step h hs _ ih => exact flag_step (inv_reach h.reach) hs ih h.prop

/-- threads that do not exist stay outside the library -/
theorem thr_step {c : Cfg I} {s s' : St I} {l : Lbl} (hs : Step c s l s') (h : ∀ p t, s.pc p t ≠ .idle → c.thr p t) :
    ∀ p t, s'.pc p t ≠ .idle → c.thr p t := by
  have key : ∀ (a u : Nat) (pc' : Pc I), c.thr a u → ∀ p t, set2 s.pc a u pc' p t ≠ .idle → c.thr p t := by
    intro a u pc' ht p t hne
    by_cases e : p = a ∧ t = u
    · obtain ⟨rfl, rfl⟩ := e; exact ht
    · rw [set2_ne _ _ e] at hne; exact h p t hne
  have keyI : ∀ (a u : Nat) (pc' : Pc I), s.pc a u ≠ .idle → ∀ p t, set2 s.pc a u pc' p t ≠ .idle → c.thr p t :=
    fun a u pc' hne => key a u pc' (h a u hne)
  have keyL : ∀ (a u : Nat) (pc pc' : Pc I) (fl : Nat → Bool), Local c s a u pc pc' fl → pc ≠ .idle ∨ c.thr a u := by
    intro a u pc pc' fl hl
    cases hl <;> first | exact Or.inr ‹_› | (left; intro e; cases e)
  have keyA : ∀ (a u : Nat) (pc : Pc I) (f : Nat → Pc I), Alloc c a u pc f → pc ≠ .idle ∨ c.thr a u := by
    intro a u pc f hl
    cases hl <;> first | exact Or.inr ‹_› | (left; intro e; cases e)
  have keyS : ∀ (a : Nat) (pc pc' : Pc I) (dst : Nat) (m : Msg I) (o : Option (Op I × Nat)), Send s a pc dst m o pc' → pc ≠ .idle := by
    intro a pc pc' dst m o hl
    cases hl <;> (intro e; cases e)
  cases hs with
  | loc a u hp pc' fl hl => exact (keyL _ _ _ _ _ hl).elim (keyI _ _ _) (key _ _ _)
  | alloc a u hp f ha hub => exact (keyA _ _ _ _ ha).elim (keyI _ _ _) (key _ _ _)
  | allocFail a u hp f ha hub => exact (keyA _ _ _ _ ha).elim (keyI _ _ _) (key _ _ _)
  | send a u hp dst m o pc' hs => exact keyI _ _ _ (keyS _ _ _ _ _ _ hs)
  | reply a u hp q dst tag hpc ho k ha v hv => exact keyI _ _ _ (by rw [hpc]; intro e; cases e)
  | replyBad a u hp q dst tag hpc k ha hv => exact h
  | rdRet a u hp dst q v hpc => exact keyI _ _ _ (by rw [hpc]; intro e; cases e)
  | flushAck a u hp pes pend tag d hpc hd ho k ha hv => exact keyI _ _ _ (by rw [hpc]; intro e; cases e)
  | flushBad a u hp pes pend tag d hpc hd k ha v hv => exact h
  | «match» a hp any hc src u m hm => exact h
  | start a hp o src u m hc ho => exact h
  | actPut a hp o src u d tag hc t' tag' x hm => exact h
  | actPutBad a hp o src u d tag hc t' k hm => exact h
  | actRd a hp o src u q tag hc => exact h
  | actPost a hp o src u x hc => exact h
  | actFlush a hp o src u tag hc => exact h
  | actTerm a hp o src u hc => exact h
  | actBad a hp o src u tag x hc => exact h
  | bar a u hp ht hpc => exact key _ _ _ ht
  | fin a u hp ht hpc => exact key _ _ _ ht
  | finDrop a u hp hc hpc src t' m hm => exact keyI _ _ _ (by rw [hpc]; intro e; cases e)
  | env a f => exact h

theorem thr_reach {c : Cfg I} {s : St I} (h : Reach c s) : ∀ p t, s.pc p t ≠ .idle → c.thr p t := by
  induction h with
  | init => exact fun p t hne => absurd rfl hne
  | step _ hs ih => exact thr_step hs ih

/-- a PE with one thread never has another one about to reset a flag -/
theorem single_reachP {c : Cfg I} {s : St I} {p t : Nat} (h1 : ∀ u, c.thr p u → u = t) (h : Reach c s) :
    ReachP c (fun s => ∀ u, u ≠ t → resets (s.pc p u) = false) s := by
  have key : ∀ s : St I, Reach c s → ∀ u, u ≠ t → resets (s.pc p u) = false := by
    intro s h u hu
    by_cases e : s.pc p u = .idle
    · rw [e]; rfl
    · exact absurd (h1 u (thr_reach h p u e)) hu
  induction h with
  | init => exact .init (key _ .init)
  | step h hs ih => exact .step ih hs (key _ (.step h hs))

end Verif.Am
