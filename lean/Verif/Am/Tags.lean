import Verif.Am.Flush
/-!
# Private tags, and what a replying operation has seen
-/
namespace Verif.Am
variable {I : Iface}

/-- what the tag a thread is about to send has to do with the tags in flight -/
def TagFresh (pc : Pc I) (inf : Nat → List (Op I × Nat)) : Prop :=
  match pc with
  | .putHdr _ _ _ tag => ∀ d, ∀ e ∈ inf d, e.1.tagged = true → e.2 < tag
  | .rdHdr _ _ tag => ∀ d, ∀ e ∈ inf d, e.1.tagged = true → e.2 < tag
  | .fSend _ rest sent tag => (rest ++ sent).Nodup ∧
      ∀ d, ∀ e ∈ inf d, e.1.tagged = true → e.2 < tag ∨ (e = (.flush, tag) ∧ d ∈ sent)
  | .idle => True
  | .putPl _ _ _ => True
  | .putWait _ => True
  | .putFlag _ => True
  | .rdWait _ _ _ => True
  | .rdFlag _ _ _ => True
  | .postSend _ _ => True
  | .postWait _ => True
  | .postFlag _ => True
  | .fCount _ _ _ => True
  | .fWait _ _ _ => True
  | .fReset _ _ => True
  | .fRet _ => True
  | .bar => True
  | .poll => True
  | .finBar => True
  | .finTerm => True
  | .finWait => True
  | .finDone => True
  | .aborted => True

/-- two entries of an in-flight list with private tags are in increasing order of tags -/
def Lt (e e' : Op I × Nat) : Prop := e.1.tagged = true → e'.1.tagged = true → e.2 < e'.2

/-- the tags in flight of one thread -/
structure TagInv (pc : Pc I) (inf : Nat → List (Op I × Nat)) : Prop where
  fresh : TagFresh pc inf
  order : ∀ d, (inf d).Pairwise Lt
  cross : ∀ d d', d ≠ d' → ∀ e ∈ inf d, ∀ e' ∈ inf d', e.1.tagged = true → e'.1.tagged = true → e.2 = e'.2 →
    e.1 = .flush ∧ e'.1 = .flush

theorem TagInv.sub {pc : Pc I} {inf inf' : Nat → List (Op I × Nat)} (h : TagInv pc inf)
    (hs : ∀ d, (inf' d).Sublist (inf d)) : TagInv pc inf' := by
  refine ⟨?_, fun d => (h.order d).sublist (hs d), ?_⟩
  · have := h.fresh
    cases pc <;> simp only [TagFresh] at this ⊢ <;> first
      | exact fun d e he => this d e ((hs d).subset he)
      | exact ⟨this.1, fun d e he => this.2 d e ((hs d).subset he)⟩
  · exact fun d d' hd e he e' he' => h.cross d d' hd e ((hs d).subset he) e' ((hs d').subset he')

/-- changing the program counter to one that is not about to send a tag -/
theorem TagInv.pc {pc pc' : Pc I} {inf : Nat → List (Op I × Nat)} (h : TagInv pc inf)
    (hs : TagFresh pc' inf) : TagInv pc' inf := ⟨hs, h.order, h.cross⟩

theorem tag_local {c : Cfg I} {s : St I} {p t : Nat} {pc pc' : Pc I} {fl : Nat → Bool} {inf : Nat → List (Op I × Nat)}
    (hl : Local c s p t pc pc' fl) (h : TagInv pc inf) : TagInv pc' inf := by
  apply h.pc
  cases hl with
  | skip pes d r sent tag hf =>
    have := h.fresh
    exact ⟨(List.nodup_cons.1 this.1).2, this.2⟩
  | putRet dst => trivial
  | postRet dst => trivial
  | reset pes d r => trivial
  | putDone dst ho => trivial
  | callPost u dst hd ht => trivial
  | postDone dst ho => trivial
  | callFlush pes hd hn ht => trivial
  | count pes d r f => trivial
  | countNone pes => trivial
  | sendEnd pes sent tag => trivial
  | waitEnd pes tag ho => trivial
  | resetEnd pes => trivial
  | flushRet pes => trivial
  | barDone ho ha => trivial
  | pollEnter ht => trivial
  | pollLeave ho => trivial
  | finBarDone ho ha => trivial
  | finStopped ha hd => trivial

theorem tag_alloc {c : Cfg I} {p t : Nat} {pc : Pc I} {f : Nat → Pc I} {inf : Nat → List (Op I × Nat)} {τ : Nat}
    (ha : Alloc c p t pc f) (hw : WfPc pc) (h : TagInv pc inf) (hlt : ∀ d, ∀ e ∈ inf d, e.1.tagged = true → e.2 < τ) :
    TagInv (f τ) inf := by
  apply h.pc
  cases ha with
  | put d x dst hd ht => exact hlt
  | rd q dst hd ht => exact hlt
  | flush pes =>
    refine ⟨by rw [List.append_nil]; exact hw, fun d e he ht => Or.inl (hlt d e he ht)⟩

/-- appending an operation whose tag is larger than the tags in flight, or equal to those of the same flush to other PEs -/
theorem tag_app {pc pc' : Pc I} {inf : Nat → List (Op I × Nat)} {dst : Nat} {e0 : Op I × Nat} (h : TagInv pc inf)
    (hf : TagFresh pc' (fun d => if d = dst then inf d ++ [e0] else inf d))
    (hlt : e0.1.tagged = true → ∀ d, ∀ e ∈ inf d, e.1.tagged = true → e.2 < e0.2 ∨ (e.1 = .flush ∧ e0.1 = .flush ∧ d ≠ dst)) :
    TagInv pc' (fun d => if d = dst then inf d ++ [e0] else inf d) := by
  refine ⟨hf, fun d => ?_, ?_⟩
  · by_cases e : d = dst
    · subst e
      simp only [if_true]
      rw [List.pairwise_append]
      refine ⟨h.order d, List.pairwise_singleton _ _, fun a ha b hb => ?_⟩
      cases List.mem_singleton.1 hb
      intro h1 h2
      rcases hlt h2 d a ha h1 with h3 | h3
      · exact h3
      · exact absurd rfl h3.2.2
    · simp only [if_neg e]
      exact h.order d
  · intro d d' hd e he e' he' h1 h2 h3
    by_cases e1 : d = dst
    · subst e1
      simp only [if_true] at he
      simp only [if_neg (Ne.symm hd)] at he'
      rcases List.mem_append.1 he with he | he
      · exact h.cross d d' hd e he e' he' h1 h2 h3
      · cases List.mem_singleton.1 he
        rcases hlt h1 d' e' he' h2 with h4 | h4
        · omega
        · exact ⟨h4.2.1, h4.1⟩
    · simp only [if_neg e1] at he
      by_cases e2 : d' = dst
      · subst e2
        simp only [if_true] at he'
        rcases List.mem_append.1 he' with he' | he'
        · exact h.cross d d' hd e he e' he' h1 h2 h3
        · cases List.mem_singleton.1 he'
          rcases hlt h2 d e he h1 with h4 | h4
          · omega
          · exact ⟨h4.1, h4.2.1⟩
      · simp only [if_neg e2] at he'
        exact h.cross d d' hd e he e' he' h1 h2 h3

theorem tag_send {s : St I} {p : Nat} {pc pc' : Pc I} {dst : Nat} {m : Msg I} {o : Option (Op I × Nat)}
    {inf : Nat → List (Op I × Nat)} (hs : Send s p pc dst m o pc') (h : TagInv pc inf) :
    TagInv pc' (fun d => if d = dst then inf d ++ optL o else inf d) := by
  cases hs with
  | putHdr d x dst tag =>
    refine tag_app h (by trivial) ?_
    intro _ d e he ht
    exact Or.inl (h.fresh d e he ht)
  | putPl x dst tag =>
    simp only [optL, List.append_nil, ite_self]
    exact h.pc trivial
  | rd q dst tag =>
    refine tag_app h (by trivial) ?_
    intro _ d e he ht
    exact Or.inl (h.fresh d e he ht)
  | post u dst =>
    refine tag_app h (by trivial) ?_
    intro ht
    cases ht
  | flush pes d r sent tag hf =>
    obtain ⟨hn, h2⟩ := h.fresh
    have hnd : dst ∉ r ++ sent := (List.nodup_cons.1 hn).1
    apply tag_app h
    · refine ⟨List.perm_middle.nodup_iff.2 hn, fun d e he ht => ?_⟩
      by_cases e1 : d = dst
      · subst e1
        simp only [if_true] at he
        rcases List.mem_append.1 he with he | he
        · rcases h2 d e he ht with h3 | h3
          · exact Or.inl h3
          · exact Or.inr ⟨h3.1, List.mem_cons_of_mem _ h3.2⟩
        · cases List.mem_singleton.1 he
          exact Or.inr ⟨rfl, List.mem_cons_self⟩
      · simp only [if_neg e1] at he
        rcases h2 d e he ht with h3 | h3
        · exact Or.inl h3
        · exact Or.inr ⟨h3.1, List.mem_cons_of_mem _ h3.2⟩
    · intro _ d e he ht
      rcases h2 d e he ht with h3 | h3
      · exact Or.inl h3
      · refine Or.inr ⟨by rw [h3.1], rfl, ?_⟩
        intro e1
        subst e1
        exact hnd (List.mem_append_right _ h3.2)
  | term =>
    refine tag_app h (by trivial) ?_
    intro ht
    cases ht

theorem finish_sub {s : St I} (src u q p t d : Nat) :
    (set3 s.infl src u q (s.infl src u q).tail p t d).Sublist (s.infl p t d) := by
  by_cases e : p = src ∧ t = u ∧ d = q
  · obtain ⟨rfl, rfl, rfl⟩ := e
    rw [set3_self]; exact List.tail_sublist _
  · rw [set3_ne _ _ e]; exact List.Sublist.refl _

theorem tag_step {c : Cfg I} {s s' : St I} {l : Lbl} (hI : Inv c s) (hs : Step c s l s')
    (h : ∀ p t, TagInv (s.pc p t) (s.infl p t)) : ∀ p t, TagInv (s'.pc p t) (s'.infl p t) := by
  have hpc : ∀ (a u : Nat) (pc' : Pc I), TagFresh pc' (s.infl a u) →
      ∀ p t, TagInv (set2 s.pc a u pc' p t) (s.infl p t) := by
    intro a u pc' hf p t
    by_cases e : p = a ∧ t = u
    · obtain ⟨rfl, rfl⟩ := e
      rw [set2_self]; exact (h p t).pc hf
    · rw [set2_ne _ _ e]; exact h p t
  have hfin : ∀ src u q p t, TagInv (s.pc p t) (fun d => set3 s.infl src u q (s.infl src u q).tail p t d) :=
    fun src u q p t => (h p t).sub (fun d => finish_sub src u q p t d)
  cases hs with
  | loc a u hp pc' fl hl => exact hpc a u pc' (tag_local hl (h a u)).fresh
  | alloc a u hp f ha hub =>
    apply hpc a u
    exact (tag_alloc ha (hI.wf a u) (h a u) (fun d e he ht => (hI.tagI a u d e he ht).2.1)).fresh
  | allocFail a u hp f ha hub => exact hpc a u _ trivial
  | send a u hp dst m o pc' hs =>
    intro p t
    simp only
    by_cases e : p = a ∧ t = u
    · obtain ⟨rfl, rfl⟩ := e
      rw [set2_self]
      have := tag_send hs (h p t)
      apply this.sub
      intro d
      by_cases e : d = dst
      · subst e; rw [set3_self, if_pos rfl]; exact List.Sublist.refl _
      · rw [set3_ne _ _ (fun x => e x.2.2), if_neg e]; exact List.Sublist.refl _
    · rw [set2_ne _ _ e]
      apply (h p t).sub
      intro d
      rw [set3_ne _ _ (fun x => e ⟨x.1, x.2.1⟩)]; exact List.Sublist.refl _
  | reply a u hp q dst tag hc ho k ha v hv => exact hpc a u _ trivial
  | replyBad a u hp q dst tag hc k ha hv => exact h
  | rdRet a u hp dst q v hc => exact hpc a u _ trivial
  | flushAck a u hp pes pend tag d hc hd ho k ha hv => exact hpc a u _ trivial
  | flushBad a u hp pes pend tag d hc hd k ha v hv => exact h
  | «match» a hp any hc src u m hm => exact h
  | start a hp o src u m hc ho => exact h
  | actPut a hp o src u d tag hc t' tag' x hm => exact hfin src u a
  | actPutBad a hp o src u d tag hc t' k hm => exact h
  | actRd a hp o src u q tag hc => exact hfin src u a
  | actPost a hp o src u x hc => exact hfin src u a
  | actFlush a hp o src u tag hc => exact hfin src u a
  | actTerm a hp o src u hc => exact hfin src u a
  | actBad a hp o src u tag x hc => exact h
  | bar a u hp ht hc => exact hpc a u _ trivial
  | fin a u hp ht hc => exact hpc a u _ trivial
  | finDrop a u hp hc hc' src t' m hm => exact hpc a u _ trivial
  | env a f => exact h

theorem tag_reach {c : Cfg I} {s : St I} (h : Reach c s) : ∀ p t, TagInv (s.pc p t) (s.infl p t) := by
  induction h with
  | init => exact fun p t => ⟨trivial, fun d => List.Pairwise.nil, fun d d' _ e he => by cases he⟩
  | step h hs ih => exact tag_step (inv_reach h) hs ih

/-- the counter stays below the bound -/
theorem ctr_reach {c : Cfg I} {s : St I} (h : Reach c s) : ∀ p, s.ctr p = 0 ∨ s.ctr p + ptagStart ≤ c.ub := by
  induction h with
  | init => exact fun p => Or.inl rfl
  | step h hs ih =>
    cases hs with
    | alloc a u hp f ha hub =>
      intro p
      simp only
      by_cases e : p = a
      · subst e
        right
        rw [Function.update_self]; omega
      · rw [Function.update_of_ne e]; exact ih p
    | loc a u hp pc' fl hl => exact ih
    | allocFail a u hp f ha hub => exact ih
    | send a u hp dst m o pc' hs => exact ih
    | reply a u hp q dst tag hc ho k ha v hv => exact ih
    | replyBad a u hp q dst tag hc k ha hv => exact ih
    | rdRet a u hp dst q v hc => exact ih
    | flushAck a u hp pes pend tag d hc hd ho k ha hv => exact ih
    | flushBad a u hp pes pend tag d hc hd k ha v hv => exact ih
    | «match» a hp any hc src u m hm => exact ih
    | start a hp o src u m hc ho => exact ih
    | actPut a hp o src u d tag hc t' tag' x hm => exact ih
    | actPutBad a hp o src u d tag hc t' k hm => exact ih
    | actRd a hp o src u q tag hc => exact ih
    | actPost a hp o src u x hc => exact ih
    | actFlush a hp o src u tag hc => exact ih
    | actTerm a hp o src u hc => exact ih
    | actBad a hp o src u tag x hc => exact ih
    | bar a u hp ht hc => exact ih
    | fin a u hp ht hc => exact ih
    | finDrop a u hp hc hc' src t' m hm => exact ih
    | env a f => exact ih

/-! ## The operation a thread is waiting for is the last it issued -/

/-- while a replying operation is pending or returning, it is the last one issued to that PE; when it returns nothing is in
flight -/
def RdOk (pc : Pc I) (iss : Nat → List (Op I)) (inf : Nat → List (Op I × Nat)) : Prop :=
  match pc with
  | .rdWait q dst _ => ∃ l, iss dst = l ++ [.rd q]
  | .rdFlag dst q _ => inf dst = [] ∧ ∃ l, iss dst = l ++ [.rd q]
  | .idle => True
  | .putHdr _ _ _ _ => True
  | .putPl _ _ _ => True
  | .putWait _ => True
  | .putFlag _ => True
  | .rdHdr _ _ _ => True
  | .postSend _ _ => True
  | .postWait _ => True
  | .postFlag _ => True
  | .fCount _ _ _ => True
  | .fSend _ _ _ _ => True
  | .fWait _ _ _ => True
  | .fReset _ _ => True
  | .fRet _ => True
  | .bar => True
  | .poll => True
  | .finBar => True
  | .finTerm => True
  | .finWait => True
  | .finDone => True
  | .aborted => True

theorem RdOk.mono {pc : Pc I} {iss : Nat → List (Op I)} {inf inf' : Nat → List (Op I × Nat)} (h : RdOk pc iss inf)
    (hi : ∀ d, inf d = [] → inf' d = []) : RdOk pc iss inf' := by
  cases pc <;> simp only [RdOk] at h ⊢ <;> first | trivial | exact h | exact ⟨hi _ h.1, h.2⟩

theorem rd_step {c : Cfg I} {s s' : St I} {l : Lbl} (hI : Inv c s) (hs : Step c s l s')
    (h : ∀ p t, RdOk (s.pc p t) (s.issued p t) (s.infl p t)) : ∀ p t, RdOk (s'.pc p t) (s'.issued p t) (s'.infl p t) := by
  have hpc : ∀ (a u : Nat) (pc' : Pc I), RdOk pc' (s.issued a u) (s.infl a u) →
      ∀ p t, RdOk (set2 s.pc a u pc' p t) (s.issued p t) (s.infl p t) := by
    intro a u pc' hf p t
    by_cases e : p = a ∧ t = u
    · obtain ⟨rfl, rfl⟩ := e
      rw [set2_self]; exact hf
    · rw [set2_ne _ _ e]; exact h p t
  have hfin : ∀ src u q p t, RdOk (s.pc p t) (s.issued p t) (fun d => set3 s.infl src u q (s.infl src u q).tail p t d) :=
    fun src u q p t => (h p t).mono (fun d hd => finish_infl hd)
  cases hs with
  | loc a u hp pc' fl hl =>
    apply hpc a u pc'
    generalize s.pc a u = pc at hl
    cases hl <;> trivial
  | alloc a u hp f ha hub =>
    apply hpc a u
    generalize s.pc a u = pc at ha
    cases ha <;> trivial
  | allocFail a u hp f ha hub => exact hpc a u _ trivial
  | send a u hp dst m o pc' hs =>
    intro p t
    simp only
    by_cases e : p = a ∧ t = u
    · obtain ⟨rfl, rfl⟩ := e
      rw [set2_self]
      generalize s.pc p t = pc at hs
      cases hs <;> first
        | trivial
        | (refine ⟨s.issued p t dst, ?_⟩
           rw [set3_self]
           rfl)
    · rw [set2_ne _ _ e]
      have h1 : set3 s.issued a u dst (s.issued a u dst ++ ((optL o).map (·.1)).filter Op.app) p t = s.issued p t := by
        funext d; exact set3_ne _ _ (fun x => e ⟨x.1, x.2.1⟩)
      have h2 : set3 s.infl a u dst (s.infl a u dst ++ optL o) p t = s.infl p t := by
        funext d; exact set3_ne _ _ (fun x => e ⟨x.1, x.2.1⟩)
      rw [h1, h2]
      exact h p t
  | reply a u hp q dst tag hc ho k ha v hv =>
    apply hpc a u
    have hw : await (s.pc a u) dst = some (.rd q, tag) := by rw [hc]; simp [await]
    have := h a u
    rw [hc] at this
    exact ⟨(take_ack hI hw ha).1, this⟩
  | replyBad a u hp q dst tag hc k ha hv => exact h
  | rdRet a u hp dst q v hc => exact hpc a u _ trivial
  | flushAck a u hp pes pend tag d hc hd ho k ha hv => exact hpc a u _ trivial
  | flushBad a u hp pes pend tag d hc hd k ha v hv => exact h
  | «match» a hp any hc src u m hm => exact h
  | start a hp o src u m hc ho => exact h
  | actPut a hp o src u d tag hc t' tag' x hm => exact hfin src u a
  | actPutBad a hp o src u d tag hc t' k hm => exact h
  | actRd a hp o src u q tag hc => exact hfin src u a
  | actPost a hp o src u x hc => exact hfin src u a
  | actFlush a hp o src u tag hc => exact hfin src u a
  | actTerm a hp o src u hc => exact hfin src u a
  | actBad a hp o src u tag x hc => exact h
  | bar a u hp ht hc => exact hpc a u _ trivial
  | fin a u hp ht hc => exact hpc a u _ trivial
  | finDrop a u hp hc hc' src t' m hm => exact hpc a u _ trivial
  | env a f => exact h

theorem rd_reach {c : Cfg I} {s : St I} (h : Reach c s) : ∀ p t, RdOk (s.pc p t) (s.issued p t) (s.infl p t) := by
  induction h with
  | init => exact fun p t => trivial
  | step h hs ih => exact rd_step (inv_reach h) hs ih

/-- splitting a log at the last operation of a thread -/
theorem opsOf_split {a t : Nat} {l : List (Ev I)} {L : List (Op I)} {o : Op I} (h : opsOf a t l = L ++ [o]) :
    ∃ l1 l2, l = l1 ++ .am a t o :: l2 ∧ opsOf a t l1 = L ∧ opsOf a t l2 = [] := by
  induction l generalizing L with
  | nil => simp [opsOf] at h
  | cons e l ih =>
    cases e with
    | env f =>
      obtain ⟨l1, l2, h1, h2, h3⟩ := ih (L := L) h
      exact ⟨.env f :: l1, l2, by rw [h1]; rfl, h2, h3⟩
    | am a' t' o' =>
      simp only [opsOf] at h
      split at h
      · rename_i hc
        obtain ⟨rfl, rfl⟩ := hc
        cases L with
        | nil =>
          simp only [List.nil_append, List.cons.injEq] at h
          obtain ⟨rfl, h⟩ := h
          exact ⟨[], l, rfl, rfl, h⟩
        | cons o1 L =>
          simp only [List.cons_append, List.cons.injEq] at h
          obtain ⟨rfl, h⟩ := h
          obtain ⟨l1, l2, h1, h2, h3⟩ := ih h
          refine ⟨.am a' t' o' :: l1, l2, by rw [h1]; rfl, ?_, h3⟩
          simp only [opsOf, and_self, if_true, h2]
      · rename_i hc
        obtain ⟨l1, l2, h1, h2, h3⟩ := ih h
        refine ⟨.am a' t' o' :: l1, l2, by rw [h1]; rfl, ?_, h3⟩
        simp only [opsOf, if_neg hc, h2]

theorem seqRets_none {a t : Nat} {l : List (Ev I)} (h : opsOf a t l = []) (m : I.σ) : seqRets a t m l = [] := by
  induction l generalizing m with
  | nil => rfl
  | cons e l ih =>
    cases e with
    | env f => exact ih h _
    | am a' t' o' =>
      simp only [opsOf] at h
      split at h
      · cases h
      · rename_i hc
        simp only [seqRets, if_neg hc, List.nil_append]
        exact ih h _

end Verif.Am
