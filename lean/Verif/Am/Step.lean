import Verif.Am.Inv
/-!
# The invariant is preserved
-/
namespace Verif.Am
variable {I : Iface}

theorem set2_self {β : Type} (f : Nat → Nat → β) (a b : Nat) (v : β) : set2 f a b v a b = v := by simp [set2]

theorem set2_ne {β : Type} (f : Nat → Nat → β) {a b x y : Nat} (v : β) (h : ¬ (x = a ∧ y = b)) : set2 f a b v x y = f x y := by
  simp only [set2, if_neg h]

theorem set3_self {β : Type} (f : Nat → Nat → Nat → β) (a b c : Nat) (v : β) : set3 f a b c v a b c = v := by simp [set3]

theorem set3_ne {β : Type} (f : Nat → Nat → Nat → β) {a b c x y z : Nat} (v : β) (h : ¬ (x = a ∧ y = b ∧ z = c)) :
    set3 f a b c v x y z = f x y z := by
  simp only [set3, if_neg h]

/-- only program counter of one thread, flags and barrier counts change -/
theorem inv_pc {c : Cfg I} {s : St I} (h : Inv c s) (p t : Nat) (pc' : Pc I) (fl : Nat → Nat → Bool) (en : Nat → Nat)
    (h1 : ∀ d, unsent pc' d = unsent (s.pc p t) d) (h2 : ∀ d, await pc' d = await (s.pc p t) d)
    (h3 : ∀ d, got pc' d = got (s.pc p t) d) (h4 : ∀ τ, pcTag pc' = some τ → TagOk s p t τ) (h5 : WfPc pc')
    (h6 : ¬ Owner s p t) : Inv c { s with pc := set2 s.pc p t pc', flag := fl, ent := en } := by
  refine ⟨h.notbad, ?_, h.iss, h.mem, h.tagI, ?_, h.tagA, ?_, ?_, ?_⟩
  · intro a u d hd
    by_cases e : a = p ∧ u = t
    · obtain ⟨rfl, rfl⟩ := e
      simp only [set2_self, h1]
      exact h.chan a u d hd
    · simp only [set2_ne _ _ e]
      exact h.chan a u d hd
  · intro a u τ
    by_cases e : a = p ∧ u = t
    · obtain ⟨rfl, rfl⟩ := e
      simp only [set2_self]
      exact h4 τ
    · simp only [set2_ne _ _ e]
      exact h.tagP a u τ
  · intro a u
    by_cases e : a = p ∧ u = t
    · obtain ⟨rfl, rfl⟩ := e
      simp only [set2_self]
      exact h5
    · simp only [set2_ne _ _ e]
      exact h.wf a u
  · intro a u d
    obtain ⟨pend, e1, e2⟩ := h.pend a u d
    refine ⟨pend, e1, ?_⟩
    by_cases e : a = p ∧ u = t
    · obtain ⟨rfl, rfl⟩ := e
      simp only [set2_self]
      unfold PendC at e2 ⊢
      rw [h2, h3]
      exact e2
    · simp only [set2_ne _ _ e]
      exact e2
  · intro q u ho
    by_cases e : q = p ∧ u = t
    · obtain ⟨rfl, rfl⟩ := e
      exact absurd ho h6
    · simp only [set2_ne _ _ e]
      exact h.own q u ho

/-- taking a tag -/
theorem inv_alloc {c : Cfg I} {s : St I} (h : Inv c s) (p t : Nat) :
    Inv c { s with ctr := Function.update s.ctr p (s.ctr p + 1), own := set2 s.own p (s.ctr p + ptagStart) t } := by
  have hle : ∀ a, s.ctr a ≤ Function.update s.ctr p (s.ctr p + 1) a := by
    intro a
    by_cases e : a = p
    · subst e; rw [Function.update_self]; omega
    · rw [Function.update_of_ne e]; exact Nat.le_refl _
  have hok : ∀ a u τ, TagOk s a u τ →
      TagOk { s with ctr := Function.update s.ctr p (s.ctr p + 1), own := set2 s.own p (s.ctr p + ptagStart) t } a u τ := by
    intro a u τ ⟨k1, k2, k3⟩
    refine ⟨k1, ?_, ?_⟩
    · have := hle a
      show τ < Function.update s.ctr p (s.ctr p + 1) a + ptagStart
      omega
    · show set2 s.own p (s.ctr p + ptagStart) t a τ = u
      rw [set2_ne _ _ (by rintro ⟨rfl, rfl⟩; omega)]
      exact k3
  refine ⟨h.notbad, h.chan, h.iss, h.mem, ?_, ?_, ?_, h.wf, ?_, h.own⟩
  · intro a u d e he ht
    exact hok _ _ _ (h.tagI a u d e he ht)
  · intro a u τ ht
    exact hok _ _ _ (h.tagP a u τ ht)
  · intro d a k hk
    have := h.tagA d a k hk
    have := hle a
    show k.tag < Function.update s.ctr p (s.ctr p + 1) a + ptagStart
    omega
  · intro a u d
    obtain ⟨pend, e1, e2⟩ := h.pend a u d
    refine ⟨pend, e1, ?_⟩
    have : acks { s with ctr := Function.update s.ctr p (s.ctr p + 1), own := set2 s.own p (s.ctr p + ptagStart) t } a u d
        = acks s a u d := by
      unfold acks
      apply List.filter_congr
      intro k hk
      have := h.tagA d a k hk
      show (set2 s.own p (s.ctr p + ptagStart) t a k.tag == u) = _
      rw [set2_ne _ _ (by rintro ⟨rfl, e⟩; omega)]
    rw [this]
    exact e2

theorem inv_dead {c : Cfg I} {s : St I} (h : Inv c s) (p : Nat) : Inv c { s with cb := Function.update s.cb p .dead } := by
  refine ⟨h.notbad, ?_, h.iss, h.mem, h.tagI, h.tagP, h.tagA, h.wf, h.pend, ?_⟩
  · intro a t d hd
    by_cases e : d = p
    · subst e; exact absurd (Function.update_self _ _ _) hd
    · simp only [Function.update_of_ne e] at hd ⊢
      exact h.chan a t d hd
  · rintro q t ⟨a, b, m, e⟩
    by_cases e' : q = p
    · subst e'
      simp only [Function.update_self] at e
      cases e
    · simp only [Function.update_of_ne e'] at e
      exact h.own q t ⟨a, b, m, e⟩

/-- `Owner` needs a waiting program counter -/
theorem not_owner {c : Cfg I} {s : St I} (h : Inv c s) {p t : Nat} (hw : waiting (s.pc p t) = false) : ¬ Owner s p t := by
  intro ho
  have := h.own p t ho
  rw [hw] at this
  cases this

theorem local_facts {c : Cfg I} {s : St I} {p t : Nat} {pc pc' : Pc I} {fl : Nat → Bool} (hl : Local c s p t pc pc' fl)
    (hw : WfPc pc) :
    (∀ d, unsent pc' d = unsent pc d) ∧ (∀ d, await pc' d = await pc d) ∧ (∀ d, got pc' d = got pc d) ∧
    (pcTag pc' = none ∨ pcTag pc' = pcTag pc) ∧ WfPc pc' ∧ (waiting pc = true → ¬ Owner s p t) := by
  cases hl with
  | putDone dst h => exact ⟨fun _ => rfl, fun _ => rfl, fun _ => rfl, Or.inl rfl, trivial, fun _ => h⟩
  | putRet dst => exact ⟨fun _ => rfl, fun _ => rfl, fun _ => rfl, Or.inl rfl, trivial, fun h => by cases h⟩
  | callPost u dst hd ht => exact ⟨fun _ => rfl, fun _ => rfl, fun _ => rfl, Or.inl rfl, trivial, fun h => by cases h⟩
  | postDone dst h => exact ⟨fun _ => rfl, fun _ => rfl, fun _ => rfl, Or.inl rfl, trivial, fun _ => h⟩
  | postRet dst => exact ⟨fun _ => rfl, fun _ => rfl, fun _ => rfl, Or.inl rfl, trivial, fun h => by cases h⟩
  | callFlush pes hd hn ht => exact ⟨fun _ => rfl, fun _ => rfl, fun _ => rfl, Or.inl rfl, hn, fun h => by cases h⟩
  | count pes d r f => exact ⟨fun _ => rfl, fun _ => rfl, fun _ => rfl, Or.inl rfl, hw, fun h => by cases h⟩
  | countNone pes => exact ⟨fun _ => rfl, fun _ => rfl, fun _ => rfl, Or.inl rfl, trivial, fun h => by cases h⟩
  | skip pes d r sent tag h =>
    refine ⟨fun _ => rfl, fun _ => rfl, fun _ => rfl, Or.inr rfl, ?_, fun h => by cases h⟩
    exact (List.nodup_cons.1 hw).2
  | sendEnd pes sent tag => exact ⟨fun _ => rfl, fun _ => rfl, fun _ => rfl, Or.inr rfl, hw, fun h => by cases h⟩
  | waitEnd pes tag h =>
    refine ⟨fun _ => rfl, fun d => ?_, fun _ => rfl, Or.inl rfl, trivial, fun _ => h⟩
    simp [await]
  | reset pes d r => exact ⟨fun _ => rfl, fun _ => rfl, fun _ => rfl, Or.inl rfl, trivial, fun h => by cases h⟩
  | resetEnd pes => exact ⟨fun _ => rfl, fun _ => rfl, fun _ => rfl, Or.inl rfl, trivial, fun h => by cases h⟩
  | flushRet pes => exact ⟨fun _ => rfl, fun _ => rfl, fun _ => rfl, Or.inl rfl, trivial, fun h => by cases h⟩
  | barDone h ha => exact ⟨fun _ => rfl, fun _ => rfl, fun _ => rfl, Or.inl rfl, trivial, fun _ => h⟩
  | pollEnter ht => exact ⟨fun _ => rfl, fun _ => rfl, fun _ => rfl, Or.inl rfl, trivial, fun h => by cases h⟩
  | pollLeave h => exact ⟨fun _ => rfl, fun _ => rfl, fun _ => rfl, Or.inl rfl, trivial, fun _ => h⟩
  | finBarDone h ha => exact ⟨fun _ => rfl, fun _ => rfl, fun _ => rfl, Or.inl rfl, trivial, fun _ => h⟩
  | finStopped ha h => exact ⟨fun _ => rfl, fun _ => rfl, fun _ => rfl, Or.inl rfl, trivial, fun h => by cases h⟩

theorem inv_local {c : Cfg I} {s : St I} (h : Inv c s) {p t : Nat} {pc' : Pc I} {fl : Nat → Bool}
    (hl : Local c s p t (s.pc p t) pc' fl) :
    Inv c { s with pc := set2 s.pc p t pc', flag := Function.update s.flag p fl } := by
  obtain ⟨h1, h2, h3, h4, h5, h6⟩ := local_facts hl (h.wf p t)
  apply inv_pc h p t pc' _ s.ent h1 h2 h3 _ h5
  · by_cases hw : waiting (s.pc p t) = true
    · exact h6 hw
    · exact not_owner h (by simpa using hw)
  · intro τ hτ
    rcases h4 with h4 | h4
    · rw [h4] at hτ; cases hτ
    · rw [h4] at hτ; exact h.tagP p t τ hτ

theorem alloc_facts {c : Cfg I} {p t : Nat} {pc : Pc I} {f : Nat → Pc I} (ha : Alloc c p t pc f) (hw : WfPc pc) :
    waiting pc = false ∧ (∀ d, unsent pc d = []) ∧ (∀ d, await pc d = none) ∧ (∀ d, got pc d = []) ∧
    ∀ τ, (∀ d, unsent (f τ) d = []) ∧ (∀ d, await (f τ) d = none) ∧ (∀ d, got (f τ) d = []) ∧ pcTag (f τ) = some τ ∧
      WfPc (f τ) := by
  cases ha with
  | put d x dst hd ht =>
    exact ⟨rfl, fun _ => rfl, fun _ => rfl, fun _ => rfl, fun τ => ⟨fun _ => rfl, fun _ => rfl, fun _ => rfl, rfl, trivial⟩⟩
  | rd q dst hd ht =>
    exact ⟨rfl, fun _ => rfl, fun _ => rfl, fun _ => rfl, fun τ => ⟨fun _ => rfl, fun _ => rfl, fun _ => rfl, rfl, trivial⟩⟩
  | flush pes =>
    refine ⟨rfl, fun _ => rfl, fun _ => rfl, fun _ => rfl, fun τ => ⟨fun _ => rfl, fun _ => ?_, fun _ => rfl, rfl, ?_⟩⟩
    · simp [await]
    · show (pes ++ []).Nodup
      rw [List.append_nil]
      exact hw

theorem inv_allocStep {c : Cfg I} {s : St I} (h : Inv c s) {p t : Nat} {f : Nat → Pc I} (ha : Alloc c p t (s.pc p t) f) :
    Inv c { s with pc := set2 s.pc p t (f (s.ctr p + ptagStart)), ctr := Function.update s.ctr p (s.ctr p + 1),
                   own := set2 s.own p (s.ctr p + ptagStart) t } := by
  obtain ⟨k0, k1, k2, k3, k4⟩ := alloc_facts ha (h.wf p t)
  obtain ⟨l1, l2, l3, l4, l5⟩ := k4 (s.ctr p + ptagStart)
  have := inv_pc (inv_alloc h p t) p t (f (s.ctr p + ptagStart)) s.flag s.ent
  apply this
  · intro d; rw [l1, k1]
  · intro d; rw [l2, k2]
  · intro d; rw [l3, k3]
  · intro τ hτ
    rw [l4] at hτ
    cases hτ
    refine ⟨Nat.le_add_left _ _, ?_, set2_self _ _ _ _⟩
    show _ < Function.update s.ctr p (s.ctr p + 1) p + ptagStart
    rw [Function.update_self]
    omega
  · exact l5
  · exact not_owner h k0

theorem inv_allocFail {c : Cfg I} {s : St I} (h : Inv c s) {p t : Nat} {f : Nat → Pc I} (ha : Alloc c p t (s.pc p t) f) :
    Inv c { s with pc := set2 s.pc p t .aborted } := by
  obtain ⟨k0, k1, k2, k3, _⟩ := alloc_facts ha (h.wf p t)
  apply inv_pc h p t .aborted s.flag s.ent
  · intro d; rw [k1]; rfl
  · intro d; rw [k2]; rfl
  · intro d; rw [k3]; rfl
  · intro τ hτ; cases hτ
  · trivial
  · exact not_owner h k0

theorem send_facts {s : St I} {p : Nat} {pc pc' : Pc I} {dst : Nat} {m : Msg I} {o : Option (Op I × Nat)}
    (hs : Send s p pc dst m o pc') (hw : WfPc pc) :
    (∀ d, (if d = dst then [m] else []) ++ unsent pc' d = unsent pc d ++ (if d = dst then (optL o).flatMap enc else [])) ∧
    (pcTag pc' = none ∨ pcTag pc' = pcTag pc) ∧ (∀ e ∈ optL o, e.1.tagged = true → pcTag pc = some e.2) ∧ WfPc pc' ∧
    waiting pc = false ∧
    ∀ d infl ks pend, PendC pc infl ks d pend → PendC pc' (if d = dst then infl ++ optL o else infl) ks d pend := by
  cases hs with
  | putHdr d x dst tag =>
    refine ⟨?_, Or.inr rfl, ?_, trivial, rfl, ?_⟩
    · intro d'; by_cases e : d' = dst <;> simp [e, unsent, optL, enc]
    · intro e he ht; cases List.mem_singleton.1 he; rfl
    · intro d' infl ks pend hp
      simp only [PendC, await, got] at hp ⊢
      refine ⟨?_, hp.2⟩
      intro e he
      split at he
      · rcases List.mem_append.1 he with he | he
        · exact hp.1 e he
        · cases List.mem_singleton.1 he; rfl
      · exact hp.1 e he
  | putPl x dst tag =>
    refine ⟨?_, Or.inl rfl, ?_, trivial, rfl, ?_⟩
    · intro d'; by_cases e : d' = dst <;> simp [e, unsent, optL]
    · intro e he ht; cases he
    · intro d' infl ks pend hp
      simp only [optL, List.append_nil, ite_self]
      exact hp
  | rd q dst tag =>
    refine ⟨?_, Or.inr rfl, ?_, trivial, rfl, ?_⟩
    · intro d'; by_cases e : d' = dst <;> simp [e, unsent, optL, enc]
    · intro e he ht; cases List.mem_singleton.1 he; rfl
    · intro d' infl ks pend hp
      simp only [PendC, await, got] at hp ⊢
      by_cases e : d' = dst
      · simp only [e, if_true]
        exact Or.inl ⟨infl, rfl, hp⟩
      · simp only [if_neg e]
        exact hp
  | post u dst =>
    refine ⟨?_, Or.inl rfl, ?_, trivial, rfl, ?_⟩
    · intro d'; by_cases e : d' = dst <;> simp [e, unsent, optL, enc]
    · intro e he ht; cases List.mem_singleton.1 he; cases ht
    · intro d' infl ks pend hp
      simp only [PendC, await, got] at hp ⊢
      refine ⟨?_, hp.2⟩
      intro e he
      split at he
      · rcases List.mem_append.1 he with he | he
        · exact hp.1 e he
        · cases List.mem_singleton.1 he; rfl
      · exact hp.1 e he
  | flush pes d r sent tag h =>
    have hnd : dst ∉ sent := by
      have : dst ∉ r ++ sent := (List.nodup_cons.1 hw).1
      intro hd
      exact this (List.mem_append_right _ hd)
    refine ⟨?_, Or.inr rfl, ?_, ?_, rfl, ?_⟩
    · intro d'; by_cases e : d' = dst <;> simp [e, unsent, optL, enc]
    · intro e he ht; cases List.mem_singleton.1 he; rfl
    · show (r ++ dst :: sent).Nodup
      exact (List.perm_middle.nodup_iff).2 hw
    · intro d' infl ks pend hp
      simp only [PendC, await, got] at hp ⊢
      by_cases e : d' = dst
      · subst e
        rw [if_neg hnd] at hp
        simp only [if_true, List.mem_cons, true_or]
        exact Or.inl ⟨infl, rfl, hp⟩
      · simp only [List.mem_cons, e, false_or, if_false]
        exact hp
  | term =>
    refine ⟨?_, Or.inl rfl, ?_, trivial, rfl, ?_⟩
    · intro d'; by_cases e : d' = p <;> simp [e, unsent, optL, enc]
    · intro e he ht; cases List.mem_singleton.1 he; cases ht
    · intro d' infl ks pend hp
      simp only [PendC, await, got] at hp ⊢
      refine ⟨?_, hp.2⟩
      intro e he
      split at he
      · rcases List.mem_append.1 he with he | he
        · exact hp.1 e he
        · cases List.mem_singleton.1 he; rfl
      · exact hp.1 e he

theorem inv_send {c : Cfg I} {s : St I} (h : Inv c s) {p t dst : Nat} {m : Msg I} {o : Option (Op I × Nat)} {pc' : Pc I}
    (hs : Send s p (s.pc p t) dst m o pc') :
    Inv c { s with pc := set2 s.pc p t pc'
                   chan := set3 s.chan p t dst (s.chan p t dst ++ [m])
                   infl := set3 s.infl p t dst (s.infl p t dst ++ optL o)
                   issued := set3 s.issued p t dst (s.issued p t dst ++ ((optL o).map (·.1)).filter Op.app) } := by
  obtain ⟨k1, k2, k3, k4, k5, k6⟩ := send_facts hs (h.wf p t)
  refine ⟨h.notbad, ?_, ?_, h.mem, ?_, ?_, h.tagA, ?_, ?_, ?_⟩
  · intro a u d hd
    have hi := h.chan a u d hd
    simp only
    by_cases e : a = p ∧ u = t
    · obtain ⟨rfl, rfl⟩ := e
      rw [set2_self]
      have k := k1 d
      by_cases e : d = dst
      · subst e
        rw [if_pos rfl, if_pos rfl] at k
        rw [set3_self, set3_self, List.flatMap_append, ← hi]
        simp only [List.append_assoc]
        rw [k]
      · rw [if_neg e, if_neg e, List.append_nil, List.nil_append] at k
        rw [set3_ne _ _ (fun x => e x.2.2), set3_ne _ _ (fun x => e x.2.2), k]
        exact hi
    · rw [set2_ne _ _ e, set3_ne _ _ (fun x => e ⟨x.1, x.2.1⟩), set3_ne _ _ (fun x => e ⟨x.1, x.2.1⟩)]
      exact hi
  · intro a u d
    have hi := h.iss a u d
    simp only
    by_cases e : a = p ∧ u = t ∧ d = dst
    · obtain ⟨rfl, rfl, rfl⟩ := e
      rw [set3_self, set3_self, hi, List.map_append, List.filter_append, List.append_assoc]
    · rw [set3_ne _ _ e, set3_ne _ _ e]
      exact hi
  · intro a u d e he ht
    simp only at he
    by_cases e' : a = p ∧ u = t ∧ d = dst
    · obtain ⟨rfl, rfl, rfl⟩ := e'
      rw [set3_self] at he
      rcases List.mem_append.1 he with he | he
      · exact h.tagI _ _ _ e he ht
      · exact h.tagP _ _ _ (k3 e he ht)
    · rw [set3_ne _ _ e'] at he
      exact h.tagI a u d e he ht
  · intro a u τ hτ
    simp only at hτ
    by_cases e : a = p ∧ u = t
    · obtain ⟨rfl, rfl⟩ := e
      rw [set2_self] at hτ
      rcases k2 with k2 | k2
      · rw [k2] at hτ; cases hτ
      · rw [k2] at hτ; exact h.tagP _ _ _ hτ
    · rw [set2_ne _ _ e] at hτ
      exact h.tagP a u τ hτ
  · intro a u
    simp only
    by_cases e : a = p ∧ u = t
    · obtain ⟨rfl, rfl⟩ := e
      rw [set2_self]; exact k4
    · rw [set2_ne _ _ e]; exact h.wf a u
  · intro a u d
    obtain ⟨pend, e1, e2⟩ := h.pend a u d
    refine ⟨pend, e1, ?_⟩
    simp only
    by_cases e : a = p ∧ u = t
    · obtain ⟨rfl, rfl⟩ := e
      have := k6 d _ _ _ e2
      rw [set2_self]
      by_cases e : d = dst
      · subst e
        rw [if_pos rfl] at this
        rw [set3_self]
        exact this
      · rw [if_neg e] at this
        rw [set3_ne _ _ (fun x => e x.2.2)]
        exact this
    · rw [set2_ne _ _ e, set3_ne _ _ (fun x => e ⟨x.1, x.2.1⟩)]
      exact e2
  · intro q u ho
    simp only
    by_cases e : q = p ∧ u = t
    · obtain ⟨rfl, rfl⟩ := e
      exact absurd ho (not_owner h k5)
    · rw [set2_ne _ _ e]; exact h.own q u ho

/-- receiving an acknowledgement with the tag the thread is waiting for, from the PE it is waiting for -/
theorem take_ack {c : Cfg I} {s : St I} (h : Inv c s) {p t d tag : Nat} {o : Op I} {a : Ack I}
    (hw : await (s.pc p t) d = some (o, tag)) (ha : (s.ack d p).find? (fun a => a.tag == tag) = some a) :
    s.infl p t d = [] ∧
    ((s.ack d p).eraseP (fun a => a.tag == tag)).filter (fun k => s.own p k.tag == t) = [] ∧
    (∀ u, u ≠ t → ((s.ack d p).eraseP (fun a => a.tag == tag)).filter (fun k => s.own p k.tag == u) = acks s p u d) ∧
    ((o = .flush ∧ a.val = none ∧ seqRets p t (c.mem₀ d) (s.log d) = s.rets p t d) ∨
      ∃ q v, o = .rd q ∧ a.val = some v ∧ seqRets p t (c.mem₀ d) (s.log d) = s.rets p t d ++ [(q, v)]) := by
  have htag := (h.tagP p t tag (await_tag hw)).2.2
  have hQP : ∀ y : Ack I, (y.tag == tag) = true → (s.own p y.tag == t) = true := by
    intro y hy
    rw [beq_iff_eq] at hy ⊢
    rw [hy]; exact htag
  obtain ⟨pend, e1, e2⟩ := h.pend p t d
  unfold PendC at e2
  rw [hw] at e2
  simp only at e2
  rcases e2 with ⟨l, hl, _, hk, _⟩ | ⟨hi, e2⟩
  · exfalso
    have hm : a ∈ acks s p t d :=
      List.mem_filter.2 ⟨List.mem_of_find?_eq_some ha, hQP a (List.find?_some (p := fun a : Ack I => a.tag == tag) ha)⟩
    rw [hk] at hm
    cases hm
  · have hother : ∀ u, u ≠ t →
        ((s.ack d p).eraseP (fun a => a.tag == tag)).filter (fun k => s.own p k.tag == u) = acks s p u d := by
      intro u hu
      apply erase_filter_other
      intro y hy
      have := hQP y hy
      rw [beq_iff_eq] at this
      rw [this]
      simpa using fun h => hu h.symm
    rcases e2 with ⟨ho, hk, hp⟩ | ⟨q, v, ho, hk, hp⟩
    · obtain ⟨rfl, h2⟩ := erase_filter_one hQP hk ha
      refine ⟨hi, h2, hother, Or.inl ⟨ho, rfl, ?_⟩⟩
      rw [e1, hp, List.append_nil]
    · obtain ⟨rfl, h2⟩ := erase_filter_one hQP hk ha
      refine ⟨hi, h2, hother, Or.inr ⟨q, v, ho, rfl, ?_⟩⟩
      rw [e1, hp]

/-- the thread leaves the waiting state for `d` -/
theorem inv_ack {c : Cfg I} {s : St I} (h : Inv c s) {p t d tag : Nat} {o : Op I} {a : Ack I} {pc' : Pc I}
    (hw : await (s.pc p t) d = some (o, tag)) (ha : (s.ack d p).find? (fun a => a.tag == tag) = some a)
    (hno : ¬ Owner s p t) (h0 : ∀ d', unsent (s.pc p t) d' = []) (h1 : ∀ d', unsent pc' d' = [])
    (h2 : ∀ d', d' ≠ d → await pc' d' = await (s.pc p t) d' ∧ got pc' d' = got (s.pc p t) d')
    (h3 : await pc' d = none) (h4 : seqRets p t (c.mem₀ d) (s.log d) = s.rets p t d ++ got pc' d)
    (h5 : ∀ τ, pcTag pc' = some τ → τ = tag) (h6 : WfPc pc') :
    Inv c { s with pc := set2 s.pc p t pc', ack := set2 s.ack d p ((s.ack d p).eraseP (fun a => a.tag == tag)) } := by
  obtain ⟨k1, k2, k3, _⟩ := take_ack h hw ha
  refine ⟨h.notbad, ?_, h.iss, h.mem, h.tagI, ?_, ?_, ?_, ?_, ?_⟩
  · intro a u d' hd
    simp only
    by_cases e : a = p ∧ u = t
    · obtain ⟨rfl, rfl⟩ := e
      have := h.chan a u d' hd
      rw [set2_self, h1, ← h0 d']
      exact this
    · rw [set2_ne _ _ e]
      exact h.chan a u d' hd
  · intro a u τ hτ
    simp only at hτ
    by_cases e : a = p ∧ u = t
    · obtain ⟨rfl, rfl⟩ := e
      rw [set2_self] at hτ
      rw [h5 τ hτ]
      exact h.tagP a u tag (await_tag hw)
    · rw [set2_ne _ _ e] at hτ
      exact h.tagP a u τ hτ
  · intro d' a k hk
    simp only at hk
    by_cases e : d' = d ∧ a = p
    · obtain ⟨rfl, rfl⟩ := e
      rw [set2_self] at hk
      exact h.tagA _ _ k (List.mem_of_mem_eraseP hk)
    · rw [set2_ne _ _ e] at hk
      exact h.tagA _ _ k hk
  · intro a u
    simp only
    by_cases e : a = p ∧ u = t
    · obtain ⟨rfl, rfl⟩ := e
      rw [set2_self]; exact h6
    · rw [set2_ne _ _ e]; exact h.wf a u
  · intro a u d'
    obtain ⟨pend, e1, e2⟩ := h.pend a u d'
    -- acknowledgements of everybody else are unchanged
    have hacks : ¬ (a = p ∧ u = t ∧ d' = d) →
        acks { s with pc := set2 s.pc p t pc', ack := set2 s.ack d p ((s.ack d p).eraseP (fun a => a.tag == tag)) } a u d'
          = acks s a u d' := by
      intro hne
      show (set2 s.ack d p ((s.ack d p).eraseP (fun a => a.tag == tag)) d' a).filter (fun k => s.own a k.tag == u) = _
      by_cases e : d' = d ∧ a = p
      · obtain ⟨rfl, rfl⟩ := e
        rw [set2_self]
        exact k3 u (fun e => hne ⟨rfl, e, rfl⟩)
      · rw [set2_ne _ _ e]
        rfl
    by_cases e : a = p ∧ u = t
    · obtain ⟨rfl, rfl⟩ := e
      by_cases e' : d' = d
      · subst e'
        refine ⟨got pc' d', h4, ?_⟩
        simp only [set2_self]
        unfold PendC
        rw [h3]
        refine ⟨?_, ?_, rfl⟩
        · rw [k1]; intro e he; cases he
        · show (set2 s.ack d' a _ d' a).filter (fun k => s.own a k.tag == u) = _
          rw [set2_self]
          exact k2
      · refine ⟨pend, e1, ?_⟩
        rw [hacks (fun x => e' x.2.2)]
        simp only [set2_self]
        unfold PendC at e2 ⊢
        rw [(h2 d' e').1, (h2 d' e').2]
        exact e2
    · refine ⟨pend, e1, ?_⟩
      rw [hacks (fun x => e ⟨x.1, x.2.1⟩)]
      simp only [set2_ne _ _ e]
      exact e2
  · intro q u ho
    simp only
    by_cases e : q = p ∧ u = t
    · obtain ⟨rfl, rfl⟩ := e
      exact absurd ho hno
    · rw [set2_ne _ _ e]; exact h.own q u ho

theorem inv_match {c : Cfg I} {s : St I} (h : Inv c s) {p src t : Nat} {any : Bool} {m : Msg I} (hc : s.cb p = .posted any)
    (hm : (s.chan src t p).find? (fits any pktTag) = some m) :
    Inv c { s with cb := Function.update s.cb p (.matched src t m)
                   chan := set3 s.chan src t p ((s.chan src t p).eraseP (fits any pktTag)) } := by
  obtain ⟨k, _, hk⟩ := matchable h hc hm
  refine ⟨h.notbad, ?_, h.iss, h.mem, h.tagI, h.tagP, h.tagA, h.wf, h.pend, ?_⟩
  · intro a u d hd
    simp only at hd ⊢
    by_cases e : d = p
    · subst e
      have hi := h.chan a u d (by rw [hc]; intro h; cases h)
      rw [hc] at hi
      simp only [hdrAt, List.nil_append] at hi
      rw [Function.update_self]
      simp only [hdrAt]
      by_cases e : src = a ∧ t = u
      · obtain ⟨rfl, rfl⟩ := e
        rw [if_pos ⟨rfl, rfl⟩, set3_self, ← hi]
        rw [hk]
        simp
        rw [← hk]
      · rw [if_neg e, set3_ne _ _ (fun x => e ⟨x.1.symm, x.2.1.symm⟩)]
        exact hi
    · rw [Function.update_of_ne e] at hd ⊢
      rw [set3_ne _ _ (fun x => e x.2.2)]
      exact h.chan a u d hd
  · rintro q u ⟨a, b, m', e⟩
    simp only at e
    by_cases e' : q = p
    · subst e'
      rw [Function.update_self] at e
      cases e
    · rw [Function.update_of_ne e'] at e
      exact h.own q u ⟨a, b, m', e⟩

theorem inv_start {c : Cfg I} {s : St I} (h : Inv c s) {p src t : Nat} {o : Option Nat} {m : Msg I}
    (hc : s.cb p = .matched src t m) (ho : ∀ u, o = some u → waiting (s.pc p u) = true) :
    Inv c { s with cb := Function.update s.cb p (.handling o src t m) } := by
  refine ⟨h.notbad, ?_, h.iss, h.mem, h.tagI, h.tagP, h.tagA, h.wf, h.pend, ?_⟩
  · intro a u d hd
    simp only at hd ⊢
    by_cases e : d = p
    · subst e
      have hi := h.chan a u d (by rw [hc]; intro h; cases h)
      rw [hc] at hi
      rw [Function.update_self]
      exact hi
    · rw [Function.update_of_ne e] at hd ⊢
      exact h.chan a u d hd
  · rintro q u ⟨a, b, m', e⟩
    simp only at e
    by_cases e' : q = p
    · subst e'
      rw [Function.update_self] at e
      cases e
      exact ho u rfl
    · rw [Function.update_of_ne e'] at e
      exact h.own q u ⟨a, b, m', e⟩

theorem seqRets_one (a u : Nat) (m : I.σ) (src t : Nat) (o : Op I) :
    seqRets a u m [.am src t o] = if src = a ∧ t = u then valOf o m else [] := by
  simp [seqRets]

/-- common part of the handlers -/
theorem inv_finish {c : Cfg I} {s : St I} (h : Inv c s) {p src t : Nat} {ow : Option Nat} {m : Msg I} {o : Op I} {τ : Nat}
    {l : List (Op I × Nat)} (hc : s.cb p = .handling ow src t m) (hl : s.infl src t p = (o, τ) :: l)
    (chan' : Nat → Nat → Nat → List (Msg I)) (ack' : Nat → Nat → List (Ack I)) (cb' : Cb I)
    (hcb : (∃ any, cb' = .posted any) ∨ cb' = .dead)
    (h1 : ∀ a u d, ¬ (a = src ∧ u = t ∧ d = p) → chan' a u d = s.chan a u d)
    (h2 : chan' src t p ++ unsent (s.pc src t) p = l.flatMap enc)
    (h3 : o.replies = false → ack' = s.ack)
    (h4 : o.replies = true → ack' = set2 s.ack p src (s.ack p src ++ [⟨τ, (valOf o (s.mem p)).head?.map (·.2)⟩])) :
    Inv c { finish c s p src t o (applyOp o (s.mem p)) with
      chan := chan', ack := ack', cb := Function.update s.cb p cb' } := by
  have hval : ∀ a u d, ¬ (a = src ∧ u = t ∧ d = p) →
      seqRets a u (c.mem₀ d) (Function.update s.log p (s.log p ++ if o.app then [.am src t o] else []) d)
        = seqRets a u (c.mem₀ d) (s.log d) := by
    intro a u d hne
    by_cases e : d = p
    · subst e
      rw [Function.update_self, seqRets_append]
      split
      · rw [seqRets_one, if_neg (fun x => hne ⟨x.1.symm, x.2.symm, rfl⟩), List.append_nil]
      · simp [seqRets]
    · rw [Function.update_of_ne e]
  have hacks : ∀ a u d, ¬ (a = src ∧ u = t ∧ d = p) →
      (ack' d a).filter (fun k => s.own a k.tag == u) = acks s a u d := by
    intro a u d hne
    cases hr : o.replies with
    | false => rw [h3 hr]; rfl
    | true =>
      rw [h4 hr]
      by_cases e : d = p ∧ a = src
      · obtain ⟨rfl, rfl⟩ := e
        rw [set2_self, List.filter_append]
        have hown := (h.tagI a t d (o, τ) (by rw [hl]; exact List.mem_cons_self)
          (by cases o <;> first | rfl | cases hr)).2.2
        have : (s.own a τ == u) = false := by
          simp only at hown
          rw [hown]
          simp only [beq_eq_false_iff_ne, ne_eq]
          intro e
          exact hne ⟨rfl, e.symm, rfl⟩
        rw [List.filter_cons_of_neg (by simp [this]), List.filter_nil, List.append_nil]
        rfl
      · rw [set2_ne _ _ e]; rfl
  refine ⟨h.notbad, ?_, ?_, ?_, ?_, h.tagP, ?_, h.wf, ?_, ?_⟩
  · intro a u d hd
    simp only [finish] at hd ⊢
    by_cases e : d = p
    · subst e
      rw [Function.update_self] at hd ⊢
      have hh : hdrAt cb' a u = [] := by
        rcases hcb with ⟨any, e⟩ | e <;> rw [e] <;> rfl
      rw [hh, List.nil_append]
      by_cases e : a = src ∧ u = t
      · obtain ⟨rfl, rfl⟩ := e
        rw [set3_self, hl, List.tail_cons]
        exact h2
      · rw [h1 a u d (fun x => e ⟨x.1, x.2.1⟩), set3_ne _ _ (fun x => e ⟨x.1, x.2.1⟩)]
        have hi := h.chan a u d (by rw [hc]; intro h; cases h)
        rw [hc] at hi
        simp only [hdrAt] at hi
        rw [if_neg (fun x => e ⟨x.1.symm, x.2.symm⟩), List.nil_append] at hi
        exact hi
    · rw [Function.update_of_ne e] at hd ⊢
      rw [h1 a u d (fun x => e x.2.2), set3_ne _ _ (fun x => e x.2.2)]
      exact h.chan a u d hd
  · intro a u d
    have hi := h.iss a u d
    simp only [finish]
    by_cases e : d = p
    · subst e
      rw [Function.update_self, opsOf_append]
      by_cases e : a = src ∧ u = t
      · obtain ⟨rfl, rfl⟩ := e
        rw [set3_self, hi, hl]
        cases ha : o.app <;> simp [opsOf, ha]
      · rw [set3_ne _ _ (fun x => e ⟨x.1, x.2.1⟩), hi]
        cases ha : o.app
        · simp [opsOf]
        · simp only [if_true, opsOf]
          rw [if_neg (fun x => e ⟨x.1.symm, x.2.symm⟩)]
          simp
    · rw [Function.update_of_ne e, set3_ne _ _ (fun x => e x.2.2)]
      exact hi
  · intro d
    simp only [finish]
    by_cases e : d = p
    · subst e
      rw [Function.update_self, Function.update_self, replay_append, ← h.mem d]
      cases o <;> rfl
    · rw [Function.update_of_ne e, Function.update_of_ne e]
      exact h.mem d
  · intro a u d e he ht
    simp only [finish] at he
    by_cases e' : a = src ∧ u = t ∧ d = p
    · obtain ⟨rfl, rfl, rfl⟩ := e'
      rw [set3_self] at he
      exact h.tagI a u d e (List.mem_of_mem_tail he) ht
    · rw [set3_ne _ _ e'] at he
      exact h.tagI a u d e he ht
  · intro d a k hk
    simp only at hk
    cases hr : o.replies with
    | false => rw [h3 hr] at hk; exact h.tagA d a k hk
    | true =>
      rw [h4 hr] at hk
      by_cases e : d = p ∧ a = src
      · obtain ⟨rfl, rfl⟩ := e
        rw [set2_self] at hk
        rcases List.mem_append.1 hk with hk | hk
        · exact h.tagA d a k hk
        · cases List.mem_singleton.1 hk
          exact (h.tagI a t d (o, τ) (by rw [hl]; exact List.mem_cons_self)
            (by cases o <;> first | rfl | cases hr)).2.1
      · rw [set2_ne _ _ e] at hk
        exact h.tagA d a k hk
  · intro a u d
    obtain ⟨pend, e1, e2⟩ := h.pend a u d
    by_cases e : a = src ∧ u = t ∧ d = p
    · obtain ⟨rfl, rfl, rfl⟩ := e
      have key : seqRets a u (c.mem₀ d) (Function.update s.log d (s.log d ++ if o.app then [.am a u o] else []) d)
          = s.rets a u d ++ pend ++ valOf o (s.mem d) := by
        rw [Function.update_self, seqRets_append, e1, ← h.mem d]
        congr 1
        split
        · rw [seqRets_one, if_pos ⟨rfl, rfl⟩]
        · rename_i ha
          cases o <;> first | rfl | exact absurd rfl ha
      unfold PendC at e2
      rw [hl] at e2
      cases hr : o.replies with
      | false =>
        have hv : valOf o (s.mem d) = [] := by cases o <;> first | rfl | cases hr
        rw [hv, List.append_nil] at key
        refine ⟨pend, key, ?_⟩
        have hk : acks { finish c s d a u o (applyOp o (s.mem d)) with
            chan := chan', ack := ack', cb := Function.update s.cb d cb' } a u d = acks s a u d := by
          show (ack' d a).filter (fun k => s.own a k.tag == u) = _
          rw [h3 hr]; rfl
        rw [hk]
        show PendC (s.pc a u) (set3 s.infl a u d (s.infl a u d).tail a u d) (acks s a u d) d pend
        rw [set3_self, hl, List.tail_cons]
        unfold PendC
        cases hw : await (s.pc a u) d with
        | none =>
          rw [hw] at e2
          exact ⟨fun e he => e2.1 e (List.mem_cons_of_mem _ he), e2.2⟩
        | some x =>
          obtain ⟨o', τ'⟩ := x
          rw [hw] at e2
          simp only at e2 ⊢
          rcases e2 with ⟨l', hl', h5, h6⟩ | ⟨hl', _⟩
          · cases l' with
            | nil =>
              simp only [List.nil_append, List.cons.injEq, Prod.mk.injEq] at hl'
              have := await_replies hw
              rw [← hl'.1.1, hr] at this
              cases this
            | cons e0 l' =>
              simp only [List.cons_append, List.cons.injEq] at hl'
              exact Or.inl ⟨l', hl'.2, fun e he => h5 e (List.mem_cons_of_mem _ he), h6⟩
          · cases hl'
      | true =>
        have hown := (h.tagI a u d (o, τ) (by rw [hl]; exact List.mem_cons_self)
          (by cases o <;> first | rfl | cases hr)).2.2
        cases hw : await (s.pc a u) d with
        | none =>
          rw [hw] at e2
          have := e2.1 (o, τ) List.mem_cons_self
          rw [hr] at this
          cases this
        | some x =>
          obtain ⟨o', τ'⟩ := x
          rw [hw] at e2
          simp only at e2
          rcases e2 with ⟨l', hl', h5, h6, h7⟩ | ⟨hl', _⟩
          · cases l' with
            | cons e0 l' =>
              simp only [List.cons_append, List.cons.injEq] at hl'
              have := h5 e0 List.mem_cons_self
              rw [← hl'.1, hr] at this
              cases this
            | nil =>
              simp only [List.nil_append, List.cons.injEq, Prod.mk.injEq] at hl'
              obtain ⟨⟨rfl, rfl⟩, rfl⟩ := hl'
              rw [h7, List.append_nil] at key
              refine ⟨valOf o (s.mem d), key, ?_⟩
              have hk : acks { finish c s d a u o (applyOp o (s.mem d)) with
                  chan := chan', ack := ack', cb := Function.update s.cb d cb' } a u d
                  = [⟨τ, (valOf o (s.mem d)).head?.map (·.2)⟩] := by
                show (ack' d a).filter (fun k => s.own a k.tag == u) = _
                rw [h4 hr, set2_self, List.filter_append]
                rw [show (s.ack d a).filter (fun k => s.own a k.tag == u) = [] from h6, List.nil_append,
                  List.filter_cons_of_pos (by simpa using hown), List.filter_nil]
              rw [hk]
              show PendC (s.pc a u) (set3 s.infl a u d (s.infl a u d).tail a u d) _ d _
              rw [set3_self, hl, List.tail_cons]
              unfold PendC
              rw [hw]
              refine Or.inr ⟨rfl, ?_⟩
              cases o with
              | rd q => exact Or.inr ⟨q, _, rfl, rfl, rfl⟩
              | flush => exact Or.inl ⟨rfl, rfl, rfl⟩
              | put d x => cases hr
              | upd u => cases hr
              | term => cases hr
          · cases hl'
    · refine ⟨pend, ?_, ?_⟩
      · exact (hval a u d e).trans e1
      · show PendC (s.pc a u) (set3 s.infl src t p (s.infl src t p).tail a u d)
          ((ack' d a).filter (fun k => s.own a k.tag == u)) d pend
        rw [set3_ne _ _ e, hacks a u d e]
        exact e2
  · rintro q u ⟨a, b, m', e⟩
    simp only at e
    by_cases e' : q = p
    · subst e'
      rw [Function.update_self] at e
      rcases hcb with ⟨any, e2⟩ | e2 <;> rw [e2] at e <;> cases e
    · rw [Function.update_of_ne e'] at e
      exact h.own q u ⟨a, b, m', e⟩

/-- the oldest operation in flight is the one whose header is being handled -/
theorem head_of {c : Cfg I} {s : St I} (h : Inv c s) {p a t : Nat} {o : Option Nat} {k : Pkt I}
    (hc : s.cb p = .handling o a t (.hdr k)) :
    ∃ e l tl, s.infl a t p = e :: l ∧ enc e = .hdr k :: tl ∧ s.chan a t p ++ unsent (s.pc a t) p = tl ++ l.flatMap enc := by
  obtain ⟨e, l, k', tl, h1, h2, h3, h4⟩ := taken h (Or.inl ⟨o, hc⟩)
  cases h3
  exact ⟨e, l, tl, h1, h2, h4⟩

theorem inv_actPut {c : Cfg I} {s : St I} (h : Inv c s) {p src t : Nat} {o : Option Nat} {d : I.D} {tag : Nat}
    (hc : s.cb p = .handling o src t (.hdr (.put d tag))) {t' tag' : Nat} {x : I.P}
    (hm : (s.chan src t' p).find? (fits false tag) = some (.pl tag' x)) :
    Inv c { finish c s p src t (.put d x) (I.write d x (s.mem p)) with
      chan := set3 s.chan src t' p ((s.chan src t' p).eraseP (fits false tag)) } := by
  obtain ⟨rfl, y, l, hl, hy, _, h2⟩ := payload h hc hm
  cases hy
  refine inv_finish h hc hl _ s.ack (repost c) (Or.inl ⟨_, rfl⟩) ?_ ?_ (fun _ => rfl) (fun e => by cases e)
  · intro a u d' hne; exact set3_ne _ _ hne
  · rw [set3_self]; exact h2

theorem inv_actRd {c : Cfg I} {s : St I} (h : Inv c s) {p src t : Nat} {o : Option Nat} {q : I.Q} {tag : Nat}
    (hc : s.cb p = .handling o src t (.hdr (.rd q tag))) :
    Inv c { finish c s p src t (.rd q) (I.read q (s.mem p)).1 with
      ack := set2 s.ack p src (s.ack p src ++ [⟨tag, some (I.read q (s.mem p)).2⟩]) } := by
  obtain ⟨⟨e, τ⟩, l, tl, hl, he, h2⟩ := head_of h hc
  cases e <;> simp only [enc, List.cons.injEq, Msg.hdr.injEq, reduceCtorEq, false_and] at he
  obtain ⟨he, rfl⟩ := he
  cases he
  exact inv_finish h hc hl s.chan _ (repost c) (Or.inl ⟨_, rfl⟩) (fun _ _ _ _ => rfl) h2 (fun e => by cases e) (fun _ => rfl)

theorem inv_actPost {c : Cfg I} {s : St I} (h : Inv c s) {p src t : Nat} {o : Option Nat} {u : I.U}
    (hc : s.cb p = .handling o src t (.hdr (.post u))) :
    Inv c (finish c s p src t (.upd u) (I.upd u (s.mem p))) := by
  obtain ⟨⟨e, τ⟩, l, tl, hl, he, h2⟩ := head_of h hc
  cases e <;> simp only [enc, List.cons.injEq, Msg.hdr.injEq, reduceCtorEq, false_and] at he
  obtain ⟨he, rfl⟩ := he
  cases he
  exact inv_finish h hc hl s.chan _ (repost c) (Or.inl ⟨_, rfl⟩) (fun _ _ _ _ => rfl) h2 (fun _ => rfl) (fun e => by cases e)

theorem inv_actFlush {c : Cfg I} {s : St I} (h : Inv c s) {p src t : Nat} {o : Option Nat} {tag : Nat}
    (hc : s.cb p = .handling o src t (.hdr (.flush tag))) :
    Inv c { finish c s p src t .flush (s.mem p) with ack := set2 s.ack p src (s.ack p src ++ [⟨tag, none⟩]) } := by
  obtain ⟨⟨e, τ⟩, l, tl, hl, he, h2⟩ := head_of h hc
  cases e <;> simp only [enc, List.cons.injEq, Msg.hdr.injEq, reduceCtorEq, false_and] at he
  obtain ⟨he, rfl⟩ := he
  cases he
  exact inv_finish h hc hl s.chan _ (repost c) (Or.inl ⟨_, rfl⟩) (fun _ _ _ _ => rfl) h2 (fun e => by cases e) (fun _ => rfl)

theorem inv_actTerm {c : Cfg I} {s : St I} (h : Inv c s) {p src t : Nat} {o : Option Nat}
    (hc : s.cb p = .handling o src t (.hdr .term)) :
    Inv c { finish c s p src t .term (s.mem p) with cb := Function.update s.cb p (if c.async then .dead else repost c) } := by
  obtain ⟨⟨e, τ⟩, l, tl, hl, he, h2⟩ := head_of h hc
  cases e <;> simp only [enc, List.cons.injEq, Msg.hdr.injEq, reduceCtorEq, false_and] at he
  obtain ⟨_, rfl⟩ := he
  refine inv_finish h hc hl s.chan _ _ ?_ (fun _ _ _ _ => rfl) h2 (fun _ => rfl) (fun e => by cases e)
  split
  · exact Or.inr rfl
  · exact Or.inl ⟨_, rfl⟩

theorem inv_rdRet {c : Cfg I} {s : St I} (h : Inv c s) {p t dst : Nat} {q : I.Q} {v : I.V} (hp : s.pc p t = .rdFlag dst q v)
    (fl : Nat → Nat → Bool) :
    Inv c { s with pc := set2 s.pc p t .idle, flag := fl, rets := set3 s.rets p t dst (s.rets p t dst ++ [(q, v)]) } := by
  refine ⟨h.notbad, ?_, h.iss, h.mem, h.tagI, ?_, h.tagA, ?_, ?_, ?_⟩
  · intro a u d hd
    have hi := h.chan a u d hd
    simp only
    by_cases e : a = p ∧ u = t
    · obtain ⟨rfl, rfl⟩ := e
      rw [hp] at hi
      rw [set2_self]; exact hi
    · rw [set2_ne _ _ e]; exact hi
  · intro a u τ hτ
    simp only at hτ
    by_cases e : a = p ∧ u = t
    · obtain ⟨rfl, rfl⟩ := e
      rw [set2_self] at hτ; cases hτ
    · rw [set2_ne _ _ e] at hτ
      exact h.tagP a u τ hτ
  · intro a u
    simp only
    by_cases e : a = p ∧ u = t
    · obtain ⟨rfl, rfl⟩ := e
      rw [set2_self]; trivial
    · rw [set2_ne _ _ e]; exact h.wf a u
  · intro a u d
    obtain ⟨pend, e1, e2⟩ := h.pend a u d
    by_cases e : a = p ∧ u = t
    · obtain ⟨rfl, rfl⟩ := e
      rw [hp] at e2
      simp only [PendC, await] at e2
      obtain ⟨k1, k2, k3⟩ := e2
      refine ⟨[], ?_, ?_⟩
      · simp only
        rw [e1, k3, List.append_nil]
        by_cases e : d = dst
        · subst e
          rw [set3_self]; simp [got]
        · rw [set3_ne _ _ (fun x => e x.2.2)]; simp [got, e]
      · simp only [set2_self]
        exact ⟨k1, k2, rfl⟩
    · refine ⟨pend, ?_, ?_⟩
      · simp only
        rw [set3_ne _ _ (fun x => e ⟨x.1, x.2.1⟩)]; exact e1
      · simp only [set2_ne _ _ e]; exact e2
  · intro a u ho
    simp only
    by_cases e : a = p ∧ u = t
    · obtain ⟨rfl, rfl⟩ := e
      exact absurd ho (not_owner h (by rw [hp]; rfl))
    · rw [set2_ne _ _ e]; exact h.own a u ho

theorem inv_env {c : Cfg I} {s : St I} (h : Inv c s) (p : Nat) (f : I.σ → I.σ) :
    Inv c { s with mem := Function.update s.mem p (f (s.mem p)), log := Function.update s.log p (s.log p ++ [.env f]) } := by
  refine ⟨h.notbad, h.chan, ?_, ?_, h.tagI, h.tagP, h.tagA, h.wf, ?_, h.own⟩
  · intro a u d
    simp only
    by_cases e : d = p
    · subst e
      rw [Function.update_self, opsOf_append, h.iss]
      simp [opsOf]
    · rw [Function.update_of_ne e]; exact h.iss a u d
  · intro d
    simp only
    by_cases e : d = p
    · subst e
      rw [Function.update_self, Function.update_self, replay_append, ← h.mem d]
      rfl
    · rw [Function.update_of_ne e, Function.update_of_ne e]; exact h.mem d
  · intro a u d
    obtain ⟨pend, e1, e2⟩ := h.pend a u d
    refine ⟨pend, ?_, e2⟩
    simp only
    by_cases e : d = p
    · subst e
      rw [Function.update_self, seqRets_append, e1]
      simp [seqRets]
    · rw [Function.update_of_ne e]; exact e1

/-- **the invariant is preserved by every step** -/
theorem inv_step {c : Cfg I} {s s' : St I} {l : Lbl} (h : Inv c s) (hs : Step c s l s') : Inv c s' := by
  cases hs with
  | loc p t hp pc' fl hl => exact inv_local h hl
  | alloc p t hp f ha hub => exact inv_allocStep h ha
  | allocFail p t hp f ha hub => exact inv_allocFail h ha
  | send p t hp dst m o pc' hs => exact inv_send h hs
  | reply p t hp q dst tag hpc ho a ha v hv =>
    have hw : await (s.pc p t) dst = some (.rd q, tag) := by rw [hpc]; simp [await]
    obtain ⟨_, _, _, k⟩ := take_ack h hw ha
    apply inv_ack h hw ha ho
    · intro d; rw [hpc]; rfl
    · intro d; rfl
    · intro d hd
      rw [hpc]
      simp [await, got, hd]
    · rfl
    · rcases k with ⟨e, _⟩ | ⟨q', v', e, e2, e3⟩
      · cases e
      · cases e
        rw [hv] at e2
        cases e2
        rw [e3]; simp [got]
    · intro τ hτ; cases hτ
    · trivial
  | replyBad p t hp q dst tag hpc a ha hv =>
    exfalso
    have hw : await (s.pc p t) dst = some (.rd q, tag) := by rw [hpc]; simp [await]
    obtain ⟨_, _, _, k⟩ := take_ack h hw ha
    rcases k with ⟨e, _⟩ | ⟨q', v', e, e2, e3⟩
    · cases e
    · rw [hv] at e2; cases e2
  | rdRet p t hp dst q v hpc => exact inv_rdRet h hpc _
  | flushAck p t hp pes pend tag d hpc hd ho a ha hv =>
    have hw : await (s.pc p t) d = some (.flush, tag) := by rw [hpc]; simp [await, hd]
    have hnd := h.wf p t
    rw [hpc] at hnd
    have hnd : pend.Nodup := hnd
    obtain ⟨_, _, _, k⟩ := take_ack h hw ha
    apply inv_ack h hw ha ho
    · intro d; rw [hpc]; rfl
    · intro d; rfl
    · intro d' hd'
      rw [hpc]
      simp only [await, got, List.mem_erase_of_ne hd', and_self]
    · simp only [await]
      rw [if_neg (fun x => (hnd.mem_erase_iff.1 x).1 rfl)]
    · rcases k with ⟨_, _, e⟩ | ⟨q', v', e, e2, e3⟩
      · rw [e]; simp [got]
      · cases e
    · intro τ hτ; cases hτ; rfl
    · exact hnd.erase d
  | flushBad p t hp pes pend tag d hpc hd a ha v hv =>
    exfalso
    have hw : await (s.pc p t) d = some (.flush, tag) := by rw [hpc]; simp [await, hd]
    obtain ⟨_, _, _, k⟩ := take_ack h hw ha
    rcases k with ⟨_, e, _⟩ | ⟨q', v', e, e2, e3⟩
    · rw [hv] at e; cases e
    · cases e
  | «match» p hp any hc src t m hm => exact inv_match h hc hm
  | start p hp o src t m hc ho =>
    apply inv_start h hc
    intro u hu
    subst hu
    split at ho
    · cases ho
    · obtain ⟨u', e, hw⟩ := ho
      cases e; exact hw
  | actPut p hp o src t d tag hc t' tag' x hm => exact inv_actPut h hc hm
  | actPutBad p hp o src t d tag hc t' k hm =>
    obtain ⟨_, _, _, _, e, _⟩ := payload h hc hm
    cases e
  | actRd p hp o src t q tag hc => exact inv_actRd h hc
  | actPost p hp o src t u hc => exact inv_actPost h hc
  | actFlush p hp o src t tag hc => exact inv_actFlush h hc
  | actTerm p hp o src t hc => exact inv_actTerm h hc
  | actBad p hp o src t tag x hc =>
    obtain ⟨_, _, _, _, _, _, e, _⟩ := taken h (Or.inl ⟨o, hc⟩)
    cases e
  | bar p t hp ht hpc =>
    apply inv_pc h p t .bar s.flag
    · intro d; rw [hpc]; rfl
    · intro d; rw [hpc]; rfl
    · intro d; rw [hpc]; rfl
    · intro τ hτ; cases hτ
    · trivial
    · exact not_owner h (by rw [hpc]; rfl)
  | fin p t hp ht hpc =>
    apply inv_pc h p t .finBar s.flag
    · intro d; rw [hpc]; rfl
    · intro d; rw [hpc]; rfl
    · intro d; rw [hpc]; rfl
    · intro τ hτ; cases hτ
    · trivial
    · exact not_owner h (by rw [hpc]; rfl)
  | finDrop p t hp hc hpc src t' m hm =>
    have h' := inv_dead h p
    apply inv_pc h' p t .finDone s.flag s.ent
    · intro d; simp only [hpc]; rfl
    · intro d; simp only [hpc]; rfl
    · intro d; simp only [hpc]; rfl
    · intro τ hτ; cases hτ
    · trivial
    · exact not_owner h' (by simp only [hpc]; rfl)
  | env p f => exact inv_env h p f

theorem inv_init (c : Cfg I) : Inv c (init c) := by
  refine ⟨rfl, ?_, ?_, ?_, ?_, ?_, ?_, ?_, ?_, ?_⟩
  · intro a t d _; rfl
  · intro a t d; rfl
  · intro d; rfl
  · intro a t d e he; cases he
  · intro a t τ h; cases h
  · intro d a k hk; cases hk
  · intro a t; trivial
  · intro a t d
    exact ⟨[], rfl, ⟨fun e he => (by cases he), rfl, rfl⟩⟩
  · rintro p t ⟨a, b, m, e⟩
    cases e

/-- **the invariant holds in every reachable state** -/
theorem inv_reach {c : Cfg I} {s : St I} (h : Reach c s) : Inv c s := by
  induction h with
  | init => exact inv_init c
  | step _ hs ih => exact inv_step ih hs

end Verif.Am
