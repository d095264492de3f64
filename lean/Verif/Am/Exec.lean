import Verif.Am.Step
/-!
# Executable steps, for concrete executions

`exec` performs a step chosen by a `Mv`; whatever it returns is a step of the model (`exec_sound`). Used for the examples and
counterexamples only.
-/
namespace Verif.Am
variable {I : Iface}

/-- calls into the library -/
inductive Call (I : Iface) where
  | put (d : I.D) (x : I.P) (dst : Nat)
  | rd (q : I.Q) (dst : Nat)
  | post (u : I.U) (dst : Nat)
  | flush (pes : List Nat)
  | poll
  | bar
  | fin

/-- choice of a step: a call, the next step of a thread, an acknowledgement from `d`, matching, handler start, handler, the last
receive of finalize, a step of the environment -/
inductive Mv (I : Iface) where
  | call (p t : Nat) (k : Call I)
  | go (p t : Nat)
  | ack (p t d : Nat)
  | mat (p src t : Nat)
  | start (p : Nat) (o : Option Nat)
  | act (p : Nat)
  | drop (p t : Nat)
  | env (p : Nat) (f : I.σ → I.σ)

/-- result of a local step -/
def mkLoc (s : St I) (p t : Nat) (pc' : Pc I) (fl : Nat → Bool) : St I :=
  { s with pc := set2 s.pc p t pc', flag := Function.update s.flag p fl }

/-- result of taking a tag -/
def mkAlloc (c : Cfg I) (s : St I) (p t : Nat) (f : Nat → Pc I) : St I :=
  if s.ctr p + ptagStart < c.ub then
    { s with pc := set2 s.pc p t (f (s.ctr p + ptagStart)), ctr := Function.update s.ctr p (s.ctr p + 1),
             own := set2 s.own p (s.ctr p + ptagStart) t }
  else { s with pc := set2 s.pc p t .aborted }

/-- result of a send -/
def mkSend (s : St I) (p t dst : Nat) (m : Msg I) (o : Option (Op I × Nat)) (pc' : Pc I) : St I :=
  { s with pc := set2 s.pc p t pc'
           chan := set3 s.chan p t dst (s.chan p t dst ++ [m])
           infl := set3 s.infl p t dst (s.infl p t dst ++ optL o)
           issued := set3 s.issued p t dst (s.issued p t dst ++ ((optL o).map (·.1)).filter Op.app) }

/-- `Owner`, decided -/
def ownerB (s : St I) (p t : Nat) : Bool := match s.cb p with
  | .handling (some u) _ _ _ => u == t
  | .handling none _ _ _ => false
  | .posted _ => false
  | .matched _ _ _ => false
  | .dead => false

/-- every PE has entered as many barriers -/
def allIn (c : Cfg I) (s : St I) (p : Nat) : Bool := (List.range c.n).all (fun q => s.ent p ≤ s.ent q)

/-- the program calls the library -/
def execCall (c : Cfg I) (s : St I) (p t : Nat) (k : Call I) : Option (St I) := match s.pc p t with
  | .idle => match k with
    | .put d x dst => if dst < c.n then some (mkAlloc c s p t (.putHdr d x dst)) else none
    | .rd q dst => if dst < c.n then some (mkAlloc c s p t (.rdHdr q dst)) else none
    | .post u dst => if dst < c.n then some (mkLoc s p t (.postSend u dst) (s.flag p)) else none
    | .flush pes => if (∀ d ∈ pes, d < c.n) ∧ pes.Nodup then some (mkLoc s p t (.fCount pes pes false) (s.flag p)) else none
    | .poll => some (mkLoc s p t .poll (s.flag p))
    | .bar => some { s with pc := set2 s.pc p t .bar, ent := Function.update s.ent p (s.ent p + 1) }
    | .fin => some { s with pc := set2 s.pc p t .finBar, ent := Function.update s.ent p (s.ent p + 1) }
  | .putHdr _ _ _ _ => none
  | .putPl _ _ _ => none
  | .putWait _ => none
  | .putFlag _ => none
  | .rdHdr _ _ _ => none
  | .rdWait _ _ _ => none
  | .rdFlag _ _ _ => none
  | .postSend _ _ => none
  | .postWait _ => none
  | .postFlag _ => none
  | .fCount _ _ _ => none
  | .fSend _ _ _ _ => none
  | .fWait _ _ _ => none
  | .fReset _ _ => none
  | .fRet _ => none
  | .bar => none
  | .poll => none
  | .finBar => none
  | .finTerm => none
  | .finWait => none
  | .finDone => none
  | .aborted => none

/-- the next step of a thread -/
def execGo (c : Cfg I) (s : St I) (p t : Nat) : Option (St I) := match s.pc p t with
  | .idle => none
  | .putHdr d x dst tag => some (mkSend s p t dst (.hdr (.put d tag)) (some (.put d x, tag)) (.putPl x dst tag))
  | .putPl x dst tag => some (mkSend s p t dst (.pl tag x) none (.putWait dst))
  | .putWait dst => if ownerB s p t then none else some (mkLoc s p t (.putFlag dst) (s.flag p))
  | .putFlag dst => some (mkLoc s p t .idle (Function.update (s.flag p) dst true))
  | .rdHdr q dst tag => some (mkSend s p t dst (.hdr (.rd q tag)) (some (.rd q, tag)) (.rdWait q dst tag))
  | .rdWait _ _ _ => none
  | .rdFlag dst q v => some { s with pc := set2 s.pc p t .idle
                                     flag := Function.update s.flag p (Function.update (s.flag p) dst false)
                                     rets := set3 s.rets p t dst (s.rets p t dst ++ [(q, v)]) }
  | .postSend u dst => some (mkSend s p t dst (.hdr (.post u)) (some (.upd u, 0)) (.postWait dst))
  | .postWait dst => if ownerB s p t then none else some (mkLoc s p t (.postFlag dst) (s.flag p))
  | .postFlag dst => some (mkLoc s p t .idle (Function.update (s.flag p) dst true))
  | .fCount pes (d :: r) f => some (mkLoc s p t (.fCount pes r (f || s.flag p d)) (s.flag p))
  | .fCount pes [] false => some (mkLoc s p t (.fRet pes) (s.flag p))
  | .fCount pes [] true => some (mkAlloc c s p t (.fSend pes pes []))
  | .fSend pes (d :: r) sent tag =>
    if s.flag p d = true then some (mkSend s p t d (.hdr (.flush tag)) (some (.flush, tag)) (.fSend pes r (d :: sent) tag))
    else some (mkLoc s p t (.fSend pes r sent tag) (s.flag p))
  | .fSend pes [] sent tag => some (mkLoc s p t (.fWait pes sent tag) (s.flag p))
  | .fWait pes [] _ => if ownerB s p t then none else some (mkLoc s p t (.fReset pes pes) (s.flag p))
  | .fWait _ (_ :: _) _ => none
  | .fReset pes (d :: r) => some (mkLoc s p t (.fReset pes r) (Function.update (s.flag p) d false))
  | .fReset pes [] => some (mkLoc s p t (.fRet pes) (s.flag p))
  | .fRet _ => some (mkLoc s p t .idle (s.flag p))
  | .bar => if ownerB s p t = false ∧ allIn c s p = true then some (mkLoc s p t .idle (s.flag p)) else none
  | .poll => if ownerB s p t then none else some (mkLoc s p t .idle (s.flag p))
  | .finBar => if ownerB s p t = false ∧ allIn c s p = true then some (mkLoc s p t .finTerm (s.flag p)) else none
  | .finTerm => some (mkSend s p t p (.hdr .term) (some (.term, 0)) .finWait)
  | .finWait => none
  | .finDone => none
  | .aborted => none

/-- a thread receives an acknowledgement -/
def execAck (s : St I) (p t d : Nat) : Option (St I) := if ownerB s p t then none else match s.pc p t with
  | .rdWait q dst tag => match (s.ack dst p).find? (fun a => a.tag == tag) with
    | some ⟨_, some v⟩ => some { s with pc := set2 s.pc p t (.rdFlag dst q v),
                                        ack := set2 s.ack dst p ((s.ack dst p).eraseP (fun a => a.tag == tag)) }
    | some ⟨_, none⟩ => none
    | none => none
  | .fWait pes pend tag => if d ∈ pend then match (s.ack d p).find? (fun a => a.tag == tag) with
      | some ⟨_, none⟩ => some { s with pc := set2 s.pc p t (.fWait pes (pend.erase d) tag),
                                        ack := set2 s.ack d p ((s.ack d p).eraseP (fun a => a.tag == tag)) }
      | some ⟨_, some _⟩ => none
      | none => none
    else none
  | .idle => none
  | .putHdr _ _ _ _ => none
  | .putPl _ _ _ => none
  | .putWait _ => none
  | .putFlag _ => none
  | .rdHdr _ _ _ => none
  | .rdFlag _ _ _ => none
  | .postSend _ _ => none
  | .postWait _ => none
  | .postFlag _ => none
  | .fCount _ _ _ => none
  | .fSend _ _ _ _ => none
  | .fReset _ _ => none
  | .fRet _ => none
  | .bar => none
  | .poll => none
  | .finBar => none
  | .finTerm => none
  | .finWait => none
  | .finDone => none
  | .aborted => none

/-- the handler -/
def execAct (c : Cfg I) (s : St I) (p : Nat) : Option (St I) := match s.cb p with
  | .handling _ src t (.hdr (.put d tag)) => match (s.chan src t p).find? (fits false tag) with
    | some (.pl _ x) => some { finish c s p src t (.put d x) (I.write d x (s.mem p)) with
                                chan := set3 s.chan src t p ((s.chan src t p).eraseP (fits false tag)) }
    | some (.hdr _) => none
    | none => none
  | .handling _ src t (.hdr (.rd q tag)) =>
    some { finish c s p src t (.rd q) (I.read q (s.mem p)).1 with
           ack := set2 s.ack p src (s.ack p src ++ [⟨tag, some (I.read q (s.mem p)).2⟩]) }
  | .handling _ src t (.hdr (.post u)) => some (finish c s p src t (.upd u) (I.upd u (s.mem p)))
  | .handling _ src t (.hdr (.flush tag)) =>
    some { finish c s p src t .flush (s.mem p) with ack := set2 s.ack p src (s.ack p src ++ [⟨tag, none⟩]) }
  | .handling _ src t (.hdr .term) =>
    some { finish c s p src t .term (s.mem p) with cb := Function.update s.cb p (if c.async then .dead else repost c) }
  | .handling _ _ _ (.pl _ _) => none
  | .posted _ => none
  | .matched _ _ _ => none
  | .dead => none

/-- the step chosen by a move, if possible -/
def exec (c : Cfg I) [∀ p t, Decidable (c.thr p t)] (s : St I) : Mv I → Option (St I)
  | .call p t k => if p < c.n ∧ c.thr p t then execCall c s p t k else none
  | .go p t => if p < c.n then execGo c s p t else none
  | .ack p t d => if p < c.n then execAck s p t d else none
  | .mat p src t => if p < c.n then match s.cb p with
      | .posted any => match (s.chan src t p).find? (fits any pktTag) with
        | some m => some { s with cb := Function.update s.cb p (.matched src t m)
                                  chan := set3 s.chan src t p ((s.chan src t p).eraseP (fits any pktTag)) }
        | none => none
      | .matched _ _ _ => none
      | .handling _ _ _ _ => none
      | .dead => none
    else none
  | .start p o => if p < c.n then match s.cb p with
      | .matched src t m => match o with
        | none => if c.async = true then some { s with cb := Function.update s.cb p (.handling none src t m) } else none
        | some u => if c.async = false ∧ waiting (s.pc p u) = true
            then some { s with cb := Function.update s.cb p (.handling (some u) src t m) } else none
      | .posted _ => none
      | .handling _ _ _ _ => none
      | .dead => none
    else none
  | .act p => if p < c.n then execAct c s p else none
  | .drop p t => if p < c.n ∧ c.async = false then match s.pc p t, s.cb p with
      | .finWait, .matched _ _ _ => some { s with pc := set2 s.pc p t .finDone, cb := Function.update s.cb p .dead }
      | .finDone, _ => none
      | _, _ => none
    else none
  | .env p f => some { s with mem := Function.update s.mem p (f (s.mem p)), log := Function.update s.log p (s.log p ++ [.env f]) }

theorem no_owner {s : St I} {p t : Nat} (h : ownerB s p t = false) : ¬ Owner s p t := by
  rintro ⟨a, b, m, hc⟩
  simp [ownerB, hc] at h

theorem allIn_spec {c : Cfg I} {s : St I} {p : Nat} (h : allIn c s p = true) : ∀ q < c.n, s.ent p ≤ s.ent q := by
  intro q hq
  have := List.all_eq_true.1 h q (List.mem_range.2 hq)
  exact of_decide_eq_true this

theorem s_loc {c : Cfg I} {s : St I} {p t : Nat} {pc pc' : Pc I} {fl : Nat → Bool} (hp : p < c.n) (hpc : s.pc p t = pc)
    (hl : Local c s p t pc pc' fl) : ∃ l, Step c s l (mkLoc s p t pc' fl) := by
  subst hpc; exact ⟨_, .loc p t hp pc' fl hl⟩

theorem s_send {c : Cfg I} {s : St I} {p t : Nat} {pc pc' : Pc I} {dst : Nat} {m : Msg I} {o : Option (Op I × Nat)} (hp : p < c.n)
    (hpc : s.pc p t = pc) (hs : Send s p pc dst m o pc') : ∃ l, Step c s l (mkSend s p t dst m o pc') := by
  subst hpc; exact ⟨_, .send p t hp dst m o pc' hs⟩

theorem s_alloc {c : Cfg I} {s : St I} {p t : Nat} {pc : Pc I} {f : Nat → Pc I} (hp : p < c.n) (hpc : s.pc p t = pc)
    (ha : Alloc c p t pc f) : ∃ l, Step c s l (mkAlloc c s p t f) := by
  subst hpc
  unfold mkAlloc
  split
  · rename_i h; exact ⟨_, .alloc p t hp f ha h⟩
  · rename_i h; exact ⟨_, .allocFail p t hp f ha (by omega)⟩

theorem execCall_sound {c : Cfg I} {s s' : St I} {p t : Nat} {k : Call I} (hp : p < c.n) (ht : c.thr p t)
    (h : execCall c s p t k = some s') : ∃ l, Step c s l s' := by
  unfold execCall at h
  split at h <;> first | cases h | skip
  rename_i hpc
  cases k with
  | put d x dst =>
    simp only at h
    split at h
    · rename_i hd; cases h; exact s_alloc hp hpc (.put d x dst hd ht)
    · cases h
  | rd q dst =>
    simp only at h
    split at h
    · rename_i hd; cases h; exact s_alloc hp hpc (.rd q dst hd ht)
    · cases h
  | post u dst =>
    simp only at h
    split at h
    · rename_i hd; cases h; exact s_loc hp hpc (.callPost u dst hd ht)
    · cases h
  | flush pes =>
    simp only at h
    split at h
    · rename_i hd; cases h; exact s_loc hp hpc (.callFlush pes hd.1 hd.2 ht)
    · cases h
  | poll => cases h; exact s_loc hp hpc (.pollEnter ht)
  | bar => cases h; exact ⟨_, .bar p t hp ht hpc⟩
  | fin => cases h; exact ⟨_, .fin p t hp ht hpc⟩

theorem execGo_sound {c : Cfg I} {s s' : St I} {p t : Nat} (hp : p < c.n) (h : execGo c s p t = some s') : ∃ l, Step c s l s' := by
  unfold execGo at h
  split at h
  case h_1 => cases h
  case h_2 hpc => cases h; exact s_send hp hpc (.putHdr _ _ _ _)
  case h_3 hpc => cases h; exact s_send hp hpc (.putPl _ _ _)
  case h_4 hpc =>
    split at h
    · cases h
    · rename_i ho; cases h; exact s_loc hp hpc (.putDone _ (no_owner (by simpa using ho)))
  case h_5 hpc => cases h; exact s_loc hp hpc (.putRet _)
  case h_6 hpc => cases h; exact s_send hp hpc (.rd _ _ _)
  case h_7 => cases h
  case h_8 hpc => cases h; exact ⟨_, .rdRet p t hp _ _ _ hpc⟩
  case h_9 hpc => cases h; exact s_send hp hpc (.post _ _)
  case h_10 hpc =>
    split at h
    · cases h
    · rename_i ho; cases h; exact s_loc hp hpc (.postDone _ (no_owner (by simpa using ho)))
  case h_11 hpc => cases h; exact s_loc hp hpc (.postRet _)
  case h_12 hpc => cases h; exact s_loc hp hpc (.count _ _ _ _)
  case h_13 hpc => cases h; exact s_loc hp hpc (.countNone _)
  case h_14 hpc => cases h; exact s_alloc hp hpc (.flush _)
  case h_15 hpc =>
    split at h
    · rename_i hf; cases h; exact s_send hp hpc (.flush _ _ _ _ _ hf)
    · rename_i hf; cases h; exact s_loc hp hpc (.skip _ _ _ _ _ (by simpa using hf))
  case h_16 hpc => cases h; exact s_loc hp hpc (.sendEnd _ _ _)
  case h_17 hpc =>
    split at h
    · cases h
    · rename_i ho; cases h; exact s_loc hp hpc (.waitEnd _ _ (no_owner (by simpa using ho)))
  case h_18 => cases h
  case h_19 hpc => cases h; exact s_loc hp hpc (.reset _ _ _)
  case h_20 hpc => cases h; exact s_loc hp hpc (.resetEnd _)
  case h_21 hpc => cases h; exact s_loc hp hpc (.flushRet _)
  case h_22 hpc =>
    split at h
    · rename_i ho; cases h; exact s_loc hp hpc (.barDone (no_owner ho.1) (allIn_spec ho.2))
    · cases h
  case h_23 hpc =>
    split at h
    · cases h
    · rename_i ho; cases h; exact s_loc hp hpc (.pollLeave (no_owner (by simpa using ho)))
  case h_24 hpc =>
    split at h
    · rename_i ho; cases h; exact s_loc hp hpc (.finBarDone (no_owner ho.1) (allIn_spec ho.2))
    · cases h
  case h_25 hpc => cases h; exact s_send hp hpc .term
  case h_26 => cases h
  case h_27 => cases h
  case h_28 => cases h

theorem execAck_sound {c : Cfg I} {s s' : St I} {p t d : Nat} (hp : p < c.n) (h : execAck s p t d = some s') :
    ∃ l, Step c s l s' := by
  unfold execAck at h
  split at h
  · cases h
  · rename_i ho
    have ho := no_owner (by simpa using ho : ownerB s p t = false)
    split at h <;> first | cases h | skip
    · rename_i hpc
      split at h <;> first | cases h | skip
      rename_i ha
      exact ⟨_, .reply p t hp _ _ _ hpc ho _ ha _ rfl⟩
    · rename_i hpc
      split at h <;> first | cases h | skip
      rename_i hd
      split at h <;> first | cases h | skip
      rename_i ha
      exact ⟨_, .flushAck p t hp _ _ _ _ hpc hd ho _ ha rfl⟩

theorem execAct_sound {c : Cfg I} {s s' : St I} {p : Nat} (hp : p < c.n) (h : execAct c s p = some s') : ∃ l, Step c s l s' := by
  unfold execAct at h
  split at h <;> first | cases h | skip
  · rename_i hc
    split at h <;> first | cases h | skip
    rename_i hm
    exact ⟨_, .actPut p hp _ _ _ _ _ hc _ _ _ hm⟩
  · rename_i hc; exact ⟨_, .actRd p hp _ _ _ _ _ hc⟩
  · rename_i hc; exact ⟨_, .actPost p hp _ _ _ _ hc⟩
  · rename_i hc; exact ⟨_, .actFlush p hp _ _ _ _ hc⟩
  · rename_i hc; exact ⟨_, .actTerm p hp _ _ _ hc⟩

theorem exec_sound {c : Cfg I} [∀ p t, Decidable (c.thr p t)] {s s' : St I} {mv : Mv I} (h : exec c s mv = some s') :
    ∃ l, Step c s l s' := by
  cases mv with
  | call p t k =>
    simp only [exec] at h
    split at h
    · rename_i hh; exact execCall_sound hh.1 hh.2 h
    · cases h
  | go p t =>
    simp only [exec] at h
    split at h
    · rename_i hh; exact execGo_sound hh h
    · cases h
  | ack p t d =>
    simp only [exec] at h
    split at h
    · rename_i hh; exact execAck_sound hh h
    · cases h
  | mat p src t =>
    simp only [exec] at h
    split at h <;> first | cases h | skip
    rename_i hp
    split at h <;> first | cases h | skip
    rename_i hc
    split at h <;> first | cases h | skip
    rename_i hm
    exact ⟨_, .match p hp _ hc _ _ _ hm⟩
  | start p o =>
    simp only [exec] at h
    split at h <;> first | cases h | skip
    rename_i hp
    split at h <;> first | cases h | skip
    rename_i hc
    cases o with
    | none =>
      simp only at h
      split at h <;> first | cases h | skip
      rename_i ha
      exact ⟨_, .start p hp none _ _ _ hc (by rw [if_pos ha])⟩
    | some u =>
      simp only at h
      split at h <;> first | cases h | skip
      rename_i ha
      exact ⟨_, .start p hp (some u) _ _ _ hc (by rw [ha.1, if_neg (by decide)]; exact ⟨u, rfl, ha.2⟩)⟩
  | act p =>
    simp only [exec] at h
    split at h
    · rename_i hh; exact execAct_sound hh h
    · cases h
  | drop p t =>
    simp only [exec] at h
    split at h <;> first | cases h | skip
    rename_i hp
    split at h <;> first | cases h | skip
    rename_i hpc hc
    exact ⟨_, .finDrop p t hp.1 hp.2 hpc _ _ _ hc⟩
  | env p f =>
    cases h
    exact ⟨_, .env p f⟩

/-- several moves -/
def execs (c : Cfg I) [∀ p t, Decidable (c.thr p t)] : St I → List (Mv I) → Option (St I)
  | s, [] => some s
  | s, mv :: l => match exec c s mv with
    | some s' => execs c s' l
    | none => none

theorem execs_reach {c : Cfg I} [∀ p t, Decidable (c.thr p t)] {l : List (Mv I)} {s s' : St I} (h : Reach c s)
    (he : execs c s l = some s') : Reach c s' := by
  induction l generalizing s with
  | nil => cases he; exact h
  | cons mv l ih =>
    simp only [execs] at he
    split at he
    · rename_i h1
      obtain ⟨l, hs⟩ := exec_sound h1
      exact ih (.step h hs) he
    · cases he

/-- the state after the moves from the beginning -/
def after (c : Cfg I) [∀ p t, Decidable (c.thr p t)] (l : List (Mv I)) (h : (execs c (init c) l).isSome = true) : St I :=
  (execs c (init c) l).get h

theorem after_reach {c : Cfg I} [∀ p t, Decidable (c.thr p t)] (l : List (Mv I)) (h : (execs c (init c) l).isSome = true) :
    Reach c (after c l h) := execs_reach .init (Option.some_get h).symm

end Verif.Am
