import Verif.Crit.Prog
/-!
# C109: programs with locks get to their end

Infinite fair executions (`Vis.Inf.Fair`, C102) of programs that take locks in increasing order and release them.
-/
namespace Verif.Crit
open Verif.Rma Verif.Lock

/-! ## What a PE holds -/

theorem holds_set {as : List PAct} {i l : Nat} (h : as[i]? = some (.set l)) : Holds as (i + 1) l :=
  ⟨i, by omega, h, fun k h1 h2 => by omega⟩

theorem holds_clear {as : List PAct} {i l : Nat} (h : as[i]? = some (.clear l)) : ¬ Holds as (i + 1) l := by
  rintro ⟨j, h1, h2, h3⟩
  rcases Nat.lt_or_ge j i with hj | hj
  · exact h3 i hj (by omega) h
  · have : j = i := by omega
    subst this
    rw [h] at h2
    cases h2

theorem holds_other {as : List PAct} {i l : Nat} (h1 : as[i]? ≠ some (.set l)) (h2 : as[i]? ≠ some (.clear l)) :
    Holds as (i + 1) l ↔ Holds as i l := by
  constructor
  · rintro ⟨j, a, b, c⟩
    have : j ≠ i := fun e => h1 (e ▸ b)
    exact ⟨j, by omega, b, fun k hk hk' => c k hk (by omega)⟩
  · rintro ⟨j, a, b, c⟩
    refine ⟨j, by omega, b, fun k hk hk' => ?_⟩
    rcases Nat.lt_or_ge k i with h | h
    · exact c k hk h
    · have : k = i := by omega
      rw [this]; exact h2

/-! ## Where PEs are in lock calls -/

/-- inside `shmem_set_lock` -/
def InSet (c : PC) : Prop := c = .setReset ∨ c = .setSwap ∨ (∃ x, c = .setLink x) ∨ c = .setSpin

/-- inside `shmem_clear_lock` -/
def InClear (c : PC) : Prop := c = .clrCas ∨ c = .clrSpin ∨ (∃ x, c = .clrReset x) ∨ ∃ x, c = .clrSignal x

theorem inSet_rest {c : PC} (h : InSet c) : c.rest = false := by
  rcases h with rfl | rfl | ⟨x, rfl⟩ | rfl <;> rfl

theorem inClear_rest {c : PC} (h : InClear c) : c.rest = false := by
  rcases h with rfl | rfl | ⟨x, rfl⟩ | ⟨x, rfl⟩ <;> rfl

theorem rest_cases {c : PC} (h : c.rest = true) : c = .idle ∨ c = .held := by
  unfold PC.rest at h
  simpa using h

theorem goto_self (s : WState) (l p : Nat) (c : PC) : (s.goto l p c).pc l p = c := by simp [WState.goto, upd]

theorem wstep_class {C : Cfg} {s s' : WState} {l p : Nat} {a : Act} {ev : List Lock.Ev} (h : wstep C s l p a = some (s', ev)) :
    match a with
    | .callSet => s.pc l p = .idle ∧ C.free s p = true ∧ s'.pc l p = .setReset
    | .callClear => s.pc l p = .held ∧ C.free s p = true ∧ s'.pc l p = .clrCas
    | .callTest => s.pc l p = .idle ∧ C.free s p = true ∧ s'.pc l p = .testCas
    | .run => (InSet (s.pc l p) ∧ (InSet (s'.pc l p) ∨ s'.pc l p = .held)) ∨
        (InClear (s.pc l p) ∧ (InClear (s'.pc l p) ∨ s'.pc l p = .idle)) ∨ s.pc l p = .testCas := by
  cases a with
  | callSet =>
    simp only [wstep] at h
    split at h
    · rename_i hc; cases h; exact ⟨hc.1, hc.2, goto_self ..⟩
    · cases h
  | callTest =>
    simp only [wstep] at h
    split at h
    · rename_i hc; cases h; exact ⟨hc.1, hc.2, goto_self ..⟩
    · cases h
  | callClear =>
    simp only [wstep] at h
    split at h
    · rename_i hc; cases h; exact ⟨hc.1, hc.2, goto_self ..⟩
    · cases h
  | run =>
    simp only [wstep] at h
    cases hd : C.lastDisp l p with
    | abort => rw [hd] at h; cases h
    | ub => rw [hd] at h; cases h
    | hang => rw [hd] at h; cases h
    | ok d =>
      rw [hd] at h
      dsimp only at h
      cases hpc : s.pc l p with
      | idle => rw [hpc] at h; cases h
      | held => rw [hpc] at h; cases h
      | setReset =>
        simp only [hpc] at h
        cases h
        exact Or.inl ⟨Or.inl rfl, Or.inl (by rw [goto_self]; exact Or.inr (Or.inl rfl))⟩
      | setSwap =>
        simp only [hpc] at h
        refine Or.inl ⟨Or.inr (Or.inl rfl), ?_⟩
        split at h
        · cases h; exact Or.inl (by rw [goto_self]; exact Or.inr (Or.inr (Or.inl ⟨_, rfl⟩)))
        · cases h; exact Or.inr (goto_self ..)
      | setLink c =>
        simp only [hpc] at h
        cases h
        exact Or.inl ⟨Or.inr (Or.inr (Or.inl ⟨_, rfl⟩)), Or.inl (by rw [goto_self]; exact Or.inr (Or.inr (Or.inr rfl)))⟩
      | setSpin =>
        simp only [hpc] at h
        refine Or.inl ⟨Or.inr (Or.inr (Or.inr rfl)), ?_⟩
        split at h
        · cases h; exact Or.inr (goto_self ..)
        · cases h; exact Or.inl (by rw [hpc]; exact Or.inr (Or.inr (Or.inr rfl)))
      | clrCas =>
        simp only [hpc] at h
        refine Or.inr (Or.inl ⟨Or.inl rfl, ?_⟩)
        split at h
        · cases h; exact Or.inl (by rw [goto_self]; exact Or.inr (Or.inl rfl))
        · cases h; exact Or.inr (goto_self ..)
      | clrSpin =>
        simp only [hpc] at h
        refine Or.inr (Or.inl ⟨Or.inr (Or.inl rfl), ?_⟩)
        split at h
        · cases h; exact Or.inl (by rw [goto_self]; exact Or.inr (Or.inr (Or.inl ⟨_, rfl⟩)))
        · cases h; exact Or.inl (by rw [hpc]; exact Or.inr (Or.inl rfl))
      | clrReset c =>
        simp only [hpc] at h
        cases h
        exact Or.inr (Or.inl ⟨Or.inr (Or.inr (Or.inl ⟨_, rfl⟩)), Or.inl (by rw [goto_self]; exact Or.inr (Or.inr (Or.inr ⟨_, rfl⟩)))⟩)
      | clrSignal c =>
        simp only [hpc] at h
        cases h
        exact Or.inr (Or.inl ⟨Or.inr (Or.inr (Or.inr ⟨_, rfl⟩)), Or.inr (goto_self ..)⟩)
      | testCas => exact Or.inr (Or.inr rfl)

/-- Where the PEs are in lock calls, as their programs have it. -/
structure PcInv (T : Sys) (P : Prog) (x : PX) : Prop where
  call : ∀ p < T.lk.n, ∀ l < T.lk.m, (x.x.pc l p).rest = false → ∃ k, x.pos p = k + 1 ∧
    (((P p)[k]? = some (.set l) ∧ InSet (x.x.pc l p)) ∨ ((P p)[k]? = some (.clear l) ∧ InClear (x.x.pc l p)))
  rest : ∀ p < T.lk.n, ∀ l < T.lk.m, (x.x.pc l p).rest = true → (x.x.pc l p = .held ↔ Holds (P p) (x.pos p) l)
  busy : ∀ p < T.lk.n, ∀ l < T.lk.m, (x.x.pc l p).rest = false → x.x.g.busy p = []
  len : ∀ p < T.lk.n, x.pos p ≤ (P p).length
  out : ∀ p, x.x.g.arr p = 0

theorem free_iff {C : Cfg} {s : WState} {p : Nat} : C.free s p = true ↔ ∀ k < C.m, (s.pc k p).rest = true := by
  unfold Cfg.free
  simp [List.all_eq_true]

theorem does_own {p : Nat} {c : Call} {e : Vis.Ev} (h : c.Does p e) : e.own = some p := by
  cases c with
  | put tgt nbi xs => obtain ⟨_, _, _, rfl⟩ := h; rfl
  | get tgt nbi xs => obtain ⟨_, _, _, rfl⟩ := h; rfl
  | store a v => cases h; rfl

theorem does_plain {p : Nat} {c : Call} {e : Vis.Ev} (h : c.Does p e) : e.plain = true := by
  cases c with
  | put tgt nbi xs => obtain ⟨_, _, _, rfl⟩ := h; rfl
  | get tgt nbi xs => obtain ⟨_, _, _, rfl⟩ := h; rfl
  | store a v => cases h; rfl

theorem does_safe {S : Vis.Sys} {p : Nat} {c : Call} {e : Vis.Ev} (h : c.Does p e) : e.Safe S := by
  cases c with
  | put tgt nbi xs => obtain ⟨_, _, _, rfl⟩ := h; exact trivial
  | get tgt nbi xs => obtain ⟨_, _, _, rfl⟩ := h; exact trivial
  | store a v => cases h; exact trivial

theorem does_writes {p : Nat} {c : Call} {e : Vis.Ev} (h : c.Does p e) {b : Nat × Int} (hw : e.writes b) : c.writes p b := by
  cases c with
  | put tgt nbi xs => obtain ⟨_, _, _, rfl⟩ := h; exact hw
  | get tgt nbi xs => obtain ⟨_, _, _, rfl⟩ := h; exact hw
  | store a v => cases h; exact hw

theorem own_caller {e : Vis.Ev} {p : Nat} (h : e.own = some p) : caller e = some p := by
  cases e <;> exact h

/-- what an event that no PE calls does to `busy` -/
theorem lib_busy {S : Vis.Sys} {g g' : Vis.G} {e : Vis.Ev} (h : Vis.Step S g e g') (p : Nat) (ho : e.own ≠ some p) (hb : g.busy p = []) :
    g'.busy p = [] := by
  have := (Vis.rest_step h ho).1.busy
  cases hz : g'.busy p with
  | nil => rfl
  | cons a t =>
    have := this a (by rw [hz]; exact List.mem_cons_self)
    rw [hb] at this
    cases this

/-- a step of `Vis` by PE `p` that is its next action, and not on locks -/
theorem pcInv_own {T : Sys} {P : Prog} {x : PX} (h : PcInv T P x) {p : Nat} {g' : Vis.G} {e : Vis.Ev} (s : Vis.Step T.vis x.x.g e g')
    (hc : ∀ p, caller e = some p → T.lk.free x.x.words p = true) (ho : e.own = some p) (he : ∀ q, e ≠ .enter q) {a : PAct} (ha : (P p)[x.pos p]? = some a)
    (h1 : ∀ l, a ≠ .set l) (h2 : ∀ l, a ≠ .clear l) : PcInv T P ⟨⟨g', x.x.pc⟩, Function.update x.pos p (x.pos p + 1)⟩ := by
  have hfree := free_iff.1 (hc p (own_caller ho))
  refine ⟨?_, ?_, ?_, ?_, ?_⟩
  · intro q hq l hl hr
    by_cases hqp : q = p
    · subst hqp
      have := hfree l hl
      exact absurd (hr.symm.trans this) (by decide)
    · dsimp only
      rw [Function.update_of_ne hqp]
      exact h.call q hq l hl hr
  · intro q hq l hl hr
    by_cases hqp : q = p
    · subst hqp
      dsimp only
      rw [Function.update_self, holds_other (by rw [ha]; exact fun h => h1 l (by cases h; rfl)) (by rw [ha]; exact fun h => h2 l (by cases h; rfl))]
      exact h.rest q hq l hl hr
    · dsimp only
      rw [Function.update_of_ne hqp]
      exact h.rest q hq l hl hr
  · intro q hq l hl hr
    by_cases hqp : q = p
    · subst hqp
      have := hfree l hl
      exact absurd (hr.symm.trans this) (by decide)
    · exact lib_busy s q (by rw [ho]; exact fun h => hqp (by cases h; rfl)) (h.busy q hq l hl hr)
  · intro q hq
    dsimp only
    by_cases hqp : q = p
    · subst hqp
      rw [Function.update_self]
      exact (List.getElem?_eq_some_iff.1 ha).1
    · rw [Function.update_of_ne hqp]
      exact h.len q hq
  · intro q
    show g'.arr q = 0
    rw [Bsp.arr_step s he]
    exact h.out q

theorem does_noenter {p : Nat} {c : Call} {e : Vis.Ev} (h : c.Does p e) (q : Nat) : e ≠ .enter q := by
  cases c with
  | put tgt nbi xs => obtain ⟨_, _, _, rfl⟩ := h; exact (fun h => by cases h)
  | get tgt nbi xs => obtain ⟨_, _, _, rfl⟩ := h; exact (fun h => by cases h)
  | store a v => cases h; exact (fun h => by cases h)

/-- a lock step: what it does to the invariant, if it is in order for its lock -/
theorem pcInv_lock {T : Sys} {P : Prog} {x : PX} (h : PcInv T P x) {l p : Nat} {a : Act} {w : WState} {ev : List Lock.Ev}
    (hf : Vis.Free T.vis x.x.g p) (hs : wstep T.lk x.x.words l p a = some (w, ev)) {pos' : Nat → Nat} (hpos : ∀ q, q ≠ p → pos' q = x.pos q)
    (hlen : pos' p ≤ (P p).length)
    (hcall : (w.pc l p).rest = false → ∃ k, pos' p = k + 1 ∧
      (((P p)[k]? = some (.set l) ∧ InSet (w.pc l p)) ∨ ((P p)[k]? = some (.clear l) ∧ InClear (w.pc l p))))
    (hrest : (w.pc l p).rest = true → (w.pc l p = .held ↔ Holds (P p) (pos' p) l))
    (hoth : ∀ k < T.lk.m, k ≠ l → (x.x.pc k p).rest = true ∧ (Holds (P p) (pos' p) k ↔ Holds (P p) (x.pos p) k)) :
    PcInv T P ⟨⟨{ x.x.g with mem := back x.x.g.mem w.mem }, w.pc⟩, pos'⟩ := by
  have hpc := (wstep_pc hs).1
  have hpc' : ∀ l' p', ¬ (l' = l ∧ p' = p) → w.pc l' p' = x.x.pc l' p' := hpc
  have hp : p < T.lk.n := by rw [T.hn]; exact hf.1
  refine ⟨?_, ?_, ?_, ?_, h.out⟩
  · intro q hq k hk hr
    by_cases hqp : q = p
    · subst hqp
      by_cases hkl : k = l
      · subst hkl; exact hcall hr
      · dsimp only at hr
        rw [hpc' k q (fun e => hkl e.1), (hoth k hk hkl).1] at hr
        cases hr
    · dsimp only at hr ⊢
      rw [hpc' k q (fun e => hqp e.2)] at hr ⊢
      rw [hpos q hqp]
      exact h.call q hq k hk hr
  · intro q hq k hk hr
    by_cases hqp : q = p
    · subst hqp
      by_cases hkl : k = l
      · subst hkl; exact hrest hr
      · dsimp only at hr ⊢
        rw [hpc' k q (fun e => hkl e.1)] at hr ⊢
        rw [(hoth k hk hkl).2]
        exact h.rest q hq k hk hr
    · dsimp only at hr ⊢
      rw [hpc' k q (fun e => hqp e.2)] at hr ⊢
      rw [hpos q hqp]
      exact h.rest q hq k hk hr
  · intro q hq k hk hr
    by_cases hqp : q = p
    · subst hqp; exact hf.2.2
    · dsimp only at hr ⊢
      rw [hpc' k q (fun e => hqp e.2)] at hr
      exact h.busy q hq k hk hr
  · intro q hq
    by_cases hqp : q = p
    · subst hqp; exact hlen
    · dsimp only
      rw [hpos q hqp]
      exact h.len q hq

theorem pcInv_step {T : Sys} {P : Prog} {x y : PX} {e : Ev} (h : PcInv T P x) (s : PStep T P x e y) : PcInv T P y := by
  cases s with
  | @lib x y pos e ho s =>
    cases s with
    | @rma e g' hs hc =>
      exact ⟨h.call, h.rest, fun q hq l hl hr => lib_busy hs q (by rw [ho]; exact fun h => by cases h) (h.busy q hq l hl hr), h.len,
        fun q => (congrFun (Bsp.arr_step hs (by rintro q rfl; cases ho)) q).trans (h.out q)⟩
  | @data x y pos e p f ha hd s =>
    cases s with
    | @rma e g' hs hc =>
      exact pcInv_own h hs hc (does_own hd) (does_noenter hd) ha (fun l h => by cases h) (fun l h => by cases h)
  | @quiet x y pos p op ha ho s =>
    cases s with
    | @rma e g' hs hc =>
      exact pcInv_own h hs hc rfl (fun q h => by cases h) ha (fun l h => by cases h) (fun l h => by cases h)
  | @set x y pos ev p l ha s =>
    cases s with
    | @lock _ _ _ w _ hl hf hs =>
      obtain ⟨c1, c2, c3⟩ := wstep_class hs
      refine pcInv_lock h hf hs (fun q hq => Function.update_of_ne hq _ _) ?_ ?_ ?_ ?_
      · rw [Function.update_self]; exact (List.getElem?_eq_some_iff.1 ha).1
      · intro _
        rw [Function.update_self, c3]
        exact ⟨_, rfl, Or.inl ⟨ha, Or.inl rfl⟩⟩
      · intro hr; rw [c3] at hr; cases hr
      · intro k hk hkl
        refine ⟨free_iff.1 c2 k hk, ?_⟩
        rw [Function.update_self]
        exact holds_other (by rw [ha]; exact fun h => hkl (by cases h; rfl)) (by rw [ha]; exact fun h => by cases h)
  | @clear x y pos ev p l ha s =>
    cases s with
    | @lock _ _ _ w _ hl hf hs =>
      obtain ⟨c1, c2, c3⟩ := wstep_class hs
      refine pcInv_lock h hf hs (fun q hq => Function.update_of_ne hq _ _) ?_ ?_ ?_ ?_
      · rw [Function.update_self]; exact (List.getElem?_eq_some_iff.1 ha).1
      · intro _
        rw [Function.update_self, c3]
        exact ⟨_, rfl, Or.inr ⟨ha, Or.inl rfl⟩⟩
      · intro hr; rw [c3] at hr; cases hr
      · intro k hk hkl
        refine ⟨free_iff.1 c2 k hk, ?_⟩
        rw [Function.update_self]
        exact holds_other (by rw [ha]; exact fun h => by cases h) (by rw [ha]; exact fun h => hkl (by cases h; rfl))
  | @run x y pos ev p l s =>
    cases s with
    | @lock _ _ _ w _ hl hf hs =>
      have hc := wstep_class hs
      have hp : p < T.lk.n := by rw [T.hn]; exact hf.1
      have hnr : (x.pc l p).rest = false := by
        rcases hc with ⟨c1, _⟩ | ⟨c1, _⟩ | c1
        · exact inSet_rest c1
        · exact inClear_rest c1
        · show (x.words.pc l p).rest = false
          rw [c1]; rfl
      obtain ⟨k, hk, hk2⟩ := h.call p hp l hl hnr
      have hk : pos p = k + 1 := hk
      have hwp : x.words.pc l p = x.pc l p := rfl
      refine pcInv_lock h hf hs (fun q hq => rfl) (h.len p hp) ?_ ?_ ?_
      · intro hr
        refine ⟨k, hk, ?_⟩
        rcases hk2 with ⟨e1, e2⟩ | ⟨e1, e2⟩
        · refine Or.inl ⟨e1, ?_⟩
          rcases hc with ⟨_, c | c⟩ | ⟨c, _⟩ | c
          · exact c
          · rw [c] at hr; cases hr
          · exfalso
            rw [hwp] at c
            dsimp only at e2
            rcases e2 with e | e | ⟨_, e⟩ | e <;> rcases c with c | c | ⟨_, c⟩ | ⟨_, c⟩ <;> rw [e] at c <;> cases c
          · exfalso
            rw [hwp] at c
            dsimp only at e2
            rcases e2 with e | e | ⟨_, e⟩ | e <;> rw [e] at c <;> cases c
        · refine Or.inr ⟨e1, ?_⟩
          rcases hc with ⟨c, _⟩ | ⟨_, c | c⟩ | c
          · exfalso
            rw [hwp] at c
            dsimp only at e2
            rcases e2 with e | e | ⟨_, e⟩ | ⟨_, e⟩ <;> rcases c with c | c | ⟨_, c⟩ | c <;> rw [e] at c <;> cases c
          · exact c
          · rw [c] at hr; cases hr
          · exfalso
            rw [hwp] at c
            dsimp only at e2
            rcases e2 with e | e | ⟨_, e⟩ | ⟨_, e⟩ <;> rw [e] at c <;> cases c
      · intro hr
        rw [hk]
        rcases hk2 with ⟨e1, e2⟩ | ⟨e1, e2⟩
        · refine iff_of_true ?_ (holds_set e1)
          rcases hc with ⟨_, c | c⟩ | ⟨c, _⟩ | c
          · rw [inSet_rest c] at hr; cases hr
          · exact c
          · exfalso
            rw [hwp] at c
            dsimp only at e2
            rcases e2 with e | e | ⟨_, e⟩ | e <;> rcases c with c | c | ⟨_, c⟩ | ⟨_, c⟩ <;> rw [e] at c <;> cases c
          · exfalso
            rw [hwp] at c
            dsimp only at e2
            rcases e2 with e | e | ⟨_, e⟩ | e <;> rw [e] at c <;> cases c
        · refine iff_of_false ?_ (holds_clear e1)
          rcases hc with ⟨c, _⟩ | ⟨_, c | c⟩ | c
          · exfalso
            rw [hwp] at c
            dsimp only at e2
            rcases e2 with e | e | ⟨_, e⟩ | ⟨_, e⟩ <;> rcases c with c | c | ⟨_, c⟩ | c <;> rw [e] at c <;> cases c
          · rw [inClear_rest c] at hr; cases hr
          · rw [c]; exact fun h => by cases h
          · exfalso
            rw [hwp] at c
            dsimp only at e2
            rcases e2 with e | e | ⟨_, e⟩ | ⟨_, e⟩ <;> rw [e] at c <;> cases c
      · intro j hj hjl
        refine ⟨?_, Iff.rfl⟩
        cases hr : (x.pc j p).rest with
        | true => rfl
        | false =>
          exfalso
          obtain ⟨k', hk', hk2'⟩ := h.call p hp j hj hr
          have hk' : pos p = k' + 1 := hk'
          have : k' = k := by omega
          subst this
          rcases hk2 with ⟨e1, _⟩ | ⟨e1, _⟩ <;> rcases hk2' with ⟨e2, _⟩ | ⟨e2, _⟩ <;> rw [e1] at e2 <;> cases e2 <;> exact hjl rfl

theorem PStep.step {T : Sys} {P : Prog} {x y : PX} {e : Ev} (h : PStep T P x e y) : Step T x.x e y.x := by
  cases h <;> assumption

/-- programs do not write to locks -/
theorem PStep.respects {T : Sys} {P : Prog} (hP : Proper T P) {x y : PX} {e : Vis.Ev} (h : PStep T P x (.rma e) y) {t : Nat} (ht : t < T.lk.n)
    {a : BitVec 64} (ha : T.lk.InLock t a) : ¬ e.writes (t, a.toInt) := by
  cases h with
  | lib ho s =>
    intro hw
    cases e <;> first | exact hw | cases ho
  | @data x y pos e p f hf hd s =>
    cases s with
    | @rma e g' hs hc =>
      intro hw
      have hp : p < T.lk.n := by rw [T.hn]; exact (Vis.own_free hs (does_own hd)).1
      exact hP.respects p hp f (List.mem_of_getElem? hf) _ t ht a ha (does_writes hd hw)
  | quiet p op ha' ho s => exact id

theorem PRun.run {T : Sys} {P : Prog} (hP : Proper T P) {x y : PX} {l : List Ev} (h : PRun T P x l y) :
    ∃ tr, Run T x.x tr y.x ∧ Respected T tr := by
  induction h with
  | nil => exact ⟨[], Run.nil _, fun s hs => by cases hs⟩
  | @snoc y z l e r s ih =>
    obtain ⟨tr, h1, h2⟩ := ih
    refine ⟨_, Run.snoc h1 s.step, ?_⟩
    intro s' hs' e' he' t ht a ha
    rcases List.mem_append.1 hs' with h | h
    · exact h2 s' h e' he' t ht a ha
    · rw [List.mem_singleton] at h
      subst h
      cases he'
      exact s.respects hP ht ha

/-! ## Infinite executions -/

section
variable {T : Sys} {P : Prog} {R : LInf T P}

theorem LInf.idle' (R : LInf T P) {i : Nat} (h : R.ev i = none) : R.at_ (i + 1) = R.at_ i := by
  obtain ⟨h1, h2, h3⟩ := R.idle i h
  unfold LInf.at_
  rw [h2, h3, R.vis.idle i h1]

theorem LInf.run (R : LInf T P) (i : Nat) : ∃ l, PRun T P (R.at_ 0) l (R.at_ i) := by
  induction i with
  | zero => exact ⟨[], .nil _⟩
  | succ i ih =>
    obtain ⟨l, ih⟩ := ih
    cases he : R.ev i with
    | none => rw [R.idle' he]; exact ⟨l, ih⟩
    | some e => exact ⟨_, ih.snoc (R.step i e he)⟩

theorem pcInv_init {x : PX} (h0 : Start T x.x) (hp : x.pos = fun _ => 0) : PcInv T P x := by
  obtain ⟨⟨m, hm⟩, h1, _⟩ := h0
  have h1 : ∀ l p, x.x.pc l p = .idle := h1
  refine ⟨?_, ?_, ?_, ?_, ?_⟩
  · intro p hp l hl h; rw [h1] at h; cases h
  · intro p hp' l hl h
    rw [h1, hp]
    exact iff_of_false (fun h => by cases h) (fun ⟨j, hj, _⟩ => absurd hj (Nat.not_lt_zero _))
  · intro p hp l hl h; rw [h1] at h; cases h
  · intro p _; rw [hp]; exact Nat.zero_le _
  · intro p; rw [hm]; rfl

theorem pcInv_run {x y : PX} {l : List Ev} (h : PRun T P x l y) (h0 : PcInv T P x) : PcInv T P y := by
  induction h with
  | nil => exact h0
  | snoc r s ih => exact pcInv_step ih s

theorem LInf.start (R : LInf T P) : Start T (R.at_ 0).x := ⟨⟨R.vis.mem, R.vis.start⟩, R.init⟩

theorem LInf.pcInv (R : LInf T P) (i : Nat) : PcInv T P (R.at_ i) := by
  obtain ⟨l, r⟩ := R.run i
  exact pcInv_run r (pcInv_init R.start R.pos0)

/-- the accesses of lock calls at an instant -/
def lockAct : Option Ev → Option (Nat × Nat × Act)
  | none => none
  | some (.rma _) => none
  | some (.lock l p a _) => some (l, p, a)

/-- the lock part of the execution -/
def LInf.locks (R : LInf T P) (hP : Proper T P) : WRun T.lk where
  st i := (R.at_ i).x.words
  act i := lockAct (R.ev i)
  start := R.init
  next := by
    intro i
    cases he : R.ev i with
    | none =>
      refine Or.inl ⟨rfl, ?_, ?_⟩
      · rw [R.idle' he]
      · intro t _ x _; rw [R.idle' he]
    | some e =>
      have s := R.step i e he
      have s' : PStep T P (R.at_ i) e (R.at_ (i + 1)) := s
      have st := s'.step
      obtain ⟨l, r⟩ := R.run i
      obtain ⟨tr, r1, r2⟩ := r.run hP
      obtain ⟨_, hn, _⟩ := proj R.start r1 r2
      generalize R.at_ i = x at *
      generalize R.at_ (i + 1) = y at *
      obtain ⟨x, pos⟩ := x
      obtain ⟨y, pos'⟩ := y
      dsimp only at st hn ⊢
      cases st with
      | @rma e g' hs hc =>
        refine Or.inl ⟨rfl, rfl, fun t ht a ha => ?_⟩
        exact (Vis.noWriter_step hs (hn t ht a ha) (s'.respects hP ht ha)).2
      | @lock l p a w ev hl hf hs =>
        refine Or.inr ⟨l, p, a, ev, rfl, hl, by rw [T.hn]; exact hf.1, ?_⟩
        rw [lock_words]
        exact hs

/-- what a PE does at an instant: its next action, or an access of the lock call it is in -/
theorem LInf.own (R : LInf T P) {j p : Nat} {e : Vis.Ev} (he : R.vis.ev j = some e) (ho : e.own = some p) :
    (T.lk.free (R.at_ j).x.words p = true ∧ R.pos (j + 1) p = R.pos j p + 1 ∧ (R.pos j p < (P p).length)) ∨
      ∃ l evs, l < T.lk.m ∧ R.ev j = some (.lock l p .run evs) ∧ (R.pc j l p).rest = false := by
  cases hv : R.ev j with
  | none => rw [(R.idle j hv).1] at he; cases he
  | some ev =>
    have s : PStep T P (R.at_ j) ev (R.at_ (j + 1)) := R.step j ev hv
    have hd := R.data j
    have hl := R.lock j
    have e1 : (R.at_ j).pos = R.pos j := rfl
    have e2 : (R.at_ (j + 1)).pos = R.pos (j + 1) := rfl
    have e3 : (R.at_ j).x.pc = R.pc j := rfl
    rw [← e1, ← e2, ← e3]
    generalize R.at_ j = x at *
    generalize R.at_ (j + 1) = y at *
    cases s with
    | @lib x y pos e' ho' s =>
      have := hd e' hv
      rw [he] at this
      cases this
      rw [ho] at ho'
      cases ho'
    | @data x y pos e' q f ha hd' s =>
      have := hd e' hv
      rw [he] at this
      cases this
      have := does_own hd'
      rw [ho] at this
      cases this
      cases s with
      | rma hs hc => exact Or.inl ⟨hc _ (own_caller ho), Function.update_self .., (List.getElem?_eq_some_iff.1 ha).1⟩
    | @quiet x y pos q op ha ho' s =>
      have := hd _ hv
      rw [he] at this
      cases this
      cases ho
      cases s with
      | rma hs hc => exact Or.inl ⟨hc _ rfl, Function.update_self .., (List.getElem?_eq_some_iff.1 ha).1⟩
    | @set x y pos ev q l ha s =>
      obtain ⟨ws, hw⟩ := hl _ _ _ _ hv
      rw [he] at hw
      cases hw
      cases ho
      cases s with
      | lock _ _ _ hl hf hs => exact Or.inl ⟨(wstep_class hs).2.1, Function.update_self .., (List.getElem?_eq_some_iff.1 ha).1⟩
    | @clear x y pos ev q l ha s =>
      obtain ⟨ws, hw⟩ := hl _ _ _ _ hv
      rw [he] at hw
      cases hw
      cases ho
      cases s with
      | lock _ _ _ hl hf hs => exact Or.inl ⟨(wstep_class hs).2.1, Function.update_self .., (List.getElem?_eq_some_iff.1 ha).1⟩
    | @run x y pos ev q l s =>
      obtain ⟨ws, hw⟩ := hl _ _ _ _ hv
      rw [he] at hw
      cases hw
      cases ho
      cases s with
      | lock _ _ _ hl hf hs =>
        refine Or.inr ⟨l, ev, hl, rfl, ?_⟩
        rcases wstep_class hs with ⟨c, _⟩ | ⟨c, _⟩ | c
        · exact inSet_rest c
        · exact inClear_rest c
        · show (x.words.pc l p).rest = false
          rw [c]; rfl

/-- a PE that does nothing stays where it is -/
theorem LInf.mute (R : LInf T P) {j p : Nat} (h : R.vis.Mute j p) : R.pos (j + 1) p = R.pos j p ∧ ∀ l, R.pc (j + 1) l p = R.pc j l p := by
  cases hv : R.ev j with
  | none =>
    obtain ⟨_, h2, h3⟩ := R.idle j hv
    rw [h2, h3]
    exact ⟨rfl, fun _ => rfl⟩
  | some ev =>
    have s : PStep T P (R.at_ j) ev (R.at_ (j + 1)) := R.step j ev hv
    have hd := R.data j
    have hl := R.lock j
    have e1 : (R.at_ j).pos = R.pos j := rfl
    have e2 : (R.at_ (j + 1)).pos = R.pos (j + 1) := rfl
    have e3 : (R.at_ j).x.pc = R.pc j := rfl
    have e4 : (R.at_ (j + 1)).x.pc = R.pc (j + 1) := rfl
    rw [← e1, ← e2, ← e3, ← e4]
    generalize R.at_ j = x at *
    generalize R.at_ (j + 1) = y at *
    cases s with
    | @lib x y pos e' ho' s => cases s; exact ⟨rfl, fun _ => rfl⟩
    | @data x y pos e' q f ha hd' s =>
      have hne : p ≠ q := by rintro rfl; exact h _ (hd e' hv) (does_own hd')
      cases s; exact ⟨Function.update_of_ne hne _ _, fun _ => rfl⟩
    | @quiet x y pos q op ha ho' s =>
      have hne : p ≠ q := by rintro rfl; exact h _ (hd _ hv) rfl
      cases s; exact ⟨Function.update_of_ne hne _ _, fun _ => rfl⟩
    | @set x y pos ev q l ha s =>
      obtain ⟨ws, hw⟩ := hl _ _ _ _ hv
      have hne : p ≠ q := by rintro rfl; exact h _ hw rfl
      cases s with
      | lock _ _ _ hl hf hs => exact ⟨Function.update_of_ne hne _ _, fun k => (wstep_pc hs).1 k p (fun e => hne e.2)⟩
    | @clear x y pos ev q l ha s =>
      obtain ⟨ws, hw⟩ := hl _ _ _ _ hv
      have hne : p ≠ q := by rintro rfl; exact h _ hw rfl
      cases s with
      | lock _ _ _ hl hf hs => exact ⟨Function.update_of_ne hne _ _, fun k => (wstep_pc hs).1 k p (fun e => hne e.2)⟩
    | @run x y pos ev q l s =>
      obtain ⟨ws, hw⟩ := hl _ _ _ _ hv
      have hne : p ≠ q := by rintro rfl; exact h _ hw rfl
      cases s with
      | lock _ _ _ hl hf hs => exact ⟨rfl, fun k => (wstep_pc hs).1 k p (fun e => hne e.2)⟩

theorem LInf.muten (R : LInf T P) {i p : Nat} (n : Nat) (h : ∀ j, i ≤ j → j < i + n → R.vis.Mute j p) :
    R.pos (i + n) p = R.pos i p ∧ ∀ l, R.pc (i + n) l p = R.pc i l p := by
  induction n with
  | zero => exact ⟨rfl, fun _ => rfl⟩
  | succ n ih =>
    obtain ⟨a, b⟩ := ih (fun j h1 h2 => h j h1 (by omega))
    obtain ⟨c, d⟩ := R.mute (h (i + n) (by omega) (by omega))
    exact ⟨c.trans a, fun l => (d l).trans (b l)⟩

theorem LInf.pos1 (R : LInf T P) (j p : Nat) : R.pos j p ≤ R.pos (j + 1) p := by
  by_cases h : R.vis.Mute j p
  · rw [(R.mute h).1]
  · unfold Vis.Inf.Mute at h
    push Not at h
    obtain ⟨e, he, ho⟩ := h
    rcases R.own he ho with ⟨_, h, _⟩ | ⟨l, evs, _, h, _⟩
    · omega
    · have s : PStep T P (R.at_ j) _ (R.at_ (j + 1)) := R.step j _ h
      have e1 : (R.at_ j).pos = R.pos j := rfl
      have e2 : (R.at_ (j + 1)).pos = R.pos (j + 1) := rfl
      rw [← e1, ← e2]
      generalize R.at_ j = x at *
      generalize R.at_ (j + 1) = y at *
      cases s
      exact Nat.le_refl _

theorem LInf.mono (R : LInf T P) (p : Nat) {i j : Nat} (h : i ≤ j) : R.pos i p ≤ R.pos j p := by
  obtain ⟨n, rfl⟩ := Nat.exists_eq_add_of_le h
  clear h
  induction n with
  | zero => exact Nat.le_refl _
  | succ n ih => exact ih.trans (R.pos1 (i + n) p)

/-- no access of the execution can fault -/
theorem LInf.safe (R : LInf T P) : R.vis.Safe := by
  intro i e he
  cases hv : R.ev i with
  | none => rw [(R.idle i hv).1] at he; cases he
  | some ev =>
    have s := R.step i ev hv
    have hd := R.data i
    have hl := R.lock i
    cases ev with
    | lock l p a evs =>
      obtain ⟨ws, hw⟩ := hl _ _ _ _ hv
      rw [he] at hw
      cases hw
      exact trivial
    | rma e' =>
      have := hd e' hv
      rw [he] at this
      cases this
      generalize (⟨⟨R.vis.st i, R.pc i⟩, R.pos i⟩ : PX) = x at s
      generalize (⟨⟨R.vis.st (i + 1), R.pc (i + 1)⟩, R.pos (i + 1)⟩ : PX) = y at s
      cases s with
      | lib ho s => cases e <;> first | exact trivial | cases ho
      | data q f ha hd' s => exact does_safe hd'
      | quiet q op ha ho s => exact trivial

theorem LInf.nospaces (R : LInf T P) (i : Nat) : ∀ p, ((R.vis.st i).pe p).spaces = [] := by
  induction i with
  | zero => rw [R.vis.start]; exact fun _ => rfl
  | succ i ih =>
    cases he : R.vis.ev i with
    | none => rw [R.vis.idle i he]; exact ih
    | some e =>
      refine Bsp.nospaces_step (R.vis.step i e he) (fun p op h => ?_) ih
      subst h
      cases hv : R.ev i with
      | none => rw [(R.idle i hv).1] at he; cases he
      | some ev =>
        have s := R.step i ev hv
        cases ev with
        | lock l q a evs =>
          obtain ⟨ws, hw⟩ := R.lock i _ _ _ _ hv
          rw [he] at hw
          cases hw
        | rma e' =>
          have := R.data i e' hv
          rw [he] at this
          cases this
          generalize (⟨⟨R.vis.st i, R.pc i⟩, R.pos i⟩ : PX) = x at s
          generalize (⟨⟨R.vis.st (i + 1), R.pc (i + 1)⟩, R.pos (i + 1)⟩ : PX) = y at s
          cases s with
          | lib ho s => cases ho
          | @data x y pos e' q f ha hd' s =>
            exfalso
            cases hc : f (x.g.mem q) with
            | put tgt nbi xs => rw [hc] at hd'; obtain ⟨_, _, _, h⟩ := hd'; cases h
            | get tgt nbi xs => rw [hc] at hd'; obtain ⟨_, _, _, h⟩ := hd'; cases h
            | store a v => rw [hc] at hd'; cases hd'
          | quiet q op ha ho s => exact ho

theorem LInf.outside (R : LInf T P) {p : Nat} (hp : p < T.vis.npes) (i : Nat) : (R.vis.st i).arr p = (R.vis.st i).lv p := by
  have h1 := (Vis.gi_reach (R.vis.reach i)).lv p hp p hp
  have h2 : (R.vis.st i).arr p = 0 := (R.pcInv i).out p
  omega

/-- a PE in a lock call is given its next access -/
theorem LInf.scheduled (R : LInf T P) (hP : Proper T P) (F : R.vis.Fair) : (R.locks hP).Scheduled := by
  intro l p i hl hp hin
  have hin : (R.pc i l p).rest = false := hin
  have hpv : p < T.vis.npes := by rw [← T.hn]; exact hp
  by_contra hno
  push Not at hno
  -- the PE does nothing
  have hmu : ∀ n, (∀ j, i ≤ j → j < i + n → R.vis.Mute j p) := by
    intro n
    induction n with
    | zero => intro j h1 h2; omega
    | succ n ih =>
      intro j h1 h2
      rcases Nat.lt_or_ge j (i + n) with h | h
      · exact ih j h1 h
      · have : j = i + n := by omega
        subst this
        intro e he ho
        have hpc := (R.muten n ih).2
        rcases R.own he ho with ⟨hf, _⟩ | ⟨l', evs, hl', hev, hr⟩
        · have h3 := free_iff.1 hf l hl
          have h3 : (R.pc (i + n) l p).rest = true := h3
          rw [hpc l, hin] at h3
          cases h3
        · have : l' = l := by
            obtain ⟨k, hk, hk2⟩ := (R.pcInv (i + n)).call p hp l' hl' hr
            obtain ⟨k', hk', hk2'⟩ := (R.pcInv (i + n)).call p hp l hl (by show (R.pc (i + n) l p).rest = false; rw [hpc l]; exact hin)
            have : k' = k := by omega
            subst this
            rcases hk2 with ⟨e1, _⟩ | ⟨e1, _⟩ <;> rcases hk2' with ⟨e2, _⟩ | ⟨e2, _⟩ <;> rw [e1] at e2 <;> cases e2 <;> rfl
          subst this
          refine hno (i + n) (by omega) ?_
          show lockAct (R.ev (i + n)) = _
          rw [hev]
          rfl
  have hm : ∀ j, i ≤ j → R.vis.Mute j p := fun j hj => hmu (j - i + 1) j hj (by omega)
  obtain ⟨j, e, hj, he, ho⟩ := F.pe p hpv i (by
    intro j hj
    obtain ⟨n, rfl⟩ := Nat.exists_eq_add_of_le hj
    have hr : (R.pc (i + n) l p).rest = false := by rw [(R.muten n (hmu n)).2 l]; exact hin
    refine ⟨.touch p [], _, ?_, rfl, Vis.Step.touch p [] ⟨hpv, R.outside hpv _, (R.pcInv (i + n)).busy p hp l hl hr⟩⟩
    refine (R.inside (i + n) p ?_ _).2 ⟨_, rfl⟩
    cases hfr : T.lk.free (X.words ⟨R.vis.st (i + n), R.pc (i + n)⟩) p with
    | false => rfl
    | true =>
      have := free_iff.1 hfr l hl
      have : (R.pc (i + n) l p).rest = true := this
      rw [hr] at this
      cases this)
  exact hm j hj e he ho

/-- if the calls of a PE on locks return, it comes to its next action -/
theorem LInf.advance (R : LInf T P) (F : R.vis.Fair) {p : Nat} (hp : p < T.lk.n)
    (hret : ∀ l i, l < T.lk.m → (R.pc i l p).rest = false → ∃ j, i ≤ j ∧ (R.pc j l p).rest = true) {i : Nat} (hi : R.pos i p < (P p).length) :
    ∃ j, i ≤ j ∧ R.pos i p < R.pos j p := by
  have hpv : p < T.vis.npes := by rw [← T.hn]; exact hp
  by_contra hno
  push Not at hno
  have hpos : ∀ j, i ≤ j → R.pos j p = R.pos i p := fun j hj => Nat.le_antisymm (hno j hj) (R.mono p hj)
  have hone : ∀ j l l', i ≤ j → l < T.lk.m → l' < T.lk.m → (R.pc i l p).rest = false → (R.pc j l' p).rest = false → l' = l := by
    intro j l l' hj hl hl' h1 h2
    obtain ⟨k, hk, hk2⟩ := (R.pcInv i).call p hp l hl h1
    obtain ⟨k', hk', hk2'⟩ := (R.pcInv j).call p hp l' hl' h2
    have hk : R.pos i p = k + 1 := hk
    have hk' : R.pos j p = k' + 1 := hk'
    rw [hpos j hj] at hk'
    have : k' = k := by omega
    subst this
    rcases hk2 with ⟨e1, _⟩ | ⟨e1, _⟩ <;> rcases hk2' with ⟨e2, _⟩ | ⟨e2, _⟩ <;> rw [e1] at e2 <;> cases e2 <;> rfl
  -- a time when it is in no lock call
  obtain ⟨i1, h1, hf1⟩ : ∃ i1, i ≤ i1 ∧ ∀ l < T.lk.m, (R.pc i1 l p).rest = true := by
    by_cases h : ∀ l < T.lk.m, (R.pc i l p).rest = true
    · exact ⟨i, Nat.le_refl _, h⟩
    · push Not at h
      obtain ⟨l, hl, hr⟩ := h
      have hr : (R.pc i l p).rest = false := by simpa using hr
      obtain ⟨j, hj, hjr⟩ := hret l i hl hr
      refine ⟨j, hj, fun l' hl' => ?_⟩
      cases hr' : (R.pc j l' p).rest with
      | true => rfl
      | false =>
        obtain rfl := hone j l l' hj hl hl' hr hr'
        rw [hjr] at hr'
        cases hr'
  -- from then on it does nothing
  have hmu : ∀ n, (∀ j, i1 ≤ j → j < i1 + n → R.vis.Mute j p) := by
    intro n
    induction n with
    | zero => intro j h1 h2; omega
    | succ n ih =>
      intro j hj1 hj2
      rcases Nat.lt_or_ge j (i1 + n) with h | h
      · exact ih j hj1 h
      · have : j = i1 + n := by omega
        subst this
        intro e he ho
        rcases R.own he ho with ⟨_, h, _⟩ | ⟨l', evs, hl', hev, hr⟩
        · have e1 := hpos (i1 + n) (by omega)
          have e2 := hpos (i1 + n + 1) (by omega)
          omega
        · rw [(R.muten n ih).2 l', hf1 l' hl'] at hr
          cases hr
  have hm : ∀ j, i1 ≤ j → R.vis.Mute j p := fun j hj => hmu (j - i1 + 1) j hj (by omega)
  obtain ⟨i2, h2, hbz⟩ := Vis.C102_blocking F R.safe hpv i1
  have hfr : ∀ j, i2 ≤ j → Vis.Free T.vis (R.vis.st j) p := by
    intro j hj
    obtain ⟨m, rfl⟩ := Nat.exists_eq_add_of_le hj
    have hr := (R.vis.rest (i := i2) m (fun k h1 h2 => hm k (by omega))).1
    refine ⟨hpv, R.outside hpv _, ?_⟩
    cases hz : (R.vis.st (i2 + m)).busy p with
    | nil => rfl
    | cons b t =>
      have := hr.busy b (by rw [hz]; exact List.mem_cons_self)
      rw [hbz] at this
      cases this
  have hlf : ∀ j, i2 ≤ j → T.lk.free (X.words ⟨R.vis.st j, R.pc j⟩) p = true := by
    intro j hj
    obtain ⟨m, rfl⟩ := Nat.exists_eq_add_of_le (show i1 ≤ j by omega)
    refine free_iff.2 fun l hl => ?_
    show (R.pc (i1 + m) l p).rest = true
    rw [(R.muten m (hmu m)).2 l]
    exact hf1 l hl
  obtain ⟨a, ha⟩ : ∃ a, (P p)[R.pos i p]? = some a := ⟨_, List.getElem?_eq_getElem hi⟩
  have hst : ∀ j, i2 ≤ j → _ := fun j hj => R.stands j p (hfr j hj) (hlf j hj) a (by rw [hpos j (by omega)]; exact ha)
  have touches : (∀ j, i2 ≤ j → ∀ e, R.vis.want j p e ↔ ∃ ws, e = .touch p ws) → False := by
    intro ht
    obtain ⟨j, e, hj, he, ho⟩ := F.pe p hpv i2 (by
      intro j hj
      exact ⟨.touch p [], _, (ht j hj _).2 ⟨_, rfl⟩, rfl, Vis.Step.touch p [] (hfr j hj)⟩)
    exact hm j (by omega) e he ho
  cases a with
  | set l => exact touches hst
  | clear l => exact touches hst
  | quiet =>
    have hsp : ∀ x ∈ ((R.vis.st i2).pe p).spaces, x.att = true ∨
        (x.nctx = 0 ∧ ((T.vis.cf p).dyn = true ∨ ((T.vis.cf p).tracking = true ∧ x.dflt.flag = false))) := by
      rw [R.nospaces i2 p]; intro x hx; cases hx
    rcases hst i2 (Nat.le_refl _) with hw | hw
    · obtain ⟨j, hj, he⟩ := Vis.C102_quiet_partial F R.safe hpv hw (Or.inl rfl) (R.outside hpv _) hsp
      exact hm j (by omega) _ he rfl
    · obtain ⟨j, hj, he⟩ := Vis.C102_quiet_partial F R.safe hpv hw (Or.inr rfl) (R.outside hpv _) hsp
      exact hm j (by omega) _ he rfl
  | data f =>
    obtain ⟨j, e, hj, he, ho, _⟩ := Vis.C102_issue F R.safe hpv (i := i2) (fun j hj _ => hst j hj)
    exact hm j (by omega) e he ho

/-- a PE whose calls on locks return gets to the end of its program -/
theorem LInf.gets (R : LInf T P) (F : R.vis.Fair) {p : Nat} (hp : p < T.lk.n)
    (hret : ∀ l i, l < T.lk.m → (R.pc i l p).rest = false → ∃ j, i ≤ j ∧ (R.pc j l p).rest = true) (i : Nat) :
    ∃ j, i ≤ j ∧ R.pos j p = (P p).length := by
  have key : ∀ n i, (P p).length - R.pos i p = n → ∃ j, i ≤ j ∧ R.pos j p = (P p).length := by
    intro n
    induction n using Nat.strong_induction_on with
    | _ n ih =>
      intro i hn
      have hlen : R.pos i p ≤ (P p).length := (R.pcInv i).len p hp
      rcases Nat.lt_or_ge (R.pos i p) (P p).length with hlt | hge
      · obtain ⟨j, hj, hjp⟩ := R.advance F hp hret hlt
        obtain ⟨k, hk, hkp⟩ := ih _ (by omega) j rfl
        exact ⟨k, by omega, hkp⟩
      · exact ⟨i, Nat.le_refl _, by omega⟩
  exact key _ i rfl

/-- programs that set and clear locks in order release what they hold -/
theorem LInf.releasing (R : LInf T P) (hP : Proper T P) (F : R.vis.Fair) : (R.locks hP).Releasing := by
  intro l p i hl hp hh
  have hh : R.pc i l p = .held := hh
  by_cases hret : ∀ l i, l < T.lk.m → (R.pc i l p).rest = false → ∃ j, i ≤ j ∧ (R.pc j l p).rest = true
  · left
    by_contra hno
    push Not at hno
    -- it goes on holding
    have hheld : ∀ n, R.pc (i + n) l p = .held := by
      intro n
      induction n with
      | zero => exact hh
      | succ n ih =>
        by_cases hmu : R.vis.Mute (i + n) p
        · exact ((R.mute hmu).2 l).trans ih
        · unfold Vis.Inf.Mute at hmu
          push Not at hmu
          obtain ⟨e, he, ho⟩ := hmu
          cases hv : R.ev (i + n) with
          | none => rw [(R.idle _ hv).1] at he; cases he
          | some ev =>
            have s : Step T (R.at_ (i + n)).x ev (R.at_ (i + n + 1)).x := PStep.step (R.step (i + n) ev hv)
            have hna := hno (i + n) (by omega)
            have hna : lockAct (R.ev (i + n)) ≠ _ := hna
            rw [hv] at hna
            have e3 : (R.at_ (i + n)).x.pc = R.pc (i + n) := rfl
            have e4 : (R.at_ (i + n + 1)).x.pc = R.pc (i + n + 1) := rfl
            show R.pc (i + n + 1) l p = .held
            rw [← e3] at ih
            rw [← e4]
            generalize (R.at_ (i + n)).x = x at *
            generalize (R.at_ (i + n + 1)).x = y at *
            cases s with
            | rma hs hc => exact ih
            | lock l' p' a hl' hf hs =>
              by_cases hlp : l = l' ∧ p = p'
              · obtain ⟨rfl, rfl⟩ := hlp
                have := (wstep_pc hs).2.1 ih
                subst this
                exact absurd rfl hna
              · exact ((wstep_pc hs).1 l p hlp).trans ih
    obtain ⟨j, hj, hjp⟩ := R.gets F hp hret i
    obtain ⟨n, rfl⟩ := Nat.exists_eq_add_of_le hj
    have h1 := hheld n
    have h2 := ((R.pcInv (i + n)).rest p hp l hl (by show (R.pc (i + n) l p).rest = true; rw [h1]; rfl)).1 h1
    have h2 : Holds (P p) (R.pos (i + n) p) l := h2
    rw [hjp] at h2
    exact hP.all p hp l h2
  · right
    push Not at hret
    obtain ⟨k, j, hk, hr, hall⟩ := hret
    -- a call of this PE never returns; it may be one from before instant `i`
    have hin : ∀ j', j ≤ j' → (R.pc j' k p).rest = false := by
      intro j' hj'
      have := hall j' hj'
      simpa using this
    exact ⟨k, max i j, hk, Nat.le_max_left .., fun j' hj' => hin j' (by omega)⟩

theorem LInf.ordered (R : LInf T P) (hP : Proper T P) : (R.locks hP).Ordered := by
  intro i l p h k hk hh
  have h : lockAct (R.ev i) = _ := h
  have hh : R.pc i k p = .held := hh
  cases hv : R.ev i with
  | none => rw [hv] at h; cases h
  | some ev =>
    rw [hv] at h
    cases ev with
    | rma e => cases h
    | lock l' p' a evs =>
      cases h
      have s : PStep T P (R.at_ i) _ (R.at_ (i + 1)) := R.step i _ hv
      have hinv := R.pcInv i
      have e3 : (R.at_ i).x.pc = R.pc i := rfl
      rw [← e3] at hh
      generalize R.at_ i = x at *
      generalize R.at_ (i + 1) = y at *
      cases s with
      | @set x y pos ev p l ha s =>
        cases s with
        | lock _ _ _ hl hf hs =>
          have hp : p < T.lk.n := by rw [T.hn]; exact hf.1
          refine (hP.order p hp _ l ha).2 k ?_
          exact (hinv.rest p hp k hk (by dsimp only at hh ⊢; rw [hh]; rfl)).1 hh

/-- every call on a lock returns -/
theorem LInf.returns (R : LInf T P) (wf : T.lk.WF) (un : T.lk.Uniform) (hP : Proper T P) (F : R.vis.Fair) {p : Nat} (hp : p < T.lk.n) (l i : Nat)
    (hl : l < T.lk.m) (h : (R.pc i l p).rest = false) : ∃ j, i ≤ j ∧ (R.pc j l p).rest = true := by
  obtain ⟨j, hj, hr⟩ := (C90_progress_partial wf un (R.locks hP) (R.scheduled hP F) (R.releasing hP F) (R.ordered hP) hl hp i).1 h
  refine ⟨j, hj, ?_⟩
  have hr : ¬ (R.pc j l p).rest = false := hr
  simpa using hr

/-- **C109** (programs with locks get to their end): in every fair execution of a program whose PEs set locks in increasing order and clear them,
every PE gets to the end of its program: from some time on all its calls have been made and have returned, and no lock is held. -/
theorem C109_ends_partial (R : LInf T P) (wf : T.lk.WF) (un : T.lk.Uniform) (hP : Proper T P) (F : R.vis.Fair) :
    ∃ i, ∀ j, i ≤ j → ∀ p < T.lk.n, R.pos j p = (P p).length ∧ (∀ l < T.lk.m, R.pc j l p = .idle) ∧ (R.vis.st j).busy p = [] := by
  have key : ∀ p < T.lk.n, ∃ i, ∀ j, i ≤ j → R.pos j p = (P p).length ∧ (∀ l < T.lk.m, R.pc j l p = .idle) ∧ (R.vis.st j).busy p = [] := by
    intro p hp
    have hpv : p < T.vis.npes := by rw [← T.hn]; exact hp
    have hret := fun l i => R.returns wf un hP F hp l i
    obtain ⟨i, _, hi⟩ := R.gets F hp hret 0
    have hpos : ∀ j, i ≤ j → R.pos j p = (P p).length := fun j hj =>
      Nat.le_antisymm ((R.pcInv j).len p hp) (hi ▸ R.mono p hj)
    -- a time when it is in no lock call
    obtain ⟨i1, h1, hf1⟩ : ∃ i1, i ≤ i1 ∧ ∀ l < T.lk.m, (R.pc i1 l p).rest = true := by
      by_cases h : ∀ l < T.lk.m, (R.pc i l p).rest = true
      · exact ⟨i, Nat.le_refl _, h⟩
      · push Not at h
        obtain ⟨l, hl, hr⟩ := h
        have hr : (R.pc i l p).rest = false := by simpa using hr
        obtain ⟨j, hj, hjr⟩ := hret l i hl hr
        refine ⟨j, hj, fun l' hl' => ?_⟩
        cases hr' : (R.pc j l' p).rest with
        | true => rfl
        | false =>
          obtain ⟨k, hk, hk2⟩ := (R.pcInv i).call p hp l hl hr
          obtain ⟨k', hk', hk2'⟩ := (R.pcInv j).call p hp l' hl' hr'
          have hk : R.pos i p = k + 1 := hk
          have hk' : R.pos j p = k' + 1 := hk'
          rw [hpos j hj] at hk'
          rw [hi] at hk
          have : k' = k := by omega
          subst this
          have : l' = l := by
            rcases hk2 with ⟨e1, _⟩ | ⟨e1, _⟩ <;> rcases hk2' with ⟨e2, _⟩ | ⟨e2, _⟩ <;> rw [e1] at e2 <;> cases e2 <;> rfl
          subst this
          rw [hjr] at hr'
          cases hr'
    have hmu : ∀ n, (∀ j, i1 ≤ j → j < i1 + n → R.vis.Mute j p) := by
      intro n
      induction n with
      | zero => intro j h1 h2; omega
      | succ n ih =>
        intro j hj1 hj2
        rcases Nat.lt_or_ge j (i1 + n) with h | h
        · exact ih j hj1 h
        · have : j = i1 + n := by omega
          subst this
          intro e he ho
          rcases R.own he ho with ⟨_, h, _⟩ | ⟨l', evs, hl', hev, hr⟩
          · have e1 := hpos (i1 + n) (by omega)
            have e2 := hpos (i1 + n + 1) (by omega)
            omega
          · rw [(R.muten n ih).2 l', hf1 l' hl'] at hr
            cases hr
    have hm : ∀ j, i1 ≤ j → R.vis.Mute j p := fun j hj => hmu (j - i1 + 1) j hj (by omega)
    obtain ⟨i2, h2, hbz⟩ := Vis.C102_blocking F R.safe hpv i1
    refine ⟨i2, fun j hj => ⟨hpos j (by omega), ?_, ?_⟩⟩
    · intro l hl
      obtain ⟨m, rfl⟩ := Nat.exists_eq_add_of_le (show i1 ≤ j by omega)
      have hr : (R.pc (i1 + m) l p).rest = true := by rw [(R.muten m (hmu m)).2 l]; exact hf1 l hl
      rcases rest_cases hr with h | h
      · exact h
      · have h2 := ((R.pcInv (i1 + m)).rest p hp l hl hr).1 h
        have h2 : Holds (P p) (R.pos (i1 + m) p) l := h2
        rw [hpos _ (by omega)] at h2
        exact absurd h2 (hP.all p hp l)
    · obtain ⟨m, rfl⟩ := Nat.exists_eq_add_of_le hj
      have hr := (R.vis.rest (i := i2) m (fun k h1 h2 => hm k (by omega))).1
      cases hz : (R.vis.st (i2 + m)).busy p with
      | nil => rfl
      | cons b t =>
        have := hr.busy b (by rw [hz]; exact List.mem_cons_self)
        rw [hbz] at this
        cases this
  have all : ∀ n, n ≤ T.lk.n → ∃ i, ∀ j, i ≤ j → ∀ p < n, R.pos j p = (P p).length ∧ (∀ l < T.lk.m, R.pc j l p = .idle) ∧ (R.vis.st j).busy p = [] := by
    intro n
    induction n with
    | zero => intro _; exact ⟨0, fun _ _ p hp => by omega⟩
    | succ n ih =>
      intro hn
      obtain ⟨i1, h1⟩ := ih (by omega)
      obtain ⟨i2, h2⟩ := key n (by omega)
      refine ⟨max i1 i2, fun j hj p hp => ?_⟩
      rcases Nat.lt_succ_iff_lt_or_eq.mp hp with h3 | h3
      · exact h1 j (by omega) p h3
      · rw [h3]; exact h2 j (by omega)
  exact all _ (Nat.le_refl _)

end

end Verif.Crit
