import Verif.Mix.Prog
/-!
# Where the PEs are in lock calls and barriers, as their programs have it
-/
namespace Verif.Crit.Mix
open Verif.Rma Verif.Lock

/-- Where the PEs are in lock calls, as their programs have it. -/
structure PcInv (T : Sys) (P : Prog) (x : PX) : Prop where
  call : ∀ p < T.lk.n, ∀ l < T.lk.m, (x.x.pc l p).rest = false → ∃ k, x.pos p = k + 1 ∧
    (((P p)[k]? = some (.set l) ∧ InSet (x.x.pc l p)) ∨ ((P p)[k]? = some (.clear l) ∧ InClear (x.x.pc l p)))
  rest : ∀ p < T.lk.n, ∀ l < T.lk.m, (x.x.pc l p).rest = true → (x.x.pc l p = .held ↔ Holds (P p) (x.pos p) l)
  wait : ∀ p < T.lk.n, x.x.g.arr p ≠ x.x.g.lv p → (∀ l < T.lk.m, (x.x.pc l p).rest = true) ∧ (P p)[x.pos p]? = some .bar ∧
    x.x.g.busy p = [] ∧ x.x.g.arr p = x.x.g.lv p + 1

theorem lv_keep {S : Vis.Sys} {g g' : Vis.G} {e : Vis.Ev} (s : Vis.Step S g e g') (h : ∀ p, e ≠ .leave p) : g'.lv = g.lv := by
  funext p
  rcases Vis.lv_step s p with h1 | ⟨h1, _⟩
  · exact h1
  · exact absurd h1 (h p)

theorem enter_busy {S : Vis.Sys} {g g' : Vis.G} {p : Nat} (s : Vis.Step S g (.enter p) g') :
    g'.busy p = [] ∧ g'.arr = Function.update g.arr p (g.arr p + 1) ∧ g'.lv = g.lv := by
  cases s with
  | enter p s' hf e d =>
    refine ⟨?_, rfl, rfl⟩
    simp only [Vis.after, Function.update_self]
    split <;> rfl

theorem leave_step {S : Vis.Sys} {g g' : Vis.G} {p : Nat} (s : Vis.Step S g (.leave p) g') :
    g' = { g with lv := Function.update g.lv p (g.lv p + 1) } ∧ p < S.npes ∧ g.lv p < g.arr p ∧ ∀ q < S.npes, g.lv p < g.arr q := by
  cases s with
  | leave p hp h0 ha => exact ⟨rfl, hp, h0, ha⟩

/-- a step of `Vis` by PE `p` that is its next action, and not on locks -/
theorem pcInv_own {T : Sys} {P : Prog} {x : PX} (h : PcInv T P x) {p : Nat} {g' : Vis.G} {e : Vis.Ev} (s : Vis.Step T.vis x.x.g e g')
    (hc : ∀ p, caller e = some p → T.lk.free x.x.words p = true) (ho : e.own = some p) (he : ∀ q, e ≠ .enter q) (he2 : ∀ q, e ≠ .leave q)
    {a : PAct} (ha : (P p)[x.pos p]? = some a)
    (h1 : ∀ l, a ≠ .set l) (h2 : ∀ l, a ≠ .clear l) : PcInv T P ⟨⟨g', x.x.pc⟩, Function.update x.pos p (x.pos p + 1)⟩ := by
  have hfree := free_iff.1 (hc p (own_caller ho))
  refine ⟨?_, ?_, ?_⟩
  · intro q hq l hl hr
    by_cases hqp : q = p
    · subst hqp
      have := hfree l hl
      exact absurd (hr.symm.trans this) (by decide)
    · dsimp only
      rw [Function.update_of_ne hqp]
      exact h.call q hq l hl hr
  · intro q hq l hl hr
    by_cases hqp : q = p
    · subst hqp
      dsimp only
      rw [Function.update_self, holds_other (by rw [ha]; exact fun h => h1 l (by cases h; rfl)) (by rw [ha]; exact fun h => h2 l (by cases h; rfl))]
      exact h.rest q hq l hl hr
    · dsimp only
      rw [Function.update_of_ne hqp]
      exact h.rest q hq l hl hr
  · intro q hq hne
    dsimp only at hne ⊢
    rw [Bsp.arr_step s he, lv_keep s he2] at hne ⊢
    by_cases hqp : q = p
    · subst hqp
      exact absurd (Vis.own_free s ho).2.1 hne
    · rw [Function.update_of_ne hqp]
      obtain ⟨w1, w2, w3, w4⟩ := h.wait q hq hne
      exact ⟨w1, w2, lib_busy s q (by rw [ho]; exact fun h => hqp (by cases h; rfl)) w3, w4⟩

/-- a lock step: what it does to the invariant, if it is in order for its lock -/
theorem pcInv_lock {T : Sys} {P : Prog} {x : PX} (h : PcInv T P x) {l p : Nat} {a : Act} {w : WState} {ev : List Lock.Ev}
    (hf : Vis.Free T.vis x.x.g p) (hs : wstep T.lk x.x.words l p a = some (w, ev)) {pos' : Nat → Nat} (hpos : ∀ q, q ≠ p → pos' q = x.pos q)
    (hcall : (w.pc l p).rest = false → ∃ k, pos' p = k + 1 ∧
      (((P p)[k]? = some (.set l) ∧ InSet (w.pc l p)) ∨ ((P p)[k]? = some (.clear l) ∧ InClear (w.pc l p))))
    (hrest : (w.pc l p).rest = true → (w.pc l p = .held ↔ Holds (P p) (pos' p) l))
    (hoth : ∀ k < T.lk.m, k ≠ l → (x.x.pc k p).rest = true ∧ (Holds (P p) (pos' p) k ↔ Holds (P p) (x.pos p) k)) :
    PcInv T P ⟨⟨{ x.x.g with mem := back x.x.g.mem w.mem }, w.pc⟩, pos'⟩ := by
  have hpc := (wstep_pc hs).1
  have hpc' : ∀ l' p', ¬ (l' = l ∧ p' = p) → w.pc l' p' = x.x.pc l' p' := hpc
  have hp : p < T.lk.n := by rw [T.hn]; exact hf.1
  refine ⟨?_, ?_, ?_⟩
  · intro q hq k hk hr
    by_cases hqp : q = p
    · subst hqp
      by_cases hkl : k = l
      · subst hkl; exact hcall hr
      · dsimp only at hr
        rw [hpc' k q (fun e => hkl e.1), (hoth k hk hkl).1] at hr
        cases hr
    · dsimp only at hr ⊢
      rw [hpc' k q (fun e => hqp e.2)] at hr ⊢
      rw [hpos q hqp]
      exact h.call q hq k hk hr
  · intro q hq k hk hr
    by_cases hqp : q = p
    · subst hqp
      by_cases hkl : k = l
      · subst hkl; exact hrest hr
      · dsimp only at hr ⊢
        rw [hpc' k q (fun e => hkl e.1)] at hr ⊢
        rw [(hoth k hk hkl).2]
        exact h.rest q hq k hk hr
    · dsimp only at hr ⊢
      rw [hpc' k q (fun e => hqp e.2)] at hr ⊢
      rw [hpos q hqp]
      exact h.rest q hq k hk hr
  · intro q hq hne
    have hne : x.x.g.arr q ≠ x.x.g.lv q := hne
    by_cases hqp : q = p
    · subst hqp; exact absurd hf.2.1 hne
    · obtain ⟨w1, w2, w3, w4⟩ := h.wait q hq hne
      refine ⟨fun k hk => ?_, ?_, w3, w4⟩
      · show (w.pc k q).rest = true
        rw [hpc' k q (fun e => hqp e.2)]; exact w1 k hk
      · show (P q)[pos' q]? = _
        rw [hpos q hqp]; exact w2

theorem does_noleave {p : Nat} {c : Call} {e : Vis.Ev} (h : c.Does p e) (q : Nat) : e ≠ .leave q := by
  cases c with
  | put tgt nbi xs => obtain ⟨_, _, _, rfl⟩ := h; exact (fun h => by cases h)
  | get tgt nbi xs => obtain ⟨_, _, _, rfl⟩ := h; exact (fun h => by cases h)
  | store a v => cases h; exact (fun h => by cases h)

theorem pcInv_step {T : Sys} {P : Prog} {x y : PX} {e : Ev} (h : PcInv T P x) (s : PStep T P x e y) : PcInv T P y := by
  cases s with
  | @lib x y pos e ho hl s =>
    cases s with
    | @rma e g' hs hc =>
      refine ⟨h.call, h.rest, fun q hq hne => ?_⟩
      dsimp only at hne ⊢
      rw [Bsp.arr_step hs (by rintro q rfl; cases ho), lv_keep hs hl] at hne ⊢
      obtain ⟨w1, w2, w3, w4⟩ := h.wait q hq hne
      exact ⟨w1, w2, lib_busy hs q (by rw [ho]; exact fun h => by cases h) w3, w4⟩
  | @enter x y pos p ha s =>
    cases s with
    | @rma e g' hs hc =>
      obtain ⟨b1, b2, b3⟩ := enter_busy hs
      have hfree := free_iff.1 (hc p rfl)
      refine ⟨h.call, h.rest, fun q hq hne => ?_⟩
      dsimp only at hne ⊢
      rw [b2, b3] at hne ⊢
      by_cases hqp : q = p
      · subst hqp
        rw [Function.update_self]
        exact ⟨hfree, ha, b1, by rw [(Vis.own_free hs rfl).2.1]⟩
      · rw [Function.update_of_ne hqp] at hne ⊢
        obtain ⟨w1, w2, w3, w4⟩ := h.wait q hq hne
        exact ⟨w1, w2, lib_busy hs q (fun h => hqp (by cases h; rfl)) w3, w4⟩
  | @leave x y pos p s =>
    cases s with
    | @rma e g' hs hc =>
      obtain ⟨e1, hp, h0, ha⟩ := leave_step hs
      subst e1
      have hpn : p < T.lk.n := by rw [T.hn]; exact hp
      obtain ⟨w1, w2, w3, w4⟩ := h.wait p hpn (by dsimp only; omega)
      dsimp only at w1 w2 w3 w4
      refine ⟨fun q hq l hl hr => ?_, fun q hq l hl hr => ?_, fun q hq hne => ?_⟩
      · by_cases hqp : q = p
        · subst hqp
          exact absurd (hr.symm.trans (w1 l hl)) (by decide)
        · dsimp only
          rw [Function.update_of_ne hqp]
          exact h.call q hq l hl hr
      · by_cases hqp : q = p
        · subst hqp
          dsimp only
          rw [Function.update_self, holds_other (by rw [w2]; exact fun h => by cases h) (by rw [w2]; exact fun h => by cases h)]
          exact h.rest q hq l hl hr
        · dsimp only
          rw [Function.update_of_ne hqp]
          exact h.rest q hq l hl hr
      · dsimp only at hne ⊢
        by_cases hqp : q = p
        · subst hqp
          rw [Function.update_self] at hne
          exact absurd w4 hne
        · rw [Function.update_of_ne hqp] at hne
          rw [Function.update_of_ne hqp, Function.update_of_ne hqp]
          exact h.wait q hq hne
  | @data x y pos e p f ha hd s =>
    cases s with
    | @rma e g' hs hc =>
      exact pcInv_own h hs hc (does_own hd) (does_noenter hd) (does_noleave hd) ha (fun l h => by cases h) (fun l h => by cases h)
  | @quiet x y pos p op ha ho s =>
    cases s with
    | @rma e g' hs hc =>
      exact pcInv_own h hs hc rfl (fun q h => by cases h) (fun q h => by cases h) ha (fun l h => by cases h) (fun l h => by cases h)
  | @set x y pos ev p l ha s =>
    cases s with
    | @lock _ _ _ w _ hl hf hs =>
      obtain ⟨c1, c2, c3⟩ := wstep_class hs
      refine pcInv_lock h hf hs (fun q hq => Function.update_of_ne hq _ _) ?_ ?_ ?_
      · intro _
        rw [Function.update_self, c3]
        exact ⟨_, rfl, Or.inl ⟨ha, Or.inl rfl⟩⟩
      · intro hr; rw [c3] at hr; cases hr
      · intro k hk hkl
        refine ⟨free_iff.1 c2 k hk, ?_⟩
        rw [Function.update_self]
        exact holds_other (by rw [ha]; exact fun h => hkl (by cases h; rfl)) (by rw [ha]; exact fun h => by cases h)
  | @clear x y pos ev p l ha s =>
    cases s with
    | @lock _ _ _ w _ hl hf hs =>
      obtain ⟨c1, c2, c3⟩ := wstep_class hs
      refine pcInv_lock h hf hs (fun q hq => Function.update_of_ne hq _ _) ?_ ?_ ?_
      · intro _
        rw [Function.update_self, c3]
        exact ⟨_, rfl, Or.inr ⟨ha, Or.inl rfl⟩⟩
      · intro hr; rw [c3] at hr; cases hr
      · intro k hk hkl
        refine ⟨free_iff.1 c2 k hk, ?_⟩
        rw [Function.update_self]
        exact holds_other (by rw [ha]; exact fun h => by cases h) (by rw [ha]; exact fun h => hkl (by cases h; rfl))
  | @run x y pos ev p l s =>
    cases s with
    | @lock _ _ _ w _ hl hf hs =>
      have hc := wstep_class hs
      have hp : p < T.lk.n := by rw [T.hn]; exact hf.1
      have hnr : (x.pc l p).rest = false := by
        rcases hc with ⟨c1, _⟩ | ⟨c1, _⟩ | c1
        · exact inSet_rest c1
        · exact inClear_rest c1
        · show (x.words.pc l p).rest = false
          rw [c1]; rfl
      obtain ⟨k, hk, hk2⟩ := h.call p hp l hl hnr
      have hk : pos p = k + 1 := hk
      have hwp : x.words.pc l p = x.pc l p := rfl
      refine pcInv_lock h hf hs (fun q hq => rfl) ?_ ?_ ?_
      · intro hr
        refine ⟨k, hk, ?_⟩
        rcases hk2 with ⟨e1, e2⟩ | ⟨e1, e2⟩
        · refine Or.inl ⟨e1, ?_⟩
          rcases hc with ⟨_, c | c⟩ | ⟨c, _⟩ | c
          · exact c
          · rw [c] at hr; cases hr
          · exfalso
            rw [hwp] at c
            dsimp only at e2
            rcases e2 with e | e | ⟨_, e⟩ | e <;> rcases c with c | c | ⟨_, c⟩ | ⟨_, c⟩ <;> rw [e] at c <;> cases c
          · exfalso
            rw [hwp] at c
            dsimp only at e2
            rcases e2 with e | e | ⟨_, e⟩ | e <;> rw [e] at c <;> cases c
        · refine Or.inr ⟨e1, ?_⟩
          rcases hc with ⟨c, _⟩ | ⟨_, c | c⟩ | c
          · exfalso
            rw [hwp] at c
            dsimp only at e2
            rcases e2 with e | e | ⟨_, e⟩ | ⟨_, e⟩ <;> rcases c with c | c | ⟨_, c⟩ | c <;> rw [e] at c <;> cases c
          · exact c
          · rw [c] at hr; cases hr
          · exfalso
            rw [hwp] at c
            dsimp only at e2
            rcases e2 with e | e | ⟨_, e⟩ | ⟨_, e⟩ <;> rw [e] at c <;> cases c
      · intro hr
        rw [hk]
        rcases hk2 with ⟨e1, e2⟩ | ⟨e1, e2⟩
        · refine iff_of_true ?_ (holds_set e1)
          rcases hc with ⟨_, c | c⟩ | ⟨c, _⟩ | c
          · rw [inSet_rest c] at hr; cases hr
          · exact c
          · exfalso
            rw [hwp] at c
            dsimp only at e2
            rcases e2 with e | e | ⟨_, e⟩ | e <;> rcases c with c | c | ⟨_, c⟩ | ⟨_, c⟩ <;> rw [e] at c <;> cases c
          · exfalso
            rw [hwp] at c
            dsimp only at e2
            rcases e2 with e | e | ⟨_, e⟩ | e <;> rw [e] at c <;> cases c
        · refine iff_of_false ?_ (holds_clear e1)
          rcases hc with ⟨c, _⟩ | ⟨_, c | c⟩ | c
          · exfalso
            rw [hwp] at c
            dsimp only at e2
            rcases e2 with e | e | ⟨_, e⟩ | ⟨_, e⟩ <;> rcases c with c | c | ⟨_, c⟩ | c <;> rw [e] at c <;> cases c
          · rw [inClear_rest c] at hr; cases hr
          · rw [c]; exact fun h => by cases h
          · exfalso
            rw [hwp] at c
            dsimp only at e2
            rcases e2 with e | e | ⟨_, e⟩ | ⟨_, e⟩ <;> rw [e] at c <;> cases c
      · intro j hj hjl
        refine ⟨?_, Iff.rfl⟩
        cases hr : (x.pc j p).rest with
        | true => rfl
        | false =>
          exfalso
          obtain ⟨k', hk', hk2'⟩ := h.call p hp j hj hr
          have hk' : pos p = k' + 1 := hk'
          have : k' = k := by omega
          subst this
          rcases hk2 with ⟨e1, _⟩ | ⟨e1, _⟩ <;> rcases hk2' with ⟨e2, _⟩ | ⟨e2, _⟩ <;> rw [e1] at e2 <;> cases e2 <;> exact hjl rfl

theorem pcInv_init {T : Sys} {P : Prog} {x : PX} (h0 : Start T x.x) (hp : x.pos = fun _ => 0) : PcInv T P x := by
  obtain ⟨⟨m, hm⟩, h1, _⟩ := h0
  have h1 : ∀ l p, x.x.pc l p = .idle := h1
  refine ⟨?_, ?_, ?_⟩
  · intro p hp l hl h; rw [h1] at h; cases h
  · intro p hp' l hl h
    rw [h1, hp]
    exact iff_of_false (fun h => by cases h) (fun ⟨j, hj, _⟩ => absurd hj (Nat.not_lt_zero _))
  · intro p _ hne
    rw [hm] at hne
    exact absurd rfl hne

theorem pcInv_run {T : Sys} {P : Prog} {x y : PX} {l : List Ev} (h : PRun T P x l y) (h0 : PcInv T P x) : PcInv T P y := by
  induction h with
  | nil => exact h0
  | snoc r s ih => exact pcInv_step ih s

end Verif.Crit.Mix
