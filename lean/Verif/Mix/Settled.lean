import Verif.Mix.Settle
import Verif.Crit.SeqProps
/-!
# C114: programs without races, with locks and barriers that complete operations, behave as if executed sequentially
-/
namespace Verif.Crit.Mix
open Verif.Rma Verif.Lock
open Verif.Vis (NoWriter Only)

section
variable {T : Sys} {P : Prog} {cov : Nat → Nat → Prop} {own : Owns} {used : Nat × Int → Prop} {looks : Nat → Nat → Int → Prop}

theorem dinv_init {x : PX} (hs : ∃ m, x.x.g = Vis.ginit m) (hw : T.lk.Init x.x.words) (hp : x.pos = fun _ => 0) :
    DInvC T P cov own used x ⟨x.x.g.mem, fun _ => 0⟩ 0 := by
  obtain ⟨m, hm⟩ := hs
  refine ⟨fun p _ => rfl, fun p hpn => Or.inl ⟨by rw [hp], fun l hl hin => ?_, by rw [hm]; rfl, by rw [hm]; rfl⟩, fun b _ _ => Or.inl ⟨?_, rfl⟩⟩
  · have : x.x.pc l p = .idle := hw.1 l p
    rw [this] at hin
    rcases hin with e | e | ⟨_, e⟩ | e <;> cases e
  · rw [hm]; exact Vis.noWriter_init m b

/-- a PE outside lock calls and barriers is as far in both executions -/
theorem ghost_pos {x : PX} {s : SX} {e : Nat} (inv : DInvC T P cov own used x s e) {p : Nat} (hp : p < T.lk.n) (hf : T.lk.free x.x.words p = true)
    (ha : x.x.g.arr p = x.x.g.lv p) : s.pos p = x.pos p ∧ x.x.g.arr p = e ∧ x.x.g.lv p = e := by
  rcases inv.pos p hp with ⟨h, _, h1, h2⟩ | ⟨_, ⟨l, hl, _, h⟩, _⟩ | ⟨_, h1, h2⟩ | ⟨_, h1, h2⟩
  · exact ⟨h, h1, h2⟩
  · exact absurd h (free_inSet hf hl)
  · omega
  · omega

/-- the place of another PE does not change -/
theorem place_keep {x : PX} {s : SX} {e q : Nat} (h : Place T P x s e q) {y : PX} {s' : SX} (h1 : s'.pos q = s.pos q) (h2 : y.pos q = x.pos q)
    (h3 : ∀ l < T.lk.m, InSet (y.x.pc l q) ↔ InSet (x.x.pc l q)) (h4 : y.x.g.arr q = x.x.g.arr q) (h5 : y.x.g.lv q = x.x.g.lv q) : Place T P y s' e q := by
  unfold Place
  rw [h1, h2, h4, h5]
  rcases h with ⟨a, b, c⟩ | ⟨a, ⟨l, hl, b1, b2⟩, c⟩ | h | h
  · exact Or.inl ⟨a, fun l hl hin => b l hl ((h3 l hl).1 hin), c⟩
  · exact Or.inr (Or.inl ⟨a, ⟨l, hl, b1, (h3 l hl).2 b2⟩, c⟩)
  · exact Or.inr (Or.inr (Or.inl h))
  · exact Or.inr (Or.inr (Or.inr h))

/-- after a step of PE `p` that is no barrier -/
theorem epoch_upd {x : PX} {s : SX} {e : Nat} (inv : DInvC T P cov own used x s e) {p : Nat} {m : Nat → IMem} (hb : (P p)[s.pos p]? ≠ some .bar) :
    ∀ q < T.lk.n, epoch (P q) ((⟨m, Function.update s.pos p (s.pos p + 1)⟩ : SX).pos q) = e := by
  intro q hq
  dsimp only
  by_cases hqp : q = p
  · subst hqp
    rw [Function.update_self, epoch_other hb]
    exact inv.ep q hq
  · rw [Function.update_of_ne hqp]
    exact inv.ep q hq

/-- the places after an action of PE `p`, which is in no set call afterwards -/
theorem ghost_upd {x : PX} {s : SX} {e : Nat} (inv : DInvC T P cov own used x s e) {y : X} {m : Nat → IMem} {p : Nat} (hp : s.pos p = x.pos p)
    (hpc : ∀ l q, q ≠ p → y.pc l q = x.x.pc l q) (hno : ∀ l < T.lk.m, ¬ InSet (y.pc l p)) (h4 : y.g.arr = x.x.g.arr) (h5 : y.g.lv = x.x.g.lv)
    (h6 : x.x.g.arr p = e ∧ x.x.g.lv p = e) : ∀ q < T.lk.n,
    Place T P ⟨y, Function.update x.pos p (x.pos p + 1)⟩ ⟨m, Function.update s.pos p (s.pos p + 1)⟩ e q := by
  intro q hq
  by_cases hqp : q = p
  · subst hqp
    refine Or.inl ⟨?_, hno, ?_, ?_⟩
    · dsimp only; rw [Function.update_self, Function.update_self, hp]
    · show y.g.arr q = e
      rw [h4]; exact h6.1
    · show y.g.lv q = e
      rw [h5]; exact h6.2
  · refine place_keep (inv.pos q hq) (Function.update_of_ne hqp _ _) (Function.update_of_ne hqp _ _) (fun l _ => ?_) (by rw [h4]) (by rw [h5])
    show InSet (y.pc l q) ↔ _
    rw [hpc l q hqp]

/-- every step is a step of the sequential execution, or none -/
theorem dinv_step (wf : T.lk.WF) (un : T.lk.Uniform) (hP : Proper T P) (hD : DrfC T P cov own used looks) {x y : PX} {s : SX} {e : Nat} {ev : Ev}
    (hb : LBase T x.x) (hby : LBase T y.x) (hi : PcInv T P x) (st : PStep T P x ev y)
    (hcv : ∀ e', ev = .rma e' → ∀ p, e'.own = some p → cov p (x.pos p) → EvCov T.vis e') (inv : DInvC T P cov own used x s e) :
    ∃ s' e', (s' = s ∨ SStep T.lk.n P s s') ∧ DInvC T P cov own used y s' e' := by
  obtain ⟨wtr, hwe⟩ := hb.wexec
  cases st with
  | @lib x y pos ev ho hl st =>
    refine ⟨s, e, Or.inl rfl, inv.ep, ?_, fun b hbn hob => ?_⟩
    · cases st with
      | rma hs hc =>
        intro q hq
        exact place_keep (inv.pos q hq) rfl rfl (fun _ _ => Iff.rfl) (by
          show _ = x.g.arr q
          rw [← Bsp.arr_step hs (by rintro q rfl; cases ho)]) (by
          show _ = x.g.lv q
          rw [← lv_keep hs hl])
    · refine val_keep wf un hD hwe st ?_ rfl (fun q _ => Or.inl rfl) hob (inv.mem b hbn hob)
      intro e' he' k hk
      cases he'
      cases ev <;> first | exact hk | cases ho
  | @enter x y pos p ha st =>
    refine ⟨s, e, Or.inl rfl, inv.ep, ?_, fun b hbn hob => ?_⟩
    · cases st with
      | @rma ev g' hs hc =>
        obtain ⟨_, b2, b3⟩ := enter_busy hs
        intro q hq
        by_cases hqp : q = p
        · subst hqp
          obtain ⟨g1, g2, g3⟩ := ghost_pos inv hq (hc q rfl) (Vis.own_free hs rfl).2.1
          refine Or.inr (Or.inr (Or.inl ⟨g1, ?_, ?_⟩))
          · show g'.arr q = e + 1
            rw [b2, Function.update_self]
            exact congrArg (· + 1) g2
          · show g'.lv q = e
            rw [b3]; exact g3
        · refine place_keep (inv.pos q hq) rfl rfl (fun _ _ => Iff.rfl) ?_ ?_
          · show g'.arr q = _
            rw [b2, Function.update_of_ne hqp]
          · show g'.lv q = _
            rw [b3]
    · refine val_keep wf un hD hwe st ?_ rfl (fun q _ => Or.inl rfl) hob (inv.mem b hbn hob)
      intro e' he' k hk
      cases he'
      exact hk
  | @leave x y pos p st =>
    have st' := st
    cases st with
    | @rma ev g' hs hc =>
      obtain ⟨e1, hp, h0, ha⟩ := leave_step hs
      subst e1
      have hpn : p < T.lk.n := by rw [T.hn]; exact hp
      rcases inv.pos p hpn with ⟨_, _, h1, h2⟩ | ⟨_, _, h1, h2⟩ | ⟨hps, h1, h2⟩ | ⟨hps, h1, h2⟩
      · dsimp only at h1 h2; omega
      · dsimp only at h1 h2; omega
      · -- the first to leave
        dsimp only at h1 h2
        have hall : ∀ q < T.lk.n, s.pos q = pos q ∧ x.g.arr q = e + 1 ∧ x.g.lv q = e := by
          intro q hq
          have hlt := ha q (by rw [← T.hn]; exact hq)
          rcases inv.pos q hq with ⟨_, _, h3, h4⟩ | ⟨_, _, h3, h4⟩ | ⟨h5, h3, h4⟩ | ⟨_, h3, h4⟩
          · dsimp only at h3 h4; omega
          · dsimp only at h3 h4; omega
          · exact ⟨h5, h3, h4⟩
          · dsimp only at h3 h4; omega
        have hbar : ∀ q < T.lk.n, (P q)[s.pos q]? = some .bar := by
          intro q hq
          obtain ⟨a1, a2, a3⟩ := hall q hq
          rw [a1]
          exact (hi.wait q hq (by dsimp only; omega)).2.1
        refine ⟨⟨s.mem, fun q => s.pos q + 1⟩, e + 1, Or.inr (SStep.bar hbar), ?_, ?_, ?_⟩
        · intro q hq
          dsimp only
          rw [epoch_bar (hbar q hq), inv.ep q hq]
        · intro q hq
          obtain ⟨a1, a2, a3⟩ := hall q hq
          by_cases hqp : q = p
          · subst hqp
            refine Or.inl ⟨?_, ?_, a2, ?_⟩
            · dsimp only; rw [Function.update_self, a1]
            · intro l hl hin
              have := (hi.wait q hq (by dsimp only; omega)).1 l hl
              rw [inSet_rest hin] at this
              cases this
            · dsimp only; rw [Function.update_self, a3]
          · refine Or.inr (Or.inr (Or.inr ⟨?_, a2, ?_⟩))
            · dsimp only; rw [Function.update_of_ne hqp, a1]
            · dsimp only; rw [Function.update_of_ne hqp, a3]
        · intro b hbn hu
          have hq := val_bar hD hb hi inv hall hbn hu
          obtain ⟨b1, b2⟩ := Vis.noWriter_step hs hq.1 (fun h => h)
          exact Or.inl ⟨b1, b2.trans hq.2⟩
      · -- a later one
        dsimp only at h1 h2 hps
        refine ⟨s, e, Or.inl rfl, inv.ep, ?_, fun b hbn hob => ?_⟩
        · intro q hq
          by_cases hqp : q = p
          · subst hqp
            refine Or.inl ⟨?_, ?_, h1, ?_⟩
            · dsimp only; rw [Function.update_self, hps]
            · intro l hl hin
              have := (hi.wait q hq (by dsimp only; omega)).1 l hl
              rw [inSet_rest hin] at this
              cases this
            · dsimp only; rw [Function.update_self, h2]
          · exact place_keep (inv.pos q hq) rfl (Function.update_of_ne hqp _ _) (fun _ _ => Iff.rfl) rfl (Function.update_of_ne hqp _ _)
        · refine val_keep wf un hD hwe st' ?_ rfl (fun q _ => Or.inl rfl) hob (inv.mem b hbn hob)
          intro e' he' k hk
          cases he'
          exact hk
  | @quiet x y pos p op ha hop st =>
    cases st with
    | @rma ev g' hs hc =>
      have hp : p < T.lk.n := by rw [T.hn]; exact (Vis.own_free hs rfl).1
      have hfree := hc p rfl
      obtain ⟨hpos, g2⟩ := ghost_pos inv hp hfree (Vis.own_free hs rfl).2.1
      have ha' : (P p)[s.pos p]? = some .quiet := by rw [hpos]; exact ha
      refine ⟨⟨s.mem, Function.update s.pos p (s.pos p + 1)⟩, e, Or.inr (SStep.quiet p hp ha'),
        epoch_upd inv (by rw [ha']; exact fun h => by cases h), ?_, fun b hbn hob => ?_⟩
      · exact ghost_upd inv hpos (fun _ _ _ => rfl) (fun l hl => free_inSet hfree hl) (Bsp.arr_step hs (fun q h => by cases h))
          (lv_keep hs fun q h => by cases h) g2
      · exact val_quiet hD hb hop hs (inv.mem b hbn hob)
  | @data x y pos ev p f ha hd st =>
    cases st with
    | @rma ev g' hs hc =>
      have hp : p < T.lk.n := by rw [T.hn]; exact (Vis.own_free hs (does_own hd)).1
      have hbz : x.g.busy p = [] := (Vis.own_free hs (does_own hd)).2.2
      have hfree := hc p (own_caller (does_own hd))
      obtain ⟨hpos, g2⟩ := ghost_pos inv hp hfree (Vis.own_free hs (does_own hd)).2.1
      have ha' : (P p)[s.pos p]? = some (.data f) := by rw [hpos]; exact ha
      have hf : f (x.g.mem p) = f (s.mem p) := by
        refine hD.dep p hp _ f ha' _ _ fun a hl => ?_
        obtain ⟨l1, l2⟩ := hD.look p hp _ f ha' a hl
        exact (val_read hP hD hb hi inv hp hbz (b := (p, a)) hp l1 l2).2
      refine ⟨⟨(f (s.mem p)).exec p s.mem, Function.update s.pos p (s.pos p + 1)⟩, e, Or.inr (SStep.data p f hp ha'),
        epoch_upd inv (by rw [ha']; exact fun h => by cases h), ?_, fun b hbn hob => ?_⟩
      · exact ghost_upd inv hpos (fun _ _ _ => rfl) (fun l hl => free_inSet hfree hl) (Bsp.arr_step hs (does_noenter hd))
          (lv_keep hs (does_noleave hd)) g2
      · rw [hf] at hd
        exact val_data hP hD hb hi inv hp ha' rfl hf hd hs g2.1 (fun hc => hcv _ rfl p (does_own hd) (hpos ▸ hc)) hbn hob
  | @set x y pos ev p l ha st =>
    refine ⟨s, e, Or.inl rfl, inv.ep, ?_, fun b hbn hob => val_keep wf un hD hwe st (fun e h => by cases h) rfl (fun q _ => Or.inl rfl) hob (inv.mem b hbn hob)⟩
    cases st with
    | @lock _ _ _ w _ hl hf hs =>
      obtain ⟨_, c2, c3⟩ := wstep_class hs
      have hp : p < T.lk.n := by rw [T.hn]; exact hf.1
      obtain ⟨hpos, g2⟩ := ghost_pos inv hp c2 hf.2.1
      have hpc := (wstep_pc hs).1
      intro q hq
      by_cases hqp : q = p
      · subst hqp
        refine Or.inr (Or.inl ⟨?_, ⟨l, hl, ?_, ?_⟩, g2⟩)
        · dsimp only; rw [Function.update_self, hpos]
        · rw [hpos]; exact ha
        · dsimp only; rw [c3]; exact Or.inl rfl
      · refine place_keep (inv.pos q hq) rfl (Function.update_of_ne hqp _ _) (fun k _ => ?_) rfl rfl
        show InSet (w.pc k q) ↔ InSet (x.pc k q)
        rw [show w.pc k q = x.pc k q from hpc k q (fun e => hqp e.2)]
  | @clear x y pos ev p l ha st =>
    have st' := st
    cases st with
    | @lock _ _ _ w _ hl hf hs =>
      obtain ⟨_, c2, c3⟩ := wstep_class hs
      have hp : p < T.lk.n := by rw [T.hn]; exact hf.1
      obtain ⟨hpos, g2⟩ := ghost_pos inv hp c2 hf.2.1
      have hpc := (wstep_pc hs).1
      have ha' : (P p)[s.pos p]? = some (.clear l) := by rw [hpos]; exact ha
      refine ⟨⟨s.mem, Function.update s.pos p (s.pos p + 1)⟩, e, Or.inr (SStep.clear p l hp ha'),
        epoch_upd inv (by rw [ha']; exact fun h => by cases h), ?_, fun b hbn hob => ?_⟩
      · refine ghost_upd inv hpos (fun k q hqp => hpc k q fun e => hqp e.2) (fun k hk hin => ?_) rfl rfl g2
        dsimp only at hin
        by_cases hkl : k = l
        · subst hkl
          rw [c3] at hin
          exact inSet_inClear hin (Or.inl rfl)
        · rw [hpc k p fun e => hkl e.1] at hin
          exact free_inSet c2 hk hin
      · refine val_keep (s := s) (s' := ⟨s.mem, Function.update s.pos p (s.pos p + 1)⟩) wf un hD hwe st' (fun e h => by cases h) rfl (fun q _ => ?_) hob (inv.mem b hbn hob)
        dsimp only
        by_cases hqp : q = p
        · subst hqp
          rw [Function.update_self]
          refine Or.inr ⟨rfl, hf.2.2, ?_, ?_⟩ <;> rw [ha'] <;> exact fun h => by cases h
        · rw [Function.update_of_ne hqp]
          exact Or.inl rfl
  | @run x y pos ev p l st =>
    have st' := st
    cases st with
    | @lock _ _ _ w _ hl hf hs =>
      have hp : p < T.lk.n := by rw [T.hn]; exact hf.1
      have hpc := (wstep_pc hs).1
      have hpc' : ∀ k q, q ≠ p → w.pc k q = x.pc k q := fun k q hqp => hpc k q fun e => hqp e.2
      have hwp : x.words.pc l p = x.pc l p := rfl
      have hc := wstep_class hs
      dsimp only at hc
      rw [hwp] at hc
      -- the sequential execution stands still
      have still : (∀ k < T.lk.m, InSet (w.pc k p) ↔ InSet (x.pc k p)) →
          ∃ s' e', (s' = s ∨ SStep T.lk.n P s s') ∧ DInvC T P cov own used ⟨⟨{ x.g with mem := back x.g.mem w.mem }, w.pc⟩, pos⟩ s' e' := by
        intro h
        refine ⟨s, e, Or.inl rfl, inv.ep, ?_, fun b hbn hob => val_keep wf un hD hwe st' (fun e h => by cases h) rfl (fun q _ => Or.inl rfl) hob (inv.mem b hbn hob)⟩
        intro q hq
        refine place_keep (inv.pos q hq) rfl rfl (fun k hk => ?_) rfl rfl
        show InSet (w.pc k q) ↔ InSet (x.pc k q)
        by_cases hqp : q = p
        · subst hqp; exact h k hk
        · rw [hpc' k q hqp]
      have hoth : ∀ k, k ≠ l → w.pc k p = x.pc k p := fun k hk => hpc k p fun e => hk e.1
      rcases hc with ⟨c1, c2 | c2⟩ | ⟨c1, c2⟩ | c1
      · refine still fun k hk => ?_
        by_cases hkl : k = l
        · subst hkl; exact iff_of_true c2 c1
        · rw [hoth k hkl]
      · -- the lock is taken
        have hal : x.g.arr p = x.g.lv p := hf.2.1
        rcases inv.pos p hp with ⟨_, h2, _⟩ | ⟨h1, ⟨k, hk, h2, h3⟩, g2⟩ | ⟨_, h1, h2⟩ | ⟨_, h1, h2⟩
        · exact absurd c1 (h2 l hl)
        · have hkl : k = l := by
            obtain ⟨j, hj, ⟨h5, _⟩ | ⟨_, h5⟩⟩ := hi.call p hp l hl (inSet_rest c1)
            · dsimp only at hj h1
              have : j = s.pos p := by omega
              subst this
              rw [h2] at h5; cases h5; rfl
            · exact absurd h5 fun h => inSet_inClear c1 h
          subst hkl
          have hfree : ∀ q < T.lk.n, ¬ Holds (P q) (s.pos q) k := by
            intro q hq hh
            by_cases hqp : q = p
            · subst hqp
              exact (hP.sets q hq _ k h2).2 hh
            · have hx := (ghost_held hP hi inv hq hh).2
              have hy : w.pc k q = .held := by rw [hpc' k q hqp]; exact hx
              exact hqp (hby.excl k hl q p hy c2)
          refine ⟨⟨s.mem, Function.update s.pos p (s.pos p + 1)⟩, e, Or.inr (SStep.set p k hp h2 hfree),
            epoch_upd inv (by rw [h2]; exact fun h => by cases h), ?_, fun b hbn hob => ?_⟩
          · intro q hq
            by_cases hqp : q = p
            · subst hqp
              refine Or.inl ⟨?_, fun j hj hin => ?_, g2⟩
              · dsimp only; rw [Function.update_self]; exact h1
              · dsimp only at hin
                by_cases hjk : j = k
                · subst hjk
                  rw [c2] at hin
                  exact inSet_held hin
                · rw [hoth j hjk] at hin
                  obtain ⟨i, hi', ⟨h5, _⟩ | ⟨h5, _⟩⟩ := hi.call q hq j hj (inSet_rest hin)
                  · dsimp only at hi' h1
                    have : i = s.pos q := by omega
                    subst this
                    rw [h2] at h5; cases h5; exact hjk rfl
                  · dsimp only at hi' h1
                    have : i = s.pos q := by omega
                    subst this
                    rw [h2] at h5; cases h5
            · refine place_keep (inv.pos q hq) (Function.update_of_ne hqp _ _) rfl (fun j hj => ?_) rfl rfl
              show InSet (w.pc j q) ↔ InSet (x.pc j q)
              rw [hpc' j q hqp]
          · refine val_keep (s := s) (s' := ⟨s.mem, Function.update s.pos p (s.pos p + 1)⟩) wf un hD hwe st' (fun e h => by cases h) rfl (fun q _ => ?_) hob (inv.mem b hbn hob)
            dsimp only
            by_cases hqp : q = p
            · subst hqp
              rw [Function.update_self]
              refine Or.inr ⟨rfl, hf.2.2, ?_, ?_⟩ <;> rw [h2] <;> exact fun h => by cases h
            · rw [Function.update_of_ne hqp]
              exact Or.inl rfl
        · dsimp only at h1 h2; omega
        · dsimp only at h1 h2; omega
      · refine still fun k hk => ?_
        by_cases hkl : k = l
        · subst hkl
          refine iff_of_false ?_ fun h => inSet_inClear h c1
          rcases c2 with c2 | c2
          · exact fun h => inSet_inClear h c2
          · rw [c2]
            rintro (e | e | ⟨_, e⟩ | e) <;> cases e
        · rw [hoth k hkl]
      · exfalso
        have hr : (x.pc l p).rest = false := by rw [c1]; rfl
        obtain ⟨k, _, ⟨_, h5⟩ | ⟨_, h5⟩⟩ := hi.call p hp l hl hr
        · dsimp only at h5; rw [c1] at h5
          rcases h5 with e | e | ⟨_, e⟩ | e <;> cases e
        · dsimp only at h5; rw [c1] at h5
          rcases h5 with e | e | ⟨_, e⟩ | ⟨_, e⟩ <;> cases e

theorem CRun.run {x y : PX} {l : List Ev} (r : CRun T P cov x l y) : PRun T P x l y := by
  induction r with
  | nil => exact PRun.nil _
  | snoc r s hc ih => exact ih.snoc s

theorem lbase_run (wf : T.lk.WF) (un : T.lk.Uniform) (hP : Proper T P) {x y : PX} {l : List Ev} (h0 : Start T x.x) (r : PRun T P x l y) :
    LBase T y.x := by
  obtain ⟨tr, hr, hre⟩ := r.run hP
  obtain ⟨h1, _, h3⟩ := proj h0 hr hre
  exact ⟨h3, h1, fun k hk p q => exclusion wf un h0 hr hre hk⟩

theorem dinv_run (wf : T.lk.WF) (un : T.lk.Uniform) (hP : Proper T P) (hD : DrfC T P cov own used looks) {x y : PX} {l : List Ev} (h0 : Start T x.x)
    (hp : x.pos = fun _ => 0) (r : CRun T P cov x l y) : ∃ s e, SRun T.lk.n P ⟨x.x.g.mem, fun _ => 0⟩ s ∧ DInvC T P cov own used y s e := by
  have hi : PcInv T P x := pcInv_init h0 hp
  induction r with
  | nil => exact ⟨_, _, SRun.nil _, dinv_init h0.1 h0.2 hp⟩
  | snoc r st hc ih =>
    obtain ⟨s, e, hs, inv⟩ := ih
    obtain ⟨s', e', h1, inv'⟩ := dinv_step wf un hP hD (lbase_run wf un hP h0 r.run) (lbase_run wf un hP h0 (r.run.snoc st)) (pcInv_run r.run hi) st hc inv
    rcases h1 with rfl | h1
    · exact ⟨_, _, hs, inv'⟩
    · exact ⟨_, _, hs.snoc h1, inv'⟩

/-- **Programs in which barriers complete operations see a sequential execution.** At every instant of every execution of a program that follows
    the rules `DrfC`, in which the operations `cov` are ones the code's barrier completes, there is a sequential execution that is as far - a PE that
    waits for a lock has not taken it, one that has yet to return from a barrier may have passed it - and in which every PE that is in no blocking
    call finds in every byte that it may read, and for which nothing it has issued since is pending, what is in the library's memory; nothing in
    flight will change it. Missing (with C65): a barrier does not complete operations on contexts, nor on spaces without dynamic windows; for these a
    quiet is demanded. -/
theorem C114_sequential_partial (wf : T.lk.WF) (un : T.lk.Uniform) (hP : Proper T P) (hD : DrfC T P cov own used looks) {x y : PX} {l : List Ev}
    (h0 : Start T x.x) (hp : x.pos = fun _ => 0) (r : CRun T P cov x l y) :
    ∃ s, SRun T.lk.n P ⟨x.x.g.mem, fun _ => 0⟩ s ∧
      (∀ p < T.lk.n, s.pos p = y.pos p ∨ (s.pos p + 1 = y.pos p ∧ ∃ l, (P p)[s.pos p]? = some (.set l) ∧ InSet (y.x.pc l p)) ∨
        (s.pos p = y.pos p + 1 ∧ (P p)[y.pos p]? = some .bar ∧ y.x.g.lv p < y.x.g.arr p)) ∧
      ∀ p < T.lk.n, y.x.g.busy p = [] → ∀ b : Nat × Int, b.1 < T.lk.n → CanR P own p (s.pos p) b → ¬ DirtyC P cov p (s.pos p) b →
        y.x.g.mem b.1 b.2 = s.mem b.1 b.2 ∧ NoWriter y.x.g b := by
  obtain ⟨s, e, hs, inv⟩ := dinv_run wf un hP hD h0 hp r
  have hi : PcInv T P y := pcInv_run r.run (pcInv_init h0 hp)
  refine ⟨s, hs, fun p hp => ?_, fun p hp hbz b hbn hr hd => ?_⟩
  · rcases inv.pos p hp with ⟨h, _⟩ | ⟨h, ⟨l, _, h2, h3⟩, _⟩ | ⟨h, _⟩ | ⟨h, h1, h2⟩
    · exact Or.inl h
    · exact Or.inr (Or.inl ⟨h, l, h2, h3⟩)
    · exact Or.inl h
    · exact Or.inr (Or.inr ⟨h, (hi.wait p hp (by omega)).2.1, by omega⟩)
  · have := val_read hP hD (lbase_run wf un hP h0 r.run) hi inv hp hbz hbn hr hd
    exact ⟨this.2, this.1⟩

/-- **They end as a sequential execution ends.** When all PEs have come to the end of such a program and no PE is in a call, there is a complete
    sequential execution from the same memory at whose end every byte that is used, and for which nothing is pending, has the value it has in the
    library's memory; nothing in flight will change it. -/
theorem C114_end_partial (wf : T.lk.WF) (un : T.lk.Uniform) (hP : Proper T P) (hD : DrfC T P cov own used looks) {x y : PX} {l : List Ev}
    (h0 : Start T x.x) (hp : x.pos = fun _ => 0) (r : CRun T P cov x l y) (he : ∀ p < T.lk.n, y.pos p = (P p).length)
    (hf : ∀ p < T.lk.n, T.lk.free y.x.words p = true ∧ y.x.g.busy p = []) :
    ∃ s, SRun T.lk.n P ⟨x.x.g.mem, fun _ => 0⟩ s ∧ (∀ p < T.lk.n, s.pos p = (P p).length) ∧
      ∀ b : Nat × Int, b.1 < T.lk.n → used b → (∀ q < T.lk.n, ¬ DirtyC P cov q (P q).length b) →
        y.x.g.mem b.1 b.2 = s.mem b.1 b.2 ∧ NoWriter y.x.g b := by
  obtain ⟨s, e, hs, inv⟩ := dinv_run wf un hP hD h0 hp r
  have hi : PcInv T P y := pcInv_run r.run (pcInv_init h0 hp)
  have hal : ∀ p < T.lk.n, y.x.g.arr p = y.x.g.lv p := by
    intro p hp
    by_contra hne
    have := (List.getElem?_eq_some_iff.1 (hi.wait p hp hne).2.1).1
    rw [he p hp] at this
    omega
  have hpos : ∀ p < T.lk.n, s.pos p = (P p).length := fun p hp => (ghost_pos inv hp (hf p hp).1 (hal p hp)).1.trans (he p hp)
  refine ⟨s, hs, hpos, fun b hbn hu hd => ?_⟩
  rcases inv.mem b hbn hu with h | ⟨q, hq, o, src, _, h2, _, h4⟩
  · exact ⟨h.2, h.1⟩
  · have ho : o = none := by
      by_contra ho
      exact hd q hq (hpos q hq ▸ dirty_some h2 ho)
    subst ho
    exact Vis.only_done h4 (by
      rintro a (⟨_, _, ho, _⟩ | ⟨_, hb⟩)
      · cases ho
      · rw [(hf q hq).2] at hb; cases hb)

end

end Verif.Crit.Mix
