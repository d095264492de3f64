import Verif.Crit.Seq
/-!
# C110: programs without races behave as if executed sequentially
-/
namespace Verif.Crit
open Verif.Rma Verif.Lock
open Verif.Vis (NoWriter Only)

section
variable {T : Sys} {P : Prog} {own : Nat × Int → Option Own} {looks : Nat → Nat → Int → Prop}

theorem inSet_inClear {c : PC} (h1 : InSet c) (h2 : InClear c) : False := by
  rcases h1 with e | e | ⟨_, e⟩ | e <;> rcases h2 with c | c | ⟨_, c⟩ | ⟨_, c⟩ <;> rw [e] at c <;> cases c

theorem inSet_held (h : InSet .held) : False := by
  rcases h with e | e | ⟨_, e⟩ | e <;> cases e

theorem free_inSet {s : WState} {p : Nat} (h : T.lk.free s p = true) {l : Nat} (hl : l < T.lk.m) : ¬ InSet (s.pc l p) := by
  intro hs
  have := inSet_rest hs
  rw [free_iff.1 h l hl] at this
  cases this

theorem dinv_init {x : PX} (hs : ∃ m, x.x.g = Vis.ginit m) (hw : T.lk.Init x.x.words) (hp : x.pos = fun _ => 0) :
    DInv T P own x ⟨x.x.g.mem, fun _ => 0⟩ := by
  obtain ⟨m, hm⟩ := hs
  refine ⟨fun p hpn => Or.inl ⟨by rw [hp], fun l hl hin => ?_⟩, fun b _ _ => Or.inl ⟨?_, rfl⟩⟩
  · have : x.x.pc l p = .idle := hw.1 l p
    rw [this] at hin
    rcases hin with e | e | ⟨_, e⟩ | e <;> cases e
  · rw [hm]; exact Vis.noWriter_init m b

/-- a PE outside lock calls is as far in both executions -/
theorem ghost_pos {x : PX} {s : SX} (inv : DInv T P own x s) {p : Nat} (hp : p < T.lk.n) (hf : T.lk.free x.x.words p = true) : s.pos p = x.pos p := by
  rcases inv.pos p hp with ⟨h, _⟩ | ⟨_, l, hl, _, h⟩
  · exact h
  · exact absurd h (free_inSet hf hl)

/-- the places after an action of PE `p`, which is in no set call afterwards -/
theorem ghost_upd {x : PX} {s : SX} (inv : DInv T P own x s) {y : X} {m : Nat → IMem} {p : Nat} (hp : s.pos p = x.pos p)
    (hpc : ∀ l q, q ≠ p → y.pc l q = x.x.pc l q) (hno : ∀ l < T.lk.m, ¬ InSet (y.pc l p)) : ∀ q < T.lk.n,
    ((⟨m, Function.update s.pos p (s.pos p + 1)⟩ : SX).pos q = (⟨y, Function.update x.pos p (x.pos p + 1)⟩ : PX).pos q ∧
      ∀ l < T.lk.m, ¬ InSet (y.pc l q)) ∨
    ((⟨m, Function.update s.pos p (s.pos p + 1)⟩ : SX).pos q + 1 = (⟨y, Function.update x.pos p (x.pos p + 1)⟩ : PX).pos q ∧
      ∃ l < T.lk.m, (P q)[(⟨m, Function.update s.pos p (s.pos p + 1)⟩ : SX).pos q]? = some (.set l) ∧ InSet (y.pc l q)) := by
  intro q hq
  dsimp only
  by_cases hqp : q = p
  · subst hqp
    rw [Function.update_self, Function.update_self, hp]
    exact Or.inl ⟨rfl, hno⟩
  · rw [Function.update_of_ne hqp, Function.update_of_ne hqp]
    rcases inv.pos q hq with ⟨h1, h2⟩ | ⟨h1, l, hl, h2, h3⟩
    · exact Or.inl ⟨h1, fun l hl => by rw [hpc l q hqp]; exact h2 l hl⟩
    · exact Or.inr ⟨h1, l, hl, h2, by rw [hpc l q hqp]; exact h3⟩

/-- every step is a step of the sequential execution, or none -/
theorem dinv_step (wf : T.lk.WF) (un : T.lk.Uniform) (hP : Proper T P) (hD : Drf T P own looks) {x y : PX} {s : SX} {ev : Ev} (hb : LBase T x.x)
    (hby : LBase T y.x) (hi : PcInv T P x) (st : PStep T P x ev y) (inv : DInv T P own x s) :
    ∃ s', (s' = s ∨ SStep T.lk.n P s s') ∧ DInv T P own y s' := by
  obtain ⟨wtr, hwe⟩ := hb.wexec
  cases st with
  | @lib x y pos e ho st =>
    refine ⟨s, Or.inl rfl, ?_, fun b hbn hob => ?_⟩
    · cases st with
      | rma hs hc => exact inv.pos
    · refine val_keep wf un hD hwe st ?_ rfl (fun q _ => Or.inl rfl) hob (inv.mem b hbn hob)
      intro e' he' k hk
      cases he'
      cases e <;> first | exact hk | cases ho
  | @quiet x y pos p op ha hop st =>
    cases st with
    | @rma e g' hs hc =>
      have hp : p < T.lk.n := by rw [T.hn]; exact (Vis.own_free hs rfl).1
      have hfree := hc p rfl
      have hpos : s.pos p = pos p := ghost_pos inv hp hfree
      refine ⟨⟨s.mem, Function.update s.pos p (s.pos p + 1)⟩, Or.inr (SStep.quiet p hp (by rw [hpos]; exact ha)), ?_, fun b hbn hob => ?_⟩
      · exact ghost_upd inv hpos (fun _ _ _ => rfl) fun l hl => free_inSet hfree hl
      · exact val_quiet hD hb hop hs (inv.mem b hbn hob)
  | @data x y pos e p f ha hd st =>
    cases st with
    | @rma e g' hs hc =>
      have hp : p < T.lk.n := by rw [T.hn]; exact (Vis.own_free hs (does_own hd)).1
      have hbz : x.g.busy p = [] := (Vis.own_free hs (does_own hd)).2.2
      have hfree := hc p (own_caller (does_own hd))
      have hpos : s.pos p = pos p := ghost_pos inv hp hfree
      have ha' : (P p)[s.pos p]? = some (.data f) := by rw [hpos]; exact ha
      have hf : f (x.g.mem p) = f (s.mem p) := by
        refine hD.dep p hp _ f ha' _ _ fun a hl => ?_
        obtain ⟨l1, l2⟩ := hD.look p hp _ f ha' a hl
        exact (val_read hP hb hi inv hp hbz (b := (p, a)) hp l1 l2).2
      refine ⟨⟨(f (s.mem p)).exec p s.mem, Function.update s.pos p (s.pos p + 1)⟩, Or.inr (SStep.data p f hp ha'), ?_, fun b hbn hob => ?_⟩
      · exact ghost_upd inv hpos (fun _ _ _ => rfl) fun l hl => free_inSet hfree hl
      · rw [hf] at hd
        exact val_data hP hD hb hi inv hp ha' rfl hf hd hs hbn hob
  | @set x y pos ev p l ha st =>
    refine ⟨s, Or.inl rfl, ?_, fun b hbn hob => val_keep wf un hD hwe st (fun e h => by cases h) rfl (fun q _ => Or.inl rfl) hob (inv.mem b hbn hob)⟩
    cases st with
    | @lock _ _ _ w _ hl hf hs =>
      obtain ⟨_, c2, c3⟩ := wstep_class hs
      have hp : p < T.lk.n := by rw [T.hn]; exact hf.1
      have hpos : s.pos p = pos p := ghost_pos inv hp c2
      have hpc := (wstep_pc hs).1
      intro q hq
      dsimp only
      by_cases hqp : q = p
      · subst hqp
        right
        rw [Function.update_self, hpos]
        exact ⟨rfl, l, hl, ha, by rw [c3]; exact Or.inl rfl⟩
      · rw [Function.update_of_ne hqp]
        have hpc' : ∀ k, w.pc k q = x.pc k q := fun k => hpc k q (fun e => hqp e.2)
        rcases inv.pos q hq with ⟨h1, h2⟩ | ⟨h1, k, hk, h2, h3⟩
        · exact Or.inl ⟨h1, fun k hk => by rw [hpc']; exact h2 k hk⟩
        · exact Or.inr ⟨h1, k, hk, h2, by rw [hpc']; exact h3⟩
  | @clear x y pos ev p l ha st =>
    have st' := st
    cases st with
    | @lock _ _ _ w _ hl hf hs =>
      obtain ⟨_, c2, c3⟩ := wstep_class hs
      have hp : p < T.lk.n := by rw [T.hn]; exact hf.1
      have hpos : s.pos p = pos p := ghost_pos inv hp c2
      have hpc := (wstep_pc hs).1
      refine ⟨⟨s.mem, Function.update s.pos p (s.pos p + 1)⟩, Or.inr (SStep.clear p l hp (by rw [hpos]; exact ha)), ?_, fun b hbn hob => ?_⟩
      · refine ghost_upd inv hpos (fun k q hqp => hpc k q fun e => hqp e.2) fun k hk hin => ?_
        dsimp only at hin
        by_cases hkl : k = l
        · subst hkl
          rw [c3] at hin
          exact inSet_inClear hin (Or.inl rfl)
        · rw [hpc k p fun e => hkl e.1] at hin
          exact free_inSet c2 hk hin
      · refine val_keep (s := s) (s' := ⟨s.mem, Function.update s.pos p (s.pos p + 1)⟩) wf un hD hwe st' (fun e h => by cases h) rfl (fun q _ => ?_) hob (inv.mem b hbn hob)
        dsimp only
        by_cases hqp : q = p
        · subst hqp
          rw [Function.update_self]
          refine Or.inr ⟨rfl, hf.2.2, ?_⟩
          rw [hpos]
          intro h
          rw [ha] at h; cases h
        · rw [Function.update_of_ne hqp]
          exact Or.inl rfl
  | @run x y pos ev p l st =>
    have st' := st
    cases st with
    | @lock _ _ _ w _ hl hf hs =>
      have hp : p < T.lk.n := by rw [T.hn]; exact hf.1
      have hpc := (wstep_pc hs).1
      have hpc' : ∀ k q, q ≠ p → w.pc k q = x.pc k q := fun k q hqp => hpc k q fun e => hqp e.2
      have hwp : x.words.pc l p = x.pc l p := rfl
      have hc := wstep_class hs
      dsimp only at hc
      rw [hwp] at hc
      -- the sequential execution stands still
      have still : (∀ k < T.lk.m, InSet (w.pc k p) ↔ InSet (x.pc k p)) →
          ∃ s', (s' = s ∨ SStep T.lk.n P s s') ∧ DInv T P own ⟨⟨{ x.g with mem := back x.g.mem w.mem }, w.pc⟩, pos⟩ s' := by
        intro h
        refine ⟨s, Or.inl rfl, ?_, fun b hbn hob => val_keep wf un hD hwe st' (fun e h => by cases h) rfl (fun q _ => Or.inl rfl) hob (inv.mem b hbn hob)⟩
        intro q hq
        have hq' : ∀ k < T.lk.m, InSet (w.pc k q) ↔ InSet (x.pc k q) := by
          intro k hk
          by_cases hqp : q = p
          · subst hqp; exact h k hk
          · rw [hpc' k q hqp]
        rcases inv.pos q hq with ⟨h1, h2⟩ | ⟨h1, k, hk, h2, h3⟩
        · exact Or.inl ⟨h1, fun k hk h => h2 k hk ((hq' k hk).1 h)⟩
        · exact Or.inr ⟨h1, k, hk, h2, (hq' k hk).2 h3⟩
      have hoth : ∀ k, k ≠ l → w.pc k p = x.pc k p := fun k hk => hpc k p fun e => hk e.1
      rcases hc with ⟨c1, c2 | c2⟩ | ⟨c1, c2⟩ | c1
      · refine still fun k hk => ?_
        by_cases hkl : k = l
        · subst hkl; exact iff_of_true c2 c1
        · rw [hoth k hkl]
      · -- the lock is taken
        rcases inv.pos p hp with ⟨_, h2⟩ | ⟨h1, k, hk, h2, h3⟩
        · exact absurd c1 (h2 l hl)
        · have hkl : k = l := by
            obtain ⟨j, hj, ⟨h5, _⟩ | ⟨_, h5⟩⟩ := hi.call p hp l hl (inSet_rest c1)
            · dsimp only at hj h1
              have : j = s.pos p := by omega
              subst this
              rw [h2] at h5; cases h5; rfl
            · exact absurd h5 fun h => inSet_inClear c1 h
          subst hkl
          have hfree : ∀ q < T.lk.n, ¬ Holds (P q) (s.pos q) k := by
            intro q hq hh
            by_cases hqp : q = p
            · subst hqp
              have := (hP.order q hq _ k h2).2 k hh
              omega
            · have hx := (ghost_held hP hi inv hq hh).2
              have hy : w.pc k q = .held := by rw [hpc' k q hqp]; exact hx
              exact hqp (hby.excl k hl q p hy c2)
          refine ⟨⟨s.mem, Function.update s.pos p (s.pos p + 1)⟩, Or.inr (SStep.set p k hp h2 hfree), ?_, fun b hbn hob => ?_⟩
          · intro q hq
            dsimp only
            by_cases hqp : q = p
            · subst hqp
              rw [Function.update_self]
              refine Or.inl ⟨h1, fun j hj hin => ?_⟩
              by_cases hjk : j = k
              · subst hjk
                rw [c2] at hin
                exact inSet_held hin
              · rw [hoth j hjk] at hin
                obtain ⟨i, hi', ⟨h5, _⟩ | ⟨h5, _⟩⟩ := hi.call q hq j hj (inSet_rest hin)
                · dsimp only at hi' h1
                  have : i = s.pos q := by omega
                  subst this
                  rw [h2] at h5; cases h5; exact hjk rfl
                · dsimp only at hi' h1
                  have : i = s.pos q := by omega
                  subst this
                  rw [h2] at h5; cases h5
            · rw [Function.update_of_ne hqp]
              rcases inv.pos q hq with ⟨g1, g2⟩ | ⟨g1, j, hj, g2, g3⟩
              · exact Or.inl ⟨g1, fun j hj => by rw [hpc' j q hqp]; exact g2 j hj⟩
              · exact Or.inr ⟨g1, j, hj, g2, by rw [hpc' j q hqp]; exact g3⟩
          · refine val_keep (s := s) (s' := ⟨s.mem, Function.update s.pos p (s.pos p + 1)⟩) wf un hD hwe st' (fun e h => by cases h) rfl (fun q _ => ?_) hob (inv.mem b hbn hob)
            dsimp only
            by_cases hqp : q = p
            · subst hqp
              rw [Function.update_self]
              refine Or.inr ⟨rfl, hf.2.2, fun h => ?_⟩
              rw [h2] at h; cases h
            · rw [Function.update_of_ne hqp]
              exact Or.inl rfl
      · refine still fun k hk => ?_
        by_cases hkl : k = l
        · subst hkl
          refine iff_of_false ?_ fun h => inSet_inClear h c1
          rcases c2 with c2 | c2
          · exact fun h => inSet_inClear h c2
          · rw [c2]
            rintro (e | e | ⟨_, e⟩ | e) <;> cases e
        · rw [hoth k hkl]
      · exfalso
        have hr : (x.pc l p).rest = false := by rw [c1]; rfl
        obtain ⟨k, _, ⟨_, h5⟩ | ⟨_, h5⟩⟩ := hi.call p hp l hl hr
        · dsimp only at h5; rw [c1] at h5
          rcases h5 with e | e | ⟨_, e⟩ | e <;> cases e
        · dsimp only at h5; rw [c1] at h5
          rcases h5 with e | e | ⟨_, e⟩ | ⟨_, e⟩ <;> cases e

theorem lbase_run (wf : T.lk.WF) (un : T.lk.Uniform) (hP : Proper T P) {x y : PX} {l : List Ev} (h0 : Start T x.x) (r : PRun T P x l y) :
    LBase T y.x := by
  obtain ⟨tr, hr, hre⟩ := r.run hP
  obtain ⟨h1, _, h3⟩ := proj h0 hr hre
  exact ⟨h3, h1, fun k hk p q => exclusion wf un h0 hr hre hk⟩

theorem dinv_run (wf : T.lk.WF) (un : T.lk.Uniform) (hP : Proper T P) (hD : Drf T P own looks) {x y : PX} {l : List Ev} (h0 : Start T x.x)
    (hp : x.pos = fun _ => 0) (r : PRun T P x l y) : ∃ s, SRun T.lk.n P ⟨x.x.g.mem, fun _ => 0⟩ s ∧ DInv T P own y s := by
  have hi : PcInv T P x := pcInv_init h0 hp
  induction r with
  | nil => exact ⟨_, SRun.nil _, dinv_init h0.1 h0.2 hp⟩
  | snoc r st ih =>
    obtain ⟨s, hs, inv⟩ := ih
    obtain ⟨s', h1, inv'⟩ := dinv_step wf un hP hD (lbase_run wf un hP h0 r) (lbase_run wf un hP h0 (r.snoc st)) (pcInv_run r hi) st inv
    rcases h1 with rfl | h1
    · exact ⟨_, hs, inv'⟩
    · exact ⟨_, hs.snoc h1, inv'⟩

/-- **Programs without races see a sequential execution.** At every instant of every execution of a program that follows the rules there is a
    sequential execution (one action at a time, each done at once, on one memory, locks exclusive) that is as far - a PE that waits for a lock has
    not taken it - and in which every PE that is in no blocking call finds in every byte that it may read, and has not written without waiting, what
    is in the library's memory; nothing in flight will change it. -/
theorem C110_sequential_partial (wf : T.lk.WF) (un : T.lk.Uniform) (hP : Proper T P) (hD : Drf T P own looks) {x y : PX} {l : List Ev}
    (h0 : Start T x.x) (hp : x.pos = fun _ => 0) (r : PRun T P x l y) :
    ∃ s, SRun T.lk.n P ⟨x.x.g.mem, fun _ => 0⟩ s ∧
      (∀ p < T.lk.n, s.pos p = y.pos p ∨ (s.pos p + 1 = y.pos p ∧ ∃ l, (P p)[s.pos p]? = some (.set l) ∧ InSet (y.x.pc l p))) ∧
      ∀ p < T.lk.n, y.x.g.busy p = [] → ∀ b : Nat × Int, b.1 < T.lk.n → CanR P own p (s.pos p) b → ¬ Dirty P p (s.pos p) b →
        y.x.g.mem b.1 b.2 = s.mem b.1 b.2 ∧ NoWriter y.x.g b := by
  obtain ⟨s, hs, inv⟩ := dinv_run wf un hP hD h0 hp r
  have hi : PcInv T P y := pcInv_run r (pcInv_init h0 hp)
  refine ⟨s, hs, fun p hp => ?_, fun p hp hbz b hbn hr hd => ?_⟩
  · rcases inv.pos p hp with ⟨h, _⟩ | ⟨h, l, _, h2, h3⟩
    · exact Or.inl h
    · exact Or.inr ⟨h, l, h2, h3⟩
  · have := val_read hP (lbase_run wf un hP h0 r) hi inv hp hbz hbn hr hd
    exact ⟨this.2, this.1⟩

/-- what a sequential execution that has come to the end can do -/
theorem sstep_end {s s' : SX} {n : Nat} (he : ∀ p < n, (P p).length ≤ s.pos p) (h : SStep n P s s') : False := by
  cases h with
  | set p l hp ha hl => have := (List.getElem?_eq_some_iff.1 ha).1; have := he p hp; dsimp only at this; omega
  | clear p l hp ha => have := (List.getElem?_eq_some_iff.1 ha).1; have := he p hp; dsimp only at this; omega
  | quiet p hp ha => have := (List.getElem?_eq_some_iff.1 ha).1; have := he p hp; dsimp only at this; omega
  | data p f hp ha => have := (List.getElem?_eq_some_iff.1 ha).1; have := he p hp; dsimp only at this; omega

/-- the relation, from an instant at which all PEs are at the end, with the same sequential execution -/
theorem LInf.settled (R : LInf T P) (wf : T.lk.WF) (un : T.lk.Uniform) (hP : Proper T P) (hD : Drf T P own looks) {i : Nat} {s : SX}
    (he : ∀ p < T.lk.n, (P p).length ≤ s.pos p) (inv : DInv T P own (R.at_ i) s) (n : Nat) : DInv T P own (R.at_ (i + n)) s := by
  induction n with
  | zero => exact inv
  | succ n ih =>
    cases hv : R.ev (i + n) with
    | none =>
      have := R.idle' hv
      show DInv T P own (R.at_ (i + n + 1)) s
      rw [this]
      exact ih
    | some ev =>
      obtain ⟨l, r⟩ := R.run (i + n)
      have st : PStep T P (R.at_ (i + n)) ev (R.at_ (i + n + 1)) := R.step _ _ hv
      obtain ⟨s', h1, h2⟩ := dinv_step wf un hP hD (lbase_run wf un hP R.start r) (lbase_run wf un hP R.start (r.snoc st)) (R.pcInv _) st ih
      rcases h1 with rfl | h1
      · exact h2
      · exact (sstep_end he h1).elim

/-- **Programs without races end as a sequential execution ends.** In every fair execution of a program that follows the rules, all PEs get to the end
    of their programs, and there are a complete sequential execution of the program from the same memory and an instant from which on every byte
    that has an owner, and for which nothing is pending at the end of the program, has the value it has at the end of that sequential execution. -/
theorem C110_result_partial (R : LInf T P) (wf : T.lk.WF) (un : T.lk.Uniform) (hP : Proper T P) (hD : Drf T P own looks) (F : R.vis.Fair) :
    ∃ i s, SRun T.lk.n P ⟨R.vis.mem, fun _ => 0⟩ s ∧ (∀ p < T.lk.n, s.pos p = (P p).length) ∧ ∀ j, i ≤ j →
      (∀ p < T.lk.n, R.pos j p = (P p).length) ∧ ∀ b : Nat × Int, b.1 < T.lk.n → own b ≠ none → (∀ q < T.lk.n, ¬ Dirty P q (P q).length b) →
        (R.vis.st j).mem b.1 b.2 = s.mem b.1 b.2 := by
  obtain ⟨i, hi⟩ := C109_ends_partial R wf un hP F
  obtain ⟨l, r⟩ := R.run i
  obtain ⟨s, hs, inv⟩ := dinv_run wf un hP hD R.start R.pos0 r
  have e0 : (R.at_ 0).x.g.mem = R.vis.mem := by
    show (R.vis.st 0).mem = _
    rw [R.vis.start]; rfl
  rw [e0] at hs
  have hpos : ∀ p < T.lk.n, s.pos p = (P p).length := by
    intro p hp
    rcases inv.pos p hp with ⟨h, _⟩ | ⟨_, l, hl, _, h⟩
    · exact h.trans (hi i (Nat.le_refl _) p hp).1
    · have h : InSet (R.pc i l p) := h
      rw [(hi i (Nat.le_refl _) p hp).2.1 l hl] at h
      rcases h with e | e | ⟨_, e⟩ | e <;> cases e
  refine ⟨i, s, hs, hpos, fun j hj => ⟨fun p hp => (hi j hj p hp).1, fun b hbn hob hd => ?_⟩⟩
  have inv' := R.settled wf un hP hD (fun p hp => (hpos p hp).ge) inv (j - i)
  rw [Nat.add_sub_cancel' hj] at inv'
  rcases inv'.mem b hbn hob with h | ⟨q, hq, o, src, _, h2, _, h4⟩
  · exact h.2
  · have ho : o = none := by
      by_contra ho
      exact hd q hq (hpos q hq ▸ h2 ho)
    subst ho
    refine (Vis.only_done h4 ?_).1
    rintro a (⟨_, _, ho, _⟩ | ⟨_, hb⟩)
    · cases ho
    · have : (R.vis.st j).busy q = [] := (hi j hj q hq).2.2
      have hb : a ∈ (R.vis.st j).busy q := hb
      rw [this] at hb; cases hb

theorem holds_before {as : List PAct} {i l : Nat} (h : Holds as (i + 1) l) : as[i]? = some (.set l) ∨ Holds as i l := by
  by_cases h1 : as[i]? = some (.set l)
  · exact Or.inl h1
  · by_cases h2 : as[i]? = some (.clear l)
    · exact absurd h (holds_clear h2)
    · exact Or.inr ((holds_other h1 h2).1 h)

/-- in a sequential execution a lock is held by one PE -/
theorem srun_excl {n : Nat} {m : Nat → IMem} {s : SX} (r : SRun n P ⟨m, fun _ => 0⟩ s) {l p q : Nat} (hp : p < n) (hq : q < n)
    (h1 : Holds (P p) (s.pos p) l) (h2 : Holds (P q) (s.pos q) l) : p = q := by
  generalize hs0 : (⟨m, fun _ => 0⟩ : SX) = s0 at r
  induction r with
  | nil =>
    subst hs0
    obtain ⟨j, hj, _⟩ := h1
    exact absurd hj (Nat.not_lt_zero j)
  | @snoc t u rr st ih =>
    have key : ∀ (pos : Nat → Nat) (a r : Nat), (P r)[pos r]? ≠ some (.set l) → Holds (P a) (Function.update pos r (pos r + 1) a) l → Holds (P a) (pos a) l := by
      intro pos a r hne hh
      by_cases har : a = r
      · subst har
        rw [Function.update_self] at hh
        exact (holds_before hh).resolve_left hne
      · rwa [Function.update_of_ne har] at hh
    cases st with
    | @set m' pos r k hr ha hl =>
      by_cases hk : k = l
      · subst hk
        have out : ∀ a < n, Holds (P a) (Function.update pos r (pos r + 1) a) k → a = r := by
          intro a hna hh
          by_contra har
          rw [Function.update_of_ne har] at hh
          exact hl a hna hh
        rw [out p hp h1, out q hq h2]
      · have hne : (P r)[pos r]? ≠ some (.set l) := by rw [ha]; intro e; cases e; exact hk rfl
        exact ih (key pos p r hne h1) (key pos q r hne h2)
    | @clear m' pos r k hr ha =>
      have hne : (P r)[pos r]? ≠ some (.set l) := by rw [ha]; intro e; cases e
      exact ih (key pos p r hne h1) (key pos q r hne h2)
    | @quiet m' pos r hr ha =>
      have hne : (P r)[pos r]? ≠ some (.set l) := by rw [ha]; intro e; cases e
      exact ih (key pos p r hne h1) (key pos q r hne h2)
    | @data m' pos r f hr ha =>
      have hne : (P r)[pos r]? ≠ some (.set l) := by rw [ha]; intro e; cases e
      exact ih (key pos p r hne h1) (key pos q r hne h2)

/-- **Critical sections are not interfered with.** In a sequential execution of a program that follows the rules, no action of another PE changes a
    byte that PE `p` may read: while it holds the lock of a byte, and at all times for its own bytes, it sees its own writes only. -/
theorem C110_section (hD : Drf T P own looks) {m : Nat → IMem} {s s' : SX} (r : SRun T.lk.n P ⟨m, fun _ => 0⟩ s) (st : SStep T.lk.n P s s') {p : Nat}
    (hp : p < T.lk.n) (hs : s'.pos p = s.pos p) {b : Nat × Int} (hb : CanR P own p (s.pos p) b) : s'.mem b.1 b.2 = s.mem b.1 b.2 := by
  cases st with
  | set q l hq ha hl => rfl
  | clear q l hq ha => rfl
  | quiet q hq ha => rfl
  | @data m' pos q f hq ha =>
    by_cases hw : (f (m' q)).writes q b
    · exfalso
      have hqp : q = p := by
        rcases (hD.writes q hq _ f ha _ b hw).1 with ⟨l, h1, h1'⟩ | h1
        · rcases hb with (⟨k, h2, h2'⟩ | h2) | h2
          · rw [h1] at h2
            cases h2
            exact srun_excl r hq hp h1' h2'
          · rw [h1] at h2; cases h2
          · rw [h1] at h2; cases h2
        · rcases hb with (⟨k, h2, h2'⟩ | h2) | h2
          · rw [h1] at h2; cases h2
          · rw [h1] at h2; cases h2; rfl
          · rw [h1] at h2; cases h2
      subst hqp
      dsimp only at hs
      rw [Function.update_self] at hs
      omega
    · exact exec_frame hw

end

end Verif.Crit
