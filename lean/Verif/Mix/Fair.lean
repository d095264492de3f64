import Verif.Mix.Exists
/-!
# C113: programs with locks and barriers get to their end
-/
namespace Verif.Crit.Mix
open Verif.Rma Verif.Lock

/-- An infinite execution of program `P`, as `Crit.LInf`. `vis`: what happens, as an execution of `Vis`, where the accesses of lock calls are
`touch`es (with what each PE is about to do, `want`). `stands`, `inside`: a PE that can go on is about to do its next action, which for puts, gets
and stores is one that the library accepts (apart from what is in flight), for a barrier to enter it (coll_impl.h L12-32); in a lock call, to make
the next access (lock_impl.h L27-168). -/
structure MInf (T : Sys) (P : Prog) where
  vis : Vis.Inf T.vis
  pc : Nat → Nat → Nat → PC
  pos : Nat → Nat → Nat
  ev : Nat → Option Ev
  init : T.lk.Init (X.words ⟨vis.st 0, pc 0⟩)
  pos0 : pos 0 = fun _ => 0
  step : ∀ i e, ev i = some e → PStep T P ⟨⟨vis.st i, pc i⟩, pos i⟩ e ⟨⟨vis.st (i + 1), pc (i + 1)⟩, pos (i + 1)⟩
  idle : ∀ i, ev i = none → vis.ev i = none ∧ pc (i + 1) = pc i ∧ pos (i + 1) = pos i
  data : ∀ i e, ev i = some (.rma e) → vis.ev i = some e
  lock : ∀ i l p a evs, ev i = some (.lock l p a evs) → ∃ ws, vis.ev i = some (.touch p ws)
  inside : ∀ i p, T.lk.free (X.words ⟨vis.st i, pc i⟩) p = false → ∀ e, vis.want i p e ↔ ∃ ws, e = .touch p ws
  stands : ∀ i p, Vis.Free T.vis (vis.st i) p → T.lk.free (X.words ⟨vis.st i, pc i⟩) p = true → ∀ a, (P p)[pos i p]? = some a →
    match a with
    | .set _ => ∀ e, vis.want i p e ↔ ∃ ws, e = .touch p ws
    | .clear _ => ∀ e, vis.want i p e ↔ ∃ ws, e = .touch p ws
    | .quiet => Vis.AtCall vis i p (.quiet none) ∨ Vis.AtCall vis i p (.fence none)
    | .bar => Vis.AtBarrier vis i p
    | .data _ => ∃ e g', vis.want i p e ∧ e.own = some p ∧ e.plain = true ∧ Vis.Step T.vis ((vis.st i).clear p) e g'

/-- state number `i` -/
def MInf.at_ {T : Sys} {P : Prog} (R : MInf T P) (i : Nat) : PX := ⟨⟨R.vis.st i, R.pc i⟩, R.pos i⟩

/-- The operations of the actions `cov` (PE, number of the action) are ones that the code's barrier completes (`EvCov`, C65). -/
def MInf.Covers {T : Sys} {P : Prog} (R : MInf T P) (cov : Nat → Nat → Prop) : Prop :=
  ∀ i e, R.ev i = some (.rma e) → ∀ p, e.own = some p → cov p (R.pos i p) → EvCov T.vis e

/-- Locks are set in increasing order: a lock that is set comes after all those the PE holds (the rule of C90; not code). -/
def Ascending (n : Nat) (P : Prog) : Prop := ∀ p < n, ∀ i l, (P p)[i]? = some (.set l) → ∀ k, Holds (P p) i k → k < l

/-- a PE in a lock call waits for nothing else -/
def BusyInv (T : Sys) (x : PX) : Prop := ∀ p < T.lk.n, ∀ l < T.lk.m, (x.x.pc l p).rest = false → x.x.g.busy p = []

section
variable {T : Sys} {P : Prog} {R : MInf T P}

theorem busy_own {g g' : Vis.G} {pc : Nat → Nat → PC} {pos pos' : Nat → Nat} {e : Vis.Ev} {p : Nat} (h : BusyInv T ⟨⟨g, pc⟩, pos⟩)
    (hs : Vis.Step T.vis g e g') (hc : ∀ p, caller e = some p → T.lk.free (X.words ⟨g, pc⟩) p = true) (ho : e.own = some p) :
    BusyInv T ⟨⟨g', pc⟩, pos'⟩ := by
  intro q hq l hl hr
  by_cases hqp : q = p
  · subst hqp
    have := free_iff.1 (hc q (own_caller ho)) l hl
    exact absurd (hr.symm.trans this) (by decide)
  · exact lib_busy hs q (by rw [ho]; exact fun h => hqp (by cases h; rfl)) (h q hq l hl hr)

theorem busy_lock {x : X} {pos pos' : Nat → Nat} {l p : Nat} {a : Act} {w : WState} {ev : List Lock.Ev} (h : BusyInv T ⟨x, pos⟩)
    (hf : Vis.Free T.vis x.g p) (hs : wstep T.lk x.words l p a = some (w, ev)) :
    BusyInv T ⟨⟨{ x.g with mem := back x.g.mem w.mem }, w.pc⟩, pos'⟩ := by
  intro q hq k hk hr
  by_cases hqp : q = p
  · subst hqp; exact hf.2.2
  · have hpc : w.pc k q = x.pc k q := (wstep_pc hs).1 k q (fun e => hqp e.2)
    dsimp only at hr
    rw [hpc] at hr
    exact h q hq k hk hr

theorem busy_step {x y : PX} {e : Ev} (h : BusyInv T x) (s : PStep T P x e y) : BusyInv T y := by
  cases s with
  | @lib x y pos e ho hl s =>
    cases s with
    | rma hs hc => intro q hq l hl' hr; exact lib_busy hs q (by rw [ho]; exact fun h => by cases h) (h q hq l hl' hr)
  | data p f ha hd s => cases s with | rma hs hc => exact busy_own h hs hc (does_own hd)
  | quiet p op ha ho s => cases s with | rma hs hc => exact busy_own h hs hc rfl
  | enter p ha s => cases s with | rma hs hc => exact busy_own h hs hc rfl
  | leave p s =>
    cases s with
    | rma hs hc =>
      obtain ⟨e1, _⟩ := leave_step hs
      subst e1
      exact h
  | set p l ha s => cases s with | lock _ _ _ hl hf hs => exact busy_lock h hf hs
  | clear p l ha s => cases s with | lock _ _ _ hl hf hs => exact busy_lock h hf hs
  | run p l s => cases s with | lock _ _ _ hl hf hs => exact busy_lock h hf hs

theorem MInf.idle' (R : MInf T P) {i : Nat} (h : R.ev i = none) : R.at_ (i + 1) = R.at_ i := by
  obtain ⟨h1, h2, h3⟩ := R.idle i h
  unfold MInf.at_
  rw [h2, h3, R.vis.idle i h1]

theorem MInf.run (R : MInf T P) (i : Nat) : ∃ l, PRun T P (R.at_ 0) l (R.at_ i) := by
  induction i with
  | zero => exact ⟨[], .nil _⟩
  | succ i ih =>
    obtain ⟨l, ih⟩ := ih
    cases he : R.ev i with
    | none => rw [R.idle' he]; exact ⟨l, ih⟩
    | some e => exact ⟨_, ih.snoc (R.step i e he)⟩

theorem MInf.crun (R : MInf T P) {cov : Nat → Nat → Prop} (hc : R.Covers cov) (i : Nat) : ∃ l, CRun T P cov (R.at_ 0) l (R.at_ i) := by
  induction i with
  | zero => exact ⟨[], .nil _⟩
  | succ i ih =>
    obtain ⟨l, ih⟩ := ih
    cases he : R.ev i with
    | none => rw [R.idle' he]; exact ⟨l, ih⟩
    | some e => exact ⟨_, ih.snoc (R.step i e he) fun e' he' => hc i e' (he.trans (congrArg some he'))⟩

theorem MInf.start (R : MInf T P) : Start T (R.at_ 0).x := ⟨⟨R.vis.mem, R.vis.start⟩, R.init⟩

theorem MInf.pcInv (R : MInf T P) (i : Nat) : PcInv T P (R.at_ i) := by
  obtain ⟨l, r⟩ := R.run i
  exact pcInv_run r (pcInv_init R.start R.pos0)

theorem MInf.busyInv (R : MInf T P) (i : Nat) : BusyInv T (R.at_ i) := by
  induction i with
  | zero =>
    intro p _ l _ _
    show (R.vis.st 0).busy p = []
    rw [R.vis.start]
    rfl
  | succ i ih =>
    cases he : R.ev i with
    | none => rw [R.idle' he]; exact ih
    | some e => exact busy_step ih (R.step i e he)

theorem MInf.lv (R : MInf T P) (i : Nat) {p : Nat} (hp : p < T.lk.n) : (R.vis.st i).lv p = epoch (P p) (R.pos i p) := by
  obtain ⟨l, r⟩ := R.run i
  exact lv_epoch r R.start R.pos0 p hp

theorem PStep.len {x y : PX} {e : Ev} (s : PStep T P x e y) (hi : PcInv T P x) (h : ∀ p < T.lk.n, x.pos p ≤ (P p).length) :
    ∀ p < T.lk.n, y.pos p ≤ (P p).length := by
  have adv : ∀ (pos : Nat → Nat) (q : Nat) (a : PAct), (P q)[pos q]? = some a → (∀ p < T.lk.n, pos p ≤ (P p).length) →
      ∀ p < T.lk.n, Function.update pos q (pos q + 1) p ≤ (P p).length := by
    intro pos q a ha h p hp
    by_cases hpq : p = q
    · subst hpq
      rw [Function.update_self]
      exact (List.getElem?_eq_some_iff.1 ha).1
    · rw [Function.update_of_ne hpq]; exact h p hp
  cases s with
  | lib ho hl s => exact h
  | data p f ha hd s => exact adv _ _ _ ha h
  | quiet p op ha ho s => exact adv _ _ _ ha h
  | enter p ha s => exact h
  | @leave x y pos p s =>
    cases s with
    | rma hs hc =>
      obtain ⟨_, hp, h0, _⟩ := leave_step hs
      obtain ⟨_, w2, _⟩ := hi.wait p (by rw [T.hn]; exact hp) (by dsimp only; omega)
      exact adv _ _ _ w2 h
  | set p l ha s => exact adv _ _ _ ha h
  | clear p l ha s => exact adv _ _ _ ha h
  | run p l s => exact h

theorem MInf.len (R : MInf T P) (i : Nat) : ∀ p < T.lk.n, R.pos i p ≤ (P p).length := by
  induction i with
  | zero => intro p _; rw [R.pos0]; exact Nat.zero_le _
  | succ i ih =>
    cases he : R.ev i with
    | none => rw [(R.idle i he).2.2]; exact ih
    | some e => exact PStep.len (R.step i e he) (R.pcInv i) ih

/-- the lock part of the execution -/
def MInf.locks (R : MInf T P) (hP : Proper T P) : WRun T.lk where
  st i := (R.at_ i).x.words
  act i := lockAct (R.ev i)
  start := R.init
  next := by
    intro i
    cases he : R.ev i with
    | none =>
      refine Or.inl ⟨rfl, ?_, ?_⟩
      · rw [R.idle' he]
      · intro t _ x _; rw [R.idle' he]
    | some e =>
      have s := R.step i e he
      have s' : PStep T P (R.at_ i) e (R.at_ (i + 1)) := s
      have st := s'.step
      obtain ⟨l, r⟩ := R.run i
      obtain ⟨tr, r1, r2⟩ := r.run hP
      obtain ⟨_, hn, _⟩ := proj R.start r1 r2
      generalize R.at_ i = x at *
      generalize R.at_ (i + 1) = y at *
      obtain ⟨x, pos⟩ := x
      obtain ⟨y, pos'⟩ := y
      dsimp only at st hn ⊢
      cases st with
      | @rma e g' hs hc =>
        refine Or.inl ⟨rfl, rfl, fun t ht a ha => ?_⟩
        exact (Vis.noWriter_step hs (hn t ht a ha) (s'.respects hP ht ha)).2
      | @lock l p a w ev hl hf hs =>
        refine Or.inr ⟨l, p, a, ev, rfl, hl, by rw [T.hn]; exact hf.1, ?_⟩
        rw [lock_words]
        exact hs

/-- what a PE does at an instant: its next action, an access of the lock call it is in, or it enters a barrier -/
theorem MInf.own (R : MInf T P) {j p : Nat} {e : Vis.Ev} (he : R.vis.ev j = some e) (ho : e.own = some p) :
    (T.lk.free (R.at_ j).x.words p = true ∧ R.pos (j + 1) p = R.pos j p + 1) ∨
      (∃ l evs, l < T.lk.m ∧ R.ev j = some (.lock l p .run evs) ∧ (R.pc j l p).rest = false ∧ R.pos (j + 1) p = R.pos j p) ∨
      (e = .enter p ∧ T.lk.free (R.at_ j).x.words p = true ∧ R.pos (j + 1) p = R.pos j p) := by
  cases hv : R.ev j with
  | none => rw [(R.idle j hv).1] at he; cases he
  | some ev =>
    have s : PStep T P (R.at_ j) ev (R.at_ (j + 1)) := R.step j ev hv
    have hd := R.data j
    have hl := R.lock j
    have e1 : (R.at_ j).pos = R.pos j := rfl
    have e2 : (R.at_ (j + 1)).pos = R.pos (j + 1) := rfl
    have e3 : (R.at_ j).x.pc = R.pc j := rfl
    rw [← e1, ← e2, ← e3]
    generalize R.at_ j = x at *
    generalize R.at_ (j + 1) = y at *
    cases s with
    | @lib x y pos e' ho' _ s =>
      have := hd e' hv
      rw [he] at this
      cases this
      rw [ho] at ho'
      cases ho'
    | @data x y pos e' q f ha hd' s =>
      have := hd e' hv
      rw [he] at this
      cases this
      have := does_own hd'
      rw [ho] at this
      cases this
      cases s with
      | rma hs hc => exact Or.inl ⟨hc _ (own_caller ho), Function.update_self ..⟩
    | @quiet x y pos q op ha ho' s =>
      have := hd _ hv
      rw [he] at this
      cases this
      cases ho
      cases s with
      | rma hs hc => exact Or.inl ⟨hc _ rfl, Function.update_self ..⟩
    | @enter x y pos q ha s =>
      have := hd _ hv
      rw [he] at this
      cases this
      cases ho
      cases s with
      | rma hs hc => exact Or.inr (Or.inr ⟨rfl, hc _ rfl, rfl⟩)
    | @leave x y pos q s =>
      have := hd _ hv
      rw [he] at this
      cases this
      cases ho
    | @set x y pos ev q l ha s =>
      obtain ⟨ws, hw⟩ := hl _ _ _ _ hv
      rw [he] at hw
      cases hw
      cases ho
      cases s with
      | lock _ _ _ hl hf hs => exact Or.inl ⟨(wstep_class hs).2.1, Function.update_self ..⟩
    | @clear x y pos ev q l ha s =>
      obtain ⟨ws, hw⟩ := hl _ _ _ _ hv
      rw [he] at hw
      cases hw
      cases ho
      cases s with
      | lock _ _ _ hl hf hs => exact Or.inl ⟨(wstep_class hs).2.1, Function.update_self ..⟩
    | @run x y pos ev q l s =>
      obtain ⟨ws, hw⟩ := hl _ _ _ _ hv
      rw [he] at hw
      cases hw
      cases ho
      cases s with
      | lock _ _ _ hl hf hs =>
        refine Or.inr (Or.inl ⟨l, ev, hl, rfl, ?_, rfl⟩)
        rcases wstep_class hs with ⟨c, _⟩ | ⟨c, _⟩ | c
        · exact inSet_rest c
        · exact inClear_rest c
        · show (x.words.pc l p).rest = false
          rw [c]; rfl

theorem MInf.noleave (R : MInf T P) {j p : Nat} (hb : (R.vis.st j).arr p = (R.vis.st j).lv p) : R.vis.ev j ≠ some (.leave p) := by
  intro h
  obtain ⟨_, _, h0, _⟩ := leave_step (R.vis.step j _ h)
  omega

/-- a PE that does nothing, and is in no barrier, stays where it is -/
theorem MInf.mute (R : MInf T P) {j p : Nat} (h : R.vis.Mute j p) (hb : (R.vis.st j).arr p = (R.vis.st j).lv p) :
    R.pos (j + 1) p = R.pos j p ∧ ∀ l, R.pc (j + 1) l p = R.pc j l p := by
  have hnl := R.noleave hb
  cases hv : R.ev j with
  | none =>
    obtain ⟨_, h2, h3⟩ := R.idle j hv
    rw [h2, h3]
    exact ⟨rfl, fun _ => rfl⟩
  | some ev =>
    have s : PStep T P (R.at_ j) ev (R.at_ (j + 1)) := R.step j ev hv
    have hd := R.data j
    have hl := R.lock j
    have e1 : (R.at_ j).pos = R.pos j := rfl
    have e2 : (R.at_ (j + 1)).pos = R.pos (j + 1) := rfl
    have e3 : (R.at_ j).x.pc = R.pc j := rfl
    have e4 : (R.at_ (j + 1)).x.pc = R.pc (j + 1) := rfl
    rw [← e1, ← e2, ← e3, ← e4]
    generalize R.at_ j = x at *
    generalize R.at_ (j + 1) = y at *
    cases s with
    | lib ho' _ s => cases s; exact ⟨rfl, fun _ => rfl⟩
    | @data x y pos e' q f ha hd' s =>
      have hne : p ≠ q := by rintro rfl; exact h _ (hd e' hv) (does_own hd')
      cases s; exact ⟨Function.update_of_ne hne _ _, fun _ => rfl⟩
    | @quiet x y pos q op ha ho' s =>
      have hne : p ≠ q := by rintro rfl; exact h _ (hd _ hv) rfl
      cases s; exact ⟨Function.update_of_ne hne _ _, fun _ => rfl⟩
    | enter q ha s => cases s; exact ⟨rfl, fun _ => rfl⟩
    | @leave x y pos q s =>
      have hne : p ≠ q := by rintro rfl; exact hnl (hd _ hv)
      cases s; exact ⟨Function.update_of_ne hne _ _, fun _ => rfl⟩
    | @set x y pos ev q l ha s =>
      obtain ⟨ws, hw⟩ := hl _ _ _ _ hv
      have hne : p ≠ q := by rintro rfl; exact h _ hw rfl
      cases s with
      | lock _ _ _ hl hf hs => exact ⟨Function.update_of_ne hne _ _, fun k => (wstep_pc hs).1 k p (fun e => hne e.2)⟩
    | @clear x y pos ev q l ha s =>
      obtain ⟨ws, hw⟩ := hl _ _ _ _ hv
      have hne : p ≠ q := by rintro rfl; exact h _ hw rfl
      cases s with
      | lock _ _ _ hl hf hs => exact ⟨Function.update_of_ne hne _ _, fun k => (wstep_pc hs).1 k p (fun e => hne e.2)⟩
    | @run x y pos ev q l s =>
      obtain ⟨ws, hw⟩ := hl _ _ _ _ hv
      have hne : p ≠ q := by rintro rfl; exact h _ hw rfl
      cases s with
      | lock _ _ _ hl hf hs => exact ⟨rfl, fun k => (wstep_pc hs).1 k p (fun e => hne e.2)⟩

theorem MInf.muten (R : MInf T P) {i p : Nat} (hb : (R.vis.st i).arr p = (R.vis.st i).lv p) (n : Nat)
    (h : ∀ j, i ≤ j → j < i + n → R.vis.Mute j p) :
    R.pos (i + n) p = R.pos i p ∧ ∀ l, R.pc (i + n) l p = R.pc i l p := by
  induction n with
  | zero => exact ⟨rfl, fun _ => rfl⟩
  | succ n ih =>
    have hm := fun j h1 (h2 : j < i + n) => h j h1 (by omega)
    obtain ⟨a, b⟩ := ih hm
    obtain ⟨c, d⟩ := R.mute (h (i + n) (by omega) (by omega)) (R.vis.outside n hm hb)
    exact ⟨c.trans a, fun l => (d l).trans (b l)⟩

theorem PStep.mono {x y : PX} {e : Ev} (s : PStep T P x e y) (p : Nat) : x.pos p ≤ y.pos p := by
  have adv : ∀ (pos : Nat → Nat) (q : Nat), pos p ≤ Function.update pos q (pos q + 1) p := by
    intro pos q
    by_cases hpq : p = q
    · subst hpq; rw [Function.update_self]; omega
    · rw [Function.update_of_ne hpq]
  cases s with
  | lib ho hl s => exact Nat.le_refl _
  | data p f ha hd s => exact adv _ _
  | quiet p op ha ho s => exact adv _ _
  | enter p ha s => exact Nat.le_refl _
  | leave p s => exact adv _ _
  | set p l ha s => exact adv _ _
  | clear p l ha s => exact adv _ _
  | run p l s => exact Nat.le_refl _

theorem MInf.mono (R : MInf T P) (p : Nat) {i j : Nat} (h : i ≤ j) : R.pos i p ≤ R.pos j p := by
  obtain ⟨n, rfl⟩ := Nat.exists_eq_add_of_le h
  clear h
  induction n with
  | zero => exact Nat.le_refl _
  | succ n ih =>
    refine ih.trans ?_
    cases he : R.ev (i + n) with
    | none => rw [show i + (n + 1) = i + n + 1 from rfl, (R.idle _ he).2.2]
    | some e => exact PStep.mono (R.step _ e he) p

/-- no access of the execution can fault -/
theorem MInf.safe (R : MInf T P) : R.vis.Safe := by
  intro i e he
  cases hv : R.ev i with
  | none => rw [(R.idle i hv).1] at he; cases he
  | some ev =>
    have s := R.step i ev hv
    have hd := R.data i
    have hl := R.lock i
    cases ev with
    | lock l p a evs =>
      obtain ⟨ws, hw⟩ := hl _ _ _ _ hv
      rw [he] at hw
      cases hw
      exact trivial
    | rma e' =>
      have := hd e' hv
      rw [he] at this
      cases this
      generalize (⟨⟨R.vis.st i, R.pc i⟩, R.pos i⟩ : PX) = x at s
      generalize (⟨⟨R.vis.st (i + 1), R.pc (i + 1)⟩, R.pos (i + 1)⟩ : PX) = y at s
      cases s with
      | lib ho _ s => cases e <;> first | exact trivial | cases ho
      | data q f ha hd' s => exact does_safe hd'
      | quiet q op ha ho s => exact trivial
      | enter q ha s => exact trivial
      | leave q s => exact trivial

theorem MInf.nospaces (R : MInf T P) (i : Nat) : ∀ p, ((R.vis.st i).pe p).spaces = [] := by
  induction i with
  | zero => rw [R.vis.start]; exact fun _ => rfl
  | succ i ih =>
    cases he : R.vis.ev i with
    | none => rw [R.vis.idle i he]; exact ih
    | some e =>
      refine Bsp.nospaces_step (R.vis.step i e he) (fun p op h => ?_) ih
      subst h
      cases hv : R.ev i with
      | none => rw [(R.idle i hv).1] at he; cases he
      | some ev =>
        have s := R.step i ev hv
        cases ev with
        | lock l q a evs =>
          obtain ⟨ws, hw⟩ := R.lock i _ _ _ _ hv
          rw [he] at hw
          cases hw
        | rma e' =>
          have := R.data i e' hv
          rw [he] at this
          cases this
          generalize (⟨⟨R.vis.st i, R.pc i⟩, R.pos i⟩ : PX) = x at s
          generalize (⟨⟨R.vis.st (i + 1), R.pc (i + 1)⟩, R.pos (i + 1)⟩ : PX) = y at s
          cases s with
          | lib ho _ s => cases ho
          | @data x y pos e' q f ha hd' s =>
            exfalso
            cases hc : f (x.g.mem q) with
            | put tgt nbi xs => rw [hc] at hd'; obtain ⟨_, _, _, h⟩ := hd'; cases h
            | get tgt nbi xs => rw [hc] at hd'; obtain ⟨_, _, _, h⟩ := hd'; cases h
            | store a v => rw [hc] at hd'; cases hd'
          | quiet q op ha ho s => exact ho

/-- a PE in a lock call is in no barrier -/
theorem MInf.outside (R : MInf T P) {i l p : Nat} (hp : p < T.lk.n) (hl : l < T.lk.m) (hr : (R.pc i l p).rest = false) :
    (R.vis.st i).arr p = (R.vis.st i).lv p := by
  by_contra hne
  have := ((R.pcInv i).wait p hp hne).1 l hl
  have this : (R.pc i l p).rest = true := this
  rw [hr] at this
  cases this

/-- a PE at an action that is no barrier is in no barrier -/
theorem MInf.outside' (R : MInf T P) {i p : Nat} (hp : p < T.lk.n) (hb : (P p)[R.pos i p]? ≠ some .bar) :
    (R.vis.st i).arr p = (R.vis.st i).lv p := by
  by_contra hne
  exact hb ((R.pcInv i).wait p hp hne).2.1

/-- a PE is in one lock call at a time -/
theorem MInf.one (R : MInf T P) {i j p l l' : Nat} (hp : p < T.lk.n) (hpos : R.pos j p = R.pos i p) (hl : l < T.lk.m) (hl' : l' < T.lk.m)
    (h1 : (R.pc i l p).rest = false) (h2 : (R.pc j l' p).rest = false) : l' = l := by
  obtain ⟨k, hk, hk2⟩ := (R.pcInv i).call p hp l hl h1
  obtain ⟨k', hk', hk2'⟩ := (R.pcInv j).call p hp l' hl' h2
  have hk : R.pos i p = k + 1 := hk
  have hk' : R.pos j p = k' + 1 := hk'
  have : k' = k := by omega
  subst this
  rcases hk2 with ⟨e1, _⟩ | ⟨e1, _⟩ <;> rcases hk2' with ⟨e2, _⟩ | ⟨e2, _⟩ <;> rw [e1] at e2 <;> cases e2 <;> rfl

/-- a PE in a lock call is given its next access -/
theorem MInf.scheduled (R : MInf T P) (hP : Proper T P) (F : R.vis.Fair) : (R.locks hP).Scheduled := by
  intro l p i hl hp hin
  have hin : (R.pc i l p).rest = false := hin
  have hpv : p < T.vis.npes := by rw [← T.hn]; exact hp
  have hb := R.outside hp hl hin
  by_contra hno
  push Not at hno
  -- the PE does nothing
  have hmu : ∀ n, (∀ j, i ≤ j → j < i + n → R.vis.Mute j p) := by
    intro n
    induction n with
    | zero => intro j h1 h2; omega
    | succ n ih =>
      intro j h1 h2
      rcases Nat.lt_or_ge j (i + n) with h | h
      · exact ih j h1 h
      · have : j = i + n := by omega
        subst this
        intro e he ho
        obtain ⟨hps, hpc⟩ := R.muten hb n ih
        have hfree : T.lk.free (R.at_ (i + n)).x.words p = true → False := by
          intro hf
          have h3 := free_iff.1 hf l hl
          have h3 : (R.pc (i + n) l p).rest = true := h3
          rw [hpc l, hin] at h3
          cases h3
        rcases R.own he ho with ⟨hf, _⟩ | ⟨l', evs, hl', hev, hr, _⟩ | ⟨_, hf, _⟩
        · exact hfree hf
        · have : l' = l := R.one hp hps hl hl' hin hr
          subst this
          refine hno (i + n) (by omega) ?_
          show lockAct (R.ev (i + n)) = _
          rw [hev]
          rfl
        · exact hfree hf
  have hm : ∀ j, i ≤ j → R.vis.Mute j p := fun j hj => hmu (j - i + 1) j hj (by omega)
  obtain ⟨j, e, hj, he, ho⟩ := F.pe p hpv i (by
    intro j hj
    obtain ⟨n, rfl⟩ := Nat.exists_eq_add_of_le hj
    have hr : (R.pc (i + n) l p).rest = false := by rw [(R.muten hb n (hmu n)).2 l]; exact hin
    refine ⟨.touch p [], _, ?_, rfl, Vis.Step.touch p [] ⟨hpv, R.outside hp hl hr, R.busyInv (i + n) p hp l hl hr⟩⟩
    refine (R.inside (i + n) p ?_ _).2 ⟨_, rfl⟩
    cases hfr : T.lk.free (X.words ⟨R.vis.st (i + n), R.pc (i + n)⟩) p with
    | false => rfl
    | true =>
      have := free_iff.1 hfr l hl
      have : (R.pc (i + n) l p).rest = true := this
      rw [hr] at this
      cases this)
  exact hm j hj e he ho

/-- A PE that stays at its action, and in no barrier, is from some time on free: its calls on locks have returned, and so has everything else. -/
theorem MInf.settles (R : MInf T P) (F : R.vis.Fair) {p : Nat} (hp : p < T.lk.n)
    (hret : ∀ l i, l < T.lk.m → (R.pc i l p).rest = false → ∃ j, i ≤ j ∧ (R.pc j l p).rest = true) {i : Nat}
    (hpos : ∀ j, i ≤ j → R.pos j p = R.pos i p) (hout : ∀ j, i ≤ j → (R.vis.st j).arr p = (R.vis.st j).lv p)
    (hent : ∀ j, i ≤ j → R.vis.ev j ≠ some (.enter p)) :
    ∃ i2, i ≤ i2 ∧ ∀ j, i2 ≤ j → R.vis.Mute j p ∧ Vis.Free T.vis (R.vis.st j) p ∧ T.lk.free (X.words ⟨R.vis.st j, R.pc j⟩) p = true := by
  have hpv : p < T.vis.npes := by rw [← T.hn]; exact hp
  -- a time when it is in no lock call
  obtain ⟨i1, h1, hf1⟩ : ∃ i1, i ≤ i1 ∧ ∀ l < T.lk.m, (R.pc i1 l p).rest = true := by
    by_cases h : ∀ l < T.lk.m, (R.pc i l p).rest = true
    · exact ⟨i, Nat.le_refl _, h⟩
    · push Not at h
      obtain ⟨l, hl, hr⟩ := h
      have hr : (R.pc i l p).rest = false := by simpa using hr
      obtain ⟨j, hj, hjr⟩ := hret l i hl hr
      refine ⟨j, hj, fun l' hl' => ?_⟩
      cases hr' : (R.pc j l' p).rest with
      | true => rfl
      | false =>
        obtain rfl := R.one hp (hpos j hj) hl hl' hr hr'
        rw [hjr] at hr'
        cases hr'
  have hb1 := hout i1 h1
  -- from then on it does nothing
  have hmu : ∀ n, (∀ j, i1 ≤ j → j < i1 + n → R.vis.Mute j p) := by
    intro n
    induction n with
    | zero => intro j h1 h2; omega
    | succ n ih =>
      intro j hj1 hj2
      rcases Nat.lt_or_ge j (i1 + n) with h | h
      · exact ih j hj1 h
      · have : j = i1 + n := by omega
        subst this
        intro e he ho
        rcases R.own he ho with ⟨_, h⟩ | ⟨l', evs, hl', hev, hr, _⟩ | ⟨h, _⟩
        · have e1 := hpos (i1 + n) (by omega)
          have e2 := hpos (i1 + n + 1) (by omega)
          omega
        · rw [(R.muten hb1 n ih).2 l', hf1 l' hl'] at hr
          cases hr
        · subst h
          exact hent (i1 + n) (by omega) he
  have hm : ∀ j, i1 ≤ j → R.vis.Mute j p := fun j hj => hmu (j - i1 + 1) j hj (by omega)
  obtain ⟨i2, h2, hbz⟩ := Vis.C102_blocking F R.safe hpv i1
  refine ⟨i2, by omega, fun j hj => ⟨hm j (by omega), ⟨hpv, hout j (by omega), ?_⟩, ?_⟩⟩
  · obtain ⟨m, rfl⟩ := Nat.exists_eq_add_of_le hj
    have hr := (R.vis.rest (i := i2) m (fun k h1 h2 => hm k (by omega))).1
    cases hz : (R.vis.st (i2 + m)).busy p with
    | nil => rfl
    | cons b t =>
      have := hr.busy b (by rw [hz]; exact List.mem_cons_self)
      rw [hbz] at this
      cases this
  · obtain ⟨m, rfl⟩ := Nat.exists_eq_add_of_le (show i1 ≤ j by omega)
    refine free_iff.2 fun l hl => ?_
    show (R.pc (i1 + m) l p).rest = true
    rw [(R.muten hb1 m (hmu m)).2 l]
    exact hf1 l hl

theorem MInf.noenter (R : MInf T P) {j p : Nat} (hp : p < T.lk.n) (hb : (P p)[R.pos j p]? ≠ some .bar) : R.vis.ev j ≠ some (.enter p) := by
  intro he
  have h1 := R.outside' hp hb
  have h2 := Vis.enter_arr (R.vis.step j _ he)
  have h3 : (R.vis.st (j + 1)).lv p = (R.vis.st j).lv p := by rw [lv_keep (R.vis.step j _ he) (fun q h => by cases h)]
  rcases R.own he rfl with ⟨_, h⟩ | ⟨l, evs, hl, hev, hr, h⟩ | ⟨_, _, h⟩
  · have h4 := R.lv j hp
    have h5 := R.lv (j + 1) hp
    have hw := ((R.pcInv (j + 1)).wait p hp (by show (R.vis.st (j + 1)).arr p ≠ (R.vis.st (j + 1)).lv p; omega)).2.1
    cases hv : R.ev j with
    | none => rw [(R.idle j hv).1] at he; cases he
    | some ev =>
      have s : PStep T P (R.at_ j) ev (R.at_ (j + 1)) := R.step j ev hv
      cases ev with
      | lock l q a evs =>
        obtain ⟨ws, hw⟩ := R.lock j _ _ _ _ hv
        rw [he] at hw
        cases hw
      | rma e' =>
        have := R.data j e' hv
        rw [he] at this
        cases this
        have e1 : (R.at_ j).pos = R.pos j := rfl
        have e2 : (R.at_ (j + 1)).pos = R.pos (j + 1) := rfl
        rw [← e1] at h hb
        rw [← e2] at h
        generalize R.at_ j = x at *
        generalize R.at_ (j + 1) = y at *
        cases s with
        | lib ho _ s => cases ho
        | data q f ha hd s => exact does_noenter hd _ rfl
        | enter q ha s => exact hb ha
  · have hw := ((R.pcInv (j + 1)).wait p hp (by show (R.vis.st (j + 1)).arr p ≠ (R.vis.st (j + 1)).lv p; omega)).2.1
    have hw : (P p)[R.pos (j + 1) p]? = some .bar := hw
    rw [h] at hw
    exact hb hw
  · have hw := ((R.pcInv (j + 1)).wait p hp (by show (R.vis.st (j + 1)).arr p ≠ (R.vis.st (j + 1)).lv p; omega)).2.1
    have hw : (P p)[R.pos (j + 1) p]? = some .bar := hw
    rw [h] at hw
    exact hb hw

/-- if the calls of a PE on locks return, it comes to its next action, if it is not at a barrier -/
theorem MInf.advance (R : MInf T P) (F : R.vis.Fair) {p : Nat} (hp : p < T.lk.n)
    (hret : ∀ l i, l < T.lk.m → (R.pc i l p).rest = false → ∃ j, i ≤ j ∧ (R.pc j l p).rest = true) {i : Nat} (hi : R.pos i p < (P p).length)
    (hnb : (P p)[R.pos i p]? ≠ some .bar) : ∃ j, i ≤ j ∧ R.pos i p < R.pos j p := by
  have hpv : p < T.vis.npes := by rw [← T.hn]; exact hp
  by_contra hno
  push Not at hno
  have hpos : ∀ j, i ≤ j → R.pos j p = R.pos i p := fun j hj => Nat.le_antisymm (hno j hj) (R.mono p hj)
  have hnb' : ∀ j, i ≤ j → (P p)[R.pos j p]? ≠ some .bar := fun j hj => by rw [hpos j hj]; exact hnb
  obtain ⟨i2, h2, hall⟩ := R.settles F hp hret hpos (fun j hj => R.outside' hp (hnb' j hj)) (fun j hj => R.noenter hp (hnb' j hj))
  obtain ⟨a, ha⟩ : ∃ a, (P p)[R.pos i p]? = some a := ⟨_, List.getElem?_eq_getElem hi⟩
  have hst : ∀ j, i2 ≤ j → _ := fun j hj => R.stands j p (hall j hj).2.1 (hall j hj).2.2 a (by rw [hpos j (by omega)]; exact ha)
  have touches : (∀ j, i2 ≤ j → ∀ e, R.vis.want j p e ↔ ∃ ws, e = .touch p ws) → False := by
    intro ht
    obtain ⟨j, e, hj, he, ho⟩ := F.pe p hpv i2 (by
      intro j hj
      exact ⟨.touch p [], _, (ht j hj _).2 ⟨_, rfl⟩, rfl, Vis.Step.touch p [] (hall j hj).2.1⟩)
    exact (hall j hj).1 e he ho
  cases a with
  | set l => exact touches hst
  | clear l => exact touches hst
  | bar => exact hnb ha
  | quiet =>
    have hsp : ∀ x ∈ ((R.vis.st i2).pe p).spaces, x.att = true ∨
        (x.nctx = 0 ∧ ((T.vis.cf p).dyn = true ∨ ((T.vis.cf p).tracking = true ∧ x.dflt.flag = false))) := by
      rw [R.nospaces i2 p]; intro x hx; cases hx
    rcases hst i2 (Nat.le_refl _) with hw | hw
    · obtain ⟨j, hj, he⟩ := Vis.C102_quiet_partial F R.safe hpv hw (Or.inl rfl) (hall i2 (Nat.le_refl _)).2.1.2.1 hsp
      exact (hall j hj).1 _ he rfl
    · obtain ⟨j, hj, he⟩ := Vis.C102_quiet_partial F R.safe hpv hw (Or.inr rfl) (hall i2 (Nat.le_refl _)).2.1.2.1 hsp
      exact (hall j hj).1 _ he rfl
  | data f =>
    obtain ⟨j, e, hj, he, ho, _⟩ := Vis.C102_issue F R.safe hpv (i := i2) (fun j hj _ => hst j hj)
    exact (hall j hj).1 e he ho

/-- a PE whose calls on locks return gets to its next barrier, or to the end of its program -/
theorem MInf.gets (R : MInf T P) (F : R.vis.Fair) {p : Nat} (hp : p < T.lk.n)
    (hret : ∀ l i, l < T.lk.m → (R.pc i l p).rest = false → ∃ j, i ≤ j ∧ (R.pc j l p).rest = true) (i : Nat) :
    ∃ j, i ≤ j ∧ ((P p)[R.pos j p]? = some .bar ∨ R.pos j p = (P p).length) := by
  have key : ∀ n i, (P p).length - R.pos i p = n → ∃ j, i ≤ j ∧ ((P p)[R.pos j p]? = some .bar ∨ R.pos j p = (P p).length) := by
    intro n
    induction n using Nat.strong_induction_on with
    | _ n ih =>
      intro i hn
      have hlen := R.len i p hp
      by_cases hb : (P p)[R.pos i p]? = some .bar
      · exact ⟨i, Nat.le_refl _, Or.inl hb⟩
      · rcases Nat.lt_or_ge (R.pos i p) (P p).length with hlt | hge
        · obtain ⟨j, hj, hjp⟩ := R.advance F hp hret hlt hb
          obtain ⟨k, hk, hkp⟩ := ih _ (by omega) j rfl
          exact ⟨k, by omega, hkp⟩
        · exact ⟨i, Nat.le_refl _, Or.inr (by omega)⟩
  exact key _ i rfl

/-- programs that hold no lock at barriers and at the end release what they hold -/
theorem MInf.releasing (R : MInf T P) (hP : Proper T P) (hB : Balanced T.lk.n P) (F : R.vis.Fair) : (R.locks hP).Releasing := by
  intro l p i hl hp hh
  have hh : R.pc i l p = .held := hh
  by_cases hret : ∀ l i, l < T.lk.m → (R.pc i l p).rest = false → ∃ j, i ≤ j ∧ (R.pc j l p).rest = true
  · left
    by_contra hno
    push Not at hno
    -- it goes on holding
    have hheld : ∀ n, R.pc (i + n) l p = .held := by
      intro n
      induction n with
      | zero => exact hh
      | succ n ih =>
        cases hv : R.ev (i + n) with
        | none =>
          show R.pc (i + n + 1) l p = .held
          rw [(R.idle _ hv).2.1]; exact ih
        | some ev =>
          have s : Step T (R.at_ (i + n)).x ev (R.at_ (i + n + 1)).x := PStep.step (R.step (i + n) ev hv)
          have hna := hno (i + n) (by omega)
          have hna : lockAct (R.ev (i + n)) ≠ _ := hna
          rw [hv] at hna
          have e3 : (R.at_ (i + n)).x.pc = R.pc (i + n) := rfl
          have e4 : (R.at_ (i + n + 1)).x.pc = R.pc (i + n + 1) := rfl
          show R.pc (i + n + 1) l p = .held
          rw [← e3] at ih
          rw [← e4]
          generalize (R.at_ (i + n)).x = x at *
          generalize (R.at_ (i + n + 1)).x = y at *
          cases s with
          | rma hs hc => exact ih
          | lock l' p' a hl' hf hs =>
            by_cases hlp : l = l' ∧ p = p'
            · obtain ⟨rfl, rfl⟩ := hlp
              have := (wstep_pc hs).2.1 ih
              subst this
              exact absurd rfl hna
            · exact ((wstep_pc hs).1 l p hlp).trans ih
    obtain ⟨j, hj, hjp⟩ := R.gets F hp hret i
    obtain ⟨n, rfl⟩ := Nat.exists_eq_add_of_le hj
    have h1 := hheld n
    have h2 := ((R.pcInv (i + n)).rest p hp l hl (by show (R.pc (i + n) l p).rest = true; rw [h1]; rfl)).1 h1
    have h2 : Holds (P p) (R.pos (i + n) p) l := h2
    rcases hjp with hjp | hjp
    · exact hB.bars p hp _ hjp l h2
    · rw [hjp] at h2
      exact hB.all p hp l h2
  · right
    push Not at hret
    obtain ⟨k, j, hk, hr, hall⟩ := hret
    -- a call of this PE never returns; it may be one from before instant `i`
    have hin : ∀ j', j ≤ j' → (R.pc j' k p).rest = false := by
      intro j' hj'
      have := hall j' hj'
      simpa using this
    exact ⟨k, max i j, hk, Nat.le_max_left .., fun j' hj' => hin j' (by omega)⟩

theorem MInf.ordered (R : MInf T P) (hP : Proper T P) (hO : Ascending T.lk.n P) : (R.locks hP).Ordered := by
  intro i l p h k hk hh
  have h : lockAct (R.ev i) = _ := h
  have hh : R.pc i k p = .held := hh
  cases hv : R.ev i with
  | none => rw [hv] at h; cases h
  | some ev =>
    rw [hv] at h
    cases ev with
    | rma e => cases h
    | lock l' p' a evs =>
      cases h
      have s : PStep T P (R.at_ i) _ (R.at_ (i + 1)) := R.step i _ hv
      have hinv := R.pcInv i
      have e3 : (R.at_ i).x.pc = R.pc i := rfl
      rw [← e3] at hh
      generalize R.at_ i = x at *
      generalize R.at_ (i + 1) = y at *
      cases s with
      | @set x y pos ev p l ha s =>
        cases s with
        | lock _ _ _ hl hf hs =>
          have hp : p < T.lk.n := by rw [T.hn]; exact hf.1
          refine hO p hp _ l ha k ?_
          exact (hinv.rest p hp k hk (by dsimp only at hh ⊢; rw [hh]; rfl)).1 hh

/-- every call on a lock returns -/
theorem MInf.returns (R : MInf T P) (wf : T.lk.WF) (un : T.lk.Uniform) (hP : Proper T P) (hO : Ascending T.lk.n P) (hB : Balanced T.lk.n P)
    (F : R.vis.Fair) {p : Nat} (hp : p < T.lk.n) (l i : Nat) (hl : l < T.lk.m) (h : (R.pc i l p).rest = false) :
    ∃ j, i ≤ j ∧ (R.pc j l p).rest = true := by
  obtain ⟨j, hj, hr⟩ := (C90_progress_partial wf un (R.locks hP) (R.scheduled hP F) (R.releasing hP hB F) (R.ordered hP hO) hl hp i).1 h
  refine ⟨j, hj, ?_⟩
  have hr : ¬ (R.pc j l p).rest = false := hr
  simpa using hr

/-- a PE that is out of its barriers comes to the next one, if there is one -/
theorem MInf.comes (R : MInf T P) (F : R.vis.Fair) {p : Nat} (hp : p < T.lk.n)
    (hret : ∀ l i, l < T.lk.m → (R.pc i l p).rest = false → ∃ j, i ≤ j ∧ (R.pc j l p).rest = true) (i : Nat)
    (hN : (R.vis.st i).arr p < epoch (P p) (P p).length) (hb : (R.vis.st i).arr p = (R.vis.st i).lv p) :
    ∃ j, i ≤ j ∧ ((R.vis.st i).arr p < (R.vis.st j).arr p ∨ (Vis.AtBarrier R.vis j p ∧ (R.vis.st j).arr p = (R.vis.st j).lv p)) := by
  have hpv : p < T.vis.npes := by rw [← T.hn]; exact hp
  by_contra hno
  push Not at hno
  have hlv : ∀ j, (R.vis.st j).lv p ≤ (R.vis.st j).arr p := fun j => (Vis.gi_reach (R.vis.reach j)).lv p hpv p hpv
  have harr : ∀ j, i ≤ j → (R.vis.st j).arr p = (R.vis.st i).arr p := fun j hj => Nat.le_antisymm (hno j hj).1 (R.vis.arr_mono' hj)
  have hout : ∀ j, i ≤ j → (R.vis.st j).arr p = (R.vis.st j).lv p := by
    intro j hj
    have h1 := R.vis.lv_mono' (p := p) hj
    have h2 := hlv j
    have h3 := harr j hj
    omega
  obtain ⟨j, hj, hjb⟩ := R.gets F hp hret i
  have hjl := R.lv j hp
  have hjo := hout j hj
  have hja := harr j hj
  rcases hjb with hjb | hjb
  · have hpos : ∀ k, j ≤ k → R.pos k p = R.pos j p := by
      intro k hk
      have h1 := R.mono p hk
      rcases Nat.lt_or_ge (R.pos j p) (R.pos k p) with h | h
      · have h2 := epoch_mono (P p) h
        rw [Nat.succ_eq_add_one, epoch_bar hjb] at h2
        have h3 := R.lv k hp
        have h4 := hout k (by omega)
        have h5 := harr k (by omega)
        omega
      · omega
    obtain ⟨i2, h2, hall⟩ := R.settles F hp hret hpos (fun k hk => hout k (by omega)) (by
      intro k hk he
      have h1 := Vis.enter_arr (R.vis.step k _ he)
      have h2 := harr k (by omega)
      have h3 := harr (k + 1) (by omega)
      omega)
    obtain ⟨_, hf, hl⟩ := hall i2 (Nat.le_refl _)
    exact (hno i2 (by omega)).2 (R.stands i2 p hf hl .bar (by rw [hpos i2 h2]; exact hjb)) (hout i2 (by omega))
  · rw [hjb] at hjl
    omega

/-- **They get to their end.** In every fair execution of a program with locks and barriers whose PEs set locks in increasing order, hold no lock
    at barriers and at the end, and call barriers equally often, every PE gets to the end of its program: from some time on all its calls have been
    made and have returned, no lock is held and nobody is in a barrier. -/
theorem C113_ends_partial (R : MInf T P) (wf : T.lk.WF) (un : T.lk.Uniform) (hP : Proper T P) (hO : Ascending T.lk.n P) (hB : Balanced T.lk.n P)
    (F : R.vis.Fair) : ∃ i, ∀ j, i ≤ j → ∀ p < T.lk.n, R.pos j p = (P p).length ∧ (∀ l < T.lk.m, R.pc j l p = .idle) ∧
      (R.vis.st j).busy p = [] ∧ (R.vis.st j).arr p = (R.vis.st j).lv p := by
  have hret : ∀ p, p < T.lk.n → ∀ l i, l < T.lk.m → (R.pc i l p).rest = false → ∃ j, i ≤ j ∧ (R.pc j l p).rest = true :=
    fun p hp l i => R.returns wf un hP hO hB F hp l i
  -- all barriers are passed
  have hbars : ∀ q < T.lk.n, ∃ i, ∀ p < T.lk.n, epoch (P q) (P q).length ≤ (R.vis.st i).lv p := by
    intro q hq
    obtain ⟨i, hi⟩ := Vis.C102_barrier F R.safe (N := epoch (P q) (P q).length) (fun p hp i h1 h2 => by
      have hp' : p < T.lk.n := by rw [T.hn]; exact hp
      exact R.comes F hp' (hret p hp') i (by rw [hB.same p hp' q hq]; exact h1) h2)
    exact ⟨i, fun p hp => hi p (by rw [← T.hn]; exact hp)⟩
  have key : ∀ p < T.lk.n, ∃ i, ∀ j, i ≤ j → R.pos j p = (P p).length ∧ (∀ l < T.lk.m, R.pc j l p = .idle) ∧
      (R.vis.st j).busy p = [] ∧ (R.vis.st j).arr p = (R.vis.st j).lv p := by
    intro p hp
    obtain ⟨i0, h0⟩ := hbars p hp
    obtain ⟨i, hi0, hi⟩ := R.gets F hp (hret p hp) i0
    have hend : R.pos i p = (P p).length := by
      rcases hi with hi | hi
      · have h1 := epoch_stop hi
        have h2 := h0 p hp
        have h3 := R.lv i hp
        have h4 := R.vis.lv_mono' (p := p) hi0
        omega
      · exact hi
    have hpos : ∀ j, i ≤ j → R.pos j p = (P p).length := fun j hj => Nat.le_antisymm (R.len j p hp) (hend ▸ R.mono p hj)
    have hnb : ∀ j, i ≤ j → (P p)[R.pos j p]? ≠ some .bar := by
      intro j hj h
      have := (List.getElem?_eq_some_iff.1 h).1
      rw [hpos j hj] at this
      omega
    obtain ⟨i2, h2, hall⟩ := R.settles F hp (hret p hp) (fun j hj => by rw [hpos j hj, hend]) (fun j hj => R.outside' hp (hnb j hj))
      (fun j hj => R.noenter hp (hnb j hj))
    refine ⟨i2, fun j hj => ⟨hpos j (by omega), fun l hl => ?_, (hall j hj).2.1.2.2, (hall j hj).2.1.2.1⟩⟩
    have hr : (R.pc j l p).rest = true := free_iff.1 (hall j hj).2.2 l hl
    rcases rest_cases hr with h | h
    · exact h
    · have h2 : Holds (P p) (R.pos j p) l := ((R.pcInv j).rest p hp l hl hr).1 h
      rw [hpos _ (by omega)] at h2
      exact absurd h2 (hB.all p hp l)
  have all : ∀ n, n ≤ T.lk.n → ∃ i, ∀ j, i ≤ j → ∀ p < n, R.pos j p = (P p).length ∧ (∀ l < T.lk.m, R.pc j l p = .idle) ∧
      (R.vis.st j).busy p = [] ∧ (R.vis.st j).arr p = (R.vis.st j).lv p := by
    intro n
    induction n with
    | zero => intro _; exact ⟨0, fun _ _ p hp => by omega⟩
    | succ n ih =>
      intro hn
      obtain ⟨i1, h1⟩ := ih (by omega)
      obtain ⟨i2, h2⟩ := key n (by omega)
      refine ⟨max i1 i2, fun j hj p hp => ?_⟩
      rcases Nat.lt_succ_iff_lt_or_eq.mp hp with h3 | h3
      · exact h1 j (by omega) p h3
      · rw [h3]; exact h2 j (by omega)
  exact all _ (Nat.le_refl _)

/-- **What they end with.** If the program also follows the rules `DrfC` (nothing is pending at a barrier but what a barrier completes), every fair
    execution ends, and from some time on every byte that is used, and for which nothing is pending, has the value it has at the end of a complete
    sequential execution from the same memory. -/
theorem C114_result_partial {cov : Nat → Nat → Prop} {own : Owns} {used : Nat × Int → Prop} {looks : Nat → Nat → Int → Prop} (R : MInf T P)
    (wf : T.lk.WF) (un : T.lk.Uniform) (hP : Proper T P) (hO : Ascending T.lk.n P) (hB : Balanced T.lk.n P) (hD : DrfC T P cov own used looks)
    (hc : R.Covers cov) (F : R.vis.Fair) :
    ∃ i, ∀ j, i ≤ j → (∀ p < T.lk.n, R.pos j p = (P p).length) ∧
      ∃ s, SRun T.lk.n P ⟨R.vis.mem, fun _ => 0⟩ s ∧ (∀ p < T.lk.n, s.pos p = (P p).length) ∧
        ∀ b : Nat × Int, b.1 < T.lk.n → used b → (∀ q < T.lk.n, ¬ DirtyC P cov q (P q).length b) → (R.vis.st j).mem b.1 b.2 = s.mem b.1 b.2 := by
  obtain ⟨i, hi⟩ := C113_ends_partial R wf un hP hO hB F
  refine ⟨i, fun j hj => ⟨fun p hp => (hi j hj p hp).1, ?_⟩⟩
  obtain ⟨l, r⟩ := R.crun hc j
  obtain ⟨s, h1, h2, h3⟩ := C114_end_partial wf un hP hD R.start R.pos0 r (fun p hp => (hi j hj p hp).1) (fun p hp =>
    ⟨free_iff.2 fun l hl => by
      show (R.pc j l p).rest = true
      rw [(hi j hj p hp).2.1 l hl]; rfl, (hi j hj p hp).2.2.1⟩)
  refine ⟨s, ?_, h2, fun b hb hu hd => (h3 b hb hu hd).1⟩
  have hm : (R.at_ 0).x.g.mem = R.vis.mem := by
    show (R.vis.st 0).mem = R.vis.mem
    rw [R.vis.start]; rfl
  rw [← hm]
  exact h1

/-- **What they end with.** If the program also has no races, every fair execution ends, and from some time on every byte that is used, and for
    which nothing is pending, has the value it has at the end of a complete sequential execution from the same memory. -/
theorem C113_result_partial {own : Owns} {used : Nat × Int → Prop} {looks : Nat → Nat → Int → Prop} (R : MInf T P) (wf : T.lk.WF)
    (un : T.lk.Uniform) (hP : Proper T P) (hO : Ascending T.lk.n P) (hB : Balanced T.lk.n P) (hD : Drf T P own used looks) (F : R.vis.Fair) :
    ∃ i, ∀ j, i ≤ j → (∀ p < T.lk.n, R.pos j p = (P p).length) ∧
      ∃ s, SRun T.lk.n P ⟨R.vis.mem, fun _ => 0⟩ s ∧ (∀ p < T.lk.n, s.pos p = (P p).length) ∧
        ∀ b : Nat × Int, b.1 < T.lk.n → used b → (∀ q < T.lk.n, ¬ Dirty P q (P q).length b) → (R.vis.st j).mem b.1 b.2 = s.mem b.1 b.2 := by
  obtain ⟨i, hi⟩ := C114_result_partial R wf un hP hO hB hD.toC (fun _ _ _ _ _ h => h.elim) F
  refine ⟨i, fun j hj => ⟨(hi j hj).1, ?_⟩⟩
  obtain ⟨s, h1, h2, h3⟩ := (hi j hj).2
  exact ⟨s, h1, h2, fun b hb hu hd => h3 b hb hu fun q hq ⟨k, j1, j2, j3, _⟩ => hd q hq ⟨k, j1, j2, j3⟩⟩

end

end Verif.Crit.Mix
