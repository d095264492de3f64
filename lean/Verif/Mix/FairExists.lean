import Verif.Mix.Fair
import Verif.Mix.Ex
/-!
# C113: fair executions of programs with locks and barriers
-/
namespace Verif.Crit.Mix
open Verif.Rma Verif.Lock

section
variable {T : Sys} {P : Prog} {cov : Nat → Nat → Prop}

/-! ## Proof: executions with their steps of `Vis` -/

/-- an access of a lock call is a step of `Vis` -/
theorem touch_of (wf : T.lk.WF) (un : T.lk.Uniform) {x y : X} {wtr : List (Nat × Lock.Ev)} (hw : WExec T.lk x.words wtr) {l p : Nat} {a : Act}
    {ev : List Lock.Ev} (h : Step T x (.lock l p a ev) y) : ∃ ws, Vis.Step T.vis x.g (.touch p ws) y.g := by
  cases h with
  | @lock _ _ _ w _ hl hf hws =>
    have hp : p < T.lk.n := by rw [T.hn]; exact hf.1
    obtain ⟨q, hinv, _⟩ := exec_inv wf.max (wexec_view wf un hw l hl)
    have ok := wstep_sim wf un hl hp hinv hws
    refine ⟨((List.range T.lk.n).flatMap fun t => (List.range 8).map fun i => (t, (T.lk.lockp l t + BitVec.ofNat 64 i).toInt)).map
      fun k => (k.1, k.2, back x.g.mem w.mem k.1 k.2), ?_⟩
    have e := Vis.Step.touch (S := T.vis) (g := x.g) p
      (((List.range T.lk.n).flatMap fun t => (List.range 8).map fun i => (t, (T.lk.lockp l t + BitVec.ofNat 64 i).toInt)).map
        fun k => (k.1, k.2, back x.g.mem w.mem k.1 k.2)) hf
    rw [touched_keys] at e
    · exact e
    · intro t a hn
      refine back_same (k := (t, a)) fun b hb => ?_
      by_contra hne
      obtain ⟨ht, i, hi, hbi⟩ := ok.bytes t b (fun h => hne (h.trans (by show x.g.mem t b.toInt = _; rw [hb])))
      refine hn (List.mem_flatMap.2 ⟨t, List.mem_range.2 ht, List.mem_map.2 ⟨i, List.mem_range.2 hi, ?_⟩⟩)
      rw [← hbi, hb]

/-- a step with its step of `Vis` -/
structure Pair (T : Sys) (P : Prog) (cov : Nat → Nat → Prop) (x : PX) (e : Ev × Vis.Ev) (y : PX) : Prop where
  step : PStep T P x e.1 y
  vis : Vis.Step T.vis x.x.g e.2 y.x.g
  data : ∀ e', e.1 = .rma e' → e.2 = e'
  lock : ∀ l p a evs, e.1 = .lock l p a evs → ∃ ws, e.2 = .touch p ws
  cv : ∀ e', e.1 = .rma e' → ∀ p, e'.own = some p → cov p (x.pos p) → EvCov T.vis e'

inductive Pairs (T : Sys) (P : Prog) (cov : Nat → Nat → Prop) : PX → List (Ev × Vis.Ev) → PX → Prop
  | nil (x : PX) : Pairs T P cov x [] x
  | snoc {x y z : PX} {l : List (Ev × Vis.Ev)} {e : Ev × Vis.Ev} (r : Pairs T P cov x l y) (s : Pair T P cov y e z) : Pairs T P cov x (l ++ [e]) z

theorem Pairs.states {x y : PX} {l : List (Ev × Vis.Ev)} (h : Pairs T P cov x l y) : ∃ st : Nat → PX, st 0 = x ∧
    (∀ i e, l[i]? = some e → Pair T P cov (st i) e (st (i + 1))) ∧ ∀ i, l.length ≤ i → st i = y := by
  induction h with
  | nil => exact ⟨fun _ => x, rfl, fun i e h => by simp at h, fun _ _ => rfl⟩
  | @snoc y z l e r s ih =>
    obtain ⟨st, h0, h1, h2⟩ := ih
    refine ⟨fun i => if i ≤ l.length then st i else z, (if_pos (Nat.zero_le _)).trans h0, ?_, ?_⟩
    · intro i e' h
      dsimp only
      rcases Nat.lt_trichotomy i l.length with hi | hi | hi
      · rw [List.getElem?_append_left hi] at h
        rw [if_pos (by omega), if_pos (by omega)]
        exact h1 i e' h
      · subst hi
        rw [List.getElem?_concat_length] at h
        cases h
        rw [if_pos (Nat.le_refl _), if_neg (by omega), h2 _ (Nat.le_refl _)]
        exact s
      · rw [List.getElem?_eq_none (by rw [List.length_append, List.length_singleton]; omega)] at h
        cases h
    · intro i hi
      rw [List.length_append, List.length_singleton] at hi
      dsimp only
      rw [if_neg (by omega)]

/-- a PE that makes no step of `Vis` stays where it is, unless it leaves a barrier -/
theorem pair_mute {x y : PX} {e : Ev × Vis.Ev} (h : Pair T P cov x e y) {p : Nat} (ho : e.2.own ≠ some p) :
    (e.2 ≠ .leave p → y.pos p = x.pos p) ∧ ∀ l, y.x.pc l p = x.x.pc l p := by
  obtain ⟨ev, ve⟩ := e
  obtain ⟨s, hv, hd, hl, _⟩ := h
  dsimp only at s hv hd hl ho
  have lk : ∀ {x y : X} {l q : Nat} {a : Act} {evs : List Lock.Ev}, Step T x (.lock l q a evs) y → q ≠ p → ∀ k, y.pc k p = x.pc k p := by
    intro x y l q a evs s hq k
    cases s with
    | lock _ _ _ hl hf hs => exact (wstep_pc hs).1 k p (fun e => hq e.2.symm)
  cases s with
  | lib ho' hl' s => cases s with | rma hs hc => exact ⟨fun _ => rfl, fun _ => rfl⟩
  | enter q ha s => cases s with | rma hs hc => exact ⟨fun _ => rfl, fun _ => rfl⟩
  | leave q s =>
    have := hd _ rfl; subst this
    cases s with
    | rma hs hc => exact ⟨fun hn => Function.update_of_ne (fun e => hn (by rw [e])) _ _, fun _ => rfl⟩
  | data q f ha hdo s =>
    have := hd _ rfl; subst this
    have hq : p ≠ q := fun e => ho (by rw [e]; exact does_own hdo)
    cases s with | rma hs hc => exact ⟨fun _ => Function.update_of_ne hq _ _, fun _ => rfl⟩
  | quiet q op ha hop s =>
    have := hd _ rfl; subst this
    have hq : p ≠ q := fun e => ho (by rw [e]; rfl)
    cases s with | rma hs hc => exact ⟨fun _ => Function.update_of_ne hq _ _, fun _ => rfl⟩
  | set q l ha s =>
    obtain ⟨ws, rfl⟩ := hl _ _ _ _ rfl
    have hq : p ≠ q := fun e => ho (by rw [e]; rfl)
    exact ⟨fun _ => Function.update_of_ne hq _ _, lk s (Ne.symm hq)⟩
  | clear q l ha s =>
    obtain ⟨ws, rfl⟩ := hl _ _ _ _ rfl
    have hq : p ≠ q := fun e => ho (by rw [e]; rfl)
    exact ⟨fun _ => Function.update_of_ne hq _ _, lk s (Ne.symm hq)⟩
  | run q l s =>
    obtain ⟨ws, rfl⟩ := hl _ _ _ _ rfl
    have hq : p ≠ q := fun e => ho (by rw [e]; rfl)
    exact ⟨fun _ => rfl, lk s (Ne.symm hq)⟩

/-- every execution, with its steps of `Vis` -/
theorem pairs_of (wf : T.lk.WF) (un : T.lk.Uniform) (hP : Proper T P) {x y : PX} {l : List Ev} (h0 : Start T x.x) (h : CRun T P cov x l y) :
    ∃ l', Pairs T P cov x l' y := by
  induction h with
  | nil => exact ⟨[], .nil _⟩
  | @snoc y z l e r s hc ih =>
    obtain ⟨l', hl'⟩ := ih
    obtain ⟨tr, hr, hre⟩ := r.run.run hP
    obtain ⟨wtr, hw⟩ := (proj h0 hr hre).1
    cases e with
    | rma e =>
      have hv : Vis.Step T.vis y.x.g e z.x.g := by
        generalize hx : y.x = yx
        generalize hz : z.x = zx
        have st := s.step
        rw [hx, hz] at st
        cases st with
        | rma hs hc => exact hs
      exact ⟨l' ++ [(.rma e, e)], hl'.snoc ⟨s, hv, (fun e' he => by cases he; rfl), (fun _ _ _ _ he => by cases he), hc⟩⟩
    | lock k p a evs =>
      obtain ⟨ws, hv⟩ := touch_of wf un hw s.step
      exact ⟨l' ++ [(.lock k p a evs, .touch p ws)], hl'.snoc ⟨s, hv, (fun e' he => by cases he), (fun l p a evs he => ⟨ws, by cases he; rfl⟩), hc⟩⟩

/-! ## Proof: the infinite execution -/

/-- the event is one of the action -/
def Kind (m : IMem) (p : Nat) : PAct → Vis.Ev → Prop
  | .set _, e => ∃ ws, e = .touch p ws
  | .clear _, e => ∃ ws, e = .touch p ws
  | .quiet, e => e = .call p (.quiet none) ∨ e = .call p (.fence none)
  | .bar, e => e = .enter p
  | .data f, e => (f m).Does p e

theorem pair_own {x y : PX} {e : Ev × Vis.Ev} (h : Pair T P cov x e y) {p : Nat} (ho : e.2.own = some p) :
    (T.lk.free x.x.words p = true ∧ ∃ a, (P p)[x.pos p]? = some a ∧ Kind (x.x.g.mem p) p a e.2) ∨
      (T.lk.free x.x.words p = false ∧ ∃ ws, e.2 = .touch p ws) := by
  obtain ⟨ev, ve⟩ := e
  obtain ⟨s, hv, hd, hl, _⟩ := h
  dsimp only at s hv hd hl ho ⊢
  cases s with
  | lib ho' hl' s =>
    have := hd _ rfl; subst this
    rw [ho] at ho'; cases ho'
  | enter q ha s =>
    have := hd _ rfl; subst this
    cases ho
    cases s with | rma hs hc => exact Or.inl ⟨hc _ rfl, _, ha, rfl⟩
  | leave q s =>
    have := hd _ rfl; subst this
    cases ho
  | data q f ha hdo s =>
    have := hd _ rfl; subst this
    have := (does_own hdo).symm.trans ho
    cases this
    cases s with | rma hs hc => exact Or.inl ⟨hc _ (own_caller ho), _, ha, hdo⟩
  | quiet q op ha hop s =>
    have := hd _ rfl; subst this
    cases ho
    cases s with
    | rma hs hc =>
      refine Or.inl ⟨hc _ rfl, _, ha, ?_⟩
      rcases hop with rfl | rfl
      · exact Or.inl rfl
      · exact Or.inr rfl
  | set q l ha s =>
    obtain ⟨ws, rfl⟩ := hl _ _ _ _ rfl
    cases ho
    cases s with | lock _ _ _ hl hf hs => exact Or.inl ⟨(wstep_class hs).2.1, _, ha, _, rfl⟩
  | clear q l ha s =>
    obtain ⟨ws, rfl⟩ := hl _ _ _ _ rfl
    cases ho
    cases s with | lock _ _ _ hl hf hs => exact Or.inl ⟨(wstep_class hs).2.1, _, ha, _, rfl⟩
  | @run x y pos ev q l s =>
    obtain ⟨ws, rfl⟩ := hl _ _ _ _ rfl
    cases ho
    refine Or.inr ⟨?_, ws, rfl⟩
    cases s with
    | lock _ _ _ hl hf hs =>
      cases hfr : T.lk.free x.words p with
      | false => rfl
      | true =>
        exfalso
        have hr : (x.pc l p).rest = true := free_iff.1 hfr l hl
        rcases wstep_class hs with ⟨c, _⟩ | ⟨c, _⟩ | c
        · exact absurd (inSet_rest c) (by show ¬ (x.pc l p).rest = false; rw [hr]; simp)
        · exact absurd (inClear_rest c) (by show ¬ (x.pc l p).rest = false; rw [hr]; simp)
        · have c : x.pc l p = .testCas := c
          rw [c] at hr; cases hr

/-! ## The theorem -/

/-- **Fair executions exist.** Every program that follows the rules for locks, calls barriers equally often on all PEs with no locks held, and whose
    calls the library accepts - those of the actions `cov` as operations that a barrier completes - has, for all first contents of memory in which the
    locks are zero, a fair execution in which the operations `cov` are ones that a barrier completes. -/
theorem C114_exists_partial (wf : T.lk.WF) (un : T.lk.Uniform) (hP : Proper T P) (hA : AcceptsC T P cov) (hB : Balanced T.lk.n P) (M : Mems)
    (hM : T.lk.Init (X.words ⟨Vis.ginit M, fun _ _ => .idle⟩)) : ∃ R : MInf T P, R.vis.Fair ∧ R.vis.mem = M ∧ R.Covers cov := by
  have hS : Start T (⟨Vis.ginit M, fun _ _ => .idle⟩ : X) := ⟨⟨M, rfl⟩, hM⟩
  obtain ⟨l0, z, h, r0, hfz, hK⟩ := to_end wf un hP hA hB M hM
  obtain ⟨l, hpr⟩ := pairs_of wf un hP hS r0
  obtain ⟨st, h0, h1, h2⟩ := hpr.states
  have hget : ∀ (i : Nat) (e : Vis.Ev), (l.map Prod.snd)[i]? = some e → ∃ ev : Ev, l[i]? = some (ev, e) := by
    intro i e he
    rw [List.getElem?_map] at he
    cases hl : l[i]? with
    | none => rw [hl] at he; cases he
    | some y => rw [hl] at he; cases he; exact ⟨y.1, rfl⟩
  obtain ⟨R, hF, hM', hev, hwant, hst⟩ := lstates_fair (m := M) (l := l.map Prod.snd) (st := fun i => (st i).x.g)
    (by show (st 0).x.g = _; rw [h0])
    (fun i e he => by obtain ⟨ev, hl⟩ := hget i e he; exact (h1 i _ hl).vis)
    (fun i hi => by rw [List.length_map] at hi; show (st i).x.g = _; rw [h2 i hi]) h.settled (fun p hp => h.out p (by rw [T.hn]; exact hp))
  have hs' : ∀ i, R.st i = (st i).x.g := fun i => congrFun hst i
  have hpc : ∀ i p, R.Mute i p → ∀ l, (st (i + 1)).x.pc l p = (st i).x.pc l p := by
    intro i p hmu
    cases he : l[i]? with
    | none =>
      have := List.getElem?_eq_none_iff.1 he
      rw [h2 (i + 1) (by omega), h2 i this]
      exact fun _ => rfl
    | some e => exact (pair_mute (h1 i e he) (hmu e.2 ((hev i).trans (by rw [List.getElem?_map, he]; rfl)))).2
  have hpo : ∀ i p, R.Mute i p → (R.st i).arr p = (R.st i).lv p → (st (i + 1)).pos p = (st i).pos p := by
    intro i p hmu hb
    cases he : l[i]? with
    | none =>
      have := List.getElem?_eq_none_iff.1 he
      rw [h2 (i + 1) (by omega), h2 i this]
    | some e =>
      have hre : R.ev i = some e.2 := (hev i).trans (by rw [List.getElem?_map, he]; rfl)
      refine (pair_mute (h1 i e he) (hmu e.2 hre)).1 fun hle => ?_
      have hst' := R.step i _ hre
      rw [hle] at hst'
      generalize R.st (i + 1) = g' at hst'
      cases hst' with
      | leave q hq ha _ => omega
  have hpcs : ∀ i p n, (∀ j, i ≤ j → j < i + n → R.Mute j p) → ∀ l, (st (i + n)).x.pc l p = (st i).x.pc l p := by
    intro i p n
    induction n with
    | zero => exact fun _ _ => rfl
    | succ n ih =>
      intro hj l
      exact (hpc (i + n) p (hj (i + n) (by omega) (by omega)) l).trans (ih (fun j a b => hj j a (by omega)) l)
  have hpos : ∀ i p n, (∀ j, i ≤ j → j < i + n → R.Mute j p) → (R.st i).arr p = (R.st i).lv p → (st (i + n)).pos p = (st i).pos p := by
    intro i p n
    induction n with
    | zero => exact fun _ _ => rfl
    | succ n ih =>
      intro hj hb
      have hj' : ∀ j, i ≤ j → j < i + n → R.Mute j p := fun j a b => hj j a (by omega)
      exact (hpo (i + n) p (hj (i + n) (by omega) (by omega)) (R.outside n hj' hb)).trans (ih hj' hb)
  have hfm : ∀ i p n, (∀ j, i ≤ j → j < i + n → R.Mute j p) → T.lk.free (st (i + n)).x.words p = T.lk.free (st i).x.words p := by
    intro i p n hj
    have := hpcs i p n hj
    have key : T.lk.free (st (i + n)).x.words p = true ↔ T.lk.free (st i).x.words p = true := by
      rw [free_iff, free_iff]
      constructor <;> intro h' k hk
      · have h3 : ((st (i + n)).x.pc k p).rest = true := h' k hk
        rw [this k] at h3; exact h3
      · have h3 : ((st i).x.pc k p).rest = true := h' k hk
        rw [← this k] at h3; exact h3
    cases h1 : T.lk.free (st (i + n)).x.words p <;> cases h2 : T.lk.free (st i).x.words p <;> simp [h1, h2] at key ⊢
  -- the next event of a PE that is not at its end
  have hnext : ∀ i p, (T.lk.free (st i).x.words p = false ∨ (p < T.lk.n ∧ (st i).pos p < (P p).length ∧ (R.st i).arr p = (R.st i).lv p)) →
      ∃ j e, (∀ j', i ≤ j' → j' < i + j → R.Mute j' p) ∧ R.ev (i + j) = some e ∧ e.own = some p ∧ ∀ e', R.want i p e' ↔ lwants (some e) e' := by
    intro i p hor
    have hmu : ¬ ∀ j, i ≤ j → R.Mute j p := by
      intro hmu
      have h4 := hfm i p l.length (fun j h _ => hmu j h)
      rw [h2 _ (by omega)] at h4
      rcases hor with h' | ⟨hp, h', hb⟩
      · rw [hfz p, h'] at h4; cases h4
      · have h3 := hpos i p l.length (fun j h _ => hmu j h) hb
        rw [h2 _ (by omega), hK p hp] at h3; omega
    obtain ⟨n1, e, b1, b2, b3, _⟩ := Vis.first_own hmu
    refine ⟨n1, e, b1, b2, b3, fun e' => ?_⟩
    have hno : Vis.nextOwn ((l.map Prod.snd).drop i) p = some e := by
      have e1 := b2
      have hkeep : ∀ m, m ≤ n1 → Vis.nextOwn ((l.map Prod.snd).drop (i + m)) p = Vis.nextOwn ((l.map Prod.snd).drop i) p := by
        intro m
        induction m with
        | zero => intro _; rfl
        | succ m ih =>
          intro hm'
          rw [← ih (by omega)]
          refine Vis.nextOwn_skip fun e' he' => ?_
          exact b1 (i + m) (by omega) (by omega) e' ((hev _).trans he')
      rw [← hkeep n1 (Nat.le_refl _)]
      rw [hev] at e1
      obtain ⟨hl, rfl⟩ := List.getElem?_eq_some_iff.1 e1
      rw [List.drop_eq_getElem_cons hl]
      unfold Vis.nextOwn
      rw [List.find?_cons_of_pos]
      simpa using b3
    rw [hwant, hno]
  have hpair : ∀ i e, R.ev i = some e → ∃ ev, Pair T P cov (st i) (ev, e) (st (i + 1)) := by
    intro i e he
    rw [hev] at he
    obtain ⟨ev, hl⟩ := hget i e he
    exact ⟨ev, h1 i _ hl⟩
  have hnsp : ∀ i q, ((R.st i).pe q).spaces = [] := by
    intro i
    induction i with
    | zero => rw [R.start]; exact fun _ => rfl
    | succ i ih =>
      cases he : R.ev i with
      | none => rw [R.idle i he]; exact ih
      | some e =>
        obtain ⟨ev, hp⟩ := hpair i e he
        refine Bsp.nospaces_step (R.step i e he) (fun p op hc => ?_) ih
        subst hc
        rcases pair_own hp (p := p) rfl with ⟨_, a, ha, hk⟩ | ⟨_, ws, hw⟩
        · cases a with
          | set k => obtain ⟨ws, hw⟩ := hk; cases hw
          | clear k => obtain ⟨ws, hw⟩ := hk; cases hw
          | quiet =>
            rcases hk with hk | hk
            · cases hk; exact Or.inl rfl
            · cases hk; exact Or.inr rfl
          | bar => cases hk
          | data f =>
            exfalso
            dsimp only [Kind] at hk
            generalize f ((st i).x.g.mem p) = c at hk
            cases c with
            | put => obtain ⟨_, _, _, h⟩ := hk; cases h
            | get => obtain ⟨_, _, _, h⟩ := hk; cases h
            | store => cases hk
        · cases hw
  refine ⟨⟨R, fun i => (st i).x.pc, fun i => (st i).pos, fun i => (l[i]?).map Prod.fst, ?_, ?_, ?_, ?_, ?_, ?_, ?_, ?_⟩, hF, hM', ?_⟩
  · rw [hs', h0]; exact hM
  · show (st 0).pos = _; rw [h0]
  · intro i e he
    rw [hs', hs']
    cases hl : l[i]? with
    | none => rw [hl] at he; cases he
    | some y => rw [hl] at he; cases he; exact (h1 i y hl).step
  · intro i he
    cases hl : l[i]? with
    | some y => rw [hl] at he; cases he
    | none =>
      have := List.getElem?_eq_none_iff.1 hl
      refine ⟨by rw [hev, List.getElem?_map, hl]; rfl, ?_, ?_⟩
      · show (st (i + 1)).x.pc = (st i).x.pc; rw [h2 (i + 1) (by omega), h2 i this]
      · show (st (i + 1)).pos = (st i).pos; rw [h2 (i + 1) (by omega), h2 i this]
  · intro i e he
    cases hl : l[i]? with
    | none => rw [hl] at he; cases he
    | some y =>
      rw [hl] at he
      rw [hev, List.getElem?_map, hl, ← (h1 i y hl).data e (Option.some.inj he)]
      rfl
  · intro i k p a evs he
    cases hl : l[i]? with
    | none => rw [hl] at he; cases he
    | some y =>
      rw [hl] at he
      obtain ⟨ws, hw⟩ := (h1 i y hl).lock k p a evs (Option.some.inj he)
      exact ⟨ws, by rw [hev, List.getElem?_map, hl, ← hw]; rfl⟩
  · intro i p hfr e'
    rw [hs'] at hfr
    have hfr : T.lk.free (st i).x.words p = false := hfr
    obtain ⟨j, e, b1, b2, b3, b4⟩ := hnext i p (Or.inl hfr)
    rw [b4]
    obtain ⟨ev, hp⟩ := hpair _ e b2
    rcases pair_own hp b3 with ⟨h3, _⟩ | ⟨_, ws, rfl⟩
    · rw [hfm i p j b1, hfr] at h3; cases h3
    · exact Iff.rfl
  · intro i p hf hfr a ha
    rw [hs'] at hfr
    have hfr : T.lk.free (st i).x.words p = true := hfr
    have ha : (P p)[(st i).pos p]? = some a := ha
    have hp : p < T.lk.n := by rw [T.hn]; exact hf.1
    obtain ⟨j, e, b1, b2, b3, b4⟩ := hnext i p (Or.inr ⟨hp, (List.getElem?_eq_some_iff.1 ha).1, hf.2.1⟩)
    obtain ⟨ev, hpr⟩ := hpair _ e b2
    rcases pair_own hpr b3 with ⟨_, a', ha', hk⟩ | ⟨h3, _⟩
    · have : a' = a := by
        rw [hpos i p j b1 hf.2.1, ha] at ha'
        exact (Option.some.inj ha').symm
      subst this
      cases a' with
      | set k => obtain ⟨ws, rfl⟩ := hk; exact b4
      | clear k => obtain ⟨ws, rfl⟩ := hk; exact b4
      | quiet =>
        rcases hk with rfl | rfl
        · exact Or.inl (funext fun e' => propext (b4 e'))
        · exact Or.inr (funext fun e' => propext (b4 e'))
      | bar =>
        cases hk
        exact funext fun e' => propext (b4 e')
      | data f =>
        obtain ⟨e', g', hd, hst', _⟩ := hA p hp _ f ha ((st (i + j)).x.g.mem p) (R.st i) (R.reach i) (hnsp i) hf
        exact ⟨e', g', (b4 e').2 (lwants_does hk hd), does_own hd, does_plain hd, hst'⟩
    · rw [hfm i p j b1, hfr] at h3; cases h3
  · intro i e he p ho hc
    have he : (l[i]?).map Prod.fst = some (.rma e) := he
    cases hl : l[i]? with
    | none => rw [hl] at he; cases he
    | some y => rw [hl] at he; exact (h1 i y hl).cv e (Option.some.inj he) p ho hc

/-- **Fair executions exist.** Every program that follows the rules for locks, calls barriers equally often on all PEs with no locks held, and whose
    calls the library accepts has, for all first contents of memory in which the locks are zero, a fair execution. -/
theorem C113_exists_partial (wf : T.lk.WF) (un : T.lk.Uniform) (hP : Proper T P) (hA : Accepts T P) (hB : Balanced T.lk.n P) (M : Mems)
    (hM : T.lk.Init (X.words ⟨Vis.ginit M, fun _ _ => .idle⟩)) : ∃ R : MInf T P, R.vis.Fair ∧ R.vis.mem = M := by
  obtain ⟨R, h1, h2, _⟩ := C114_exists_partial wf un hP hA.toC hB M hM
  exact ⟨R, h1, h2⟩

end

end Verif.Crit.Mix
