import Verif.Crit.CounterInv
import Verif.Vis.FairProps
import Verif.Bsp.Fair
/-!
# C109: programs with locks can be run

For every program that uses locks properly and whose calls the library accepts there is a fair execution: one PE after the other.
-/
namespace Verif.Crit
open Verif.Rma Verif.Lock

/-- The library accepts the calls of the program (apart from what the PE has in flight), whatever the memory of the PE is: for the put and get
routines of the API with right arguments that is `Bsp.C106_accepted`; stores are always possible. -/
def Accepts (T : Sys) (P : Prog) : Prop := ∀ p < T.lk.n, ∀ f, .data f ∈ P p → ∀ m g, Vis.Reach T.vis g → (∀ q, (g.pe q).spaces = []) →
  Vis.Free T.vis g p → ∃ e g', (f m).Does p e ∧ Vis.Step T.vis (g.clear p) e g'

/-! ## Proof: accesses of lock calls as steps of `Vis` -/

theorem touched_keys (m' : Mems) : ∀ (ks : List (Nat × Int)) (m : Mems), (∀ t a, (t, a) ∉ ks → m' t a = m t a) →
    Vis.touched m (ks.map fun k => (k.1, k.2, m' k.1 k.2)) = m' := by
  intro ks
  induction ks with
  | nil =>
    intro m h
    show m = m'
    funext t a
    exact (h t a (by simp)).symm
  | cons k ks ih =>
    intro m h
    show Vis.touched (Function.update m k.1 (Function.update (m k.1) k.2 (m' k.1 k.2))) _ = m'
    refine ih _ fun t a hn => ?_
    by_cases ht : t = k.1
    · subst ht
      rw [Function.update_self]
      by_cases ha : a = k.2
      · subst ha; rw [Function.update_self]
      · rw [Function.update_of_ne ha]
        refine h _ _ fun hm => ?_
        rcases List.mem_cons.1 hm with e | e
        · exact ha (congrArg Prod.snd e)
        · exact hn e
    · rw [Function.update_of_ne ht]
      refine h _ _ fun hm => ?_
      rcases List.mem_cons.1 hm with e | e
      · exact ht (congrArg Prod.fst e)
      · exact hn e

section
variable {T : Sys} {P : Prog}

/-- an access of a lock call that is possible for the words of the lock is a step -/
theorem lock_go (wf : T.lk.WF) (un : T.lk.Uniform) {x : X} {wtr : List (Nat × Lock.Ev)} (hw : WExec T.lk x.words wtr) {l p : Nat} (hl : l < T.lk.m)
    (hf : Vis.Free T.vis x.g p) {a : Act} {t : State} {ev : List Lock.Ev} (hs : Lock.step (T.lk.view x.words l) p a = some (t, ev))
    (hfr : a = .run ∨ T.lk.free x.words p = true) :
    ∃ y ws, Step T x (.lock l p a ev) y ∧ Vis.Step T.vis x.g (.touch p ws) y.g ∧ T.lk.view y.words l = t ∧
      (∀ k r, ¬ (k = l ∧ r = p) → y.pc k r = x.pc k r) ∧ (∃ tr, WExec T.lk y.words tr) ∧ ∃ mm, y.g = { x.g with mem := mm } := by
  have hp : p < T.lk.n := by rw [T.hn]; exact hf.1
  obtain ⟨w, ev', hws⟩ := wstep_enabled wf hl hs hfr
  obtain ⟨q, hinv, _⟩ := exec_inv wf.max (wexec_view wf un hw l hl)
  have ok := wstep_sim wf un hl hp hinv hws
  have he := ok.own
  rw [hs] at he
  have e1 : t = T.lk.view w l := congrArg Prod.fst (Option.some.inj he)
  have e2 : ev = ev' := congrArg Prod.snd (Option.some.inj he)
  subst e2
  refine ⟨⟨{ x.g with mem := back x.g.mem w.mem }, w.pc⟩,
    ((List.range T.lk.n).flatMap fun t => (List.range 8).map fun i => (t, (T.lk.lockp l t + BitVec.ofNat 64 i).toInt)).map
      fun k => (k.1, k.2, back x.g.mem w.mem k.1 k.2), Step.lock l p a hl hf hws, ?_, ?_, ok.pcs, ?_, _, rfl⟩
  · have e := Vis.Step.touch (S := T.vis) (g := x.g) p
      (((List.range T.lk.n).flatMap fun t => (List.range 8).map fun i => (t, (T.lk.lockp l t + BitVec.ofNat 64 i).toInt)).map
        fun k => (k.1, k.2, back x.g.mem w.mem k.1 k.2)) hf
    rw [touched_keys] at e
    · exact e
    · intro t a hn
      refine back_same (k := (t, a)) fun b hb => ?_
      by_contra hne
      obtain ⟨ht, i, hi, hbi⟩ := ok.bytes t b (fun h => hne (h.trans (by show x.g.mem t b.toInt = _; rw [hb])))
      refine hn (List.mem_flatMap.2 ⟨t, List.mem_range.2 ht, List.mem_map.2 ⟨i, List.mem_range.2 hi, ?_⟩⟩)
      rw [← hbi, hb]
  · rw [lock_words]; exact e1.symm
  · rw [lock_words]; exact ⟨_, WExec.call l p a hw hl hp hws⟩

/-- a step with its step of `Vis` -/
structure Pair (T : Sys) (P : Prog) (x : PX) (e : Ev × Vis.Ev) (y : PX) : Prop where
  step : PStep T P x e.1 y
  vis : Vis.Step T.vis x.x.g e.2 y.x.g
  data : ∀ e', e.1 = .rma e' → e.2 = e'
  lock : ∀ l p a evs, e.1 = .lock l p a evs → ∃ ws, e.2 = .touch p ws

inductive Pairs (T : Sys) (P : Prog) : PX → List (Ev × Vis.Ev) → PX → Prop
  | nil (x : PX) : Pairs T P x [] x
  | snoc {x y z : PX} {l : List (Ev × Vis.Ev)} {e : Ev × Vis.Ev} (r : Pairs T P x l y) (s : Pair T P y e z) : Pairs T P x (l ++ [e]) z

theorem Pairs.prun {x y : PX} {l : List (Ev × Vis.Ev)} (h : Pairs T P x l y) : ∃ l', PRun T P x l' y := by
  induction h with
  | nil => exact ⟨_, .nil _⟩
  | snoc r s ih => exact ⟨_, ih.choose_spec.snoc s.step⟩

theorem Pairs.states {x y : PX} {l : List (Ev × Vis.Ev)} (h : Pairs T P x l y) : ∃ st : Nat → PX, st 0 = x ∧
    (∀ i e, l[i]? = some e → Pair T P (st i) e (st (i + 1))) ∧ ∀ i, l.length ≤ i → st i = y := by
  induction h with
  | nil => exact ⟨fun _ => x, rfl, fun i e h => by simp at h, fun _ _ => rfl⟩
  | @snoc y z l e r s ih =>
    obtain ⟨st, h0, h1, h2⟩ := ih
    refine ⟨fun i => if i ≤ l.length then st i else z, (if_pos (Nat.zero_le _)).trans h0, ?_, ?_⟩
    · intro i e' h
      dsimp only
      rcases Nat.lt_trichotomy i l.length with hi | hi | hi
      · rw [List.getElem?_append_left hi] at h
        rw [if_pos (by omega), if_pos (by omega)]
        exact h1 i e' h
      · subst hi
        rw [List.getElem?_concat_length] at h
        cases h
        rw [if_pos (Nat.le_refl _), if_neg (by omega), h2 _ (Nat.le_refl _)]
        exact s
      · rw [List.getElem?_eq_none (by rw [List.length_append, List.length_singleton]; omega)] at h
        cases h
    · intro i hi
      rw [List.length_append, List.length_singleton] at hi
      dsimp only
      rw [if_neg (by omega)]

/-- a PE that makes no step of `Vis` stays where it is -/
theorem pair_mute {x y : PX} {e : Ev × Vis.Ev} (h : Pair T P x e y) {p : Nat} (ho : e.2.own ≠ some p) :
    y.pos p = x.pos p ∧ ∀ l, y.x.pc l p = x.x.pc l p := by
  obtain ⟨ev, ve⟩ := e
  obtain ⟨s, hv, hd, hl⟩ := h
  dsimp only at s hv hd hl ho
  have lk : ∀ {x y : X} {l q : Nat} {a : Act} {evs : List Lock.Ev}, Step T x (.lock l q a evs) y → q ≠ p → ∀ k, y.pc k p = x.pc k p := by
    intro x y l q a evs s hq k
    cases s with
    | lock _ _ _ hl hf hs => exact (wstep_pc hs).1 k p (fun e => hq e.2.symm)
  cases s with
  | lib ho' s => cases s with | rma hs hc => exact ⟨rfl, fun _ => rfl⟩
  | data q f ha hdo s =>
    have := hd _ rfl; subst this
    have hq : p ≠ q := fun e => ho (by rw [e]; exact does_own hdo)
    cases s with | rma hs hc => exact ⟨Function.update_of_ne hq _ _, fun _ => rfl⟩
  | quiet q op ha hop s =>
    have := hd _ rfl; subst this
    have hq : p ≠ q := fun e => ho (by rw [e]; rfl)
    cases s with | rma hs hc => exact ⟨Function.update_of_ne hq _ _, fun _ => rfl⟩
  | set q l ha s =>
    obtain ⟨ws, rfl⟩ := hl _ _ _ _ rfl
    have hq : p ≠ q := fun e => ho (by rw [e]; rfl)
    exact ⟨Function.update_of_ne hq _ _, lk s (Ne.symm hq)⟩
  | clear q l ha s =>
    obtain ⟨ws, rfl⟩ := hl _ _ _ _ rfl
    have hq : p ≠ q := fun e => ho (by rw [e]; rfl)
    exact ⟨Function.update_of_ne hq _ _, lk s (Ne.symm hq)⟩
  | run q l s =>
    obtain ⟨ws, rfl⟩ := hl _ _ _ _ rfl
    have hq : p ≠ q := fun e => ho (by rw [e]; rfl)
    exact ⟨rfl, lk s (Ne.symm hq)⟩

/-! ## Proof: one PE after the other -/

/-- nothing is in flight after an execution of the program -/
structure LGot (T : Sys) (P : Prog) (x0 : PX) (m : Mems) (l : List (Ev × Vis.Ev)) (x : PX) : Prop where
  run : Pairs T P x0 l x
  steps : Vis.Run T.vis (Vis.ginit m) (l.map Prod.snd) x.x.g
  settled : Vis.Settled x.x.g
  safe : ∀ e ∈ l, e.2.Safe T.vis
  spaces : ∀ q, (x.x.g.pe q).spaces = []
  out : ∀ q, x.x.g.arr q = 0 ∧ x.x.g.lv q = 0

theorem LGot.free {x0 x : PX} {m : Mems} {l : List (Ev × Vis.Ev)} (h : LGot T P x0 m l x) {p : Nat} (hp : p < T.lk.n) : Vis.Free T.vis x.x.g p :=
  ⟨by rw [← T.hn]; exact hp, by rw [(h.out p).1, (h.out p).2], Vis.settled_busy h.settled p⟩

theorem LGot.wexec {x0 x : PX} {m : Mems} {l : List (Ev × Vis.Ev)} (h : LGot T P x0 m l x) (hP : Proper T P) (h0 : Start T x0.x) :
    ∃ wtr, WExec T.lk x.x.words wtr := by
  obtain ⟨l', r⟩ := h.run.prun
  obtain ⟨tr, hr, hre⟩ := r.run hP
  exact (proj h0 hr hre).1

theorem LGot.snoc_lock {x0 x y : PX} {m : Mems} {l : List (Ev × Vis.Ev)} (h : LGot T P x0 m l x) {k p : Nat} {a : Act} {evs : List Lock.Ev}
    {ws : List (Nat × Int × BitVec 8)} (s : PStep T P x (.lock k p a evs) y) (hv : Vis.Step T.vis x.x.g (.touch p ws) y.x.g) {mm : Mems}
    (hg : y.x.g = { x.x.g with mem := mm }) : LGot T P x0 m (l ++ [(.lock k p a evs, .touch p ws)]) y := by
  refine ⟨h.run.snoc ⟨s, hv, (fun e' he => by cases he), fun l p a evs he => ⟨ws, by cases he; rfl⟩⟩, ?_, ?_, ?_, ?_, ?_⟩
  · rw [List.map_append]; exact Vis.run_append h.steps (Vis.Run.cons hv (Vis.Run.nil _))
  · rw [hg]; exact h.settled
  · intro e he
    rcases List.mem_append.1 he with he | he
    · exact h.safe e he
    · rw [List.mem_singleton.1 he]; exact trivial
  · rw [hg]; exact h.spaces
  · rw [hg]; exact h.out

theorem perf_pairs {x0 : PX} {g g' : Vis.G} {l' : List Vis.Ev} (h : Vis.Run T.vis g l' g') : ∀ {l : List (Ev × Vis.Ev)} {pc : Nat → Nat → PC}
    {pos : Nat → Nat}, (∀ e ∈ l', e.isPerf) → Pairs T P x0 l ⟨⟨g, pc⟩, pos⟩ → Pairs T P x0 (l ++ l'.map fun e => (.rma e, e)) ⟨⟨g', pc⟩, pos⟩ := by
  induction h with
  | nil g => intro l pc pos _ r; rw [List.map_nil, List.append_nil]; exact r
  | @cons g g1 g2 e l1 s r ih =>
    intro l pc pos hl h
    have hpe := hl e (List.mem_cons_self ..)
    have ho : e.own = none := by cases e <;> first | exact (hpe : False).elim | rfl
    have hc : caller e = none := by cases e <;> first | exact (hpe : False).elim | rfl
    have hs : Pair T P ⟨⟨g, pc⟩, pos⟩ (.rma e, e) ⟨⟨g1, pc⟩, pos⟩ :=
      ⟨.lib ho (Step.rma (x := ⟨g, pc⟩) s (fun p h => by rw [hc] at h; cases h)), s, (fun e' he => by cases he; rfl), fun _ _ _ _ he => by cases he⟩
    have := ih (fun e he => hl e (List.mem_cons_of_mem _ he)) (h.snoc hs)
    rwa [List.append_assoc] at this

/-- an own call of `Vis`, and everything it has left in flight -/
theorem LGot.own {x0 x : PX} {m : Mems} {l : List (Ev × Vis.Ev)} (h : LGot T P x0 m l x) {e : Vis.Ev} {g1 : Vis.G} {pos' : Nat → Nat}
    (s : PStep T P x (.rma e) ⟨⟨g1, x.x.pc⟩, pos'⟩) (st : Vis.Step T.vis x.x.g e g1) (hsafe : e.Safe T.vis)
    (hcall : ∀ p op, e = .call p op → op = .quiet none ∨ op = .fence none) (hen : ∀ q, e ≠ .enter q ∧ e ≠ .leave q) :
    ∃ l' x', LGot T P x0 m l' x' ∧ x'.pos = pos' ∧ x'.x.pc = x.x.pc := by
  have r1 : Vis.Run T.vis (Vis.ginit m) (l.map Prod.snd ++ [e]) g1 := Vis.run_append h.steps (Vis.Run.cons st (Vis.Run.nil _))
  have hsf : ∀ e' ∈ l.map Prod.snd ++ [e], e'.Safe T.vis := by
    intro e' he
    rcases List.mem_append.1 he with he | he
    · obtain ⟨y, hy, rfl⟩ := List.mem_map.1 he
      exact h.safe y hy
    · rw [List.mem_singleton.1 he]; exact hsafe
  have hsp := Bsp.nospaces_step st hcall h.spaces
  obtain ⟨l2, g2, r2, h1, h2, h3, h4, h5⟩ := Vis.C94_settles ⟨_, _, r1⟩ (Vis.noFault_safe r1 hsf)
  have hpair : Pair T P x (.rma e, e) ⟨⟨g1, x.x.pc⟩, pos'⟩ := ⟨s, st, (fun e' he => by cases he; rfl), fun _ _ _ _ he => by cases he⟩
  refine ⟨_, ⟨⟨g2, x.x.pc⟩, pos'⟩, ⟨perf_pairs r2 h1 (h.run.snoc hpair), ?_, h2, ?_, ?_, ?_⟩, rfl, rfl⟩
  · have e1 : ((l ++ [(Ev.rma e, e)]) ++ l2.map fun e => (Ev.rma e, e)).map Prod.snd = (l.map Prod.snd ++ [e]) ++ l2 := by
      rw [List.map_append, List.map_append, List.map_map]
      congr 1
      exact List.map_id' l2
    rw [e1]
    exact Vis.run_append r1 r2
  · intro e' he
    rcases List.mem_append.1 he with he | he
    · rcases List.mem_append.1 he with he | he
      · exact h.safe e' he
      · rw [List.mem_singleton.1 he]; exact hsafe
    · obtain ⟨y, hy, rfl⟩ := List.mem_map.1 he
      exact Vis.perf_safe (h1 y hy)
  · intro q; dsimp only; rw [h3]; exact hsp q
  · intro q
    refine ⟨?_, ?_⟩
    · show g2.arr q = _
      rw [h4, Bsp.arr_step st (fun q => (hen q).1)]
      exact (h.out q).1
    · show g2.lv q = _
      rw [h5]
      rcases Bsp.lv_step st q with h' | ⟨h', _⟩
      · rw [h']; exact (h.out q).2
      · exact absurd h' (hen q).2

/-- the words of a lock that nobody uses, and of one that only `p` uses -/
theorem last_zero {n : Nat} {s : State} {q : List Nat} (h : Inv n s q) (hi : ∀ r < n, s.pc r = .idle) : s.last = 0 := by
  have : q = [] := by
    cases q with
    | nil => rfl
    | cons r t =>
      have h1 := h.bound r (List.mem_cons_self ..)
      have h2 := (h.mem r).1 (List.mem_cons_self ..)
      rw [hi r h1] at h2
      cases h2
  rw [h.last, this]
  rfl

theorem last_mine {n : Nat} {s : State} {q : List Nat} (h : Inv n s q) {p : Nat} (hp : s.pc p = .held) (hi : ∀ r < n, r ≠ p → s.pc r = .idle) :
    s.last = myid p := by
  have hm : p ∈ q := (h.mem p).2 (by rw [hp]; rfl)
  have hall : ∀ r ∈ q, r = p := by
    intro r hr
    by_contra hne
    have h2 := (h.mem r).1 hr
    rw [hi r (h.bound r hr) hne] at h2
    cases h2
  have hg : q.getLast? = some p := by
    cases hq : q.getLast? with
    | none => rw [List.getLast?_eq_none_iff.1 hq] at hm; cases hm
    | some r => rw [hall r (List.mem_of_getLast? hq)]
  rw [h.last, hg]

/-- `shmem_set_lock` of a lock nobody uses -/
theorem LGot.set (wf : T.lk.WF) (un : T.lk.Uniform) (hP : Proper T P) {x0 x : PX} {m : Mems} {l : List (Ev × Vis.Ev)} (h0 : Start T x0.x)
    (h : LGot T P x0 m l x) (hfree : ∀ q, T.lk.free x.x.words q = true) {p k : Nat} (hp : p < T.lk.n) (hk : k < T.lk.m)
    (ha : (P p)[x.pos p]? = some (.set k)) (hi : ∀ r < T.lk.n, x.x.pc k r = .idle) :
    ∃ l' x', LGot T P x0 m l' x' ∧ (∀ q, T.lk.free x'.x.words q = true) ∧ x'.pos = Function.update x.pos p (x.pos p + 1) ∧
      ∀ q, q ≠ p → ∀ k, x'.x.pc k q = x.x.pc k q := by
  obtain ⟨wtr, hw⟩ := h.wexec hP h0
  obtain ⟨q, hinv, _⟩ := exec_inv wf.max (wexec_view wf un hw k hk)
  have hz : (T.lk.view x.x.words k).last = 0 := last_zero hinv hi
  have hpc : (T.lk.view x.x.words k).pc p = .idle := hi p hp
  -- the call
  obtain ⟨y1, ws1, s1, v1, e1, p1, ⟨_, w1⟩, mm1, g1⟩ := lock_go wf un hw hk (h.free hp)
    (by simp only [Lock.step, hpc, if_true]; rfl : Lock.step (T.lk.view x.x.words k) p .callSet = some (_, _)) (Or.inr (hfree p))
  have G1 := h.snoc_lock (y := ⟨y1, Function.update x.pos p (x.pos p + 1)⟩) (.set p k ha s1) v1 g1
  -- `lock->next = 0`
  have hpc1 : (T.lk.view y1.words k).pc p = .setReset := by rw [e1]; exact upd_same ..
  obtain ⟨y2, ws2, s2, v2, e2, p2, ⟨_, w2⟩, mm2, g2⟩ := lock_go wf un w1 hk (G1.free hp)
    (by simp only [Lock.step, hpc1]; rfl : Lock.step (T.lk.view y1.words k) p .run = some (_, _)) (Or.inl rfl)
  have G2 := G1.snoc_lock (y := ⟨y2, Function.update x.pos p (x.pos p + 1)⟩) (.run p k s2) v2 g2
  -- the swap
  have hpc2 : (T.lk.view y2.words k).pc p = .setSwap := by rw [e2]; exact upd_same ..
  have hz2 : (T.lk.view y2.words k).last = 0 := by rw [e2]; show (T.lk.view y1.words k).last = 0; rw [e1]; exact hz
  obtain ⟨y3, ws3, s3, v3, e3, p3, ⟨_, w3⟩, mm3, g3⟩ := lock_go wf un w2 hk (G2.free hp)
    (by simp only [Lock.step, hpc2, hz2]; rw [if_neg (by simp)] : Lock.step (T.lk.view y2.words k) p .run = some (_, _)) (Or.inl rfl)
  have G3 := G2.snoc_lock (y := ⟨y3, Function.update x.pos p (x.pos p + 1)⟩) (.run p k s3) v3 g3
  have hpc3 : y3.pc k p = .held := by
    have : (T.lk.view y3.words k).pc p = .held := by rw [e3]; exact upd_same ..
    exact this
  have hoth : ∀ k' r, ¬ (k' = k ∧ r = p) → y3.pc k' r = x.x.pc k' r := fun k' r hn => by rw [p3 k' r hn, p2 k' r hn, p1 k' r hn]
  refine ⟨_, _, G3, ?_, rfl, fun q hq k' => hoth k' q (fun e => hq e.2)⟩
  intro q
  refine free_iff.2 fun k' hk' => ?_
  show (y3.pc k' q).rest = true
  by_cases e : k' = k ∧ q = p
  · rw [e.1, e.2, hpc3]; rfl
  · rw [hoth k' q e]; exact free_iff.1 (hfree q) k' hk'

/-- `shmem_clear_lock` when nobody else wants the lock -/
theorem LGot.clear (wf : T.lk.WF) (un : T.lk.Uniform) (hP : Proper T P) {x0 x : PX} {m : Mems} {l : List (Ev × Vis.Ev)} (h0 : Start T x0.x)
    (h : LGot T P x0 m l x) (hfree : ∀ q, T.lk.free x.x.words q = true) {p k : Nat} (hp : p < T.lk.n) (hk : k < T.lk.m)
    (ha : (P p)[x.pos p]? = some (.clear k)) (hh : x.x.pc k p = .held) (hi : ∀ r < T.lk.n, r ≠ p → x.x.pc k r = .idle) :
    ∃ l' x', LGot T P x0 m l' x' ∧ (∀ q, T.lk.free x'.x.words q = true) ∧ x'.pos = Function.update x.pos p (x.pos p + 1) ∧
      ∀ q, q ≠ p → ∀ k, x'.x.pc k q = x.x.pc k q := by
  obtain ⟨wtr, hw⟩ := h.wexec hP h0
  obtain ⟨q, hinv, _⟩ := exec_inv wf.max (wexec_view wf un hw k hk)
  have hz : (T.lk.view x.x.words k).last = myid p := last_mine hinv hh hi
  have hpc : (T.lk.view x.x.words k).pc p = .held := hh
  obtain ⟨y1, ws1, s1, v1, e1, p1, ⟨_, w1⟩, mm1, g1⟩ := lock_go wf un hw hk (h.free hp)
    (by simp only [Lock.step, hpc, if_true]; rfl : Lock.step (T.lk.view x.x.words k) p .callClear = some (_, _)) (Or.inr (hfree p))
  have G1 := h.snoc_lock (y := ⟨y1, Function.update x.pos p (x.pos p + 1)⟩) (.clear p k ha s1) v1 g1
  have hpc1 : (T.lk.view y1.words k).pc p = .clrCas := by rw [e1]; exact upd_same ..
  have hz1 : (T.lk.view y1.words k).last = myid p := by rw [e1]; exact hz
  obtain ⟨y3, ws3, s3, v3, e3, p3, ⟨_, w3⟩, mm3, g3⟩ := lock_go wf un w1 hk (G1.free hp)
    (by simp only [Lock.step, hpc1, hz1]; rw [if_neg (by simp)] : Lock.step (T.lk.view y1.words k) p .run = some (_, _)) (Or.inl rfl)
  have G3 := G1.snoc_lock (y := ⟨y3, Function.update x.pos p (x.pos p + 1)⟩) (.run p k s3) v3 g3
  have hpc3 : y3.pc k p = .idle := by
    have : (T.lk.view y3.words k).pc p = .idle := by rw [e3]; exact upd_same ..
    exact this
  have hoth : ∀ k' r, ¬ (k' = k ∧ r = p) → y3.pc k' r = x.x.pc k' r := fun k' r hn => by rw [p3 k' r hn, p1 k' r hn]
  refine ⟨_, _, G3, ?_, rfl, fun q hq k' => hoth k' q (fun e => hq e.2)⟩
  intro q
  refine free_iff.2 fun k' hk' => ?_
  show (y3.pc k' q).rest = true
  by_cases e : k' = k ∧ q = p
  · rw [e.1, e.2, hpc3]; rfl
  · rw [hoth k' q e]; exact free_iff.1 (hfree q) k' hk'

/-- one action of a PE while the others hold no lock -/
theorem LGot.act (wf : T.lk.WF) (un : T.lk.Uniform) (hP : Proper T P) (hA : Accepts T P) {x0 x : PX} {m : Mems} {l : List (Ev × Vis.Ev)}
    (h0 : Start T x0.x) (hpos : x0.pos = fun _ => 0)
    (h : LGot T P x0 m l x) (hfree : ∀ q, T.lk.free x.x.words q = true) {p : Nat} (hp : p < T.lk.n) (hlt : x.pos p < (P p).length)
    (hi : ∀ r < T.lk.n, r ≠ p → ∀ k < T.lk.m, x.x.pc k r = .idle) :
    ∃ l' x', LGot T P x0 m l' x' ∧ (∀ q, T.lk.free x'.x.words q = true) ∧ x'.pos = Function.update x.pos p (x.pos p + 1) ∧
      ∀ q, q ≠ p → ∀ k, x'.x.pc k q = x.x.pc k q := by
  obtain ⟨l1, r⟩ := h.run.prun
  have inv := pcInv_run r (pcInv_init h0 hpos)
  obtain ⟨a, ha⟩ : ∃ a, (P p)[x.pos p]? = some a := ⟨_, List.getElem?_eq_getElem hlt⟩
  have hrest := fun k (hk : k < T.lk.m) => inv.rest p hp k hk (free_iff.1 (hfree p) k hk)
  cases a with
  | set k =>
    obtain ⟨hk, ho⟩ := hP.order p hp _ k ha
    refine h.set wf un hP h0 hfree hp hk ha fun r hr => ?_
    by_cases hrp : r = p
    · subst hrp
      rcases rest_cases (free_iff.1 (hfree r) k hk) with h' | h'
      · exact h'
      · exact absurd (ho k ((hrest k hk).1 h')) (Nat.lt_irrefl _)
    · exact hi r hr hrp k hk
  | clear k =>
    have hh := hP.clears p hp _ k ha
    obtain ⟨j, hj, hset, _⟩ := id hh
    have hk := (hP.order p hp j k hset).1
    exact h.clear wf un hP h0 hfree hp hk ha ((hrest k hk).2 hh) fun r hr hrp => hi r hr hrp k hk
  | quiet =>
    have hf := h.free hp
    obtain ⟨s', e⟩ := Order.C56_quiet_partial (Vis.hist_reach ⟨_, _, h.steps⟩ p) (by rw [h.spaces p]; intro x hx; cases hx)
    have st := Vis.Step.call (S := T.vis) (g := x.x.g) p (.quiet none) s' hf trivial (fun _ _ _ _ _ _ h => by cases h) e (Vis.settled_done h.settled p s')
    obtain ⟨l', x', h1, h2, h3⟩ := h.own (.quiet p _ ha (Or.inl rfl) (Step.rma (x := x.x) st fun q _ => hfree q)) st trivial
      (fun p op h => by cases h; exact Or.inl rfl) (fun q => ⟨(fun h => by cases h), (fun h => by cases h)⟩)
    refine ⟨l', x', h1, fun q => free_iff.2 fun k hk => ?_, h2, fun q _ k => by rw [h3]⟩
    show (x'.x.pc k q).rest = true
    rw [h3]; exact free_iff.1 (hfree q) k hk
  | data f =>
    have hf := h.free hp
    obtain ⟨e, g1, hd, hst⟩ := hA p hp f (List.mem_of_getElem? ha) (x.x.g.mem p) x.x.g ⟨_, _, h.steps⟩ h.spaces hf
    obtain ⟨g2, st⟩ := Vis.plain_enabled (Vis.gi_reach ⟨_, _, h.steps⟩) (does_plain hd) (does_own hd) hst hf.2.2 (by
      intro y hy hne
      cases ht : y.todo with
      | nil => exact absurd ht hne
      | cons a t => exact absurd ⟨p, some y.pend, Or.inl ⟨y, hy, rfl, by rw [ht]; simp⟩⟩ (h.settled a))
    obtain ⟨l', x', h1, h2, h3⟩ := h.own (.data p f ha hd (Step.rma (x := x.x) st fun q _ => hfree q)) st (does_safe hd)
      (fun q op h => by
        subst h
        cases hc : f (x.x.g.mem p) with
        | put => rw [hc] at hd; obtain ⟨_, _, _, h⟩ := hd; cases h
        | get => rw [hc] at hd; obtain ⟨_, _, _, h⟩ := hd; cases h
        | store => rw [hc] at hd; cases hd)
      (fun q => ⟨does_noenter hd q, fun h => by
        have := does_own hd
        rw [h] at this
        cases this⟩)
    refine ⟨l', x', h1, fun q => free_iff.2 fun k hk => ?_, h2, fun q _ k => by rw [h3]⟩
    show (x'.x.pc k q).rest = true
    rw [h3]; exact free_iff.1 (hfree q) k hk

/-- all actions of a PE -/
theorem LGot.acts (wf : T.lk.WF) (un : T.lk.Uniform) (hP : Proper T P) (hA : Accepts T P) {x0 : PX} {m : Mems}
    (h0 : Start T x0.x) (hpos : x0.pos = fun _ => 0) {p : Nat} (hp : p < T.lk.n) : ∀ (n : Nat) {x : PX} {l : List (Ev × Vis.Ev)},
    LGot T P x0 m l x → (∀ q, T.lk.free x.x.words q = true) → x.pos p + n = (P p).length →
    (∀ r < T.lk.n, r ≠ p → ∀ k < T.lk.m, x.x.pc k r = .idle) →
    ∃ l' x', LGot T P x0 m l' x' ∧ (∀ q, T.lk.free x'.x.words q = true) ∧ x'.pos p = (P p).length ∧ ∀ q, q ≠ p → x'.pos q = x.pos q := by
  intro n
  induction n with
  | zero => intro x l h hf he _; exact ⟨l, x, h, hf, by omega, fun _ _ => rfl⟩
  | succ n ih =>
    intro x l h hf he hi
    obtain ⟨l1, x1, g1, f1, e1, c1⟩ := h.act wf un hP hA h0 hpos hf hp (by omega) hi
    obtain ⟨l2, x2, g2, f2, e2, c2⟩ := ih g1 f1 (by rw [e1, Function.update_self]; omega) (fun r hr hrp k hk => by rw [c1 r hrp k]; exact hi r hr hrp k hk)
    refine ⟨l2, x2, g2, f2, e2, fun q hq => ?_⟩
    rw [c2 q hq, e1, Function.update_of_ne hq]

/-- all PEs, one after the other -/
theorem LGot.all (wf : T.lk.WF) (un : T.lk.Uniform) (hP : Proper T P) (hA : Accepts T P) {x0 : PX} {m : Mems}
    (h0 : Start T x0.x) (hm : x0.x.g = Vis.ginit m) (hpos : x0.pos = fun _ => 0) : ∀ k, k ≤ T.lk.n → ∃ l x, LGot T P x0 m l x ∧
      (∀ q, T.lk.free x.x.words q = true) ∧ ∀ q < T.lk.n, x.pos q = if q < k then (P q).length else 0 := by
  intro k
  induction k with
  | zero =>
    intro _
    refine ⟨[], x0, ⟨.nil _, ?_, ?_, (fun e he => by cases he), ?_, ?_⟩, ?_, ?_⟩
    · rw [hm]; exact Vis.Run.nil _
    · rw [hm]; rintro a ⟨r, own, ⟨x, hx, _⟩ | ⟨_, hx⟩⟩ <;> cases hx
    · rw [hm]; exact fun _ => rfl
    · rw [hm]; exact fun _ => ⟨rfl, rfl⟩
    · intro q
      refine free_iff.2 fun k _ => ?_
      rw [h0.2.1 k q]; rfl
    · intro q _; rw [hpos, if_neg (Nat.not_lt_zero _)]
  | succ k ih =>
    intro hk
    obtain ⟨l, x, h, hf, he⟩ := ih (by omega)
    obtain ⟨l1, r⟩ := h.run.prun
    have inv := pcInv_run r (pcInv_init h0 hpos)
    obtain ⟨l2, x2, g2, f2, e2, c2⟩ := LGot.acts wf un hP hA h0 hpos (p := k) (by omega) (P k).length h hf
      (by rw [he k (by omega), if_neg (Nat.lt_irrefl _), Nat.zero_add]) (by
        intro r hr hrk j hj
        rcases rest_cases (free_iff.1 (hf r) j hj) with h' | h'
        · exact h'
        · exfalso
          have hh := (inv.rest r hr j hj (free_iff.1 (hf r) j hj)).1 h'
          rw [he r hr] at hh
          split at hh
          · exact hP.all r hr j hh
          · obtain ⟨i, hi, _⟩ := hh
            exact absurd hi (Nat.not_lt_zero _))
    refine ⟨l2, x2, g2, f2, fun q hq => ?_⟩
    by_cases hqk : q = k
    · subst hqk; rw [e2, if_pos (by omega)]
    · rw [c2 q hqk, he q hq]
      by_cases h' : q < k
      · rw [if_pos h', if_pos (by omega)]
      · rw [if_neg h', if_neg (by omega)]

/-! ## Proof: the infinite execution -/

/-- the event is one of the action -/
def Kind (m : IMem) (p : Nat) : PAct → Vis.Ev → Prop
  | .set _, e => ∃ ws, e = .touch p ws
  | .clear _, e => ∃ ws, e = .touch p ws
  | .quiet, e => e = .call p (.quiet none) ∨ e = .call p (.fence none)
  | .data f, e => (f m).Does p e

theorem pair_own {x y : PX} {e : Ev × Vis.Ev} (h : Pair T P x e y) {p : Nat} (ho : e.2.own = some p) :
    (T.lk.free x.x.words p = true ∧ ∃ a, (P p)[x.pos p]? = some a ∧ Kind (x.x.g.mem p) p a e.2) ∨
      (T.lk.free x.x.words p = false ∧ ∃ ws, e.2 = .touch p ws) := by
  obtain ⟨ev, ve⟩ := e
  obtain ⟨s, hv, hd, hl⟩ := h
  dsimp only at s hv hd hl ho ⊢
  cases s with
  | lib ho' s =>
    have := hd _ rfl; subst this
    rw [ho] at ho'; cases ho'
  | data q f ha hdo s =>
    have := hd _ rfl; subst this
    have := (does_own hdo).symm.trans ho
    cases this
    cases s with | rma hs hc => exact Or.inl ⟨hc _ (own_caller ho), _, ha, hdo⟩
  | quiet q op ha hop s =>
    have := hd _ rfl; subst this
    cases ho
    cases s with
    | rma hs hc =>
      refine Or.inl ⟨hc _ rfl, _, ha, ?_⟩
      rcases hop with rfl | rfl
      · exact Or.inl rfl
      · exact Or.inr rfl
  | set q l ha s =>
    obtain ⟨ws, rfl⟩ := hl _ _ _ _ rfl
    cases ho
    cases s with | lock _ _ _ hl hf hs => exact Or.inl ⟨(wstep_class hs).2.1, _, ha, _, rfl⟩
  | clear q l ha s =>
    obtain ⟨ws, rfl⟩ := hl _ _ _ _ rfl
    cases ho
    cases s with | lock _ _ _ hl hf hs => exact Or.inl ⟨(wstep_class hs).2.1, _, ha, _, rfl⟩
  | @run x y pos ev q l s =>
    obtain ⟨ws, rfl⟩ := hl _ _ _ _ rfl
    cases ho
    refine Or.inr ⟨?_, ws, rfl⟩
    cases s with
    | lock _ _ _ hl hf hs =>
      cases hfr : T.lk.free x.words p with
      | false => rfl
      | true =>
        exfalso
        have hr : (x.pc l p).rest = true := free_iff.1 hfr l hl
        rcases wstep_class hs with ⟨c, _⟩ | ⟨c, _⟩ | c
        · exact absurd (inSet_rest c) (by show ¬ (x.pc l p).rest = false; rw [hr]; simp)
        · exact absurd (inClear_rest c) (by show ¬ (x.pc l p).rest = false; rw [hr]; simp)
        · have c : x.pc l p = .testCas := c
          rw [c] at hr; cases hr

/-- what PE `p` is about to do, from its next event: an access of a lock call, whatever it finds; a put or a get, whatever the handles -/
def lwants : Option Vis.Ev → Vis.Ev → Prop
  | none, _ => False
  | some (.poll p a n r), e => e = .poll p a n r
  | some (.put p t nbi _ _ xs _), e => ∃ ctx addr ep, e = .put p t nbi ctx addr xs ep
  | some (.get p t nbi _ _ xs _), e => ∃ ctx addr ep, e = .get p t nbi ctx addr xs ep
  | some (.amo p t ctx addr a ty api ep), e => e = .amo p t ctx addr a ty api ep
  | some (.store p a v), e => e = .store p a v
  | some (.touch p _), e => ∃ ws, e = .touch p ws
  | some (.call p op), e => e = .call p op
  | some (.enter p), e => e = .enter p
  | some (.leave p), e => e = .leave p
  | some (.done p a r), e => e = .done p a r
  | some .tau, e => e = .tau

theorem lwants_self (e : Vis.Ev) : lwants (some e) e := by
  cases e <;> first | rfl | exact ⟨_, rfl⟩ | exact ⟨_, _, _, rfl⟩

theorem lwants_does {p : Nat} {c : Call} {e e' : Vis.Ev} (h : c.Does p e) (h' : c.Does p e') : lwants (some e) e' := by
  cases c with
  | put tgt nbi xs => obtain ⟨_, _, _, rfl⟩ := h; exact h'
  | get tgt nbi xs => obtain ⟨_, _, _, rfl⟩ := h; exact h'
  | store a v => cases h; exact h'

theorem lstates_fair {S : Vis.Sys} {m : Mems} {l : List Vis.Ev} {st : Nat → Vis.G} {g : Vis.G} (h0 : st 0 = Vis.ginit m)
    (h1 : ∀ i e, l[i]? = some e → Vis.Step S (st i) e (st (i + 1))) (h2 : ∀ i, l.length ≤ i → st i = g) (hg : Vis.Settled g)
    (hb : ∀ p < S.npes, g.arr p = g.lv p) :
    ∃ R : Vis.Inf S, R.Fair ∧ R.mem = m ∧ (∀ i, R.ev i = l[i]?) ∧ (∀ i p e, R.want i p e ↔ lwants (Vis.nextOwn (l.drop i) p) e) ∧ R.st = st := by
  refine ⟨⟨m, st, fun i => l[i]?, fun i p e => lwants (Vis.nextOwn (l.drop i) p) e, h0, h1, ?_, ?_, ?_⟩, ⟨?_, ?_, ?_⟩, rfl, fun _ => rfl,
    fun _ _ _ => Iff.rfl, rfl⟩
  · intro i h
    have := List.getElem?_eq_none_iff.1 h
    rw [h2 i this, h2 (i + 1) (by omega)]
  · intro i e p h ho
    obtain ⟨hl, rfl⟩ := List.getElem?_eq_some_iff.1 h
    rw [List.drop_eq_getElem_cons hl]
    unfold Vis.nextOwn
    rw [List.find?_cons_of_pos]
    · exact lwants_self _
    · simpa using ho
  · intro i p h
    funext e
    rw [Vis.nextOwn_skip h]
  · intro p hp i hbl _
    exfalso
    have hi : i ≤ max i l.length := Nat.le_max_left _ _
    have hst := h2 _ (Nat.le_max_right i l.length)
    have hw : ∀ e, ¬ lwants (Vis.nextOwn (l.drop (max i l.length)) p) e := by
      intro e
      rw [List.drop_eq_nil_of_le (Nat.le_max_right _ _)]
      exact id
    rcases hbl _ hi with h | ⟨x, hx, hne, h⟩
    · dsimp only at h
      rw [hst, Vis.settled_busy hg] at h
      exact h rfl
    · rcases h with ⟨op, s', h, _⟩ | ⟨s', h, _⟩ | ⟨e, t, h, _⟩ <;> exact hw _ h
  · intro p hp i hen
    exfalso
    obtain ⟨e, g', h, _⟩ := hen _ (Nat.le_max_left i l.length)
    dsimp only at h
    rw [List.drop_eq_nil_of_le (Nat.le_max_right _ _)] at h
    exact h
  · intro p hp i hen
    exfalso
    obtain ⟨g', h⟩ := hen _ (Nat.le_max_left i l.length)
    dsimp only at h
    rw [h2 _ (Nat.le_max_right _ _)] at h
    have hbp := hb p hp
    cases h with
    | leave q hq ha _ => omega

/-! ## The theorem -/

/-- **Programs with locks can be run.** Every program that uses locks properly and whose calls the library accepts has, for all first contents of
    memory in which the locks are zero, a fair execution. -/
theorem C109_exists_partial (wf : T.lk.WF) (un : T.lk.Uniform) (hP : Proper T P) (hA : Accepts T P) (M : Mems)
    (hM : T.lk.Init (X.words ⟨Vis.ginit M, fun _ _ => .idle⟩)) : ∃ R : LInf T P, R.vis.Fair ∧ R.vis.mem = M := by
  obtain ⟨l, z, h, hfz, hK⟩ := LGot.all wf un hP hA (x0 := ⟨⟨Vis.ginit M, fun _ _ => .idle⟩, fun _ => 0⟩) (m := M) ⟨⟨M, rfl⟩, hM⟩ rfl rfl
    T.lk.n (Nat.le_refl _)
  obtain ⟨st, h0, h1, h2⟩ := h.run.states
  have hget : ∀ (i : Nat) (e : Vis.Ev), (l.map Prod.snd)[i]? = some e → ∃ ev : Ev, l[i]? = some (ev, e) := by
    intro i e he
    rw [List.getElem?_map] at he
    cases hl : l[i]? with
    | none => rw [hl] at he; cases he
    | some y => rw [hl] at he; cases he; exact ⟨y.1, rfl⟩
  obtain ⟨R, hF, hM', hev, hwant, hst⟩ := lstates_fair (m := M) (l := l.map Prod.snd) (st := fun i => (st i).x.g)
    (by show (st 0).x.g = _; rw [h0])
    (fun i e he => by obtain ⟨ev, hl⟩ := hget i e he; exact (h1 i _ hl).vis)
    (fun i hi => by rw [List.length_map] at hi; show (st i).x.g = _; rw [h2 i hi]) h.settled (fun p hp => by rw [(h.out p).1, (h.out p).2])
  have hs' : ∀ i, R.st i = (st i).x.g := fun i => congrFun hst i
  have hmute : ∀ i p, R.Mute i p → (st (i + 1)).pos p = (st i).pos p ∧ ∀ l, (st (i + 1)).x.pc l p = (st i).x.pc l p := by
    intro i p hmu
    cases he : l[i]? with
    | none =>
      have := List.getElem?_eq_none_iff.1 he
      rw [h2 (i + 1) (by omega), h2 i this]
      exact ⟨rfl, fun _ => rfl⟩
    | some e => exact pair_mute (h1 i e he) (hmu e.2 ((hev i).trans (by rw [List.getElem?_map, he]; rfl)))
  have hmutes : ∀ i p n, (∀ j, i ≤ j → j < i + n → R.Mute j p) →
      (st (i + n)).pos p = (st i).pos p ∧ ∀ l, (st (i + n)).x.pc l p = (st i).x.pc l p := by
    intro i p n
    induction n with
    | zero => exact fun _ => ⟨rfl, fun _ => rfl⟩
    | succ n ih =>
      intro hj
      obtain ⟨a, b⟩ := ih fun j a b => hj j a (by omega)
      obtain ⟨c, d⟩ := hmute (i + n) p (hj (i + n) (by omega) (by omega))
      exact ⟨c.trans a, fun l => (d l).trans (b l)⟩
  have hfm : ∀ i p n, (∀ j, i ≤ j → j < i + n → R.Mute j p) → T.lk.free (st (i + n)).x.words p = T.lk.free (st i).x.words p := by
    intro i p n hj
    have := (hmutes i p n hj).2
    have key : T.lk.free (st (i + n)).x.words p = true ↔ T.lk.free (st i).x.words p = true := by
      rw [free_iff, free_iff]
      constructor <;> intro h' k hk
      · have h3 : ((st (i + n)).x.pc k p).rest = true := h' k hk
        rw [this k] at h3; exact h3
      · have h3 : ((st i).x.pc k p).rest = true := h' k hk
        rw [← this k] at h3; exact h3
    cases h1 : T.lk.free (st (i + n)).x.words p <;> cases h2 : T.lk.free (st i).x.words p <;> simp [h1, h2] at key ⊢
  -- the next event of a PE that is not at its end
  have hnext : ∀ i p, (T.lk.free (st i).x.words p = false ∨ (p < T.lk.n ∧ (st i).pos p < (P p).length)) →
      ∃ j e, (∀ j', i ≤ j' → j' < i + j → R.Mute j' p) ∧ R.ev (i + j) = some e ∧ e.own = some p ∧ ∀ e', R.want i p e' ↔ lwants (some e) e' := by
    intro i p hor
    have hmu : ¬ ∀ j, i ≤ j → R.Mute j p := by
      intro hmu
      have h3 := (hmutes i p l.length (fun j h _ => hmu j h)).1
      have h4 := hfm i p l.length (fun j h _ => hmu j h)
      rw [h2 _ (by omega)] at h3 h4
      rcases hor with h' | ⟨hp, h'⟩
      · rw [hfz p, h'] at h4; cases h4
      · rw [hK p hp, if_pos hp] at h3; omega
    obtain ⟨n1, e, b1, b2, b3, _⟩ := Vis.first_own hmu
    refine ⟨n1, e, b1, b2, b3, fun e' => ?_⟩
    have hno : Vis.nextOwn ((l.map Prod.snd).drop i) p = some e := by
      have e1 := b2
      have hkeep : ∀ m, m ≤ n1 → Vis.nextOwn ((l.map Prod.snd).drop (i + m)) p = Vis.nextOwn ((l.map Prod.snd).drop i) p := by
        intro m
        induction m with
        | zero => intro _; rfl
        | succ m ih =>
          intro hm'
          rw [← ih (by omega)]
          refine Vis.nextOwn_skip fun e' he' => ?_
          exact b1 (i + m) (by omega) (by omega) e' ((hev _).trans he')
      rw [← hkeep n1 (Nat.le_refl _)]
      rw [hev] at e1
      obtain ⟨hl, rfl⟩ := List.getElem?_eq_some_iff.1 e1
      rw [List.drop_eq_getElem_cons hl]
      unfold Vis.nextOwn
      rw [List.find?_cons_of_pos]
      simpa using b3
    rw [hwant, hno]
  have hpair : ∀ i e, R.ev i = some e → ∃ ev, Pair T P (st i) (ev, e) (st (i + 1)) := by
    intro i e he
    rw [hev] at he
    obtain ⟨ev, hl⟩ := hget i e he
    exact ⟨ev, h1 i _ hl⟩
  have hnsp : ∀ i q, ((R.st i).pe q).spaces = [] := by
    intro i
    induction i with
    | zero => rw [R.start]; exact fun _ => rfl
    | succ i ih =>
      cases he : R.ev i with
      | none => rw [R.idle i he]; exact ih
      | some e =>
        obtain ⟨ev, hp⟩ := hpair i e he
        refine Bsp.nospaces_step (R.step i e he) (fun p op hc => ?_) ih
        subst hc
        rcases pair_own hp (p := p) rfl with ⟨_, a, ha, hk⟩ | ⟨_, ws, hw⟩
        · cases a with
          | set k => obtain ⟨ws, hw⟩ := hk; cases hw
          | clear k => obtain ⟨ws, hw⟩ := hk; cases hw
          | quiet =>
            rcases hk with hk | hk
            · cases hk; exact Or.inl rfl
            · cases hk; exact Or.inr rfl
          | data f =>
            exfalso
            dsimp only [Kind] at hk
            generalize f ((st i).x.g.mem p) = c at hk
            cases c with
            | put => obtain ⟨_, _, _, h⟩ := hk; cases h
            | get => obtain ⟨_, _, _, h⟩ := hk; cases h
            | store => cases hk
        · cases hw
  refine ⟨⟨R, fun i => (st i).x.pc, fun i => (st i).pos, fun i => (l[i]?).map Prod.fst, ?_, ?_, ?_, ?_, ?_, ?_, ?_, ?_⟩, hF, hM'⟩
  · rw [hs', h0]; exact hM
  · show (st 0).pos = _; rw [h0]
  · intro i e he
    rw [hs', hs']
    cases hl : l[i]? with
    | none => rw [hl] at he; cases he
    | some y => rw [hl] at he; cases he; exact (h1 i y hl).step
  · intro i he
    cases hl : l[i]? with
    | some y => rw [hl] at he; cases he
    | none =>
      have := List.getElem?_eq_none_iff.1 hl
      refine ⟨by rw [hev, List.getElem?_map, hl]; rfl, ?_, ?_⟩
      · show (st (i + 1)).x.pc = (st i).x.pc; rw [h2 (i + 1) (by omega), h2 i this]
      · show (st (i + 1)).pos = (st i).pos; rw [h2 (i + 1) (by omega), h2 i this]
  · intro i e he
    cases hl : l[i]? with
    | none => rw [hl] at he; cases he
    | some y =>
      rw [hl] at he
      rw [hev, List.getElem?_map, hl, ← (h1 i y hl).data e (Option.some.inj he)]
      rfl
  · intro i k p a evs he
    cases hl : l[i]? with
    | none => rw [hl] at he; cases he
    | some y =>
      rw [hl] at he
      obtain ⟨ws, hw⟩ := (h1 i y hl).lock k p a evs (Option.some.inj he)
      exact ⟨ws, by rw [hev, List.getElem?_map, hl, ← hw]; rfl⟩
  · intro i p hfr e'
    rw [hs'] at hfr
    have hfr : T.lk.free (st i).x.words p = false := hfr
    obtain ⟨j, e, b1, b2, b3, b4⟩ := hnext i p (Or.inl hfr)
    rw [b4]
    obtain ⟨ev, hp⟩ := hpair _ e b2
    rcases pair_own hp b3 with ⟨h3, _⟩ | ⟨_, ws, rfl⟩
    · rw [hfm i p j b1, hfr] at h3; cases h3
    · exact Iff.rfl
  · intro i p hf hfr a ha
    rw [hs'] at hfr
    have hfr : T.lk.free (st i).x.words p = true := hfr
    have ha : (P p)[(st i).pos p]? = some a := ha
    have hp : p < T.lk.n := by rw [T.hn]; exact hf.1
    obtain ⟨j, e, b1, b2, b3, b4⟩ := hnext i p (Or.inr ⟨hp, (List.getElem?_eq_some_iff.1 ha).1⟩)
    obtain ⟨ev, hpr⟩ := hpair _ e b2
    rcases pair_own hpr b3 with ⟨_, a', ha', hk⟩ | ⟨h3, _⟩
    · have : a' = a := by
        rw [(hmutes i p j b1).1, ha] at ha'
        exact (Option.some.inj ha').symm
      subst this
      cases a' with
      | set k => obtain ⟨ws, rfl⟩ := hk; exact b4
      | clear k => obtain ⟨ws, rfl⟩ := hk; exact b4
      | quiet =>
        rcases hk with rfl | rfl
        · exact Or.inl (funext fun e' => propext (b4 e'))
        · exact Or.inr (funext fun e' => propext (b4 e'))
      | data f =>
        obtain ⟨e', g', hd, hst'⟩ := hA p hp f (List.mem_of_getElem? ha) ((st (i + j)).x.g.mem p) (R.st i) (R.reach i) (hnsp i) hf
        exact ⟨e', g', (b4 e').2 (lwants_does hk hd), does_own hd, does_plain hd, hst'⟩
    · rw [hfm i p j b1, hfr] at h3; cases h3

end

end Verif.Crit
