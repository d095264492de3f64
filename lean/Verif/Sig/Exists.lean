import Verif.Sig.Named
/-!
# C108: such programs can be run to their end

For every program with flags whose PEs do not wait for each other in a circle there is a fair execution.
-/
namespace Verif.Sig
open Verif.Sobj Verif.Rma Verif.Vis Verif.Api Verif.Flow
open Verif.Heap (heapSize trueSize Call)

/-! ## Proof: executions in which PEs do nothing but their program -/

/-- a step: a call of the program, or something no PE calls (an access is performed) -/
inductive PStep (S : Sys) (N : NProg) : X → Ev → X → Prop
  | act {x : X} {e : Ev} {g' : G} (p : Nat) (a : NAct) (hn : N.next p (x.pos p) (x.g.mem p) = some a) (hd : a.Does S p x.g e g') :
      PStep S N x e ⟨g', Function.update x.pos p (x.pos p + 1)⟩
  | other {x : X} {e : Ev} {g' : G} (ho : e.own = none) (s : Step S x.g e g') : PStep S N x e ⟨g', x.pos⟩

inductive PRun (S : Sys) (N : NProg) : X → List Ev → X → Prop
  | nil (x : X) : PRun S N x [] x
  | snoc {x y z : X} {l : List Ev} {e : Ev} (r : PRun S N x l y) (s : PStep S N y e z) : PRun S N x (l ++ [e]) z

/-- what PE `p` is about to do, from its next event: of a wait, a read with whichever result -/
def wants : Option Ev → Ev → Prop
  | none, _ => False
  | some (.poll p a n _), e => ∃ r, e = .poll p a n r
  | some (.put p t nbi ctx addr xs ep), e => e = .put p t nbi ctx addr xs ep
  | some (.get p t nbi ctx addr xs ep), e => e = .get p t nbi ctx addr xs ep
  | some (.amo p t ctx addr a ty api ep), e => e = .amo p t ctx addr a ty api ep
  | some (.store p a v), e => e = .store p a v
  | some (.touch p ws), e => e = .touch p ws
  | some (.call p op), e => e = .call p op
  | some (.enter p), e => e = .enter p
  | some (.leave p), e => e = .leave p
  | some (.done p a r), e => e = .done p a r
  | some .tau, e => e = .tau

theorem wants_self (e : Ev) : wants (some e) e := by
  cases e <;> first | rfl | exact ⟨_, rfl⟩

theorem nextOwn_own {l : List Ev} {p : Nat} {e : Ev} (h : nextOwn l p = some e) : e.own = some p := by
  have := List.find?_some h
  exact of_decide_eq_true this

/-- `states_fair`, with such wishes -/
theorem states_fair {S : Sys} {m : Mems} {l : List Ev} {st : Nat → G} {g : G} (h0 : st 0 = ginit m)
    (h1 : ∀ i e, l[i]? = some e → Step S (st i) e (st (i + 1))) (h2 : ∀ i, l.length ≤ i → st i = g) (hg : Vis.Settled g)
    (hb : ∀ p < S.npes, g.arr p = g.lv p) :
    ∃ R : Inf S, R.Fair ∧ R.mem = m ∧ (∀ i, R.ev i = l[i]?) ∧ (∀ i p e, R.want i p e ↔ wants (nextOwn (l.drop i) p) e) ∧ R.st = st := by
  refine ⟨⟨m, st, fun i => l[i]?, fun i p e => wants (nextOwn (l.drop i) p) e, h0, h1, ?_, ?_, ?_⟩, ⟨?_, ?_, ?_⟩, rfl, fun _ => rfl,
    fun _ _ _ => Iff.rfl, rfl⟩
  · intro i h
    have := List.getElem?_eq_none_iff.1 h
    rw [h2 i this, h2 (i + 1) (by omega)]
  · intro i e p h ho
    obtain ⟨hl, rfl⟩ := List.getElem?_eq_some_iff.1 h
    rw [List.drop_eq_getElem_cons hl]
    unfold nextOwn
    rw [List.find?_cons_of_pos]
    · exact wants_self _
    · simpa using ho
  · intro i p h
    funext e
    rw [nextOwn_skip h]
  · intro p hp i hbl _
    exfalso
    have hi : i ≤ max i l.length := Nat.le_max_left _ _
    have hst := h2 _ (Nat.le_max_right i l.length)
    have hw : ∀ e, ¬ wants (nextOwn (l.drop (max i l.length)) p) e := by
      intro e
      rw [List.drop_eq_nil_of_le (Nat.le_max_right _ _)]
      exact id
    rcases hbl _ hi with h | ⟨x, hx, hne, h⟩
    · dsimp only at h
      rw [hst, settled_busy hg] at h
      exact h rfl
    · rcases h with ⟨op, s', h, _⟩ | ⟨s', h, _⟩ | ⟨e, t, h, _⟩ <;> exact hw _ h
  · intro p hp i hen
    exfalso
    obtain ⟨e, g', h, _⟩ := hen _ (Nat.le_max_left i l.length)
    dsimp only at h
    rw [List.drop_eq_nil_of_le (Nat.le_max_right _ _)] at h
    exact h
  · intro p hp i hen
    exfalso
    obtain ⟨g', h⟩ := hen _ (Nat.le_max_left i l.length)
    dsimp only at h
    rw [h2 _ (Nat.le_max_right _ _)] at h
    have hbp := hb p hp
    cases h with
    | leave q hq ha _ => omega

section
variable {S : Sys} {k Z : Nat} {B : Nat → Nat} {s : Dl.St} {D : Nat × Int → Prop} {N : NProg} {M : Mems} {acts : Nat → List NAct} {F : Mems}

theorem PStep.named {x y : X} {e : Ev} (h : PStep S N x e y) : NStep S D N x e y := by
  cases h with
  | act p a hn hd => exact .act p a hn hd
  | other ho s =>
    refine .other (fun b _ h => ?_) s
    cases e <;> first | exact h | cases ho

theorem PRun.named {x y : X} {l : List Ev} (h : PRun S N x l y) : NRun S D N x l y := by
  induction h with
  | nil => exact .nil _
  | snoc r s ih => exact ih.snoc s.named

theorem PRun.states {x y : X} {l : List Ev} (h : PRun S N x l y) : ∃ st : Nat → X, st 0 = x ∧
    (∀ i e, l[i]? = some e → PStep S N (st i) e (st (i + 1))) ∧ ∀ i, l.length ≤ i → st i = y := by
  induction h with
  | nil => exact ⟨fun _ => x, rfl, fun i e h => by simp at h, fun _ _ => rfl⟩
  | @snoc y z l e r s ih =>
    obtain ⟨st, h0, h1, h2⟩ := ih
    refine ⟨fun i => if i ≤ l.length then st i else z, (if_pos (Nat.zero_le _)).trans h0, ?_, ?_⟩
    · intro i e' h
      dsimp only
      rcases Nat.lt_trichotomy i l.length with hi | hi | hi
      · rw [List.getElem?_append_left hi] at h
        rw [if_pos (by omega), if_pos (by omega)]
        exact h1 i e' h
      · subst hi
        rw [List.getElem?_concat_length] at h
        cases h
        rw [if_pos (Nat.le_refl _), if_neg (by omega), h2 _ (Nat.le_refl _)]
        exact s
      · rw [List.getElem?_eq_none (by rw [List.length_append, List.length_singleton]; omega)] at h
        cases h
    · intro i hi
      rw [List.length_append, List.length_singleton] at hi
      dsimp only
      rw [if_neg (by omega)]

/-- nothing is in flight after an execution of the program -/
structure Got (S : Sys) (N : NProg) (m : Mems) (l : List Ev) (x : X) : Prop where
  run : PRun S N (start m) l x
  steps : Run S (ginit m) l x.g
  settled : Vis.Settled x.g
  safe : ∀ e ∈ l, e.Safe S
  spaces : ∀ p, (x.g.pe p).spaces = []
  out : ∀ p, x.g.arr p = 0 ∧ x.g.lv p = 0

theorem run_perf {x0 : X} {g g' : G} {l' : List Ev} (h : Run S g l' g') : ∀ {l : List Ev} {pos : Nat → Nat}, (∀ e ∈ l', e.own = none) →
    PRun S N x0 l ⟨g, pos⟩ → PRun S N x0 (l ++ l') ⟨g', pos⟩ := by
  induction h with
  | nil g => intro l pos _ r; rw [List.append_nil]; exact r
  | @cons g g1 g2 e l1 s r ih =>
    intro l pos hl h
    have := ih (fun e he => hl e (List.mem_cons_of_mem _ he)) (h.snoc (.other (x := ⟨g, pos⟩) (hl e (List.mem_cons_self ..)) s))
    rwa [List.append_assoc] at this

theorem does_noenter {p : Nat} {a : Act} {e : Ev} (h : Sig.Does p a e) (q : Nat) : e ≠ .enter q ∧ e ≠ .leave q := by
  cases a with
  | put tgt nbi xs => obtain ⟨_, _, _, rfl⟩ := h; exact ⟨(fun h => by cases h), (fun h => by cases h)⟩
  | get tgt nbi xs => obtain ⟨_, _, _, rfl⟩ := h; exact ⟨(fun h => by cases h), (fun h => by cases h)⟩
  | store a v => cases h; exact ⟨(fun h => by cases h), (fun h => by cases h)⟩
  | quiet => rcases h with rfl | rfl <;> exact ⟨(fun h => by cases h), (fun h => by cases h)⟩
  | wait a t op v => obtain ⟨_, rfl, _⟩ := h; exact ⟨(fun h => by cases h), (fun h => by cases h)⟩

/-- in a state with nothing in flight, the library takes the call; a wait returns if its flag is set -/
theorem named_made (J : Job S k Z B) {p : Nat} {a : NAct} (hok : a.Ok S k Z B s p) {g : G} (hr : Reach S g) (hf : Free S g p)
    (hs : Vis.Settled g) (hsp : (g.pe p).spaces = [])
    (hw : ∀ w t op v, a.act B p = .wait w t op v → Passes t op v (word (g.mem p) w t)) : ∃ e g', a.Does S p g e g' := by
  cases a with
  | store y v => exact ⟨_, _, rfl, Step.store p y v hf⟩
  | quiet => exact Bsp.named_made J (s := s) (a := .quiet) trivial hr hf hs hsp
  | fence => exact Bsp.named_made J (s := s) (a := .fence) trivial hr hf hs hsp
  | rma rt fn isCtx a tgt => exact Bsp.named_made J (a := .rma rt fn isCtx a tgt) hok hr hf hs hsp
  | wait rt row ivar cmp v =>
    have h := round_made J hok hf
    have := hw _ _ _ _ rfl
    rw [eq_true this] at h
    exact ⟨_, _, h⟩

/-- one call of a program, and everything it has left in flight -/
theorem one_call (J : Job S k Z B) (hm : NMeans S k Z B s D N M acts F) {l : List Ev} {x : X} (h : Got S N M l x) {p : Nat} (hp : p < S.npes)
    (hlt : x.pos p < (acts p).length)
    (hw : ∀ a, (acts p)[x.pos p]? = some a → ∀ w t op v, a.act B p = .wait w t op v → Passes t op v (word (x.g.mem p) w t)) :
    ∃ l' x', Got S N M l' x' ∧ x'.pos = Function.update x.pos p (x.pos p + 1) := by
  have hf : Free S x.g p := ⟨hp, by rw [(h.out p).1, (h.out p).2], settled_busy h.settled p⟩
  have hnx := named_next hm (C108_moves_partial J hm h.run.named) hf
  obtain ⟨a, hga⟩ : ∃ a, (acts p)[x.pos p]? = some a := ⟨_, List.getElem?_eq_getElem hlt⟩
  rw [hga] at hnx
  have hok := hm.ok p hp a (List.mem_of_getElem? hga)
  obtain ⟨e, g1, hd⟩ := named_made J hok ⟨_, _, h.steps⟩ hf h.settled (h.spaces p) (hw a hga)
  obtain ⟨hd', st⟩ := named_does J hok hd
  have r1 : Run S (ginit M) (l ++ [e]) g1 := run_append h.steps (Run.cons st (Run.nil _))
  have hsafe : ∀ e' ∈ l ++ [e], e'.Safe S := by
    intro e' he
    rcases List.mem_append.1 he with he | he
    · exact h.safe e' he
    · rw [List.mem_singleton.1 he]
      exact calls_safe (does_calls hd')
  have hsp : ∀ q, (g1.pe q).spaces = [] := Bsp.nospaces_step st (fun q op h => by subst h; exact calls_call (does_calls hd')) h.spaces
  obtain ⟨l2, g2, r2, h1, h2, h3, h4, h5⟩ := C94_settles ⟨_, _, r1⟩ (noFault_safe r1 hsafe)
  have hown : ∀ e ∈ l2, e.own = none := by
    intro e he
    have := h1 e he
    cases e <;> first | exact (this : False).elim | rfl
  refine ⟨_, ⟨g2, Function.update x.pos p (x.pos p + 1)⟩, ⟨run_perf r2 hown (h.run.snoc (.act p a hnx hd)), run_append r1 r2, h2, ?_, ?_, ?_⟩, rfl⟩
  · intro e' he
    rcases List.mem_append.1 he with he | he
    · exact hsafe e' he
    · exact perf_safe (h1 e' he)
  · intro q; rw [h3]; exact hsp q
  · intro q
    refine ⟨?_, ?_⟩
    · show g2.arr q = _
      rw [h4, Bsp.arr_step st (fun q => (does_noenter hd' q).1)]
      exact (h.out q).1
    · show g2.lv q = _
      rw [h5]
      rcases Bsp.lv_step st q with h' | ⟨h', _⟩
      · rw [h']; exact (h.out q).2
      · exact absurd h' (does_noenter hd' q).2

theorem rank_mono {n : Nat} {as : Nat → List Act} {rank : Nat → Nat → Nat} (ho : Ordered n as F rank) {p : Nat} (hp : p < n) {i j : Nat} (h : i ≤ j) :
    rank p i ≤ rank p j := by
  obtain ⟨d, rfl⟩ := Nat.exists_eq_add_of_le h
  clear h
  induction d with
  | zero => exact Nat.le_refl _
  | succ d ih => exact ih.trans (Nat.le_of_lt (ho.up p hp (i + d)))

/-- a PE whose next action has the lowest rank can go on -/
theorem lowest_passes (J : Job S k Z B) (hm : NMeans S k Z B s D N M acts F) {rank : Nat → Nat → Nat}
    (ho : Ordered S.npes (fun p => (acts p).map (NAct.act B p)) F rank) {l : List Ev} {x : X} (h : Got S N M l x) {p : Nat} (hp : p < S.npes)
    (hmin : ∀ q < S.npes, x.pos q < (acts q).length → rank p (x.pos p) ≤ rank q (x.pos q)) {a : NAct} (ha : (acts p)[x.pos p]? = some a)
    (w : Int) (t : P2p.CTy) (op : Int) (v : Nat) (hw : a.act B p = .wait w t op v) : Passes t op v (word (x.g.mem p) w t) := by
  have inv := inv_run hm.means (C108_moves_partial J hm h.run.named)
  have hk : ((acts p).map (NAct.act B p))[x.pos p]? = some (.wait w t op v) := by rw [List.getElem?_map, ha, Option.map_some, hw]
  have e : word (x.g.mem p) w t = word (F p) w t := by
    refine word_congr fun y h1 h2 => ?_
    have hD : D (p, y) := hm.means.inside p hp _ (List.mem_of_getElem? hk) _ (Or.inr ⟨rfl, h1, h2⟩)
    by_cases hwr : ∃ q < S.npes, ∃ (j : Nat) (c : Act), ((acts q).map (NAct.act B q))[j]? = some c ∧ c.writes q (p, y)
    · obtain ⟨q, hq, j, c, hc, hcw⟩ := hwr
      obtain ⟨l', l1, l2, l3⟩ := ho.before p hp _ w t op v hk q hq j c y hc h1 h2 hcw
      have hlt : l' < x.pos q := by
        by_contra hge
        have hl := (List.getElem?_eq_some_iff.mp l2).1
        rw [List.length_map] at hl
        have a1 := hmin q hq (by omega)
        have a2 := rank_mono ho hq (Nat.le_of_not_lt hge)
        omega
      exact (quiet_settled hm.means inv hq hc hcw l1 l2 hlt).val
    · have hn : ∀ q < S.npes, ∀ c ∈ (acts q).map (NAct.act B q), ¬ c.writes q (p, y) := by
        intro q hq c hc h
        obtain ⟨j, hj⟩ := List.getElem?_of_mem hc
        exact hwr ⟨q, hq, j, c, hj, h⟩
      rcases inv.byte _ hD with ⟨_, _, h3⟩ | h1 | ⟨q, j, c, own, src, f⟩
      · exact h3.trans (hm.means.rest _ hD hn).symm
      · exact h1.val
      · exact absurd f.hw (hn q f.hp c (List.mem_of_getElem? f.ha))
  rw [e]
  exact ho.comes p hp _ w t op v hk

/-- among finitely many numbers there is a smallest -/
theorem exists_min (n : Nat) (Q : Nat → Prop) (f : Nat → Nat) (h : ∃ p < n, Q p) : ∃ p < n, Q p ∧ ∀ q < n, Q q → f p ≤ f q := by
  classical
  obtain ⟨p, hp, hq⟩ := h
  have : ∃ r, ∃ p < n, Q p ∧ f p = r := ⟨f p, p, hp, hq, rfl⟩
  obtain ⟨p', h1, h2, h3⟩ := Nat.find_spec this
  refine ⟨p', h1, h2, fun q hq hQ => ?_⟩
  rw [h3]
  exact Nat.find_min' this ⟨q, hq, hQ, rfl⟩

/-- calls that are still to be made -/
def left (n : Nat) (acts : Nat → List NAct) (pos : Nat → Nat) : Nat := ((List.range n).map fun p => (acts p).length - pos p).sum

theorem left_upd {acts : Nat → List NAct} {pos : Nat → Nat} {p : Nat} (hlt : pos p < (acts p).length) : ∀ n, left n acts (Function.update pos p (pos p + 1)) +
    (if p < n then 1 else 0) = left n acts pos := by
  intro n
  induction n with
  | zero => rfl
  | succ n ih =>
    unfold left at ih ⊢
    rw [List.range_succ, List.map_append, List.map_append, List.sum_append, List.sum_append, ← ih]
    simp only [List.map_cons, List.map_nil, List.sum_cons, List.sum_nil]
    rw [upd_at]
    by_cases h : n = p
    · subst h
      rw [if_pos rfl, if_pos (by omega), if_neg (by omega)]
      omega
    · rw [if_neg h]
      by_cases h2 : p < n
      · rw [if_pos h2, if_pos (by omega)]; omega
      · rw [if_neg h2, if_neg (by omega)]; omega

theorem left_zero {acts : Nat → List NAct} {pos : Nat → Nat} {n : Nat} (h : ∀ p < n, (acts p).length ≤ pos p) : left n acts pos = 0 := by
  induction n with
  | zero => rfl
  | succ n ih =>
    unfold left at ih ⊢
    rw [List.range_succ, List.map_append, List.sum_append, ih fun p hp => h p (by omega)]
    have := h n (by omega)
    simp only [List.map_cons, List.map_nil, List.sum_cons, List.sum_nil]
    omega

/-- the whole program can be run -/
theorem whole (J : Job S k Z B) (hm : NMeans S k Z B s D N M acts F) {rank : Nat → Nat → Nat}
    (ho : Ordered S.npes (fun p => (acts p).map (NAct.act B p)) F rank) :
    ∀ (n : Nat) {l : List Ev} {x : X}, Got S N M l x → left S.npes acts x.pos = n → ∃ l' x', Got S N M l' x' ∧ ∀ p < S.npes, x'.pos p = (acts p).length := by
  intro n
  induction n with
  | zero =>
    intro l x h hn
    refine ⟨l, x, h, fun p hp => ?_⟩
    have inv := inv_run hm.means (C108_moves_partial J hm h.run.named)
    have hl := inv.len p hp
    rw [List.length_map] at hl
    rcases Nat.lt_or_ge (x.pos p) (acts p).length with hlt | hge
    · have := left_upd hlt S.npes
      rw [if_pos hp] at this
      omega
    · omega
  | succ n ih =>
    intro l x h hn
    have hex : ∃ p < S.npes, x.pos p < (acts p).length := by
      by_contra hno
      push Not at hno
      rw [left_zero hno] at hn
      omega
    obtain ⟨p, hp, hlt, hmin⟩ := exists_min S.npes (fun p => x.pos p < (acts p).length) (fun p => rank p (x.pos p)) hex
    obtain ⟨l1, x1, g1, e1⟩ := one_call J hm h hp hlt fun a ha w t op v hw => lowest_passes J hm ho h hp hmin ha w t op v hw
    refine ih g1 ?_
    have := left_upd hlt S.npes
    rw [if_pos hp] at this
    rw [e1]
    omega

/-- **C108** (such programs run): every program written with the routines of the API that has a meaning, all of whose calls have right arguments,
and whose PEs do not wait for each other in a circle has a fair execution (in which all PEs get to the end and all memory ends up as the program
means: `C108_named_partial`). -/
theorem C108_exists_partial (J : Job S k Z B) (hm : NMeans S k Z B s D N M acts F) {rank : Nat → Nat → Nat}
    (ho : Ordered S.npes (fun p => (acts p).map (NAct.act B p)) F rank) :
    ∃ (R : Inf S) (pos : Nat → Nat → Nat), R.Fair ∧ R.mem = M ∧ NExec D N R pos := by
  have g0 : Got S N M [] (start M) := by
    refine ⟨.nil _, Run.nil _, ?_, (fun e he => by cases he), fun _ => rfl, fun _ => ⟨rfl, rfl⟩⟩
    rintro a ⟨r, own, ⟨x, hx, _⟩ | ⟨_, hx⟩⟩ <;> cases hx
  obtain ⟨l, x, h, hK⟩ := whole J hm ho _ g0 rfl
  obtain ⟨st, h0, h1, h2⟩ := h.run.states
  have hrun : ∀ i, ∃ l', PRun S N (start M) l' (st i) := by
    intro i
    induction i with
    | zero => rw [h0]; exact ⟨[], .nil _⟩
    | succ i ih =>
      obtain ⟨l', ih⟩ := ih
      cases he : l[i]? with
      | none =>
        have := List.getElem?_eq_none_iff.1 he
        rw [h2 (i + 1) (by omega), ← h2 i this]
        exact ⟨l', ih⟩
      | some e => exact ⟨_, ih.snoc (h1 i e he)⟩
  have hnx : ∀ i p, Free S (st i).g p → N.next p ((st i).pos p) ((st i).g.mem p) = (acts p)[(st i).pos p]? := by
    intro i p hf
    obtain ⟨l', r⟩ := hrun i
    exact named_next hm (C108_moves_partial J hm r.named) hf
  have hmem : ∀ i p a, Free S (st i).g p → N.next p ((st i).pos p) ((st i).g.mem p) = some a → a ∈ acts p := by
    intro i p a hf hn
    rw [hnx i p hf] at hn
    exact List.mem_of_getElem? hn
  have hok : ∀ i p a, Free S (st i).g p → N.next p ((st i).pos p) ((st i).g.mem p) = some a → a.Ok S k Z B s p :=
    fun i p a hf hn => hm.ok p hf.1 a (hmem i p a hf hn)
  have hstep : ∀ i e, l[i]? = some e → Step S (st i).g e (st (i + 1)).g := by
    intro i e he
    have hst := h1 i e he
    have hk := hok i
    generalize st i = y at hst hk
    generalize st (i + 1) = z at hst
    cases hst with
    | act p a hn hd => exact (named_does J (hk p a (free_of_named hd) hn) hd).2
    | other ho s => exact s
  obtain ⟨R, hF, hM, hev, hwant, hst⟩ := states_fair (m := M) (st := fun i => (st i).g) (congrArg X.g h0) hstep
    (fun i hi => congrArg X.g (h2 i hi)) h.settled (fun p hp => by rw [(h.out p).1, (h.out p).2])
  have hs' : ∀ i, R.st i = (st i).g := fun i => congrFun hst i
  have hown : ∀ i e p, R.ev i = some e → e.own = some p →
      ∃ a : NAct, N.next p ((st i).pos p) ((st i).g.mem p) = some a ∧ a.Does S p (st i).g e (st (i + 1)).g ∧
        (st (i + 1)).pos p = (st i).pos p + 1 := by
    intro i e p he ho
    rw [hev] at he
    have hs1 := h1 i e he
    have hk := hok i
    generalize st i = y at hs1 hk ⊢
    generalize st (i + 1) = z at hs1 ⊢
    cases hs1 with
    | act q a hn hd =>
      have := does_own (named_does J (hk q a (free_of_named hd) hn) hd).1
      rw [ho] at this
      cases this
      exact ⟨a, hn, hd, Function.update_self ..⟩
    | other ho' s => rw [ho] at ho'; cases ho'
  have hmute : ∀ i p, R.Mute i p → (st (i + 1)).pos p = (st i).pos p := by
    intro i p hmu
    cases he : l[i]? with
    | none =>
      have := List.getElem?_eq_none_iff.1 he
      rw [h2 (i + 1) (by omega), h2 i this]
    | some e =>
      have hne := hmu e ((hev i).trans he)
      have hs1 := h1 i e he
      have hk := hok i
      generalize st i = y at hs1 hk ⊢
      generalize st (i + 1) = z at hs1 ⊢
      cases hs1 with
      | act q a hn hd =>
        refine Function.update_of_ne (fun h => ?_) _ _
        subst h
        exact hne (does_own (named_does J (hk _ a (free_of_named hd) hn) hd).1)
      | other ho s => rfl
  have hmutes : ∀ i p n, (∀ j, i ≤ j → j < i + n → R.Mute j p) → (st (i + n)).pos p = (st i).pos p := by
    intro i p n
    induction n with
    | zero => intro _; rfl
    | succ n ih =>
      intro hj
      rw [← ih fun j a b => hj j a (by omega)]
      exact hmute (i + n) p (hj (i + n) (by omega) (by omega))
  refine ⟨R, fun i => (st i).pos, hF, hM, ⟨?_, ?_, ?_, ?_, ?_⟩⟩
  · show (st 0).pos = _
    rw [h0]
    rfl
  · intro i e he
    rw [hs', hs']
    rw [hev] at he
    exact (h1 i e he).named
  · intro i he
    rw [hev] at he
    have := List.getElem?_eq_none_iff.1 he
    show (st (i + 1)).pos = (st i).pos
    rw [h2 (i + 1) (by omega), h2 i this]
  · intro i e p he ho
    rw [hs', hs']
    obtain ⟨a, b, c, d⟩ := hown i e p he ho
    exact ⟨a, b, Or.inl ⟨c, d⟩⟩
  · intro i p hf
    have hn0 := hnx i p (by rw [← hs']; exact hf)
    rw [← hs'] at hn0
    rw [hn0]
    cases hga : (acts p)[(st i).pos p]? with
    | none => trivial
    | some a =>
      -- the next event of this PE
      have hmu : ¬ ∀ j, i ≤ j → R.Mute j p := by
        intro hmu
        have h3 := hmutes i p l.length (fun j h _ => hmu j h)
        rw [h2 _ (by omega), hK p hf.1] at h3
        rw [← h3, List.getElem?_eq_none (Nat.le_refl _)] at hga
        cases hga
      obtain ⟨n1, e, b1, b2, b3, b4⟩ := first_own hmu
      have hr := (R.rest n1 b1).1
      have hpos := hmutes i p n1 b1
      have harr : (st (i + n1)).g.arr p = (R.st i).arr p := by rw [← hs']; exact hr.arr
      have hf2 : Free S (st (i + n1)).g p := by rw [← hs']; exact own_free (R.step _ e b2) b3
      have hno : nextOwn (l.drop i) p = some e := by
        have e1 := b2
        have hkeep : ∀ m, m ≤ n1 → nextOwn (l.drop (i + m)) p = nextOwn (l.drop i) p := by
          intro m
          induction m with
          | zero => intro _; rfl
          | succ m ih =>
            intro hm'
            rw [← ih (by omega)]
            refine nextOwn_skip fun e' he' => ?_
            exact b1 (i + m) (by omega) (by omega) e' ((hev _).trans he')
        rw [← hkeep n1 (Nat.le_refl _)]
        rw [hev] at e1
        obtain ⟨hl, rfl⟩ := List.getElem?_eq_some_iff.1 e1
        rw [List.drop_eq_getElem_cons hl]
        unfold nextOwn
        rw [List.find?_cons_of_pos]
        simpa using b3
      have hw : ∀ e', R.want i p e' ↔ wants (some e) e' := by
        intro e'
        rw [hwant, hno]
      obtain ⟨a', hn, hd, _⟩ := hown _ e p b2 b3
      have ha' : a' = a := by
        rw [hnx _ p hf2, hpos, hga] at hn
        exact (Option.some.inj hn).symm
      subst ha'
      have ho := hok _ p a' hf2 hn
      cases a' with
      | quiet =>
        obtain ⟨rfl, _⟩ := hd
        funext e'
        exact propext (hw e')
      | fence =>
        obtain ⟨rfl, _⟩ := hd
        funext e'
        exact propext (hw e')
      | store y v =>
        obtain ⟨rfl, _⟩ := hd
        exact (hw _).2 rfl
      | rma rt fn isCtx a tgt =>
        intro e' g' hd'
        refine (hw _).2 ?_
        have e1 := (Bsp.named_rma J ho hd').2.2
        have e2 := (Bsp.named_rma J ho hd).2.2
        rw [harr] at e2
        have : e' = e := by rw [e1, e2]; rfl
        rw [this]
        exact wants_self _
      | wait rt row ivar cmp v =>
        intro e' g' ends hd'
        refine (hw _).2 ?_
        rw [(round_is J hf.1 ho hd').2.1, (round_is J hf.1 ho hd).2.1]
        exact ⟨_, rfl⟩

end

end Verif.Sig
