import Verif.Bsp.Named
/-!
# C107: every program without races can be run to its end

For every program written with the routines of the API that has a meaning (`NMeans`: no races, right arguments) there is a fair execution; so
C105 and C106 speak about something for every program, and the library never gets stuck in a call of such a program.
-/
namespace Verif.Bsp
open Verif.Sobj Verif.Rma Verif.Vis Verif.Api Verif.Flow
open Verif.Heap (heapSize trueSize Call)

/-! ## Proof: executions in which PEs do nothing but their program -/

/-- a step: a call of the program, a barrier, or something no PE calls (an access is performed, a PE leaves a barrier) -/
inductive PStep (S : Sys) (N : NProg) : X → Ev → X → Prop
  | act {x : X} {e : Ev} {g' : G} (p : Nat) (a : NAct) (hn : N.next p (x.g.arr p) (x.pos p) (x.g.mem p) = some a) (hd : a.Does S p x.g e g') :
      PStep S N x e ⟨g', Function.update x.pos p (x.pos p + 1)⟩
  | bar {x : X} {g' : G} (p : Nat) (hn : N.next p (x.g.arr p) (x.pos p) (x.g.mem p) = none) (s : Step S x.g (.enter p) g') :
      PStep S N x (.enter p) ⟨g', Function.update x.pos p 0⟩
  | other {x : X} {e : Ev} {g' : G} (ho : e.own = none) (s : Step S x.g e g') : PStep S N x e ⟨g', x.pos⟩

inductive PRun (S : Sys) (N : NProg) : X → List Ev → X → Prop
  | nil (x : X) : PRun S N x [] x
  | snoc {x y z : X} {l : List Ev} {e : Ev} (r : PRun S N x l y) (s : PStep S N y e z) : PRun S N x (l ++ [e]) z

section
variable {S : Sys} {k Z : Nat} {B : Nat → Nat} {s : Dl.St} {D : Nat × Int → Prop} {N : NProg} {M : Nat → Mems} {acts : Nat → Nat → List NAct}

theorem PStep.named {x y : X} {e : Ev} (h : PStep S N x e y) : NStep S D N x e y := by
  cases h with
  | act p a hn hd => exact .act p a hn hd
  | bar p hn s => exact .bar p hn s
  | other ho s =>
    refine .other (fun p h => by subst h; cases ho) (fun b _ h => ?_) s
    cases e <;> first | exact h | cases ho

theorem PRun.named {x y : X} {l : List Ev} (h : PRun S N x l y) : NRun S D N x l y := by
  induction h with
  | nil => exact .nil _
  | snoc r s ih => exact ih.snoc s.named

theorem PRun.states {x y : X} {l : List Ev} (h : PRun S N x l y) : ∃ st : Nat → X, st 0 = x ∧
    (∀ i e, l[i]? = some e → PStep S N (st i) e (st (i + 1))) ∧ ∀ i, l.length ≤ i → st i = y := by
  induction h with
  | nil => exact ⟨fun _ => x, rfl, fun i e h => by simp at h, fun _ _ => rfl⟩
  | @snoc y z l e r s ih =>
    obtain ⟨st, h0, h1, h2⟩ := ih
    refine ⟨fun i => if i ≤ l.length then st i else z, (if_pos (Nat.zero_le _)).trans h0, ?_, ?_⟩
    · intro i e' h
      dsimp only
      rcases Nat.lt_trichotomy i l.length with hi | hi | hi
      · rw [List.getElem?_append_left hi] at h
        rw [if_pos (by omega), if_pos (by omega)]
        exact h1 i e' h
      · subst hi
        rw [List.getElem?_concat_length] at h
        cases h
        rw [if_pos (Nat.le_refl _), if_neg (by omega), h2 _ (Nat.le_refl _)]
        exact s
      · rw [List.getElem?_eq_none (by rw [List.length_append, List.length_singleton]; omega)] at h
        cases h
    · intro i hi
      rw [List.length_append, List.length_singleton] at hi
      dsimp only
      rw [if_neg (by omega)]

/-- nothing is in flight after an execution of the program, whose additions are safe -/
structure Got (S : Sys) (N : NProg) (m : Mems) (l : List Ev) (x : X) : Prop where
  run : PRun S N (start m) l x
  steps : Run S (ginit m) l x.g
  settled : Settled x.g
  safe : ∀ e ∈ l, e.Safe S
  spaces : ∀ p, (x.g.pe p).spaces = []

theorem run_perf {x0 : X} {g g' : G} {l' : List Ev} (h : Run S g l' g') : ∀ {l : List Ev} {pos : Nat → Nat}, (∀ e ∈ l', e.own = none) →
    PRun S N x0 l ⟨g, pos⟩ → PRun S N x0 (l ++ l') ⟨g', pos⟩ := by
  induction h with
  | nil g => intro l pos _ r; rw [List.append_nil]; exact r
  | @cons g g1 g2 e l1 s r ih =>
    intro l pos hl h
    have := ih (fun e he => hl e (List.mem_cons_of_mem _ he)) (h.snoc (.other (x := ⟨g, pos⟩) (hl e (List.mem_cons_self ..)) s))
    rwa [List.append_assoc] at this

/-- in a state with nothing in flight, the library takes the call -/
theorem named_made (J : Job S k Z B) {p : Nat} {a : NAct} (hok : a.Ok S k Z B s p) {g : G} (hr : Reach S g) (hf : Free S g p) (hs : Settled g)
    (hsp : (g.pe p).spaces = []) : ∃ e g', a.Does S p g e g' := by
  cases a with
  | store y v => exact ⟨_, _, rfl, Step.store p y v hf⟩
  | quiet =>
    obtain ⟨s', e⟩ := Order.C56_quiet_partial (hist_reach hr p) (by rw [hsp]; intro x hx; cases hx)
    exact ⟨_, _, rfl, Step.call p (.quiet none) s' hf trivial (fun _ _ _ _ _ _ h => by cases h) e (settled_done hs p s')⟩
  | fence =>
    obtain ⟨s', e⟩ := Order.C56_quiet_partial (hist_reach hr p) (by rw [hsp]; intro x hx; cases hx)
    exact ⟨_, _, rfl, Step.call p (.fence none) s' hf trivial (fun _ _ _ _ _ _ h => by cases h) e (settled_done hs p s')⟩
  | add n =>
    obtain ⟨x, d, u⟩ := hok
    have hmode : Mode.rel = .abs → (S.cf p).dyn = true := fun h => by cases h
    obtain ⟨hsym, hd, hin, ht⟩ := u.sym J (gpu := true) hmode g
    have hno : (if n.isCtx then n.ctx else none) = none := by
      cases h : n.isCtx with
      | false => rfl
      | true => exact u.dflt h
    obtain ⟨s', e⟩ := C94_issue hr p (Or.inl hin) 1 u.target (amoKind (n.rt.means n.cond n.value)) true
    obtain ⟨ev, g1, h, _⟩ := C97_call (S := S) (gpu := true) (mode := .rel) (n := n) u.exist u.row (p := p) (g0 := g)
      hf hmode hsym hd (by rw [hno]; exact e) (settled_done hs p s')
    exact ⟨ev, g1, true, .rel, h⟩
  | rma rt fn isCtx a tgt =>
    obtain ⟨hoff, x, d, hu⟩ := hok
    have hmode : Mode.rel = .abs → (S.cf p).dyn = true := fun h => by cases h
    have u := hu true .rel hmode
    obtain ⟨hsym, ha, hadr⟩ := u.sym J hmode g
    obtain ⟨s', e⟩ := C94_issue hr p (Or.inl (use_adr J u).2) (count rt a) u.target (kindOf rt) true
    obtain ⟨xs, h⟩ := C93_call (S := S) true hoff (isCtx := isCtx) (ctx := none) (g0 := g) hf hmode hsym ha u.limits
      (by rw [u.noctx]; exact e) (settled_done hs p s')
    obtain ⟨c, hc, _⟩ := id h
    exact ⟨event c none a p tgt xs _, _, true, true, .rel, c, xs, _, hc, rfl, h⟩

/-- additions to signed words are made with AMOs of MPI -/
def SafeAdds (S : Sys) (acts : Nat → Nat → List NAct) : Prop :=
  ∀ j, ∀ p < S.npes, ∀ m, NAct.add m ∈ acts j p → (S.cf p).amoDirect = true ∨ m.row.mpi.kind ≠ .sint m.row.mpi.bytes

theorem act_safe {p : Nat} {a : NAct} (hs : ∀ m, a = .add m → (S.cf p).amoDirect = true ∨ m.row.mpi.kind ≠ .sint m.row.mpi.bytes)
    (tgt : Nat) (w : Int) (ty : Amo.TyIdx) (v : Nat) (h : a.act B p = .add tgt w ty v) : (S.cf p).amoDirect = true ∨ ty.kind ≠ .sint ty.bytes := by
  cases a with
  | add m => cases h; exact hs m rfl
  | rma rt fn isCtx a tgt =>
    unfold NAct.act at h
    dsimp only at h
    split at h <;> cases h
  | _ => cases h

/-- one call of a program, and everything it has left in flight -/
theorem one_call (J : Job S k Z B) (hm : NMeans S k Z B s D N M acts) (hs : SafeAdds S acts) {l : List Ev} {x : X} (h : Got S N (M 0) l x)
    {p : Nat} (hp : p < S.npes) (hb : x.g.arr p = x.g.lv p) (hlt : x.pos p < (acts (x.g.arr p) p).length) :
    ∃ l' x', Got S N (M 0) l' x' ∧ x'.pos = Function.update x.pos p (x.pos p + 1) ∧ x'.g.arr = x.g.arr ∧ x'.g.lv = x.g.lv := by
  have hf : Free S x.g p := ⟨hp, hb, settled_busy h.settled p⟩
  have hnx := named_next hm (C106_moves_partial J hm h.run.named) hf
  rw [List.getElem?_eq_getElem hlt] at hnx
  generalize hga : (acts (x.g.arr p) p)[x.pos p] = a at hnx
  have hmem : a ∈ acts (x.g.arr p) p := hga ▸ List.getElem_mem hlt
  have hok := hm.ok _ p hp a hmem
  obtain ⟨e, g1, hd⟩ := named_made J hok ⟨_, _, h.steps⟩ hf h.settled (h.spaces p)
  obtain ⟨hd', st⟩ := named_does J hok hd
  have r1 : Run S (ginit (M 0)) (l ++ [e]) g1 := run_append h.steps (Run.cons st (Run.nil _))
  have hsafe : ∀ e' ∈ l ++ [e], e'.Safe S := by
    intro e' he
    rcases List.mem_append.1 he with he | he
    · exact h.safe e' he
    · rw [List.mem_singleton.1 he]
      exact does_safe hd' (act_safe fun m hm' => hs _ p hp m (hm' ▸ hmem))
  have hsp : ∀ q, (g1.pe q).spaces = [] := nospaces_step st (fun q op h => by subst h; exact does_call hd') h.spaces
  obtain ⟨l2, g2, r2, h1, h2, h3, h4, h5⟩ := C94_settles ⟨_, _, r1⟩ (noFault_safe r1 hsafe)
  have hown : ∀ e ∈ l2, e.own = none := by
    intro e he
    have := h1 e he
    cases e <;> first | exact (this : False).elim | rfl
  refine ⟨_, ⟨g2, Function.update x.pos p (x.pos p + 1)⟩, ⟨run_perf r2 hown (h.run.snoc (.act p a hnx hd)), run_append r1 r2, h2, ?_, ?_⟩, rfl, ?_, ?_⟩
  · intro e' he
    rcases List.mem_append.1 he with he | he
    · exact hsafe e' he
    · exact perf_safe (h1 e' he)
  · intro q; rw [h3]; exact hsp q
  · show g2.arr = _
    rw [h4, arr_step st (fun q => (does_noenter hd' q).1)]
  · show g2.lv = _
    rw [h5]
    funext q
    rcases Bsp.lv_step st q with h | ⟨h, _⟩
    · exact h
    · exact absurd h (does_noenter hd' q).2

/-- all calls of a PE in a phase -/
theorem pe_calls (J : Job S k Z B) (hm : NMeans S k Z B s D N M acts) (hs : SafeAdds S acts) {p : Nat} (hp : p < S.npes) :
    ∀ (n : Nat) {l : List Ev} {x : X}, Got S N (M 0) l x → x.g.arr p = x.g.lv p → x.pos p + n = (acts (x.g.arr p) p).length →
    ∃ l' x', Got S N (M 0) l' x' ∧ x'.pos = Function.update x.pos p (acts (x.g.arr p) p).length ∧ x'.g.arr = x.g.arr ∧ x'.g.lv = x.g.lv := by
  intro n
  induction n with
  | zero =>
    intro l x h _ hn
    refine ⟨l, x, h, ?_, rfl, rfl⟩
    rw [← hn, Nat.add_zero, Function.update_eq_self]
  | succ n ih =>
    intro l x h hb hn
    obtain ⟨l1, x1, g1, e1, e2, e3⟩ := one_call J hm hs h hp hb (by omega)
    obtain ⟨l2, x2, g2, f1, f2, f3⟩ := ih g1 (by rw [e2, e3]; exact hb) (by rw [e1, e2, Function.update_self]; omega)
    refine ⟨l2, x2, g2, ?_, by rw [f2, e2], by rw [f3, e3]⟩
    rw [f1, e1, e2, Function.update_idem]

/-- all calls of all PEs in a phase -/
theorem all_calls (J : Job S k Z B) (hm : NMeans S k Z B s D N M acts) (hs : SafeAdds S acts) {K : Nat} {l : List Ev} {x : X}
    (h : Got S N (M 0) l x) (hK : ∀ p < S.npes, x.g.arr p = K ∧ x.g.lv p = K ∧ x.pos p = 0) : ∀ n ≤ S.npes,
    ∃ l' x', Got S N (M 0) l' x' ∧ x'.g.arr = x.g.arr ∧ x'.g.lv = x.g.lv ∧ (∀ p < n, x'.pos p = (acts K p).length) ∧ ∀ p, n ≤ p → x'.pos p = x.pos p := by
  intro n
  induction n with
  | zero => intro _; exact ⟨l, x, h, rfl, rfl, fun p hp => by omega, fun _ _ => rfl⟩
  | succ n ih =>
    intro hn
    obtain ⟨l1, x1, g1, e1, e2, e3, e4⟩ := ih (by omega)
    obtain ⟨h1, h2, h3⟩ := hK n (by omega)
    have ha : x1.g.arr n = K := by rw [e1]; exact h1
    obtain ⟨l2, x2, g2, f1, f2, f3⟩ := pe_calls J hm hs (p := n) (by omega) _ g1 (by rw [e1, e2, h1, h2])
      (show x1.pos n + (acts (x1.g.arr n) n).length = _ by rw [e4 n (Nat.le_refl _), h3]; omega)
    refine ⟨l2, x2, g2, by rw [f2, e1], by rw [f3, e2], ?_, ?_⟩
    · intro p hp
      rw [f1, upd_at]
      split
      · rename_i h; subst h; rw [ha]
      · exact e3 p (by omega)
    · intro p hp
      rw [f1, upd_at, if_neg (by omega)]
      exact e4 p (by omega)

/-- entering and leaving a barrier when all calls of the phase have been made -/
theorem bar_run (J : Job S k Z B) (hm : NMeans S k Z B s D N M acts) {K : Nat} {g g' : G} {l' : List Ev} (r : Run S g l' g') :
    ∀ {l : List Ev} {pos : Nat → Nat}, (∀ e ∈ l', e.isSync) → (∀ p < S.npes, g'.arr p = K + 1) → PRun S N (start (M 0)) l ⟨g, pos⟩ →
    Run S (ginit (M 0)) l g →
    (∀ p < S.npes, (g.arr p = K ∧ pos p = (acts K p).length) ∨ (g.arr p = K + 1 ∧ pos p = 0)) → (∀ p, (g.pe p).spaces = []) →
    ∃ pos', PRun S N (start (M 0)) (l ++ l') ⟨g', pos'⟩ ∧ (∀ p < S.npes, pos' p = 0) ∧ ∀ p, (g'.pe p).spaces = [] := by
  have mono : ∀ {g g' : G} {l : List Ev}, Run S g l g' → ∀ p, g.arr p ≤ g'.arr p := by
    intro g g' l r
    induction r with
    | nil g => exact fun _ => Nat.le_refl _
    | cons s r ih => exact fun p => (Vis.arr_step s p).trans (ih p)
  induction r with
  | nil g =>
    intro l pos _ hK h _ hi hsp
    refine ⟨pos, by rw [List.append_nil]; exact h, fun p hp => ?_, hsp⟩
    rcases hi p hp with ⟨h1, _⟩ | ⟨_, h2⟩
    · have := hK p hp; omega
    · exact h2
  | @cons g g1 g2 e l1 st r ih =>
    intro l pos hl hK h hr hi hsp
    have hy := hl e (List.mem_cons_self ..)
    have hsp1 : ∀ p, (g1.pe p).spaces = [] := nospaces_step st (fun p op h => by subst h; exact (hy : False).elim) hsp
    have hr1 : Run S (ginit (M 0)) (l ++ [e]) g1 := run_append hr (Run.cons st (Run.nil _))
    have go : ∀ {pos1 : Nat → Nat}, PStep S N ⟨g, pos⟩ e ⟨g1, pos1⟩ →
        (∀ p < S.npes, (g1.arr p = K ∧ pos1 p = (acts K p).length) ∨ (g1.arr p = K + 1 ∧ pos1 p = 0)) →
        ∃ pos', PRun S N (start (M 0)) (l ++ e :: l1) ⟨g2, pos'⟩ ∧ (∀ p < S.npes, pos' p = 0) ∧ ∀ p, (g2.pe p).spaces = [] := by
      intro pos1 s1 hi1
      have := ih (fun e he => hl e (List.mem_cons_of_mem _ he)) hK (h.snoc s1) hr1 hi1 hsp1
      rwa [List.append_assoc] at this
    by_cases hen : ∃ p, e = .enter p
    · obtain ⟨p, rfl⟩ := hen
      have hf := own_free st (p := p) rfl
      have ha := enter_arr st
      have hle := mono r p
      have hpK := hK p hf.1
      rcases hi p hf.1 with ⟨h1, h2⟩ | ⟨h1, _⟩
      · have hnx := named_next hm (C106_moves_partial J hm h.named) hf
        dsimp only at hnx
        rw [List.getElem?_eq_none (by rw [h1, h2])] at hnx
        refine go (.bar (x := ⟨g, pos⟩) p hnx st) fun q hq => ?_
        rw [upd_at]
        split
        · rename_i he; subst he
          exact Or.inr ⟨by omega, rfl⟩
        · rename_i hne
          have : g1.arr q = g.arr q := by
            cases st with
            | enter p s' hf e d =>
              show (Function.update _ _ _) q = _
              rw [upd_at, if_neg hne]
          rw [this]
          exact hi q hq
      · omega
    · have hne : ∀ p, e ≠ .enter p := fun p h => hen ⟨p, h⟩
      have ho : e.own = none := by
        cases e <;> first | exact (hy : False).elim | rfl | exact absurd rfl (hne _)
      refine go (.other (x := ⟨g, pos⟩) ho st) ?_
      rw [arr_step st hne]
      exact hi

theorem sync_safe {e : Ev} (h : e.isSync) : e.Safe S := by cases e <;> first | exact trivial | exact (h : False).elim

/-- a phase and the barrier after it -/
theorem one_phase (J : Job S k Z B) (hm : NMeans S k Z B s D N M acts) (hs : SafeAdds S acts) {K : Nat} {l : List Ev} {x : X}
    (h : Got S N (M 0) l x) (hK : ∀ p < S.npes, x.g.arr p = K ∧ x.g.lv p = K ∧ x.pos p = 0) :
    ∃ l' x', Got S N (M 0) l' x' ∧ ∀ p < S.npes, x'.g.arr p = K + 1 ∧ x'.g.lv p = K + 1 ∧ x'.pos p = 0 := by
  obtain ⟨l1, ⟨g1, pos1⟩, h1, e1, e2, e3, _⟩ := all_calls J hm hs h hK S.npes (Nat.le_refl _)
  have ha : ∀ p < S.npes, g1.arr p = K := fun p hp => by
    have : g1.arr = x.g.arr := e1
    rw [this]; exact (hK p hp).1
  obtain ⟨l2, g2, r, hl, hset, hN⟩ := C94_barrier (N := K + 1) ⟨_, _, h1.steps⟩ (noFault_safe h1.steps h1.safe)
    (fun p hp => by rw [ha p hp]; omega)
  obtain ⟨pos2, hr, hpos, hsp⟩ := bar_run J hm r hl (fun p hp => (hN p hp).1) h1.run h1.steps (fun p hp => Or.inl ⟨ha p hp, e3 p hp⟩) h1.spaces
  refine ⟨_, ⟨g2, pos2⟩, ⟨hr, run_append h1.steps r, hset, ?_, hsp⟩, fun p hp => ⟨(hN p hp).1, (hN p hp).2, hpos p hp⟩⟩
  intro e he
  rcases List.mem_append.1 he with he | he
  · exact h1.safe e he
  · exact sync_safe (hl e he)

theorem phases (J : Job S k Z B) (hm : NMeans S k Z B s D N M acts) (hs : SafeAdds S acts) (n : Nat) :
    ∃ l x, Got S N (M 0) l x ∧ ∀ p < S.npes, x.g.arr p = n ∧ x.g.lv p = n ∧ x.pos p = 0 := by
  induction n with
  | zero =>
    refine ⟨[], start (M 0), ⟨.nil _, Run.nil _, ?_, (fun e he => by cases he), fun _ => rfl⟩, fun _ _ => ⟨rfl, rfl, rfl⟩⟩
    rintro a ⟨r, own, ⟨x, hx, _⟩ | ⟨_, hx⟩⟩ <;> cases hx
  | succ n ih =>
    obtain ⟨l, x, h, hK⟩ := ih
    exact one_phase J hm hs h hK

/-- **C107** (such programs run): every program written with the routines of the API that has a meaning without races, all of whose calls have
right arguments, has for every number `n` of barriers a fair execution (in which all PEs get through the barriers and all memory ends up as the
program means: C106). Additions to signed words need AMOs of MPI (C24: the handlers' addition is undefined on overflow). -/
theorem C107_exists_partial (J : Job S k Z B) (hm : NMeans S k Z B s D N M acts) (hs : SafeAdds S acts) (n : Nat) :
    ∃ (R : Inf S) (pos : Nat → Nat → Nat), R.Fair ∧ R.mem = M 0 ∧ NExec D N n R pos := by
  obtain ⟨l, x, h, hK⟩ := phases J hm hs n
  obtain ⟨st, h0, h1, h2⟩ := h.run.states
  have hrun : ∀ i, ∃ l', PRun S N (start (M 0)) l' (st i) := by
    intro i
    induction i with
    | zero => rw [h0]; exact ⟨[], .nil _⟩
    | succ i ih =>
      obtain ⟨l', ih⟩ := ih
      cases he : l[i]? with
      | none =>
        have := List.getElem?_eq_none_iff.1 he
        rw [h2 (i + 1) (by omega), ← h2 i this]
        exact ⟨l', ih⟩
      | some e => exact ⟨_, ih.snoc (h1 i e he)⟩
  have hnx : ∀ i p, Free S (st i).g p → N.next p ((st i).g.arr p) ((st i).pos p) ((st i).g.mem p) = (acts ((st i).g.arr p) p)[(st i).pos p]? := by
    intro i p hf
    obtain ⟨l', r⟩ := hrun i
    exact named_next hm (C106_moves_partial J hm r.named) hf
  have hmem : ∀ i p a, Free S (st i).g p → N.next p ((st i).g.arr p) ((st i).pos p) ((st i).g.mem p) = some a → a ∈ acts ((st i).g.arr p) p := by
    intro i p a hf hn
    rw [hnx i p hf] at hn
    exact List.mem_of_getElem? hn
  have hok : ∀ i p a, Free S (st i).g p → N.next p ((st i).g.arr p) ((st i).pos p) ((st i).g.mem p) = some a → a.Ok S k Z B s p :=
    fun i p a hf hn => hm.ok _ p hf.1 a (hmem i p a hf hn)
  have hstep : ∀ i e, l[i]? = some e → Step S (st i).g e (st (i + 1)).g := by
    intro i e he
    have hst := h1 i e he
    have hk := hok i
    generalize st i = y at hst hk
    generalize st (i + 1) = z at hst
    cases hst with
    | act p a hn hd => exact (named_does J (hk p a (free_of_named hd) hn) hd).2
    | bar p hn s => exact s
    | other ho s => exact s
  obtain ⟨R, hF, hM, hev, hwant, hst⟩ := states_fair (m := M 0) (st := fun i => (st i).g) (congrArg X.g h0) hstep
    (fun i hi => congrArg X.g (h2 i hi)) h.settled (fun p hp => by rw [(hK p hp).1, (hK p hp).2.1])
  have hs' : ∀ i, R.st i = (st i).g := fun i => congrFun hst i
  have hown : ∀ i e p, R.ev i = some e → e.own = some p → (e = .enter p ∧ N.next p ((st i).g.arr p) ((st i).pos p) ((st i).g.mem p) = none) ∨
      ∃ a : NAct, N.next p ((st i).g.arr p) ((st i).pos p) ((st i).g.mem p) = some a ∧ a.Does S p (st i).g e (st (i + 1)).g ∧
        (st (i + 1)).pos p = (st i).pos p + 1 := by
    intro i e p he ho
    rw [hev] at he
    have hs1 := h1 i e he
    have hk := hok i
    generalize st i = y at hs1 hk ⊢
    generalize st (i + 1) = z at hs1 ⊢
    cases hs1 with
    | act q a hn hd =>
      have := does_own (named_does J (hk q a (free_of_named hd) hn) hd).1
      rw [ho] at this
      cases this
      exact Or.inr ⟨a, hn, hd, Function.update_self ..⟩
    | bar q hn s => cases ho; exact Or.inl ⟨rfl, hn⟩
    | other ho' s => rw [ho] at ho'; cases ho'
  have hmute : ∀ i p, R.Mute i p → (st (i + 1)).pos p = (st i).pos p := by
    intro i p hmu
    cases he : l[i]? with
    | none =>
      have := List.getElem?_eq_none_iff.1 he
      rw [h2 (i + 1) (by omega), h2 i this]
    | some e =>
      have hne := hmu e ((hev i).trans he)
      have hs1 := h1 i e he
      have hk := hok i
      generalize st i = y at hs1 hk ⊢
      generalize st (i + 1) = z at hs1 ⊢
      cases hs1 with
      | act q a hn hd =>
        refine Function.update_of_ne (fun h => ?_) _ _
        subst h
        exact hne (does_own (named_does J (hk _ a (free_of_named hd) hn) hd).1)
      | bar q hn s =>
        refine Function.update_of_ne (fun h => ?_) _ _
        subst h
        exact hne rfl
      | other ho s => rfl
  have hmutes : ∀ i p n, (∀ j, i ≤ j → j < i + n → R.Mute j p) → (st (i + n)).pos p = (st i).pos p := by
    intro i p n
    induction n with
    | zero => intro _; rfl
    | succ n ih =>
      intro hj
      rw [← ih fun j a b => hj j a (by omega)]
      exact hmute (i + n) p (hj (i + n) (by omega) (by omega))
  refine ⟨R, fun i => (st i).pos, hF, hM, ⟨?_, ?_, ?_, ?_, ?_, ?_⟩⟩
  · show (st 0).pos = _
    rw [h0]
    rfl
  · intro i e he
    rw [hs', hs']
    rw [hev] at he
    exact (h1 i e he).named
  · intro i he
    rw [hev] at he
    have := List.getElem?_eq_none_iff.1 he
    show (st (i + 1)).pos = (st i).pos
    rw [h2 (i + 1) (by omega), h2 i this]
  · intro i e p he ho
    rw [hs', hs']
    rcases hown i e p he ho with ⟨h, _⟩ | h
    · exact Or.inl h
    · exact Or.inr h
  · intro i p hf hlt
    -- the next event of this PE
    have hmu : ¬ ∀ j, i ≤ j → R.Mute j p := by
      intro hmu
      have h3 := (R.rest l.length (fun j h _ => hmu j h)).1.arr
      rw [hs' (i + l.length), h2 _ (by omega), (hK p hf.1).1] at h3
      omega
    obtain ⟨n1, e, b1, b2, b3, b4⟩ := first_own hmu
    have hr := (R.rest n1 b1).1
    have hpos := hmutes i p n1 b1
    have harr : (st (i + n1)).g.arr p = (R.st i).arr p := by rw [← hs']; exact hr.arr
    have hf2 : Free S (st (i + n1)).g p := by rw [← hs']; exact own_free (R.step _ e b2) b3
    have hn1 := hnx (i + n1) p hf2
    have hn0 := hnx i p (by rw [← hs']; exact hf)
    rw [← hs'] at hn0
    have same : N.next p ((R.st i).arr p) ((st i).pos p) ((R.st i).mem p) =
        N.next p ((st (i + n1)).g.arr p) ((st (i + n1)).pos p) ((st (i + n1)).g.mem p) := by
      rw [hn1, hn0, harr, hpos]
    rw [same]
    have hw : ∀ e', R.want i p e' ↔ e' = e := by
      intro e'
      rw [hwant] at b4 ⊢
      rw [b4]
      exact ⟨fun h => (Option.some.inj h).symm, fun h => congrArg some h.symm⟩
    rcases hown _ e p b2 b3 with ⟨rfl, hn⟩ | ⟨a, hn, hd, _⟩
    · rw [hn]
      funext e'
      exact propext (hw e')
    · rw [hn]
      have ho := hok _ p a hf2 hn
      cases a with
      | quiet =>
        obtain ⟨rfl, _⟩ := hd
        funext e'
        exact propext (hw e')
      | fence =>
        obtain ⟨rfl, _⟩ := hd
        funext e'
        exact propext (hw e')
      | store y v =>
        obtain ⟨rfl, _⟩ := hd
        exact (hw _).2 rfl
      | rma rt fn isCtx a tgt =>
        intro e' g' hd'
        refine (hw _).2 ?_
        rw [(named_rma J ho hd').2.2, (named_rma J ho hd).2.2, harr]
        rfl
      | add m =>
        intro e' g' hd'
        refine (hw _).2 ?_
        rw [(named_add J ho hd').2.2, (named_add J ho hd).2.2, harr]
        rfl
  · intro i p m hf hn
    rw [hs'] at hf hn
    exact hs _ p hf.1 m (hmem i p _ hf hn)

end

end Verif.Bsp
