import Verif.Vis.Lin
/-!
# Property C73: AMOs take effect exactly once
-/
namespace Verif.Vis
open Verif.Sobj Verif.Rma
open Verif.Order (St Pend Cfg Op)
open Verif.Amo (TyIdx Fp)

/-- does the access belong to a call that `P` describes? -/
def Atom.is (P : Inv' → Bool) : Atom → Bool
  | .set _ _ _ => false
  | .mv _ _ _ _ => false
  | .upd t a ty api _ => P ⟨t, a, ty, api⟩

/-- is the event an AMO call of PE `q` that `P` describes? -/
def Ev.isCall (q : Nat) (P : Inv' → Bool) : Ev → Bool
  | .amo p t _ _ a ty api _ => decide (p = q) && P ⟨t, a, ty, api⟩
  | .done _ _ _ => false
  | .put _ _ _ _ _ _ _ => false
  | .get _ _ _ _ _ _ _ => false
  | .store _ _ _ => false
  | .poll _ _ _ _ => false
  | .touch _ _ => false
  | .call _ _ => false
  | .enter _ => false
  | .leave _ => false
  | .tau => false

/-- is the event the performing of an AMO of PE `q` that `P` describes? -/
def Ev.isDone (q : Nat) (P : Inv' → Bool) : Ev → Bool
  | .done p b _ => decide (p = q) && b.is P
  | .amo _ _ _ _ _ _ _ _ => false
  | .put _ _ _ _ _ _ _ => false
  | .get _ _ _ _ _ _ _ => false
  | .store _ _ _ => false
  | .poll _ _ _ _ => false
  | .touch _ _ => false
  | .call _ _ => false
  | .enter _ => false
  | .leave _ => false
  | .tau => false

/-- the accesses of PE `q` in flight that `P` describes -/
def inFlight (q : Nat) (P : Inv' → Bool) (g : G) : Nat :=
  ((g.fly q).map (fun x => x.todo.countP (Atom.is P))).sum + (g.busy q).countP (Atom.is P)

theorem count_settle (P : Inv' → Bool) (fl : List Fly) (s' : St) (d : Done fl s') :
    ((settle fl s').map (fun x => x.todo.countP (Atom.is P))).sum = (fl.map (fun x => x.todo.countP (Atom.is P))).sum := by
  induction fl with
  | nil => rfl
  | cons x l ih =>
    have ih := ih (fun y hy => d y (List.mem_cons_of_mem _ hy))
    unfold settle at ih ⊢
    rw [List.filter_cons]
    split
    · simp only [List.map_cons, List.sum_cons, ih]
    · rename_i h
      have : x.todo = [] := d x (List.mem_cons_self ..) (by simpa using h)
      simp only [List.map_cons, List.sum_cons, ih, this, List.countP_nil, Nat.zero_add]

theorem inFlight_after (q : Nat) (P : Inv' → Bool) {g : G} {p : Nat} {s' : St} {new : List Atom} (hb : g.busy p = [])
    (d : Done (g.fly p) s') :
    inFlight q P (after g p s' new) = inFlight q P g + if p = q then new.countP (Atom.is P) else 0 := by
  unfold inFlight
  by_cases h : p = q
  · subst h
    simp only [after, upd_at, if_true, List.map_append, List.sum_append, count_settle P _ _ d, hb]
    cases pushed (g.pe p) s' with
    | none => simp
    | some pd => simp
  · have h' : ¬ q = p := fun e => h e.symm
    simp only [after, upd_at, h, h', if_false, Nat.add_zero]

theorem inFlight_afterRet (q : Nat) (P : Inv' → Bool) {g : G} {p : Nat} {s' : St} {new : List Atom} (hb : g.busy p = [])
    (d : Done (g.fly p) s') :
    inFlight q P (afterRet g p s' new) = inFlight q P g + if p = q then new.countP (Atom.is P) else 0 := by
  unfold inFlight
  by_cases h : p = q
  · subst h
    simp only [afterRet, after, upd_at, if_true, List.map_append, List.sum_append, count_settle P _ _ d, hb]
    cases pushed (g.pe p) s' with
    | none => simp
    | some pd => simp
  · have h' : ¬ q = p := fun e => h e.symm
    simp only [afterRet, after, upd_at, h, h', if_false, Nat.add_zero]

theorem count_none (P : Inv' → Bool) {l : List Atom} (h : ∀ b ∈ l, b.is P = false) : l.countP (Atom.is P) = 0 := by
  rw [List.countP_eq_zero]
  intro b hb
  rw [h b hb]
  exact Bool.false_ne_true

theorem count_step {S : Sys} (q : Nat) (P : Inv' → Bool) {g g' : G} {e : Ev} (h : Step S g e g') :
    inFlight q P g' + [e].countP (Ev.isDone q P) = inFlight q P g + [e].countP (Ev.isCall q P) := by
  cases h with
  | put p tgt nbi ctx addr src n gpu mode oc tc oty tty xs s' hf hm e hx d =>
    rw [inFlight_after q P hf.2.2 d, count_none P (fun b hb => by
      obtain ⟨y, _, rfl⟩ := List.mem_map.mp hb
      cases nbi <;> rfl)]
    simp [Ev.isDone, Ev.isCall]
  | get p tgt nbi ctx addr src n gpu mode oc tc oty tty xs s' hf hm e hx d =>
    rw [inFlight_after q P hf.2.2 d, count_none P (fun b hb => by
      obtain ⟨y, _, rfl⟩ := List.mem_map.mp hb
      rfl)]
    simp [Ev.isDone, Ev.isCall]
  | amo p tgt ctx addr r ty' api gpu mode s' hf hm hty hk e hr d =>
    rw [inFlight_after q P hf.2.2 d]
    by_cases h : p = q
    · simp only [Ev.isDone, Ev.isCall, h, Atom.is, List.countP_cons, List.countP_nil, if_true, decide_true, Bool.true_and]
      by_cases hP : P ⟨tgt, r.toInt, ty', api⟩ = true
      · simp [hP]
      · simp [hP]
    · simp [Ev.isDone, Ev.isCall, h]
  | amoRet p tgt ctx addr r ty' api gpu mode s' hf hm hty hk e hr d =>
    rw [inFlight_afterRet q P hf.2.2 d]
    by_cases h : p = q
    · simp only [Ev.isDone, Ev.isCall, h, Atom.is, List.countP_cons, List.countP_nil, if_true, decide_true, Bool.true_and]
      by_cases hP : P ⟨tgt, r.toInt, ty', api⟩ = true
      · simp [hP]
      · simp [hP]
    · simp [Ev.isDone, Ev.isCall, h]
  | store p a' v hf => rfl
  | poll p addr r n mode hf hm hr => rfl
  | touch p ws hf => rfl
  | call p op s' hf l hop e d =>
    rw [inFlight_after q P hf.2.2 d]
    simp [Ev.isDone, Ev.isCall]
  | enter p s' hf e d =>
    have : inFlight q P { after g p s' [] with arr := Function.update g.arr p (g.arr p + 1) } = inFlight q P (after g p s' []) := rfl
    rw [this, inFlight_after q P hf.2.2 d]
    simp [Ev.isDone, Ev.isCall]
  | leave p hp h0 ha' => rfl
  | perform p l1 l2 pd t1 t2 b m' hq hl e =>
    unfold inFlight
    by_cases h : p = q
    · subst h
      simp only [upd_at, if_true, hl, List.map_append, List.map_cons, List.sum_append, List.sum_cons, List.countP_append,
        List.countP_cons, List.countP_nil, Ev.isDone, Ev.isCall, decide_true, Bool.true_and]
      simp
      omega
    · have h' : ¬ q = p := fun e => h e.symm
      simp only [upd_at, h', if_false]
      simp [Ev.isDone, Ev.isCall, h]
  | performBusy p t1 t2 b m' hq hl e =>
    unfold inFlight
    by_cases h : p = q
    · subst h
      simp only [upd_at, if_true, hl, List.countP_append, List.countP_cons, List.countP_nil, Ev.isDone, Ev.isCall, decide_true,
        Bool.true_and]
      simp
      omega
    · have h' : ¬ q = p := fun e => h e.symm
      simp only [upd_at, h', if_false]
      simp [Ev.isDone, Ev.isCall, h]
  | fin p done hq d =>
    unfold inFlight
    by_cases h : p = q
    · subst h
      simp only [upd_at, if_true, count_settle P _ _ d]
      simp [Ev.isDone, Ev.isCall]
    · have h' : ¬ q = p := fun e => h e.symm
      simp only [upd_at, h', if_false]
      simp [Ev.isDone, Ev.isCall]

/-- calls made = performed + in flight -/
theorem count_run {S : Sys} (q : Nat) (P : Inv' → Bool) {g g' : G} {l : List Ev} (h : Run S g l g') :
    inFlight q P g' + l.countP (Ev.isDone q P) = inFlight q P g + l.countP (Ev.isCall q P) := by
  induction h with
  | nil g => rfl
  | @cons g1 g2 g3 e l s r ih =>
    have h1 := count_step q P s
    have h2 : (e :: l).countP (Ev.isDone q P) = [e].countP (Ev.isDone q P) + l.countP (Ev.isDone q P) := by
      rw [← List.countP_append]; rfl
    have h3 : (e :: l).countP (Ev.isCall q P) = [e].countP (Ev.isCall q P) + l.countP (Ev.isCall q P) := by
      rw [← List.countP_append]; rfl
    rw [h2, h3]
    omega

theorem inFlight_zero {q : Nat} {P : Inv' → Bool} {g : G} (h : ∀ b, Flies g b → b.is P = false) : inFlight q P g = 0 := by
  unfold inFlight
  rw [count_none P (fun b hb => h b ⟨q, none, Or.inr ⟨rfl, hb⟩⟩), Nat.add_zero]
  refine List.sum_eq_zero (fun y hy => ?_)
  obtain ⟨x, hx, rfl⟩ := List.mem_map.mp hy
  exact count_none P (fun b hb => h b ⟨q, some x.pend, Or.inl ⟨x, hx, rfl, hb⟩⟩)

/-- C73. AMOs on a word, of any PE and described by any `P` (e.g. "`set` with operand 0"): no call takes effect more than once,
in any execution. -/
theorem C73_at_most_once {S : Sys} {g0 g : G} {l : List Ev} (h : Run S g0 l g) {t : Nat} {a : Int} {ty : TyIdx}
    (hn : NoWriter g0 (t, a)) (q : Nat) (P : Amo.Api → Bool) :
    l.countP (Ev.isDone q fun i => decide (i.t = t ∧ i.a = a ∧ i.ty = ty) && P i.api) ≤
      l.countP (Ev.isCall q fun i => decide (i.t = t ∧ i.a = a ∧ i.ty = ty) && P i.api) := by
  have h1 := count_run q (fun i => decide (i.t = t ∧ i.a = a ∧ i.ty = ty) && P i.api) h
  rw [inFlight_zero (g := g0) (fun b hb => ?_)] at h1
  · omega
  · cases b with
    | set d a' v => rfl
    | mv s sa d a' => rfl
    | upd d a' ty' api am =>
      simp only [Atom.is, Bool.and_eq_false_iff, decide_eq_false_iff_not]
      left
      rintro ⟨rfl, rfl, rfl⟩
      have := bytes_pos ty'
      exact hn _ hb ⟨rfl, le_refl _, by dsimp only; omega⟩

/-- C73. After a barrier that each PE entered after its last call, every call has taken effect exactly once. Missing: words in a
space without dynamic windows, or AMOs on contexts (`Settled`). -/
theorem C73_exactly_once_partial {S : Sys} {g0 g : G} (hr : Reach S g0) {l : List Ev} (h : Run S g0 l g) {t : Nat} {a : Int}
    {ty : TyIdx} (hn : NoWriter g0 (t, a)) {p : Nat} (hp : p < S.npes)
    (hl : ∀ e ∈ l, e.touches t a ty → e.Settled S (g.lv p)) (q : Nat) (P : Amo.Api → Bool) :
    l.countP (Ev.isDone q fun i => decide (i.t = t ∧ i.a = a ∧ i.ty = ty) && P i.api) =
      l.countP (Ev.isCall q fun i => decide (i.t = t ∧ i.a = a ∧ i.ty = ty) && P i.api) := by
  have hz : ∀ g : G, NoWriter g (t, a) → inFlight q (fun i => decide (i.t = t ∧ i.a = a ∧ i.ty = ty) && P i.api) g = 0 := by
    intro g hn
    refine inFlight_zero (fun b hb => ?_)
    cases b with
    | set d a' v => rfl
    | mv s sa d a' => rfl
    | upd d a' ty' api am =>
      simp only [Atom.is, Bool.and_eq_false_iff, decide_eq_false_iff_not]
      left
      rintro ⟨rfl, rfl, rfl⟩
      have := bytes_pos ty'
      exact hn _ hb ⟨rfl, le_refl _, by dsimp only; omega⟩
  have hpos := bytes_pos ty
  have hw := noWriter_settled (gi_reach hr) hn h hp (fun e he hw => hl e he ⟨a, le_refl _, by omega, hw⟩)
  have h1 := count_run q (fun i => decide (i.t = t ∧ i.a = a ∧ i.ty = ty) && P i.api) h
  rw [hz _ hn, hz _ hw] at h1
  omega

/-- what has been performed on the word was called -/
theorem acts_called {S : Sys} {g0 g : G} {l : List Ev} (h : Run S g0 l g) {t : Nat} {a : Int} {ty : TyIdx}
    (hn : ∀ y, a ≤ y → y < a + ty.bytes → NoWriter g0 (t, y)) {c : Nat × Amo.Api × Nat} (hc : c ∈ acts t a ty l) :
    ∃ ctx addr ep, Ev.amo c.1 t ctx addr a ty c.2.1 ep ∈ l := by
  classical
  have hpos := bytes_pos ty
  have h1 := C73_at_most_once h (ty := ty) (hn a (le_refl _) (by omega)) c.1 (fun x => decide (x = c.2.1))
  have h2 : 0 < l.countP (Ev.isDone c.1 fun i => decide (i.t = t ∧ i.a = a ∧ i.ty = ty) && decide (i.api = c.2.1)) := by
    clear h1 h hn
    rw [List.countP_pos_iff]
    induction l with
    | nil => cases hc
    | cons e l ih =>
      rw [show e :: l = [e] ++ l from rfl, acts_append, List.mem_append] at hc
      rcases hc with hc | hc
      · refine ⟨e, List.mem_cons_self .., ?_⟩
        cases e with
        | done q b r =>
          cases b with
          | set d a' v => cases hc
          | mv s sa d a' => cases hc
          | upd d a' ty' api am =>
            simp only [acts] at hc
            split at hc
            · rename_i h
              rw [List.mem_singleton] at hc
              subst hc
              simp [Ev.isDone, Atom.is, h]
            · cases hc
        | put p tgt nbi ctx addr xs ep => cases hc
        | get p tgt nbi ctx addr xs ep => cases hc
        | amo p tgt ctx addr a ty api ep => cases hc
        | store p a v => cases hc
        | poll p a n r => cases hc
        | touch p ws => cases hc
        | call p op => cases hc
        | enter p => cases hc
        | leave p => cases hc
        | tau => cases hc
      · obtain ⟨e', h1, h2⟩ := ih hc
        exact ⟨e', List.mem_cons_of_mem _ h1, h2⟩
  have h3 := lt_of_lt_of_le h2 h1
  rw [List.countP_pos_iff] at h3
  obtain ⟨e, he, hi⟩ := h3
  cases e with
  | amo p tgt ctx addr a' ty' api ep =>
    simp only [Ev.isCall, Bool.and_eq_true, decide_eq_true_eq] at hi
    obtain ⟨rfl, ⟨rfl, rfl, rfl⟩, rfl⟩ := hi
    exact ⟨ctx, addr, ep, he⟩
  | done q b r => cases hi
  | put p tgt nbi ctx addr xs ep => cases hi
  | get p tgt nbi ctx addr xs ep => cases hi
  | store p a v => cases hi
  | poll p a n r => cases hi
  | touch p ws => cases hi
  | call p op => cases hi
  | enter p => cases hi
  | leave p => cases hi
  | tau => cases hi

/-- the history accesses the word only by AMOs, and by routines `Q` only -/
def OnlyBy (t : Nat) (a : Int) (ty : TyIdx) (Q : Amo.Api → Prop) (l : List Ev) : Prop :=
  ∀ e ∈ l, e.touches t a ty → ∃ p ctx addr api ep, e = .amo p t ctx addr a ty api ep ∧ Q api

theorem only_amo {t : Nat} {a : Int} {ty : TyIdx} {Q : Amo.Api → Prop} {l : List Ev} (h : OnlyBy t a ty Q l) :
    ∀ e ∈ l, e.touches t a ty → e.IsAmo t a ty := by
  intro e he ht
  obtain ⟨p, ctx, addr, api, ep, h, _⟩ := h e he ht
  exact ⟨p, ctx, addr, api, ep, h⟩

theorem only_acts {S : Sys} {g0 g : G} {l : List Ev} (h : Run S g0 l g) {t : Nat} {a : Int} {ty : TyIdx} {Q : Amo.Api → Prop}
    (hn : ∀ y, a ≤ y → y < a + ty.bytes → NoWriter g0 (t, y)) (hl : OnlyBy t a ty Q l) : ∀ c ∈ acts t a ty l, Q c.2.1 := by
  intro c hc
  obtain ⟨ctx, addr, ep, hm⟩ := acts_called h hn hc
  have hpos := bytes_pos ty
  obtain ⟨p, ctx', addr', api, ep', he, hq⟩ := hl _ hm ⟨a, le_refl _, by omega, rfl, le_refl _, by dsimp only; omega⟩
  cases he
  exact hq

end Verif.Vis
