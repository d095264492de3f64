import Verif.Mix.Seq
import Verif.Bsp.Steps
/-!
# C114: barriers that complete operations, in programs with locks and barriers

As `Mix/Seq.lean`, but what a PE has issued need not be waited for before a barrier if it is something the code's barrier completes (C30, C65:
coll_impl.h L12-32, order_impl.h L23-96).
-/
namespace Verif.Crit.Mix
open Verif.Rma Verif.Lock
open Verif.Vis (NoWriter Only)

/-! ## Programs without races -/

/-- The call is one that the code's barrier completes (`Vis.BarCov`: made by active message, or on the default context and, without dynamic windows, on
the heap or the global data), or is complete when it returns (a blocking get, a store). -/
def EvCov (S : Vis.Sys) : Vis.Ev → Prop
  | .put p _ _ ctx addr _ _ => Vis.BarCov (S.cf p) ((S.cf p).rma == .am) ctx addr
  | .get p _ nbi ctx addr _ _ => nbi = true → Vis.BarCov (S.cf p) ((S.cf p).rma == .am) ctx addr
  | .amo p _ ctx addr _ _ _ _ => Vis.BarCov (S.cf p) (!(S.cf p).amoDirect) ctx addr
  | .store _ _ _ => True
  | .poll _ _ _ _ => True
  | .touch _ _ => True
  | .call _ _ => True
  | .enter _ => True
  | .leave _ => True
  | .done _ _ _ => True
  | .tau => True

/-- A finite execution of program `P` in which the operations of the actions `cov` (PE, number of the action) are ones that a barrier completes. -/
inductive CRun (T : Sys) (P : Prog) (cov : Nat → Nat → Prop) : PX → List Ev → PX → Prop
  | nil (x : PX) : CRun T P cov x [] x
  | snoc {x y z : PX} {l : List Ev} {e : Ev} (r : CRun T P cov x l y) (s : PStep T P y e z)
      (hc : ∀ e', e = .rma e' → ∀ p, e'.own = some p → cov p (y.pos p) → EvCov T.vis e') : CRun T P cov x (l ++ [e]) z

/-- Before its action number `i`, PE `p` has issued something with its action number `j` that writes byte `b`, and has waited for it neither with a
quiet nor, if a barrier completes it, with a barrier. -/
def PendW (P : Prog) (cov : Nat → Nat → Prop) (p i : Nat) (b : Nat × Int) (j : Nat) : Prop :=
  j < i ∧ (∃ f m, (P p)[j]? = some (.data f) ∧ (f m).late ∧ (f m).writes p b) ∧ (∀ k, j < k → k < i → (P p)[k]? ≠ some .quiet) ∧
    (cov p j → ∀ k, j < k → k < i → (P p)[k]? ≠ some .bar)

/-- the same for something that reads byte `b` -/
def PendR (P : Prog) (cov : Nat → Nat → Prop) (p i : Nat) (b : Nat × Int) (j : Nat) : Prop :=
  j < i ∧ (∃ f m, (P p)[j]? = some (.data f) ∧ (f m).lazy ∧ (f m).reads p b) ∧ (∀ k, j < k → k < i → (P p)[k]? ≠ some .quiet) ∧
    (cov p j → ∀ k, j < k → k < i → (P p)[k]? ≠ some .bar)

/-- something that writes byte `b` is pending -/
def DirtyC (P : Prog) (cov : Nat → Nat → Prop) (p i : Nat) (b : Nat × Int) : Prop := ∃ j, PendW P cov p i b j

/-- something that reads byte `b` is pending -/
def PinnedC (P : Prog) (cov : Nat → Nat → Prop) (p i : Nat) (b : Nat × Int) : Prop := ∃ j, PendR P cov p i b j

/-- The rules for programs without races, as in `Drf`, but what is pending at a barrier must only be something that a barrier
completes. -/
structure DrfC (T : Sys) (P : Prog) (cov : Nat → Nat → Prop) (own : Owns) (used : Nat × Int → Prop) (looks : Nat → Nat → Int → Prop) : Prop where
  dep : ∀ p < T.lk.n, ∀ (i : Nat) (f : IMem → Call), (P p)[i]? = some (.data f) → ∀ m m' : IMem, (∀ a, looks p i a → m a = m' a) → f m = f m'
  look : ∀ p < T.lk.n, ∀ (i : Nat) (f : IMem → Call), (P p)[i]? = some (.data f) → ∀ a, looks p i a →
    CanR P own p i (p, a) ∧ ¬ DirtyC P cov p i (p, a)
  reads : ∀ p < T.lk.n, ∀ (i : Nat) (f : IMem → Call), (P p)[i]? = some (.data f) → ∀ m b, (f m).reads p b →
    b.1 < T.lk.n ∧ CanR P own p i b ∧ ¬ DirtyC P cov p i b
  writes : ∀ p < T.lk.n, ∀ (i : Nat) (f : IMem → Call), (P p)[i]? = some (.data f) → ∀ m b, (f m).writes p b →
    CanW P own p i b ∧ ¬ DirtyC P cov p i b ∧ ¬ PinnedC P cov p i b ∧ ¬ (f m).reads p b
  sole : ∀ p < T.lk.n, ∀ (i : Nat) (f : IMem → Call), (P p)[i]? = some (.data f) → ∀ m, (f m).sole
  clears : ∀ p < T.lk.n, ∀ i l, (P p)[i]? = some (.clear l) → ∀ b, own (epoch (P p) i) b = some (.lock l) →
    ¬ DirtyC P cov p i b ∧ ¬ PinnedC P cov p i b
  bars : ∀ p < T.lk.n, ∀ i, (P p)[i]? = some .bar → ∀ b j, PendW P cov p i b j ∨ PendR P cov p i b j → cov p j
  owned : ∀ e b, own e b ≠ none → used b
  locks : ∀ b : Nat × Int, used b → ∀ z, T.lk.InLock b.1 z → z.toInt ≠ b.2

section
variable {T : Sys} {P : Prog} {cov : Nat → Nat → Prop} {own : Owns} {used : Nat × Int → Prop} {looks : Nat → Nat → Int → Prop}

theorem pendW_next {p i : Nat} {b : Nat × Int} {j : Nat} (h : PendW P cov p i b j) (hq : (P p)[i]? ≠ some .quiet) (hb : (P p)[i]? ≠ some .bar) :
    PendW P cov p (i + 1) b j := by
  obtain ⟨hj, h1, h2, h3⟩ := h
  refine ⟨by omega, h1, fun k h4 h5 => ?_, fun hc k h4 h5 => ?_⟩
  · rcases Nat.lt_or_ge k i with h | h
    · exact h2 k h4 h
    · have : k = i := by omega
      rw [this]; exact hq
  · rcases Nat.lt_or_ge k i with h | h
    · exact h3 hc k h4 h
    · have : k = i := by omega
      rw [this]; exact hb

theorem pinnedC_next {p i : Nat} {b : Nat × Int} (h : PinnedC P cov p i b) (hq : (P p)[i]? ≠ some .quiet) (hb : (P p)[i]? ≠ some .bar) :
    PinnedC P cov p (i + 1) b := by
  obtain ⟨j, hj, h1, h2, h3⟩ := h
  refine ⟨j, by omega, h1, fun k h4 h5 => ?_, fun hc k h4 h5 => ?_⟩
  · rcases Nat.lt_or_ge k i with h | h
    · exact h2 k h4 h
    · have : k = i := by omega
      rw [this]; exact hq
  · rcases Nat.lt_or_ge k i with h | h
    · exact h3 hc k h4 h
    · have : k = i := by omega
      rw [this]; exact hb

theorem pendW_here {p i : Nat} {b : Nat × Int} {f : IMem → Call} (ha : (P p)[i]? = some (.data f)) {m : IMem} (hl : (f m).late)
    (hw : (f m).writes p b) : PendW P cov p (i + 1) b i :=
  ⟨by omega, ⟨f, m, ha, hl, hw⟩, fun k h1 h2 => by omega, fun _ k h1 h2 => by omega⟩

theorem pinnedC_here {p i : Nat} {b : Nat × Int} {f : IMem → Call} (ha : (P p)[i]? = some (.data f)) {m : IMem} (hl : (f m).lazy)
    (hw : (f m).reads p b) : PinnedC P cov p (i + 1) b :=
  ⟨i, by omega, ⟨f, m, ha, hl, hw⟩, fun k h1 h2 => by omega, fun _ k h1 h2 => by omega⟩

theorem dirty_some {c : Order.Cfg} {p i : Nat} {b : Nat × Int} {o : Option Order.Pend}
    (h : ∀ pd, o = some pd → ∃ j, PendW P cov p i b j ∧ (cov p j → Order.Covered c pd ∧ pd.ep = epoch (P p) i)) (ho : o ≠ none) :
    DirtyC P cov p i b := by
  cases o with
  | none => exact absurd rfl ho
  | some pd =>
    obtain ⟨j, hj, _⟩ := h pd rfl
    exact ⟨j, hj⟩

theorem some_next {c : Order.Cfg} {p i : Nat} {b : Nat × Int} {o : Option Order.Pend}
    (h : ∀ pd, o = some pd → ∃ j, PendW P cov p i b j ∧ (cov p j → Order.Covered c pd ∧ pd.ep = epoch (P p) i))
    (hq : (P p)[i]? ≠ some .quiet) (hb : (P p)[i]? ≠ some .bar) :
    ∀ pd, o = some pd → ∃ j, PendW P cov p (i + 1) b j ∧ (cov p j → Order.Covered c pd ∧ pd.ep = epoch (P p) (i + 1)) := by
  intro pd hpd
  obtain ⟨j, h1, h2⟩ := h pd hpd
  refine ⟨j, pendW_next h1 hq hb, ?_⟩
  rw [epoch_other hb]
  exact h2

/-! ## The relation -/

/-- Byte `b` in an execution (`g`) and in a sequential one (`s`): it has the same value and nothing in flight writes it, or one PE, who may write it,
has something in flight that gives it that value; if a barrier completes it, it was issued since the last barrier. -/
def ValC (T : Sys) (P : Prog) (cov : Nat → Nat → Prop) (own : Owns) (g : Vis.G) (s : SX) (b : Nat × Int) : Prop :=
  Quiet g b (s.mem b.1 b.2) ∨ ∃ q < T.lk.n, ∃ o src, CanW P own q (s.pos q) b ∧
    (∀ pd, o = some pd → ∃ j, PendW P cov q (s.pos q) b j ∧ (cov q j → Order.Covered (T.vis.cf q) pd ∧ pd.ep = epoch (P q) (s.pos q))) ∧
    (∀ k', src = some k' → k'.1 < T.lk.n ∧ CanR P own q (s.pos q) k' ∧ (o ≠ none → PinnedC P cov q (s.pos q) k')) ∧
    Only g q o src b (s.mem b.1 b.2)

/-- The place of a PE in an execution and in a sequential one that has passed `e` barriers: the same; it waits for a lock, which in the sequential one
it has not yet taken; it waits in a barrier; or it has yet to return from a barrier that in the sequential one has been passed. -/
def Place (T : Sys) (P : Prog) (x : PX) (s : SX) (e p : Nat) : Prop :=
  (s.pos p = x.pos p ∧ (∀ l < T.lk.m, ¬ InSet (x.x.pc l p)) ∧ x.x.g.arr p = e ∧ x.x.g.lv p = e) ∨
  (s.pos p + 1 = x.pos p ∧ (∃ l < T.lk.m, (P p)[s.pos p]? = some (.set l) ∧ InSet (x.x.pc l p)) ∧ x.x.g.arr p = e ∧ x.x.g.lv p = e) ∨
  (s.pos p = x.pos p ∧ x.x.g.arr p = e + 1 ∧ x.x.g.lv p = e) ∨
  (s.pos p = x.pos p + 1 ∧ x.x.g.arr p = e ∧ x.x.g.lv p + 1 = e)

/-- An execution and a sequential one that has passed `e` barriers. -/
structure DInvC (T : Sys) (P : Prog) (cov : Nat → Nat → Prop) (own : Owns) (used : Nat × Int → Prop) (x : PX) (s : SX) (e : Nat) : Prop where
  ep : ∀ p < T.lk.n, epoch (P p) (s.pos p) = e
  pos : ∀ p < T.lk.n, Place T P x s e p
  mem : ∀ b : Nat × Int, b.1 < T.lk.n → used b → ValC T P cov own x.x.g s b

/-- who holds a lock in the sequential execution holds it -/
theorem ghost_held (hP : Proper T P) {x : PX} {s : SX} {e : Nat} (hi : PcInv T P x) (inv : DInvC T P cov own used x s e) {p l : Nat} (hp : p < T.lk.n)
    (hh : Holds (P p) (s.pos p) l) : l < T.lk.m ∧ x.x.pc l p = .held := by
  have hl : l < T.lk.m := by
    obtain ⟨j, _, h1, _⟩ := hh
    exact (hP.sets p hp j l h1).1
  refine ⟨hl, ?_⟩
  rcases inv.pos p hp with ⟨h1, h2, _⟩ | ⟨h1, ⟨k, hk, h2, h3⟩, _⟩ | ⟨h1, h2, h3⟩ | ⟨h1, h2, h3⟩
  · cases hr : (x.x.pc l p).rest with
    | true => exact (hi.rest p hp l hl hr).2 (h1 ▸ hh)
    | false =>
      obtain ⟨k, hk, ⟨_, h4⟩ | ⟨h4, _⟩⟩ := hi.call p hp l hl hr
      · exact absurd h4 (h2 l hl)
      · rw [h1, hk] at hh
        exact absurd hh (holds_clear h4)
  · have hlk : l ≠ k := by
      rintro rfl
      exact (hP.sets p hp _ l h2).2 hh
    have hh' : Holds (P p) (x.pos p) l := by
      rw [← h1]
      refine (holds_other ?_ ?_).2 hh
      · rw [h2]; intro e; cases e; exact hlk rfl
      · rw [h2]; intro e; cases e
    cases hr : (x.x.pc l p).rest with
    | true => exact (hi.rest p hp l hl hr).2 hh'
    | false =>
      obtain ⟨k', hk', h5⟩ := hi.call p hp l hl hr
      have : k' = s.pos p := by omega
      subst this
      rcases h5 with ⟨h5, _⟩ | ⟨h5, _⟩ <;> rw [h2] at h5 <;> cases h5
      exact absurd rfl hlk
  · obtain ⟨w1, _⟩ := hi.wait p hp (by omega)
    exact (hi.rest p hp l hl (w1 l hl)).2 (h1 ▸ hh)
  · obtain ⟨w1, w2, _⟩ := hi.wait p hp (by omega)
    refine (hi.rest p hp l hl (w1 l hl)).2 ?_
    rw [h1] at hh
    exact (holds_other (by rw [w2]; exact fun h => by cases h) (by rw [w2]; exact fun h => by cases h)).1 hh

/-- no two PEs have to do with a byte if one of them may write it -/
theorem ghost_excl (hP : Proper T P) {x : PX} {s : SX} {e : Nat} (hb : LBase T x.x) (hi : PcInv T P x) (inv : DInvC T P cov own used x s e) {p q : Nat}
    (hp : p < T.lk.n) (hq : q < T.lk.n) {b : Nat × Int} (h1 : CanW P own p (s.pos p) b) (h2 : CanR P own q (s.pos q) b) : p = q := by
  unfold CanR at h2
  unfold CanW at h1 h2
  rw [inv.ep p hp] at h1
  rw [inv.ep q hq] at h2
  rcases h1 with ⟨l, h1, h1'⟩ | h1
  · rcases h2 with (⟨k, h2, h2'⟩ | h2) | h2
    · rw [h1] at h2
      cases h2
      obtain ⟨hl, a1⟩ := ghost_held hP hi inv hp h1'
      exact hb.excl l hl p q a1 (ghost_held hP hi inv hq h2').2
    · rw [h1] at h2; cases h2
    · rw [h1] at h2; cases h2
  · rcases h2 with (⟨k, h2, h2'⟩ | h2) | h2
    · rw [h1] at h2; cases h2
    · rw [h1] at h2; cases h2; rfl
    · rw [h1] at h2; cases h2

/-- what a PE in no blocking call may read and has not written late is settled -/
theorem val_read (hP : Proper T P) (hD : DrfC T P cov own used looks) {x : PX} {s : SX} {ep : Nat} (hb : LBase T x.x) (hi : PcInv T P x) (inv : DInvC T P cov own used x s ep) {p : Nat} (hp : p < T.lk.n)
    (hbz : x.x.g.busy p = []) {b : Nat × Int} (hbn : b.1 < T.lk.n) (hr : CanR P own p (s.pos p) b) (hd : ¬ DirtyC P cov p (s.pos p) b) :
    Quiet x.x.g b (s.mem b.1 b.2) := by
  rcases inv.mem b hbn (hD.owned _ b (canR_own hr)) with h | ⟨q, hq, o, src, h1, h2, h3, h4⟩
  · exact h
  · have := ghost_excl hP hb hi inv hq hp h1 hr
    subst this
    have ho : o = none := by
      cases o with
      | none => rfl
      | some pd =>
        obtain ⟨j, hj, _⟩ := h2 pd rfl
        exact absurd ⟨j, hj⟩ hd
    subst ho
    obtain ⟨e1, e2⟩ := Vis.only_done h4 (by
      rintro a (⟨_, _, ho, _⟩ | ⟨_, hb⟩)
      · cases ho
      · rw [hbz] at hb; cases hb)
    exact ⟨e2, e1⟩

/-- a step that writes none of the bytes; `hpos`: the places change for one PE at most, who is in no blocking call -/
theorem val_keep (wf : T.lk.WF) (un : T.lk.Uniform) (hD : DrfC T P cov own used looks) {x y : X} {s s' : SX} {wtr : List (Nat × Lock.Ev)}
    (hw : WExec T.lk x.words wtr) {ev : Ev} (st : Step T x ev y) (he : ∀ e, ev = .rma e → ∀ k, ¬ e.writes k) (hm : s'.mem = s.mem)
    (hpos : ∀ q < T.lk.n, s'.pos q = s.pos q ∨ (s'.pos q = s.pos q + 1 ∧ x.g.busy q = [] ∧ (P q)[s.pos q]? ≠ some .quiet ∧ (P q)[s.pos q]? ≠ some .bar))
    {b : Nat × Int} (ho : used b) (h : ValC T P cov own x.g s b) : ValC T P cov own y.g s' b := by
  unfold ValC
  rw [hm]
  have hset : Quiet x.g b (s.mem b.1 b.2) → Quiet y.g b (s.mem b.1 b.2) := by
    rintro ⟨a1, a2⟩
    obtain ⟨b1, b2⟩ := quiet_keep wf un hw st (k := b) (hD.locks b ho) (fun e h => he e h _) a1
    exact ⟨b1, b2.trans a2⟩
  rcases h with h | ⟨q, hq, o, src, h1, h2, h3, h4⟩
  · exact Or.inl (hset h)
  · have hk : Only y.g q o src b (s.mem b.1 b.2) := by
      refine only_keep wf un hw st (hD.locks b ho) (fun k' hk' => ?_) (fun e h => he e h _) (fun k' _ e h => he e h _) h4
      exact hD.locks k' (hD.owned _ k' (canR_own (h3 k' hk').2.1))
    rcases hpos q hq with e | ⟨e, hbz, hnq, hnb⟩
    · right
      refine ⟨q, hq, o, src, ?_⟩
      rw [e]
      exact ⟨h1, h2, h3, hk⟩
    · by_cases hon : o = none
      · subst hon
        left
        obtain ⟨e1, e2⟩ := Vis.only_done h4 (by
          rintro a (⟨_, _, ho, _⟩ | ⟨_, hb⟩)
          · cases ho
          · rw [hbz] at hb; cases hb)
        exact hset ⟨e2, e1⟩
      · right
        refine ⟨q, hq, o, src, ?_⟩
        rw [e]
        refine ⟨canW_next h1 hnb fun l hc hl => (hD.clears q hq _ l hc b hl).1 (dirty_some h2 hon), some_next h2 hnq hnb, fun k' hk' => ?_, hk⟩
        obtain ⟨g1, g2, g3⟩ := h3 k' hk'
        exact ⟨g1, canR_next g2 hnb fun l hc hl => (hD.clears q hq _ l hc k' hl).2 (g3 hon), fun _ => pinnedC_next (g3 hon) hnq hnb⟩

/-- a quiet -/
theorem val_quiet (hD : DrfC T P cov own used looks) {x : X} {g' : Vis.G} {s : SX} (hb : LBase T x) {p : Nat} {op : Order.Op}
    (hop : op = .quiet none ∨ op = .fence none) (st : Vis.Step T.vis x.g (.call p op) g') {b : Nat × Int}
    (h : ValC T P cov own x.g s b) : ValC T P cov own g' ⟨s.mem, Function.update s.pos p (s.pos p + 1)⟩ b := by
  have hnw : ∀ k, ¬ (Vis.Ev.call p op).writes k := fun k h => h
  obtain ⟨hfl, hbu⟩ := Vis.quiet_step hb.gi hop st
  rcases h with ⟨a1, a2⟩ | ⟨q, hq, o, src, h1, h2, h3, h4⟩
  · obtain ⟨b1, b2⟩ := Vis.noWriter_step st a1 (hnw _)
    exact Or.inl ⟨b1, b2.trans a2⟩
  · have h5 := Vis.only_step h4 st (hnw _) (fun k' _ => hnw _)
    by_cases hqp : q = p
    · subst hqp
      left
      obtain ⟨e1, e2⟩ := Vis.only_done h5 (by
        rintro a (⟨y, hy, _⟩ | ⟨_, hy⟩)
        · rw [hfl] at hy; cases hy
        · rw [hbu] at hy; cases hy)
      exact ⟨e2, e1⟩
    · right
      refine ⟨q, hq, o, src, ?_⟩
      dsimp only
      rw [Function.update_of_ne hqp]
      exact ⟨h1, h2, h3, h5⟩

/-- a put, a get or a store -/
theorem val_data (hP : Proper T P) (hD : DrfC T P cov own used looks) {x : PX} {g' : Vis.G} {s : SX} (hb : LBase T x.x) (hi : PcInv T P x)
    {ep : Nat} (inv : DInvC T P cov own used x s ep) {p : Nat} (hp : p < T.lk.n) {f : IMem → Call} (ha : (P p)[s.pos p]? = some (.data f)) {c : Call} (hf : f (s.mem p) = c)
    (hf' : f (x.x.g.mem p) = c) {e : Vis.Ev} (hd : c.Does p e) (st : Vis.Step T.vis x.x.g e g') (harr : x.x.g.arr p = ep)
    (hcv : cov p (s.pos p) → EvCov T.vis e) {b : Nat × Int} (hbn : b.1 < T.lk.n)
    (ho : used b) : ValC T P cov own g' ⟨c.exec p s.mem, Function.update s.pos p (s.pos p + 1)⟩ b := by
  have hbz : x.x.g.busy p = [] := (Vis.own_free st (does_own hd)).2.2
  have hnc : ∀ l, (P p)[s.pos p]? ≠ some (.clear l) := fun l h => by rw [ha] at h; cases h
  have hnq : (P p)[s.pos p]? ≠ some .quiet := fun h => by rw [ha] at h; cases h
  have hnb : (P p)[s.pos p]? ≠ some .bar := fun h => by rw [ha] at h; cases h
  have hwr : ∀ k, e.writes k → c.writes p k := fun k h => does_writes hd h
  have hepn : epoch (P p) (s.pos p + 1) = ep := by rw [epoch_other hnb]; exact inv.ep p hp
  by_cases hwb : c.writes p b
  · -- written by the call
    obtain ⟨w1, w2, w3, w4⟩ := hD.writes p hp _ f ha (s.mem p) b (by rw [hf]; exact hwb)
    rw [hf] at w4
    have hq := val_read hP hD hb hi inv hp hbz hbn (Or.inl w1) w2
    have hcw : CanW P own p (s.pos p + 1) b := canW_next w1 hnb fun l h => absurd h (hnc l)
    have hsole : c.sole := by rw [← hf]; exact hD.sole p hp _ f ha _
    have hrd : ∀ k, c.reads p k → k.1 < T.lk.n ∧ CanR P own p (s.pos p) k ∧ Quiet x.x.g k (s.mem k.1 k.2) := by
      intro k hk
      obtain ⟨r1, r2, r3⟩ := hD.reads p hp _ f ha (s.mem p) k (by rw [hf]; exact hk)
      exact ⟨r1, r2, val_read hP hD hb hi inv hp hbz r1 r2 r3⟩
    have hnr : ∀ k, c.reads p k → ¬ e.writes k := fun k hk he =>
      (hD.writes p hp _ f ha (s.mem p) k (by rw [hf]; exact hwr k he)).2.2.2 (by rw [hf]; exact hk)
    cases c with
    | put tgt nbi xs =>
      obtain ⟨ctx, addr, ep', rfl⟩ := hd
      obtain ⟨h1, z, hz, h2⟩ := hwb
      obtain ⟨bt, ba⟩ := b
      dsimp only at h1 h2
      subst h1
      subst h2
      have hsr : (Call.put bt nbi xs).reads p (p, z.2) := ⟨rfl, z, hz, rfl⟩
      obtain ⟨r1, r2, r3⟩ := hrd _ hsr
      obtain ⟨_, hpe, _, pd, _, hpd, hon, hpc⟩ := Vis.put_only hb.gi st hz (hsole z hz) hq.1 (fun _ => ⟨r3.1, hnr _ hsr⟩)
      have ev : (Call.put bt nbi xs).exec p s.mem bt z.1 = x.x.g.mem p z.2 := by
        show Function.update s.mem bt (copy (s.mem p) xs (s.mem bt)) bt z.1 = _
        rw [Function.update_self, copy_at hsole _ hz]
        exact r3.2.symm
      right
      refine ⟨p, hp, some pd, if nbi then some (p, z.2) else none, ?_⟩
      dsimp only
      rw [Function.update_self, ev]
      refine ⟨hcw, fun pd' hpd' => ⟨s.pos p, pendW_here ha (m := s.mem p) (by rw [hf]; exact trivial) (by rw [hf]; exact ⟨rfl, z, hz, rfl⟩), fun hc => ?_⟩, ?_, hon⟩
      · cases hpd'
        exact ⟨hpc (hcv hc), by rw [hepn, hpd, hpe]; exact harr⟩
      intro k' hk'
      cases nbi with
      | false => cases hk'
      | true =>
        cases hk'
        exact ⟨hp, canR_next r2 hnb fun l h => absurd h (hnc l), fun _ => pinnedC_here ha (m := s.mem p) (by rw [hf]; exact rfl) (by rw [hf]; exact hsr)⟩
    | get tgt nbi xs =>
      obtain ⟨ctx, addr, ep', rfl⟩ := hd
      obtain ⟨h1, z, hz, h2⟩ := hwb
      obtain ⟨bt, ba⟩ := b
      dsimp only at h1 h2
      subst h1
      subst h2
      have hsr : (Call.get tgt nbi xs).reads bt (tgt, z.2) := ⟨rfl, z, hz, rfl⟩
      obtain ⟨r1, r2, r3⟩ := hrd _ hsr
      obtain ⟨o, _, hno, hon⟩ := Bsp.get_cov hb.gi st hz (hsole z hz) hq.1 r3.1 (hnr _ hsr)
      have ev : (Call.get tgt nbi xs).exec bt s.mem bt z.1 = x.x.g.mem tgt z.2 := by
        show Function.update s.mem bt (copy (s.mem tgt) xs (s.mem bt)) bt z.1 = _
        rw [Function.update_self, copy_at hsole _ hz]
        exact r3.2.symm
      have hnbi : o ≠ none → nbi = true := by
        intro h
        cases o with
        | none => exact absurd rfl h
        | some pd => exact (hno pd rfl).1
      right
      refine ⟨bt, hp, o, some (tgt, z.2), ?_⟩
      dsimp only
      rw [Function.update_self, ev]
      refine ⟨hcw, fun pd hpd => ?_, ?_, hon⟩
      · obtain ⟨n1, n2, n3⟩ := hno pd hpd
        exact ⟨s.pos bt, pendW_here ha (m := s.mem bt) (by rw [hf]; exact n1) (by rw [hf]; exact ⟨rfl, z, hz, rfl⟩),
          fun hc => ⟨n3 (hcv hc n1), by rw [hepn, n2]; exact harr⟩⟩
      intro k' hk'
      cases hk'
      exact ⟨r1, canR_next r2 hnb fun l h => absurd h (hnc l), fun h => pinnedC_here ha (m := s.mem bt) (by rw [hf]; exact hnbi h) (by rw [hf]; exact hsr)⟩
    | store a v =>
      have hd : e = .store p a v := hd
      subst hd
      have hwb : b = (p, a) := hwb
      subst hwb
      left
      cases st with
      | store _ _ _ hfr =>
        refine ⟨hq.1, ?_⟩
        show _ = Function.update s.mem p (Function.update (s.mem p) a v) p a
        simp
  · -- not written by the call
    have heb : ¬ e.writes b := fun h => hwb (hwr b h)
    have em : c.exec p s.mem b.1 b.2 = s.mem b.1 b.2 := exec_frame hwb
    unfold ValC
    dsimp only
    rw [em]
    have hset : Quiet x.x.g b (s.mem b.1 b.2) → Quiet g' b (s.mem b.1 b.2) := by
      rintro ⟨a1, a2⟩
      obtain ⟨b1, b2⟩ := Vis.noWriter_step st a1 heb
      exact ⟨b1, b2.trans a2⟩
    rcases inv.mem b hbn ho with h | ⟨q, hq, o, src, h1, h2, h3, h4⟩
    · exact Or.inl (hset h)
    · by_cases hqp : q = p
      · subst hqp
        by_cases hon : o = none
        · subst hon
          left
          obtain ⟨e1, e2⟩ := Vis.only_done h4 (by
            rintro a (⟨_, _, ho, _⟩ | ⟨_, hb⟩)
            · cases ho
            · rw [hbz] at hb; cases hb)
          exact hset ⟨e2, e1⟩
        · right
          refine ⟨q, hq, o, src, ?_⟩
          rw [Function.update_self]
          refine ⟨canW_next h1 hnb fun l h => absurd h (hnc l), some_next h2 hnq hnb, fun k' hk' => ?_,
            Vis.only_step h4 st heb fun k' hk' hek => ?_⟩
          · obtain ⟨g1, g2, g3⟩ := h3 k' hk'
            exact ⟨g1, canR_next g2 hnb fun l h => absurd h (hnc l), fun _ => pinnedC_next (g3 hon) hnq hnb⟩
          · exact (hD.writes q hp _ f ha (s.mem q) k' (by rw [hf]; exact hwr k' hek)).2.2.1 ((h3 k' hk').2.2 hon)
      · right
        refine ⟨q, hq, o, src, ?_⟩
        rw [Function.update_of_ne hqp]
        refine ⟨h1, h2, h3, Vis.only_step h4 st heb fun k' hk' hek => ?_⟩
        have := (hD.writes p hp _ f ha (s.mem p) k' (by rw [hf]; exact hwr k' hek)).1
        exact hqp (ghost_excl hP hb hi inv hp hq this (h3 k' hk').2.1).symm

/-- all is settled when all PEs are in a barrier -/
theorem val_bar (hD : DrfC T P cov own used looks) {x : PX} {s : SX} {e : Nat} (hb : LBase T x.x) (hi : PcInv T P x) (inv : DInvC T P cov own used x s e)
    (hall : ∀ p < T.lk.n, s.pos p = x.pos p ∧ x.x.g.arr p = e + 1 ∧ x.x.g.lv p = e) {b : Nat × Int} (hbn : b.1 < T.lk.n) (hu : used b) :
    Quiet x.x.g b (s.mem b.1 b.2) := by
  rcases inv.mem b hbn hu with h | ⟨q, hq, o, src, h1, h2, h3, h4⟩
  · exact h
  · obtain ⟨e1, e2, e3⟩ := hall q hq
    obtain ⟨_, w2, w3, _⟩ := hi.wait q hq (by omega)
    rw [← e1] at w2
    obtain ⟨f1, f2⟩ := Vis.only_done h4 (by
      rintro a (⟨y, hy, hyo, _⟩ | ⟨_, hb⟩)
      · obtain ⟨j, j1, j2⟩ := h2 _ hyo
        obtain ⟨c1, c2⟩ := j2 (hD.bars q hq _ w2 b j (Or.inl j1))
        have h7 := hb.gi.cov q _ (hb.gi.fly q y hy) c1
        rw [c2, inv.ep q hq] at h7
        omega
      · rw [w3] at hb; cases hb)
    exact ⟨f2, f1⟩

end

end Verif.Crit.Mix
