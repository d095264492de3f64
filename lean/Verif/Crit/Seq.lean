import Verif.Crit.CounterInv
/-!
# C110: programs without races, and their sequential executions

The sequential reading of a program with locks (`SStep`: one action at a time, each done when it returns, on one memory), the rules for programs
without races (`Drf`), and the relation between an execution of the library (`Crit.Step`: puts, gets, quiet, lock accesses, operations in flight;
rma_impl.h L107-243, order_impl.h L23-96, lock_impl.h L27-168) and a sequential one.
-/
namespace Verif.Crit
open Verif.Rma Verif.Lock
open Verif.Vis (NoWriter Only)

/-! ## Sequential executions -/

/-- the bytes `xs` (destination first), copied one after the other -/
def copy (src : IMem) (xs : List (Int × Int)) (dst : IMem) : IMem := xs.foldl (fun m x => Function.update m x.1 (src x.2)) dst

/-- What a call of PE `p` is for someone who reads the program: put and get copy the bytes, at once (the documented effect of rma_impl.h L107-243
once completed), a store stores. -/
def Call.exec (p : Nat) : Call → (Nat → IMem) → (Nat → IMem)
  | .put tgt _ xs, m => Function.update m tgt (copy (m p) xs (m tgt))
  | .get tgt _ xs, m => Function.update m p (copy (m tgt) xs (m p))
  | .store a v, m => Function.update m p (Function.update (m p) a v)

/-- a memory for each PE, and how many actions each PE has done -/
structure SX where
  mem : Nat → IMem
  pos : Nat → Nat

/-- One step of a sequential execution: some PE does its next action. A lock is taken only when no PE holds it. -/
inductive SStep (n : Nat) (P : Prog) : SX → SX → Prop
  | set {m : Nat → IMem} {pos : Nat → Nat} (p l : Nat) (hp : p < n) (ha : (P p)[pos p]? = some (.set l)) (hl : ∀ q < n, ¬ Holds (P q) (pos q) l) :
      SStep n P ⟨m, pos⟩ ⟨m, Function.update pos p (pos p + 1)⟩
  | clear {m : Nat → IMem} {pos : Nat → Nat} (p l : Nat) (hp : p < n) (ha : (P p)[pos p]? = some (.clear l)) :
      SStep n P ⟨m, pos⟩ ⟨m, Function.update pos p (pos p + 1)⟩
  | quiet {m : Nat → IMem} {pos : Nat → Nat} (p : Nat) (hp : p < n) (ha : (P p)[pos p]? = some .quiet) :
      SStep n P ⟨m, pos⟩ ⟨m, Function.update pos p (pos p + 1)⟩
  | data {m : Nat → IMem} {pos : Nat → Nat} (p : Nat) (f : IMem → Call) (hp : p < n) (ha : (P p)[pos p]? = some (.data f)) :
      SStep n P ⟨m, pos⟩ ⟨(f (m p)).exec p m, Function.update pos p (pos p + 1)⟩

/-- a sequential execution -/
inductive SRun (n : Nat) (P : Prog) : SX → SX → Prop
  | nil (s : SX) : SRun n P s s
  | snoc {s t u : SX} (r : SRun n P s t) (h : SStep n P t u) : SRun n P s u

/-! ## Programs without races -/

/-- whose a byte is: it belongs to those who hold a lock, to one PE, or nobody ever writes it -/
inductive Own where
  | lock (l : Nat)
  | pe (p : Nat)
  | const

/-- PE `p`, before its action number `i`, may write byte `b` -/
def CanW (P : Prog) (own : Nat × Int → Option Own) (p i : Nat) (b : Nat × Int) : Prop :=
  (∃ l, own b = some (.lock l) ∧ Holds (P p) i l) ∨ own b = some (.pe p)

/-- PE `p`, before its action number `i`, may read byte `b` -/
def CanR (P : Prog) (own : Nat × Int → Option Own) (p i : Nat) (b : Nat × Int) : Prop := CanW P own p i b ∨ own b = some .const

/-- the bytes a call of PE `p` reads -/
def Call.reads (p : Nat) (b : Nat × Int) : Call → Prop
  | .put _ _ xs => b.1 = p ∧ ∃ x ∈ xs, x.2 = b.2
  | .get tgt _ xs => b.1 = tgt ∧ ∃ x ∈ xs, x.2 = b.2
  | .store _ _ => False

/-- calls after whose return the bytes may still have to be written: puts, and gets of the non-blocking kind -/
def Call.late : Call → Prop
  | .put _ _ _ => True
  | .get _ nbi _ => nbi = true
  | .store _ _ => False

/-- calls after whose return the bytes may still have to be read: those of the non-blocking kind -/
def Call.lazy : Call → Prop
  | .put _ nbi _ => nbi = true
  | .get _ nbi _ => nbi = true
  | .store _ _ => False

/-- each byte is written by one part of the call only -/
def Call.sole : Call → Prop
  | .put _ _ xs => ∀ x ∈ xs, ∀ y ∈ xs, y.1 = x.1 → y = x
  | .get _ _ xs => ∀ x ∈ xs, ∀ y ∈ xs, y.1 = x.1 → y = x
  | .store _ _ => True

/-- before its action number `i`, PE `p` has issued something that writes byte `b` and has not waited for it with a quiet -/
def Dirty (P : Prog) (p i : Nat) (b : Nat × Int) : Prop :=
  ∃ j < i, (∃ f m, (P p)[j]? = some (.data f) ∧ (f m).late ∧ (f m).writes p b) ∧ ∀ k, j < k → k < i → (P p)[k]? ≠ some .quiet

/-- before its action number `i`, PE `p` has issued something that reads byte `b` and has not waited for it with a quiet -/
def Pinned (P : Prog) (p i : Nat) (b : Nat × Int) : Prop :=
  ∃ j < i, (∃ f m, (P p)[j]? = some (.data f) ∧ (f m).lazy ∧ (f m).reads p b) ∧ ∀ k, j < k → k < i → (P p)[k]? ≠ some .quiet

/-- The rules for programs without races. Every byte that is used has an owner (`own`); `looks p i` are the bytes of its own memory on which PE `p`'s
action number `i` depends. A byte is read or written only by those who may; not while something is pending for it (`Dirty`, `Pinned`), and a lock
is released only when nothing is pending for what it protects. No byte that has an owner is part of a lock. -/
structure Drf (T : Sys) (P : Prog) (own : Nat × Int → Option Own) (looks : Nat → Nat → Int → Prop) : Prop where
  dep : ∀ p < T.lk.n, ∀ (i : Nat) (f : IMem → Call), (P p)[i]? = some (.data f) → ∀ m m' : IMem, (∀ a, looks p i a → m a = m' a) → f m = f m'
  look : ∀ p < T.lk.n, ∀ (i : Nat) (f : IMem → Call), (P p)[i]? = some (.data f) → ∀ a, looks p i a → CanR P own p i (p, a) ∧ ¬ Dirty P p i (p, a)
  reads : ∀ p < T.lk.n, ∀ (i : Nat) (f : IMem → Call), (P p)[i]? = some (.data f) → ∀ m b, (f m).reads p b → b.1 < T.lk.n ∧ CanR P own p i b ∧ ¬ Dirty P p i b
  writes : ∀ p < T.lk.n, ∀ (i : Nat) (f : IMem → Call), (P p)[i]? = some (.data f) → ∀ m b, (f m).writes p b →
    CanW P own p i b ∧ ¬ Dirty P p i b ∧ ¬ Pinned P p i b ∧ ¬ (f m).reads p b
  sole : ∀ p < T.lk.n, ∀ (i : Nat) (f : IMem → Call), (P p)[i]? = some (.data f) → ∀ m, (f m).sole
  clears : ∀ p < T.lk.n, ∀ i l, (P p)[i]? = some (.clear l) → ∀ b, own b = some (.lock l) → ¬ Dirty P p i b ∧ ¬ Pinned P p i b
  locks : ∀ b : Nat × Int, own b ≠ none → ∀ z, T.lk.InLock b.1 z → z.toInt ≠ b.2

/-! ## Lemmas on calls -/

theorem copy_or (src : IMem) (xs : List (Int × Int)) (dst : IMem) (a : Int) :
    (∃ x ∈ xs, x.1 = a ∧ copy src xs dst a = src x.2) ∨ ((∀ x ∈ xs, x.1 ≠ a) ∧ copy src xs dst a = dst a) := by
  induction xs generalizing dst with
  | nil => exact Or.inr ⟨fun x h => (by cases h), rfl⟩
  | cons x xs ih =>
    have e : copy src (x :: xs) dst = copy src xs (Function.update dst x.1 (src x.2)) := rfl
    rw [e]
    rcases ih (Function.update dst x.1 (src x.2)) with ⟨y, hy, h1, h2⟩ | ⟨h1, h2⟩
    · exact Or.inl ⟨y, List.mem_cons_of_mem _ hy, h1, h2⟩
    · by_cases hx : x.1 = a
      · refine Or.inl ⟨x, List.mem_cons_self, hx, ?_⟩
        rw [h2, ← hx, Function.update_self]
      · refine Or.inr ⟨?_, ?_⟩
        · intro y hy
          rcases List.mem_cons.1 hy with rfl | hy
          · exact hx
          · exact h1 y hy
        · rw [h2, Function.update_of_ne (fun h => hx h.symm)]

theorem copy_at {src : IMem} {xs : List (Int × Int)} (hs : ∀ x ∈ xs, ∀ y ∈ xs, y.1 = x.1 → y = x) (dst : IMem) {x : Int × Int} (hx : x ∈ xs) :
    copy src xs dst x.1 = src x.2 := by
  rcases copy_or src xs dst x.1 with ⟨y, hy, h1, h2⟩ | ⟨h1, _⟩
  · rw [h2, hs x hx y hy h1]
  · exact absurd rfl (h1 x hx)

theorem copy_off {src : IMem} {xs : List (Int × Int)} {dst : IMem} {a : Int} (h : ∀ x ∈ xs, x.1 ≠ a) : copy src xs dst a = dst a := by
  rcases copy_or src xs dst a with ⟨y, hy, h1, _⟩ | ⟨_, h2⟩
  · exact absurd h1 (h y hy)
  · exact h2

/-- a call leaves the bytes it does not write -/
theorem exec_frame {p : Nat} {c : Call} {m : Nat → IMem} {b : Nat × Int} (h : ¬ c.writes p b) : c.exec p m b.1 b.2 = m b.1 b.2 := by
  cases c with
  | put tgt nbi xs =>
    by_cases hb : b.1 = tgt
    · show Function.update m tgt (copy (m p) xs (m tgt)) b.1 b.2 = _
      rw [← hb, Function.update_self]
      exact copy_off fun x hx e => h ⟨hb, x, hx, e⟩
    · show Function.update m tgt (copy (m p) xs (m tgt)) b.1 b.2 = _
      rw [Function.update_of_ne hb]
  | get tgt nbi xs =>
    by_cases hb : b.1 = p
    · show Function.update m p (copy (m tgt) xs (m p)) b.1 b.2 = _
      rw [← hb, Function.update_self]
      exact copy_off fun x hx e => h ⟨hb, x, hx, e⟩
    · show Function.update m p (copy (m tgt) xs (m p)) b.1 b.2 = _
      rw [Function.update_of_ne hb]
  | store a v =>
    by_cases hb : b.1 = p
    · show Function.update m p (Function.update (m p) a v) b.1 b.2 = _
      rw [← hb, Function.update_self]
      refine Function.update_of_ne (fun e => h ?_) _ _
      show b = (p, a)
      rw [← hb, ← e]
    · show Function.update m p (Function.update (m p) a v) b.1 b.2 = _
      rw [Function.update_of_ne hb]

/-! ## Lemmas on programs -/

section
variable {T : Sys} {P : Prog} {own : Nat × Int → Option Own} {looks : Nat → Nat → Int → Prop}

theorem canW_own {p i : Nat} {b : Nat × Int} (h : CanW P own p i b) : own b ≠ none := by
  rcases h with ⟨l, h, _⟩ | h <;> rw [h] <;> exact fun h => by cases h

theorem canR_own {p i : Nat} {b : Nat × Int} (h : CanR P own p i b) : own b ≠ none := by
  rcases h with h | h
  · exact canW_own h
  · rw [h]; exact fun h => by cases h

theorem canW_next {p i : Nat} {b : Nat × Int} (h : CanW P own p i b) (hc : ∀ l, (P p)[i]? = some (.clear l) → own b ≠ some (.lock l)) :
    CanW P own p (i + 1) b := by
  rcases h with ⟨l, h, hh⟩ | h
  · refine Or.inl ⟨l, h, ?_⟩
    by_cases hs : (P p)[i]? = some (.set l)
    · exact holds_set hs
    · exact (holds_other hs fun hcl => hc l hcl h).2 hh
  · exact Or.inr h

theorem canR_next {p i : Nat} {b : Nat × Int} (h : CanR P own p i b) (hc : ∀ l, (P p)[i]? = some (.clear l) → own b ≠ some (.lock l)) :
    CanR P own p (i + 1) b := by
  rcases h with h | h
  · exact Or.inl (canW_next h hc)
  · exact Or.inr h

theorem dirty_next {p i : Nat} {b : Nat × Int} (h : Dirty P p i b) (hq : (P p)[i]? ≠ some .quiet) : Dirty P p (i + 1) b := by
  obtain ⟨j, hj, h1, h2⟩ := h
  refine ⟨j, by omega, h1, fun k h3 h4 => ?_⟩
  rcases Nat.lt_or_ge k i with h | h
  · exact h2 k h3 h
  · have : k = i := by omega
    rw [this]; exact hq

theorem pinned_next {p i : Nat} {b : Nat × Int} (h : Pinned P p i b) (hq : (P p)[i]? ≠ some .quiet) : Pinned P p (i + 1) b := by
  obtain ⟨j, hj, h1, h2⟩ := h
  refine ⟨j, by omega, h1, fun k h3 h4 => ?_⟩
  rcases Nat.lt_or_ge k i with h | h
  · exact h2 k h3 h
  · have : k = i := by omega
    rw [this]; exact hq

theorem dirty_here {p i : Nat} {b : Nat × Int} {f : IMem → Call} (ha : (P p)[i]? = some (.data f)) {m : IMem} (hl : (f m).late)
    (hw : (f m).writes p b) : Dirty P p (i + 1) b := ⟨i, by omega, ⟨f, m, ha, hl, hw⟩, fun k h1 h2 => by omega⟩

theorem pinned_here {p i : Nat} {b : Nat × Int} {f : IMem → Call} (ha : (P p)[i]? = some (.data f)) {m : IMem} (hl : (f m).lazy)
    (hw : (f m).reads p b) : Pinned P p (i + 1) b := ⟨i, by omega, ⟨f, m, ha, hl, hw⟩, fun k h1 h2 => by omega⟩

/-! ## The relation -/

/-- Byte `b` in an execution (`g`) and in a sequential one (`s`): it has the same value and nothing in flight writes it, or one PE, who may write it,
has something in flight that gives it that value. -/
def Val (P : Prog) (n : Nat) (own : Nat × Int → Option Own) (g : Vis.G) (s : SX) (b : Nat × Int) : Prop :=
  Quiet g b (s.mem b.1 b.2) ∨ ∃ q < n, ∃ o src, CanW P own q (s.pos q) b ∧ (o ≠ none → Dirty P q (s.pos q) b) ∧
    (∀ k', src = some k' → k'.1 < n ∧ CanR P own q (s.pos q) k' ∧ (o ≠ none → Pinned P q (s.pos q) k')) ∧ Only g q o src b (s.mem b.1 b.2)

/-- An execution and a sequential one: a PE that waits for a lock has, in the sequential one, not yet taken it. -/
structure DInv (T : Sys) (P : Prog) (own : Nat × Int → Option Own) (x : PX) (s : SX) : Prop where
  pos : ∀ p < T.lk.n, (s.pos p = x.pos p ∧ ∀ l < T.lk.m, ¬ InSet (x.x.pc l p)) ∨
    (s.pos p + 1 = x.pos p ∧ ∃ l < T.lk.m, (P p)[s.pos p]? = some (.set l) ∧ InSet (x.x.pc l p))
  mem : ∀ b : Nat × Int, b.1 < T.lk.n → own b ≠ none → Val P T.lk.n own x.x.g s b

/-- what is needed of a reachable state -/
structure LBase (T : Sys) (x : X) : Prop where
  gi : Vis.GI T.vis x.g
  wexec : ∃ wtr, WExec T.lk x.words wtr
  excl : ∀ l < T.lk.m, ∀ p q, x.pc l p = .held → x.pc l q = .held → p = q

/-- who holds a lock in the sequential execution holds it -/
theorem ghost_held (hP : Proper T P) {x : PX} {s : SX} (hi : PcInv T P x) (inv : DInv T P own x s) {p l : Nat} (hp : p < T.lk.n)
    (hh : Holds (P p) (s.pos p) l) : l < T.lk.m ∧ x.x.pc l p = .held := by
  have hl : l < T.lk.m := by
    obtain ⟨j, _, h1, _⟩ := hh
    exact (hP.order p hp j l h1).1
  refine ⟨hl, ?_⟩
  rcases inv.pos p hp with ⟨h1, h2⟩ | ⟨h1, k, hk, h2, h3⟩
  · cases hr : (x.x.pc l p).rest with
    | true => exact (hi.rest p hp l hl hr).2 (h1 ▸ hh)
    | false =>
      obtain ⟨k, hk, ⟨_, h4⟩ | ⟨h4, _⟩⟩ := hi.call p hp l hl hr
      · exact absurd h4 (h2 l hl)
      · rw [h1, hk] at hh
        exact absurd hh (holds_clear h4)
  · have hlk : l < k := (hP.order p hp _ k h2).2 l hh
    have hh' : Holds (P p) (x.pos p) l := by
      rw [← h1]
      refine (holds_other ?_ ?_).2 hh
      · rw [h2]; intro e; cases e; omega
      · rw [h2]; intro e; cases e
    cases hr : (x.x.pc l p).rest with
    | true => exact (hi.rest p hp l hl hr).2 hh'
    | false =>
      obtain ⟨k', hk', h5⟩ := hi.call p hp l hl hr
      have : k' = s.pos p := by omega
      subst this
      rcases h5 with ⟨h5, _⟩ | ⟨h5, _⟩ <;> rw [h2] at h5 <;> cases h5
      omega

/-- no two PEs have to do with a byte if one of them may write it -/
theorem ghost_excl (hP : Proper T P) {x : PX} {s : SX} (hb : LBase T x.x) (hi : PcInv T P x) (inv : DInv T P own x s) {p q : Nat} (hp : p < T.lk.n)
    (hq : q < T.lk.n) {b : Nat × Int} (h1 : CanW P own p (s.pos p) b) (h2 : CanR P own q (s.pos q) b) : p = q := by
  rcases h1 with ⟨l, h1, h1'⟩ | h1
  · rcases h2 with (⟨k, h2, h2'⟩ | h2) | h2
    · rw [h1] at h2
      cases h2
      obtain ⟨hl, a1⟩ := ghost_held hP hi inv hp h1'
      exact hb.excl l hl p q a1 (ghost_held hP hi inv hq h2').2
    · rw [h1] at h2; cases h2
    · rw [h1] at h2; cases h2
  · rcases h2 with (⟨k, h2, h2'⟩ | h2) | h2
    · rw [h1] at h2; cases h2
    · rw [h1] at h2; cases h2; rfl
    · rw [h1] at h2; cases h2

/-- what a PE in no blocking call may read and has not written late is settled -/
theorem val_read (hP : Proper T P) {x : PX} {s : SX} (hb : LBase T x.x) (hi : PcInv T P x) (inv : DInv T P own x s) {p : Nat} (hp : p < T.lk.n)
    (hbz : x.x.g.busy p = []) {b : Nat × Int} (hbn : b.1 < T.lk.n) (hr : CanR P own p (s.pos p) b) (hd : ¬ Dirty P p (s.pos p) b) :
    Quiet x.x.g b (s.mem b.1 b.2) := by
  rcases inv.mem b hbn (canR_own hr) with h | ⟨q, hq, o, src, h1, h2, h3, h4⟩
  · exact h
  · have := ghost_excl hP hb hi inv hq hp h1 hr
    subst this
    have ho : o = none := by
      by_contra ho
      exact hd (h2 ho)
    subst ho
    obtain ⟨e1, e2⟩ := Vis.only_done h4 (by
      rintro a (⟨_, _, ho, _⟩ | ⟨_, hb⟩)
      · cases ho
      · rw [hbz] at hb; cases hb)
    exact ⟨e2, e1⟩

/-- a step that writes none of the bytes; `hpos`: the places change for one PE at most, who is in no blocking call -/
theorem val_keep (wf : T.lk.WF) (un : T.lk.Uniform) (hD : Drf T P own looks) {x y : X} {s s' : SX} {wtr : List (Nat × Lock.Ev)}
    (hw : WExec T.lk x.words wtr) {ev : Ev} (st : Step T x ev y) (he : ∀ e, ev = .rma e → ∀ k, ¬ e.writes k) (hm : s'.mem = s.mem)
    (hpos : ∀ q < T.lk.n, s'.pos q = s.pos q ∨ (s'.pos q = s.pos q + 1 ∧ x.g.busy q = [] ∧ (P q)[s.pos q]? ≠ some .quiet))
    {b : Nat × Int} (ho : own b ≠ none) (h : Val P T.lk.n own x.g s b) : Val P T.lk.n own y.g s' b := by
  unfold Val
  rw [hm]
  have hset : Quiet x.g b (s.mem b.1 b.2) → Quiet y.g b (s.mem b.1 b.2) := by
    rintro ⟨a1, a2⟩
    obtain ⟨b1, b2⟩ := quiet_keep wf un hw st (k := b) (hD.locks b ho) (fun e h => he e h _) a1
    exact ⟨b1, b2.trans a2⟩
  rcases h with h | ⟨q, hq, o, src, h1, h2, h3, h4⟩
  · exact Or.inl (hset h)
  · have hk : Only y.g q o src b (s.mem b.1 b.2) := by
      refine only_keep wf un hw st (hD.locks b ho) (fun k' hk' => ?_) (fun e h => he e h _) (fun k' _ e h => he e h _) h4
      exact hD.locks k' (canR_own (h3 k' hk').2.1)
    rcases hpos q hq with e | ⟨e, hbz, hnq⟩
    · right
      refine ⟨q, hq, o, src, ?_⟩
      rw [e]
      exact ⟨h1, h2, h3, hk⟩
    · by_cases hon : o = none
      · subst hon
        left
        obtain ⟨e1, e2⟩ := Vis.only_done h4 (by
          rintro a (⟨_, _, ho, _⟩ | ⟨_, hb⟩)
          · cases ho
          · rw [hbz] at hb; cases hb)
        exact hset ⟨e2, e1⟩
      · right
        refine ⟨q, hq, o, src, ?_⟩
        rw [e]
        refine ⟨canW_next h1 fun l hc hl => (hD.clears q hq _ l hc b hl).1 (h2 hon), fun _ => dirty_next (h2 hon) hnq, fun k' hk' => ?_, hk⟩
        obtain ⟨g1, g2, g3⟩ := h3 k' hk'
        exact ⟨g1, canR_next g2 fun l hc hl => (hD.clears q hq _ l hc k' hl).2 (g3 hon), fun _ => pinned_next (g3 hon) hnq⟩

/-- a quiet -/
theorem val_quiet (hD : Drf T P own looks) {x : X} {g' : Vis.G} {s : SX} (hb : LBase T x) {p : Nat} {op : Order.Op}
    (hop : op = .quiet none ∨ op = .fence none) (st : Vis.Step T.vis x.g (.call p op) g') {b : Nat × Int}
    (h : Val P T.lk.n own x.g s b) : Val P T.lk.n own g' ⟨s.mem, Function.update s.pos p (s.pos p + 1)⟩ b := by
  have hnw : ∀ k, ¬ (Vis.Ev.call p op).writes k := fun k h => h
  obtain ⟨hfl, hbu⟩ := Vis.quiet_step hb.gi hop st
  rcases h with ⟨a1, a2⟩ | ⟨q, hq, o, src, h1, h2, h3, h4⟩
  · obtain ⟨b1, b2⟩ := Vis.noWriter_step st a1 (hnw _)
    exact Or.inl ⟨b1, b2.trans a2⟩
  · have h5 := Vis.only_step h4 st (hnw _) (fun k' _ => hnw _)
    by_cases hqp : q = p
    · subst hqp
      left
      obtain ⟨e1, e2⟩ := Vis.only_done h5 (by
        rintro a (⟨y, hy, _⟩ | ⟨_, hy⟩)
        · rw [hfl] at hy; cases hy
        · rw [hbu] at hy; cases hy)
      exact ⟨e2, e1⟩
    · right
      refine ⟨q, hq, o, src, ?_⟩
      dsimp only
      rw [Function.update_of_ne hqp]
      exact ⟨h1, h2, h3, h5⟩

/-- a put, a get or a store -/
theorem val_data (hP : Proper T P) (hD : Drf T P own looks) {x : PX} {g' : Vis.G} {s : SX} (hb : LBase T x.x) (hi : PcInv T P x)
    (inv : DInv T P own x s) {p : Nat} (hp : p < T.lk.n) {f : IMem → Call} (ha : (P p)[s.pos p]? = some (.data f)) {c : Call} (hf : f (s.mem p) = c)
    (hf' : f (x.x.g.mem p) = c) {e : Vis.Ev} (hd : c.Does p e) (st : Vis.Step T.vis x.x.g e g') {b : Nat × Int} (hbn : b.1 < T.lk.n)
    (ho : own b ≠ none) : Val P T.lk.n own g' ⟨c.exec p s.mem, Function.update s.pos p (s.pos p + 1)⟩ b := by
  have hbz : x.x.g.busy p = [] := (Vis.own_free st (does_own hd)).2.2
  have hnc : ∀ l, (P p)[s.pos p]? ≠ some (.clear l) := fun l h => by rw [ha] at h; cases h
  have hnq : (P p)[s.pos p]? ≠ some .quiet := fun h => by rw [ha] at h; cases h
  have hwr : ∀ k, e.writes k → c.writes p k := fun k h => does_writes hd h
  by_cases hwb : c.writes p b
  · -- written by the call
    obtain ⟨w1, w2, w3, w4⟩ := hD.writes p hp _ f ha (s.mem p) b (by rw [hf]; exact hwb)
    rw [hf] at w4
    have hq := val_read hP hb hi inv hp hbz hbn (Or.inl w1) w2
    have hcw : CanW P own p (s.pos p + 1) b := canW_next w1 fun l h => absurd h (hnc l)
    have hsole : c.sole := by rw [← hf]; exact hD.sole p hp _ f ha _
    have hrd : ∀ k, c.reads p k → k.1 < T.lk.n ∧ CanR P own p (s.pos p) k ∧ Quiet x.x.g k (s.mem k.1 k.2) := by
      intro k hk
      obtain ⟨r1, r2, r3⟩ := hD.reads p hp _ f ha (s.mem p) k (by rw [hf]; exact hk)
      exact ⟨r1, r2, val_read hP hb hi inv hp hbz r1 r2 r3⟩
    have hnr : ∀ k, c.reads p k → ¬ e.writes k := fun k hk he =>
      (hD.writes p hp _ f ha (s.mem p) k (by rw [hf]; exact hwr k he)).2.2.2 (by rw [hf]; exact hk)
    cases c with
    | put tgt nbi xs =>
      obtain ⟨ctx, addr, ep, rfl⟩ := hd
      obtain ⟨h1, z, hz, h2⟩ := hwb
      obtain ⟨bt, ba⟩ := b
      dsimp only at h1 h2
      subst h1
      subst h2
      have hsr : (Call.put bt nbi xs).reads p (p, z.2) := ⟨rfl, z, hz, rfl⟩
      obtain ⟨r1, r2, r3⟩ := hrd _ hsr
      obtain ⟨_, _, _, pd, _, _, hon, _⟩ := Vis.put_only hb.gi st hz (hsole z hz) hq.1 (fun _ => ⟨r3.1, hnr _ hsr⟩)
      have ev : (Call.put bt nbi xs).exec p s.mem bt z.1 = x.x.g.mem p z.2 := by
        show Function.update s.mem bt (copy (s.mem p) xs (s.mem bt)) bt z.1 = _
        rw [Function.update_self, copy_at hsole _ hz]
        exact r3.2.symm
      right
      refine ⟨p, hp, some pd, if nbi then some (p, z.2) else none, ?_⟩
      dsimp only
      rw [Function.update_self, ev]
      refine ⟨hcw, fun _ => dirty_here ha (m := s.mem p) (by rw [hf]; exact trivial) (by rw [hf]; exact ⟨rfl, z, hz, rfl⟩), ?_, hon⟩
      intro k' hk'
      cases nbi with
      | false => cases hk'
      | true =>
        cases hk'
        exact ⟨hp, canR_next r2 fun l h => absurd h (hnc l), fun _ => pinned_here ha (m := s.mem p) (by rw [hf]; exact rfl) (by rw [hf]; exact hsr)⟩
    | get tgt nbi xs =>
      obtain ⟨ctx, addr, ep, rfl⟩ := hd
      obtain ⟨h1, z, hz, h2⟩ := hwb
      obtain ⟨bt, ba⟩ := b
      dsimp only at h1 h2
      subst h1
      subst h2
      have hsr : (Call.get tgt nbi xs).reads bt (tgt, z.2) := ⟨rfl, z, hz, rfl⟩
      obtain ⟨r1, r2, r3⟩ := hrd _ hsr
      obtain ⟨o, hno, hon⟩ := Vis.get_only st hz (hsole z hz) hq.1 r3.1 (hnr _ hsr)
      have ev : (Call.get tgt nbi xs).exec bt s.mem bt z.1 = x.x.g.mem tgt z.2 := by
        show Function.update s.mem bt (copy (s.mem tgt) xs (s.mem bt)) bt z.1 = _
        rw [Function.update_self, copy_at hsole _ hz]
        exact r3.2.symm
      have hnbi : o ≠ none → nbi = true := by
        intro h
        cases nbi with
        | true => rfl
        | false => exact absurd (hno rfl) h
      right
      refine ⟨bt, hp, o, some (tgt, z.2), ?_⟩
      dsimp only
      rw [Function.update_self, ev]
      refine ⟨hcw, fun h => dirty_here ha (m := s.mem bt) (by rw [hf]; exact hnbi h) (by rw [hf]; exact ⟨rfl, z, hz, rfl⟩), ?_, hon⟩
      intro k' hk'
      cases hk'
      exact ⟨r1, canR_next r2 fun l h => absurd h (hnc l), fun h => pinned_here ha (m := s.mem bt) (by rw [hf]; exact hnbi h) (by rw [hf]; exact hsr)⟩
    | store a v =>
      have hd : e = .store p a v := hd
      subst hd
      have hwb : b = (p, a) := hwb
      subst hwb
      left
      cases st with
      | store _ _ _ hfr =>
        refine ⟨hq.1, ?_⟩
        show _ = Function.update s.mem p (Function.update (s.mem p) a v) p a
        simp
  · -- not written by the call
    have heb : ¬ e.writes b := fun h => hwb (hwr b h)
    have em : c.exec p s.mem b.1 b.2 = s.mem b.1 b.2 := exec_frame hwb
    unfold Val
    dsimp only
    rw [em]
    have hset : Quiet x.x.g b (s.mem b.1 b.2) → Quiet g' b (s.mem b.1 b.2) := by
      rintro ⟨a1, a2⟩
      obtain ⟨b1, b2⟩ := Vis.noWriter_step st a1 heb
      exact ⟨b1, b2.trans a2⟩
    rcases inv.mem b hbn ho with h | ⟨q, hq, o, src, h1, h2, h3, h4⟩
    · exact Or.inl (hset h)
    · by_cases hqp : q = p
      · subst hqp
        by_cases hon : o = none
        · subst hon
          left
          obtain ⟨e1, e2⟩ := Vis.only_done h4 (by
            rintro a (⟨_, _, ho, _⟩ | ⟨_, hb⟩)
            · cases ho
            · rw [hbz] at hb; cases hb)
          exact hset ⟨e2, e1⟩
        · right
          refine ⟨q, hq, o, src, ?_⟩
          rw [Function.update_self]
          refine ⟨canW_next h1 fun l h => absurd h (hnc l), fun _ => dirty_next (h2 hon) hnq, fun k' hk' => ?_,
            Vis.only_step h4 st heb fun k' hk' hek => ?_⟩
          · obtain ⟨g1, g2, g3⟩ := h3 k' hk'
            exact ⟨g1, canR_next g2 fun l h => absurd h (hnc l), fun _ => pinned_next (g3 hon) hnq⟩
          · exact (hD.writes q hp _ f ha (s.mem q) k' (by rw [hf]; exact hwr k' hek)).2.2.1 ((h3 k' hk').2.2 hon)
      · right
        refine ⟨q, hq, o, src, ?_⟩
        rw [Function.update_of_ne hqp]
        refine ⟨h1, h2, h3, Vis.only_step h4 st heb fun k' hk' hek => ?_⟩
        have := (hD.writes p hp _ f ha (s.mem p) k' (by rw [hf]; exact hwr k' hek)).1
        exact hqp (ghost_excl hP hb hi inv hp hq this (h3 k' hk').2.1).symm

end

end Verif.Crit
