import Verif.Mix.Inv
/-!
# C111: programs without races, with locks and barriers, and their sequential executions

As `Crit/Seq.lean`, for programs that also call `shmem_barrier_all` (coll_impl.h L12-32). Who owns a byte may change at barriers.
-/
namespace Verif.Crit.Mix
open Verif.Rma Verif.Lock
open Verif.Vis (NoWriter Only)

/-! ## Sequential executions -/

/-- One step of a sequential execution: some PE does its next action; a lock is taken only when no PE holds it; a barrier is passed by all PEs
at once. -/
inductive SStep (n : Nat) (P : Prog) : SX → SX → Prop
  | set {m : Nat → IMem} {pos : Nat → Nat} (p l : Nat) (hp : p < n) (ha : (P p)[pos p]? = some (.set l)) (hl : ∀ q < n, ¬ Holds (P q) (pos q) l) :
      SStep n P ⟨m, pos⟩ ⟨m, Function.update pos p (pos p + 1)⟩
  | clear {m : Nat → IMem} {pos : Nat → Nat} (p l : Nat) (hp : p < n) (ha : (P p)[pos p]? = some (.clear l)) :
      SStep n P ⟨m, pos⟩ ⟨m, Function.update pos p (pos p + 1)⟩
  | quiet {m : Nat → IMem} {pos : Nat → Nat} (p : Nat) (hp : p < n) (ha : (P p)[pos p]? = some .quiet) :
      SStep n P ⟨m, pos⟩ ⟨m, Function.update pos p (pos p + 1)⟩
  | data {m : Nat → IMem} {pos : Nat → Nat} (p : Nat) (f : IMem → Call) (hp : p < n) (ha : (P p)[pos p]? = some (.data f)) :
      SStep n P ⟨m, pos⟩ ⟨(f (m p)).exec p m, Function.update pos p (pos p + 1)⟩
  | bar {m : Nat → IMem} {pos : Nat → Nat} (ha : ∀ p < n, (P p)[pos p]? = some .bar) :
      SStep n P ⟨m, pos⟩ ⟨m, fun p => pos p + 1⟩

/-- a sequential execution -/
inductive SRun (n : Nat) (P : Prog) : SX → SX → Prop
  | nil (s : SX) : SRun n P s s
  | snoc {s t u : SX} (r : SRun n P s t) (h : SStep n P t u) : SRun n P s u

/-! ## Programs without races -/

/-- whose a byte is, after so many barriers -/
abbrev Owns := Nat → Nat × Int → Option Own

/-- PE `p`, before its action number `i`, may write byte `b` -/
def CanW (P : Prog) (own : Owns) (p i : Nat) (b : Nat × Int) : Prop :=
  (∃ l, own (epoch (P p) i) b = some (.lock l) ∧ Holds (P p) i l) ∨ own (epoch (P p) i) b = some (.pe p)

/-- PE `p`, before its action number `i`, may read byte `b` -/
def CanR (P : Prog) (own : Owns) (p i : Nat) (b : Nat × Int) : Prop := CanW P own p i b ∨ own (epoch (P p) i) b = some .const

/-- before its action number `i`, PE `p` has issued something that writes byte `b` and has not waited for it with a quiet -/
def Dirty (P : Prog) (p i : Nat) (b : Nat × Int) : Prop :=
  ∃ j < i, (∃ f m, (P p)[j]? = some (.data f) ∧ (f m).late ∧ (f m).writes p b) ∧ ∀ k, j < k → k < i → (P p)[k]? ≠ some .quiet

/-- before its action number `i`, PE `p` has issued something that reads byte `b` and has not waited for it with a quiet -/
def Pinned (P : Prog) (p i : Nat) (b : Nat × Int) : Prop :=
  ∃ j < i, (∃ f m, (P p)[j]? = some (.data f) ∧ (f m).lazy ∧ (f m).reads p b) ∧ ∀ k, j < k → k < i → (P p)[k]? ≠ some .quiet

/-- The rules for programs without races. Every byte that is used (`used`) has an owner at the time (`own`, which may change at barriers); `looks p i`
are the bytes of its own memory on which PE `p`'s action number `i` depends. A byte is read or written only by those who may; not while something
is pending for it (`Dirty`, `Pinned`); a lock is released only when nothing is pending for what it protects, a barrier is entered only when nothing
is pending. No byte that is used is part of a lock. -/
structure Drf (T : Sys) (P : Prog) (own : Owns) (used : Nat × Int → Prop) (looks : Nat → Nat → Int → Prop) : Prop where
  dep : ∀ p < T.lk.n, ∀ (i : Nat) (f : IMem → Call), (P p)[i]? = some (.data f) → ∀ m m' : IMem, (∀ a, looks p i a → m a = m' a) → f m = f m'
  look : ∀ p < T.lk.n, ∀ (i : Nat) (f : IMem → Call), (P p)[i]? = some (.data f) → ∀ a, looks p i a → CanR P own p i (p, a) ∧ ¬ Dirty P p i (p, a)
  reads : ∀ p < T.lk.n, ∀ (i : Nat) (f : IMem → Call), (P p)[i]? = some (.data f) → ∀ m b, (f m).reads p b → b.1 < T.lk.n ∧ CanR P own p i b ∧ ¬ Dirty P p i b
  writes : ∀ p < T.lk.n, ∀ (i : Nat) (f : IMem → Call), (P p)[i]? = some (.data f) → ∀ m b, (f m).writes p b →
    CanW P own p i b ∧ ¬ Dirty P p i b ∧ ¬ Pinned P p i b ∧ ¬ (f m).reads p b
  sole : ∀ p < T.lk.n, ∀ (i : Nat) (f : IMem → Call), (P p)[i]? = some (.data f) → ∀ m, (f m).sole
  clears : ∀ p < T.lk.n, ∀ i l, (P p)[i]? = some (.clear l) → ∀ b, own (epoch (P p) i) b = some (.lock l) → ¬ Dirty P p i b ∧ ¬ Pinned P p i b
  bars : ∀ p < T.lk.n, ∀ i, (P p)[i]? = some .bar → ∀ b, ¬ Dirty P p i b ∧ ¬ Pinned P p i b
  owned : ∀ e b, own e b ≠ none → used b
  locks : ∀ b : Nat × Int, used b → ∀ z, T.lk.InLock b.1 z → z.toInt ≠ b.2

/-! ## Lemmas on programs -/

section
variable {T : Sys} {P : Prog} {own : Owns} {used : Nat × Int → Prop} {looks : Nat → Nat → Int → Prop}

theorem canW_own {p i : Nat} {b : Nat × Int} (h : CanW P own p i b) : own (epoch (P p) i) b ≠ none := by
  rcases h with ⟨l, h, _⟩ | h <;> rw [h] <;> exact fun h => by cases h

theorem canR_own {p i : Nat} {b : Nat × Int} (h : CanR P own p i b) : own (epoch (P p) i) b ≠ none := by
  rcases h with h | h
  · exact canW_own h
  · rw [h]; exact fun h => by cases h

theorem canW_next {p i : Nat} {b : Nat × Int} (h : CanW P own p i b) (hb : (P p)[i]? ≠ some .bar)
    (hc : ∀ l, (P p)[i]? = some (.clear l) → own (epoch (P p) i) b ≠ some (.lock l)) : CanW P own p (i + 1) b := by
  unfold CanW
  rw [epoch_other hb]
  rcases h with ⟨l, h, hh⟩ | h
  · refine Or.inl ⟨l, h, ?_⟩
    by_cases hs : (P p)[i]? = some (.set l)
    · exact holds_set hs
    · exact (holds_other hs fun hcl => hc l hcl h).2 hh
  · exact Or.inr h

theorem canR_next {p i : Nat} {b : Nat × Int} (h : CanR P own p i b) (hb : (P p)[i]? ≠ some .bar)
    (hc : ∀ l, (P p)[i]? = some (.clear l) → own (epoch (P p) i) b ≠ some (.lock l)) : CanR P own p (i + 1) b := by
  rcases h with h | h
  · exact Or.inl (canW_next h hb hc)
  · refine Or.inr ?_
    rw [epoch_other hb]; exact h

end

end Verif.Crit.Mix
