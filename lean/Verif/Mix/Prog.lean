import Verif.Crit.Seq
/-!
# Programs with locks and barriers

Programs of all PEs that synchronise with locks and `shmem_barrier_all`, and the executions (`Crit.Step`: all PEs, operations in flight with their
data, lock calls access by access) that run such a program. The code is that of `Vis` and `Lock.Words`: order_impl.h L23-96, rma_impl.h L107-243,
coll_impl.h L12-32 (barrier), lock_impl.h L27-168.
-/
namespace Verif.Crit.Mix
open Verif.Rma Verif.Lock

/-- What a program does next: as in `Crit.PAct` (`shmem_set_lock`, `shmem_clear_lock`, lock_impl.h L27-146; `shmem_quiet` or `shmem_fence`,
order_impl.h L23-96; a put, a get or a store that may depend on the PE's own memory), or `shmem_barrier_all` (coll_impl.h L12-32). -/
inductive PAct where
  | set (l : Nat)
  | clear (l : Nat)
  | quiet
  | bar
  | data (f : IMem → Call)

/-- A program: the actions of each PE (straight-line programs, loops unrolled: simplification). -/
abbrev Prog := Nat → List PAct

/-- One step of an execution of program `P`: PEs do nothing but their program. A lock call is counted when it begins, its accesses follow
(`run`, lock_impl.h L27-168); a barrier when it returns (`leave`, after `enter`: coll_impl.h L12-32). `lib`: something no PE calls. -/
inductive PStep (T : Sys) (P : Prog) : PX → Ev → PX → Prop
  | lib {x y : X} {pos : Nat → Nat} {e : Vis.Ev} (ho : e.own = none) (hl : ∀ q, e ≠ .leave q) (s : Step T x (.rma e) y) :
      PStep T P ⟨x, pos⟩ (.rma e) ⟨y, pos⟩
  | data {x y : X} {pos : Nat → Nat} {e : Vis.Ev} (p : Nat) (f : IMem → Call) (ha : (P p)[pos p]? = some (.data f))
      (hd : (f (x.g.mem p)).Does p e) (s : Step T x (.rma e) y) : PStep T P ⟨x, pos⟩ (.rma e) ⟨y, Function.update pos p (pos p + 1)⟩
  | quiet {x y : X} {pos : Nat → Nat} (p : Nat) (op : Order.Op) (ha : (P p)[pos p]? = some .quiet) (ho : op = .quiet none ∨ op = .fence none)
      (s : Step T x (.rma (.call p op)) y) : PStep T P ⟨x, pos⟩ (.rma (.call p op)) ⟨y, Function.update pos p (pos p + 1)⟩
  | enter {x y : X} {pos : Nat → Nat} (p : Nat) (ha : (P p)[pos p]? = some .bar) (s : Step T x (.rma (.enter p)) y) :
      PStep T P ⟨x, pos⟩ (.rma (.enter p)) ⟨y, pos⟩
  | leave {x y : X} {pos : Nat → Nat} (p : Nat) (s : Step T x (.rma (.leave p)) y) :
      PStep T P ⟨x, pos⟩ (.rma (.leave p)) ⟨y, Function.update pos p (pos p + 1)⟩
  | set {x y : X} {pos : Nat → Nat} {ev : List Lock.Ev} (p l : Nat) (ha : (P p)[pos p]? = some (.set l)) (s : Step T x (.lock l p .callSet ev) y) :
      PStep T P ⟨x, pos⟩ (.lock l p .callSet ev) ⟨y, Function.update pos p (pos p + 1)⟩
  | clear {x y : X} {pos : Nat → Nat} {ev : List Lock.Ev} (p l : Nat) (ha : (P p)[pos p]? = some (.clear l))
      (s : Step T x (.lock l p .callClear ev) y) : PStep T P ⟨x, pos⟩ (.lock l p .callClear ev) ⟨y, Function.update pos p (pos p + 1)⟩
  | run {x y : X} {pos : Nat → Nat} {ev : List Lock.Ev} (p l : Nat) (s : Step T x (.lock l p .run ev) y) :
      PStep T P ⟨x, pos⟩ (.lock l p .run ev) ⟨y, pos⟩

/-- a finite execution of the program -/
inductive PRun (T : Sys) (P : Prog) : PX → List Ev → PX → Prop
  | nil (x : PX) : PRun T P x [] x
  | snoc {x y z : PX} {l : List Ev} {e : Ev} (r : PRun T P x l y) (s : PStep T P y e z) : PRun T P x (l ++ [e]) z

/-- before its action number `i` the PE with these actions holds lock `l` (if its calls have returned) -/
def Holds (as : List PAct) (i l : Nat) : Prop := ∃ j < i, as[j]? = some (.set l) ∧ ∀ k, j < k → k < i → as[k]? ≠ some (.clear l)

/-- whether it is a barrier -/
def PAct.isBar : PAct → Bool
  | .set _ => false
  | .clear _ => false
  | .quiet => false
  | .bar => true
  | .data _ => false

/-- the number of barriers before action number `i` -/
def epoch (as : List PAct) (i : Nat) : Nat := ((as.take i).filter PAct.isBar).length

/-- The rules for programs with locks: a PE sets only locks it does not hold, clears only locks it holds, and does not write to locks. -/
structure Proper (T : Sys) (P : Prog) : Prop where
  sets : ∀ p < T.lk.n, ∀ i l, (P p)[i]? = some (.set l) → l < T.lk.m ∧ ¬ Holds (P p) i l
  clears : ∀ p < T.lk.n, ∀ i l, (P p)[i]? = some (.clear l) → Holds (P p) i l
  respects : ∀ p < T.lk.n, ∀ f, .data f ∈ P p → ∀ m t, t < T.lk.n → ∀ x, T.lk.InLock t x → ¬ (f m).writes p (t, x.toInt)

/-! ## Lemmas -/

theorem epoch_bar {as : List PAct} {i : Nat} (h : as[i]? = some .bar) : epoch as (i + 1) = epoch as i + 1 := by
  unfold epoch
  rw [List.take_add_one, h, List.filter_append, List.length_append]
  rfl

theorem epoch_other {as : List PAct} {i : Nat} (h : as[i]? ≠ some .bar) : epoch as (i + 1) = epoch as i := by
  unfold epoch
  rw [List.take_add_one, List.filter_append, List.length_append]
  cases ha : as[i]? with
  | none => rfl
  | some a =>
    cases a with
    | bar => exact absurd ha h
    | set l => rfl
    | clear l => rfl
    | quiet => rfl
    | data f => rfl

theorem holds_set {as : List PAct} {i l : Nat} (h : as[i]? = some (.set l)) : Holds as (i + 1) l :=
  ⟨i, by omega, h, fun k h1 h2 => by omega⟩

theorem holds_clear {as : List PAct} {i l : Nat} (h : as[i]? = some (.clear l)) : ¬ Holds as (i + 1) l := by
  rintro ⟨j, h1, h2, h3⟩
  rcases Nat.lt_or_ge j i with hj | hj
  · exact h3 i hj (by omega) h
  · have : j = i := by omega
    subst this
    rw [h] at h2
    cases h2

theorem holds_other {as : List PAct} {i l : Nat} (h1 : as[i]? ≠ some (.set l)) (h2 : as[i]? ≠ some (.clear l)) :
    Holds as (i + 1) l ↔ Holds as i l := by
  constructor
  · rintro ⟨j, a, b, c⟩
    have : j ≠ i := fun e => h1 (e ▸ b)
    exact ⟨j, by omega, b, fun k hk hk' => c k hk (by omega)⟩
  · rintro ⟨j, a, b, c⟩
    refine ⟨j, by omega, b, fun k hk hk' => ?_⟩
    rcases Nat.lt_or_ge k i with h | h
    · exact c k hk h
    · have : k = i := by omega
      rw [this]; exact h2

theorem PStep.step {T : Sys} {P : Prog} {x y : PX} {e : Ev} (h : PStep T P x e y) : Step T x.x e y.x := by
  cases h <;> assumption

/-- programs do not write to locks -/
theorem PStep.respects {T : Sys} {P : Prog} (hP : Proper T P) {x y : PX} {e : Vis.Ev} (h : PStep T P x (.rma e) y) {t : Nat} (ht : t < T.lk.n)
    {a : BitVec 64} (ha : T.lk.InLock t a) : ¬ e.writes (t, a.toInt) := by
  cases h with
  | lib ho hl s =>
    intro hw
    cases e <;> first | exact hw | cases ho
  | @data x y pos e p f hf hd s =>
    cases s with
    | @rma e g' hs hc =>
      intro hw
      have hp : p < T.lk.n := by rw [T.hn]; exact (Vis.own_free hs (does_own hd)).1
      exact hP.respects p hp f (List.mem_of_getElem? hf) _ t ht a ha (does_writes hd hw)
  | quiet p op ha' ho s => exact id
  | enter p ha' s => exact id
  | leave p s => exact id

theorem PRun.run {T : Sys} {P : Prog} (hP : Proper T P) {x y : PX} {l : List Ev} (h : PRun T P x l y) :
    ∃ tr, Run T x.x tr y.x ∧ Respected T tr := by
  induction h with
  | nil => exact ⟨[], Run.nil _, fun s hs => by cases hs⟩
  | @snoc y z l e r s ih =>
    obtain ⟨tr, h1, h2⟩ := ih
    refine ⟨_, Run.snoc h1 s.step, ?_⟩
    intro s' hs' e' he' t ht a ha
    rcases List.mem_append.1 hs' with h | h
    · exact h2 s' h e' he' t ht a ha
    · rw [List.mem_singleton] at h
      subst h
      cases he'
      exact s.respects hP ht ha


end Verif.Crit.Mix
