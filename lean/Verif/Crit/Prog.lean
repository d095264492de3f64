import Verif.Crit.Lemmas
import Verif.Vis.Fair
import Verif.Bsp.Fair
import Verif.Lock.MultiProps
/-!
# Programs with locks

Programs of all PEs that synchronise with locks only, and the executions (`Crit.Step`: all PEs, operations in flight with their data, lock
calls access by access) that run such a program. The code is that of `Vis` and `Lock.Words`: order_impl.h L23-96, rma_impl.h L107-243,
lock_impl.h L27-168.
-/
namespace Verif.Crit
open Verif.Rma Verif.Lock

/-- A put or a get routine (rma_impl.h L107-243; `xs` are the addresses of the bytes, destination first), or a store to the own memory. -/
inductive Call where
  | put (tgt : Nat) (nbi : Bool) (xs : List (Int × Int))
  | get (tgt : Nat) (nbi : Bool) (xs : List (Int × Int))
  | store (a : Int) (v : BitVec 8)

/-- What a program does next: `shmem_set_lock`, `shmem_clear_lock` on lock number `l` (lock_impl.h L27-146), `shmem_quiet` or `shmem_fence`
(order_impl.h L23-96), or a call or store that may depend on the PE's own memory (local variables are part of it). -/
inductive PAct where
  | set (l : Nat)
  | clear (l : Nat)
  | quiet
  | data (f : IMem → Call)

/-- A program: the actions of each PE (straight-line programs, loops unrolled: simplification). -/
abbrev Prog := Nat → List PAct

/-- the step of the execution that a call is -/
def Call.Does (p : Nat) : Call → Vis.Ev → Prop
  | .put tgt nbi xs, e => ∃ ctx addr ep, e = .put p tgt nbi ctx addr xs ep
  | .get tgt nbi xs, e => ∃ ctx addr ep, e = .get p tgt nbi ctx addr xs ep
  | .store a v, e => e = .store p a v

/-- the bytes a call of PE `p` writes (in the end) -/
def Call.writes (p : Nat) (b : Nat × Int) : Call → Prop
  | .put tgt _ xs => b.1 = tgt ∧ ∃ x ∈ xs, x.1 = b.2
  | .get _ _ xs => b.1 = p ∧ ∃ x ∈ xs, x.1 = b.2
  | .store a _ => b = (p, a)

/-- an execution's state and how many actions each PE has begun -/
structure PX where
  x : X
  pos : Nat → Nat

/-- One step of an execution of program `P`: PEs do nothing but their program. A lock call is counted when it begins; its accesses follow
(`run`, lock_impl.h L27-168). `lib`: something no PE calls (accesses of operations in flight are performed). -/
inductive PStep (T : Sys) (P : Prog) : PX → Ev → PX → Prop
  | lib {x y : X} {pos : Nat → Nat} {e : Vis.Ev} (ho : e.own = none) (s : Step T x (.rma e) y) : PStep T P ⟨x, pos⟩ (.rma e) ⟨y, pos⟩
  | data {x y : X} {pos : Nat → Nat} {e : Vis.Ev} (p : Nat) (f : IMem → Call) (ha : (P p)[pos p]? = some (.data f))
      (hd : (f (x.g.mem p)).Does p e) (s : Step T x (.rma e) y) : PStep T P ⟨x, pos⟩ (.rma e) ⟨y, Function.update pos p (pos p + 1)⟩
  | quiet {x y : X} {pos : Nat → Nat} (p : Nat) (op : Order.Op) (ha : (P p)[pos p]? = some .quiet) (ho : op = .quiet none ∨ op = .fence none)
      (s : Step T x (.rma (.call p op)) y) : PStep T P ⟨x, pos⟩ (.rma (.call p op)) ⟨y, Function.update pos p (pos p + 1)⟩
  | set {x y : X} {pos : Nat → Nat} {ev : List Lock.Ev} (p l : Nat) (ha : (P p)[pos p]? = some (.set l)) (s : Step T x (.lock l p .callSet ev) y) :
      PStep T P ⟨x, pos⟩ (.lock l p .callSet ev) ⟨y, Function.update pos p (pos p + 1)⟩
  | clear {x y : X} {pos : Nat → Nat} {ev : List Lock.Ev} (p l : Nat) (ha : (P p)[pos p]? = some (.clear l))
      (s : Step T x (.lock l p .callClear ev) y) : PStep T P ⟨x, pos⟩ (.lock l p .callClear ev) ⟨y, Function.update pos p (pos p + 1)⟩
  | run {x y : X} {pos : Nat → Nat} {ev : List Lock.Ev} (p l : Nat) (s : Step T x (.lock l p .run ev) y) :
      PStep T P ⟨x, pos⟩ (.lock l p .run ev) ⟨y, pos⟩

/-- a finite execution of the program -/
inductive PRun (T : Sys) (P : Prog) : PX → List Ev → PX → Prop
  | nil (x : PX) : PRun T P x [] x
  | snoc {x y z : PX} {l : List Ev} {e : Ev} (r : PRun T P x l y) (s : PStep T P y e z) : PRun T P x (l ++ [e]) z

/-! ## What programs have to do -/

/-- before its action number `i` the PE with these actions holds lock `l` (if its calls have returned) -/
def Holds (as : List PAct) (i l : Nat) : Prop := ∃ j < i, as[j]? = some (.set l) ∧ ∀ k, j < k → k < i → as[k]? ≠ some (.clear l)

/-- The rules for programs with locks: set locks in increasing order (a lock that is set comes after all those the PE holds), clear only a lock
the PE holds, hold no lock at the end, and do not write to locks. -/
structure Proper (T : Sys) (P : Prog) : Prop where
  order : ∀ p < T.lk.n, ∀ i l, (P p)[i]? = some (.set l) → l < T.lk.m ∧ ∀ k, Holds (P p) i k → k < l
  clears : ∀ p < T.lk.n, ∀ i l, (P p)[i]? = some (.clear l) → Holds (P p) i l
  all : ∀ p < T.lk.n, ∀ l, ¬ Holds (P p) (P p).length l
  respects : ∀ p < T.lk.n, ∀ f, .data f ∈ P p → ∀ m t, t < T.lk.n → ∀ x, T.lk.InLock t x → ¬ (f m).writes p (t, x.toInt)

/-- An infinite execution of program `P`. `vis`: what happens, as an execution of `Vis`, where the accesses of lock calls are `touch`es (with what
each PE is about to do, `want`). `stands`, `inside`: a PE that can go on is about to do its next action, which for puts, gets and stores is one
that the library accepts (apart from what is in flight); in a lock call, to make the next access. -/
structure LInf (T : Sys) (P : Prog) where
  vis : Vis.Inf T.vis
  pc : Nat → Nat → Nat → PC
  pos : Nat → Nat → Nat
  ev : Nat → Option Ev
  init : T.lk.Init (X.words ⟨vis.st 0, pc 0⟩)
  pos0 : pos 0 = fun _ => 0
  step : ∀ i e, ev i = some e → PStep T P ⟨⟨vis.st i, pc i⟩, pos i⟩ e ⟨⟨vis.st (i + 1), pc (i + 1)⟩, pos (i + 1)⟩
  idle : ∀ i, ev i = none → vis.ev i = none ∧ pc (i + 1) = pc i ∧ pos (i + 1) = pos i
  data : ∀ i e, ev i = some (.rma e) → vis.ev i = some e
  lock : ∀ i l p a evs, ev i = some (.lock l p a evs) → ∃ ws, vis.ev i = some (.touch p ws)
  inside : ∀ i p, T.lk.free (X.words ⟨vis.st i, pc i⟩) p = false → ∀ e, vis.want i p e ↔ ∃ ws, e = .touch p ws
  stands : ∀ i p, Vis.Free T.vis (vis.st i) p → T.lk.free (X.words ⟨vis.st i, pc i⟩) p = true → ∀ a, (P p)[pos i p]? = some a →
    match a with
    | .set _ => ∀ e, vis.want i p e ↔ ∃ ws, e = .touch p ws
    | .clear _ => ∀ e, vis.want i p e ↔ ∃ ws, e = .touch p ws
    | .quiet => Vis.AtCall vis i p (.quiet none) ∨ Vis.AtCall vis i p (.fence none)
    | .data _ => ∃ e g', vis.want i p e ∧ e.own = some p ∧ e.plain = true ∧ Vis.Step T.vis ((vis.st i).clear p) e g'

/-- state number `i` -/
def LInf.at_ {T : Sys} {P : Prog} (R : LInf T P) (i : Nat) : PX := ⟨⟨R.vis.st i, R.pc i⟩, R.pos i⟩

end Verif.Crit
