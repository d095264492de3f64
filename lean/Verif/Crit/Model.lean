import Verif.Vis.Model
import Verif.Lock.Words
/-!
# Critical sections: locks and data in executions of all PEs

`Verif.Vis` has the data of puts, gets and AMOs on their way; `Verif.Lock.Words` has the calls of `lock_impl.h` access by access in
memory. Here both run in the same memories: any PE may use any routine of `Vis` and any lock, one call at a time.
-/
namespace Verif.Crit
open Verif.Rma Verif.Lock

/-- The system: the PEs, their locks and where these are. The object of a lock is the symmetric heap or the global data, as
`OSHMPI_sobj_query_attr_ictx` finds it (lock_impl.h L41-43, oshmpi_impl.h L669-717); locks in spaces are left out (simplification). -/
structure Sys where
  vis : Vis.Sys
  lk : Lock.Cfg
  hn : lk.n = vis.npes
  placed : ∀ l, l < lk.m → ∀ t, t < lk.n → lk.attr l t = (vis.cf t).heap ∨ lk.attr l t = (vis.cf t).data

/-- State: that of `Vis`, and where each PE is in its call on each lock (lock_impl.h L27-168). -/
structure X where
  g : Vis.G
  pc : Nat → Nat → PC

/-- what `Lock.wstep` (lock_impl.h L27-168) sees of the state -/
def X.words (x : X) : WState := ⟨fun t a => x.g.mem t a.toInt, x.pc⟩

/-- the memories with the bytes at 64-bit addresses replaced by those of `w` (the result of an access of lock_impl.h L27-168) -/
def back (m : Mems) (w : Nat → Bytes) : Mems :=
  fun t a => if -(2 ^ 63) ≤ a ∧ a < 2 ^ 63 then w t (BitVec.ofInt 64 a) else m t a

/-- A step: one of `Vis`, or an access of a lock call with what it means to the program (`Lock.Ev`). -/
inductive Ev where
  | rma (e : Vis.Ev)
  | lock (l p : Nat) (a : Act) (ev : List Lock.Ev)

/-- the PE whose program makes the call or store -/
def caller : Vis.Ev → Option Nat
  | .put p _ _ _ _ _ _ => some p
  | .get p _ _ _ _ _ _ => some p
  | .amo p _ _ _ _ _ _ _ => some p
  | .store p _ _ => some p
  | .poll p _ _ _ => some p
  | .touch p _ => some p
  | .call p _ => some p
  | .enter p => some p
  | .leave _ => none
  | .done _ _ _ => none
  | .tau => none

/-- One step. A PE inside a lock call makes no other call (one thread per PE), and calls on locks are made outside barriers and blocking
calls. The `MPI_Win_flush` after each access of a lock call (lock_impl.h L59, L67, L74, L110, L119, L133, L161) completes also what the PE
has outstanding at that target in that window; here that may happen (`Vis.Step.fin`) but need not (simplification: more executions). -/
inductive Step (T : Sys) : X → Ev → X → Prop
  | rma {x : X} {e : Vis.Ev} {g' : Vis.G} (h : Vis.Step T.vis x.g e g') (hc : ∀ p, caller e = some p → T.lk.free x.words p = true) :
      Step T x (.rma e) ⟨g', x.pc⟩
  | lock {x : X} (l p : Nat) (a : Act) {w : WState} {ev : List Lock.Ev} (hl : l < T.lk.m) (hf : Vis.Free T.vis x.g p)
      (h : wstep T.lk x.words l p a = some (w, ev)) :
      Step T x (.lock l p a ev) ⟨{ x.g with mem := back x.g.mem w.mem }, w.pc⟩

/-- one entry of a history: state before, event, state after -/
structure Ent where
  pre : X
  ev : Ev
  post : X

/-- a finite execution with its history -/
inductive Run (T : Sys) : X → List Ent → X → Prop
  | nil (x : X) : Run T x [] x
  | snoc {x y z : X} {tr : List Ent} {ev : Ev} (r : Run T x tr y) (s : Step T y ev z) : Run T x (tr ++ [⟨y, ev, z⟩]) z

/-- The start: any memory contents, except that the locks are zero (as OpenSHMEM wants it); nobody is in a call. -/
def Start (T : Sys) (x : X) : Prop := (∃ m, x.g = Vis.ginit m) ∧ T.lk.Init x.words

/-! ## What programs have to do -/

/-- The event leaves something outstanding when the call returns: puts, non-blocking gets, AMOs without a result. -/
def posts : Vis.Ev → Bool
  | .put _ _ _ _ _ _ _ => true
  | .get _ _ nbi _ _ _ _ => nbi
  | .amo _ _ _ _ _ _ api _ => !Vis.returns api
  | .store _ _ _ => false
  | .poll _ _ _ _ => false
  | .touch _ _ => false
  | .call _ _ => false
  | .enter _ => false
  | .leave _ => false
  | .done _ _ _ => false
  | .tau => false

/-- PE `p` calls `shmem_quiet` or `shmem_fence` -/
def Quiets (p : Nat) (ev : Ev) : Prop := ev = .rma (.call p (.quiet none)) ∨ ev = .rma (.call p (.fence none))

/-- Nothing but lock calls writes to locks. -/
def Respected (T : Sys) (tr : List Ent) : Prop :=
  ∀ s ∈ tr, ∀ e, s.ev = .rma e → ∀ t, t < T.lk.n → ∀ x, T.lk.InLock t x → ¬ e.writes (t, x.toInt)

/-- Byte `k.2` of PE `k.1` is guarded by lock `l`: it is written only by PEs that hold the lock, and between a write that leaves
something outstanding and the `shmem_clear_lock` there is a `shmem_quiet` or `shmem_fence`. -/
structure Guarded (l : Nat) (k : Nat × Int) (tr : List Ent) : Prop where
  held : ∀ s ∈ tr, ∀ e, s.ev = .rma e → e.writes k → ∃ p, caller e = some p ∧ s.pre.pc l p = .held
  quiet : ∀ t1 s t2 c t3 e p ev, tr = t1 ++ s :: (t2 ++ c :: t3) → s.ev = .rma e → e.writes k → posts e = true → caller e = some p →
    c.ev = .lock l p .callClear ev → ∃ u ∈ t2, Quiets p u.ev

/-- the entry is the return of `shmem_set_lock`, or of `shmem_test_lock` with 0, by `p` on lock `l` -/
def Acquires (l p : Nat) (s : Ent) : Prop := ∃ a ev, s.ev = .lock l p a ev ∧ Lock.Ev.acquire p ∈ ev

/-- the entry is the call of `shmem_clear_lock` by `p` on lock `l` -/
def Clears (l p : Nat) (s : Ent) : Prop := ∃ ev, s.ev = .lock l p .callClear ev

end Verif.Crit
