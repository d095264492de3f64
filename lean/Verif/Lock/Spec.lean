import Verif.Lock.Model
/-!
# Specification of a FIFO lock (independent of the implementation)

A lock has a holder and a list of requesters.  `acquire p` is legal only if nobody holds the lock and `p` is the
oldest requester, `release p` only by the holder.
-/
namespace Verif.Lock

/-- Abstract lock: who holds it, who waits (oldest first). -/
structure Abs where
  holder : Option Nat
  waiting : List Nat
deriving DecidableEq, Repr

/-- Legal transitions of the abstract FIFO lock; `none` means the event is illegal. -/
def Abs.step (a : Abs) : Ev → Option Abs
  | .request p => some { a with waiting := a.waiting ++ [p] }
  | .acquire p =>
      match a.holder, a.waiting with
      | none, q :: rest => if q = p then some { holder := some p, waiting := rest } else none
      | _, _ => none
  | .release p => if a.holder = some p then some { a with holder := none } else none
  | .busy _ => some a
  | .cleared _ => some a

/-- Run a whole trace. -/
def Abs.run : Abs → List Ev → Option Abs
  | a, [] => some a
  | a, e :: es => (a.step e).bind (fun a' => Abs.run a' es)

/-- The free lock. -/
def Abs.free : Abs := { holder := none, waiting := [] }

end Verif.Lock
