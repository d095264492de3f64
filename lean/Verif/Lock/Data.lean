import Verif.Lock.Model
/-!
# Lock plus remote updates (for C05)

The critical section may issue puts.  A put returns before it is complete at the target
(`/repo/src/internal/rma_impl.h` L107-126 `OSHMPI_ctx_put_nbi`; also `OSHMPI_rma_am_put`,
`/repo/src/internal/rma_am_impl.h` L12-45, returns after local completion).  It becomes complete when the network
delivers it or at the latest when the PE's `shmem_quiet` returns (`/repo/src/internal/order_impl.h` L67-96).
`OSHMPI_clear_lock` (`lock_impl.h` L83-136) contains no quiet.
Simplification: per PE one bit "some put of this PE is not yet complete".
-/
namespace Verif.Lock

/-- Lock words plus, per PE, whether it has an incomplete put. -/
structure DState where
  lk : State
  pending : Nat → Bool

/-- Start: free lock, nothing outstanding. -/
def dinit : DState := { lk := init, pending := fun _ => false }

/-- Actions: an access of a lock call, a put in the critical section, a delivery, a quiet. -/
inductive DAct where
  | lock (a : Act) | put | deliver | quiet
deriving DecidableEq, Repr

/-- One action of PE `p`. Puts are issued while holding the lock; `quiet` returns with nothing pending
(order_impl.h L67-96). -/
def dstep (s : DState) (p : Nat) : DAct → Option (DState × List Ev)
  | .lock a => (step s.lk p a).map (fun r => ({ s with lk := r.1 }, r.2))
  | .put => if s.lk.pc p = .held then some ({ s with pending := upd s.pending p true }, []) else none
  | .deliver => some ({ s with pending := upd s.pending p false }, [])
  | .quiet => some ({ s with pending := upd s.pending p false }, [])

/-- Executions of the lock with puts. `ok p a s` restricts what programs do. -/
inductive DExec (n : Nat) (ok : DState → Nat → DAct → Prop) : DState → Prop where
  | init : DExec n ok dinit
  | step {s s' : DState} {ev : List Ev} (p : Nat) (a : DAct) :
      DExec n ok s → p < n → ok s p a → dstep s p a = some (s', ev) → DExec n ok s'

end Verif.Lock
