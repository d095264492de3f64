/-!
# Model of the distributed lock

Source: `/repo/src/internal/lock_impl.h`, entry points `/repo/src/shmem/lock.c` L10-23.

Each C call is cut at every access to the shared words, so that every interleaving of the calls of all PEs is an
execution of the model.  One step performs exactly one remote atomic (`MPI_Fetch_and_op`, `MPI_Compare_and_swap`,
`MPI_Accumulate` together with the `MPI_Win_flush` that completes it) or one local store (`lock->next = 0` with
`MPI_Win_sync`).  MPI is assumed to make accumulate-family operations on one word atomic.

Simplifications: one lock, its words at their right places (`Verif.Lock.Words` has several locks in memory, at the
addresses the code computes);
`OSHMPI_am_cb_progress` in the polling loops (L77, L123) does not touch the lock words and is omitted.
-/
namespace Verif.Lock

/-- `f` with the value at `p` replaced: a store to the word/program counter of PE `p`. (Model infrastructure.) -/
def upd {α : Type} (f : Nat → α) (p : Nat) (v : α) : Nat → α := fun x => if x = p then v else f x

/-- `NEXT_MASK`, `INT_MAX` — lock_impl.h L16. -/
def NEXT_MASK : BitVec 32 := 0x7fffffff#32
/-- `SIGNAL_MASK`, `(unsigned) INT_MAX + 1` — lock_impl.h L17. -/
def SIGNAL_MASK : BitVec 32 := 0x80000000#32
/-- `NEXT(a)` — lock_impl.h L18. -/
def NEXT (a : BitVec 32) : BitVec 32 := a &&& NEXT_MASK
/-- `SIGNAL(a)` — lock_impl.h L19 (used only as a truth value, L75). -/
def SIGNAL (a : BitVec 32) : BitVec 32 := a &&& SIGNAL_MASK

/-- `int myid = OSHMPI_global.team_world_my_pe + 1` — lock_impl.h L29, L85, L140. -/
def myid (p : Nat) : BitVec 32 := BitVec.ofNat 32 (p + 1)

/-- Where a PE is in its current lock call.  One constructor per shared access of lock_impl.h. -/
inductive PC where
  /-- outside every lock call, not holding the lock -/
  | idle
  /-- in `OSHMPI_set_lock`, about to execute `lock->next = 0` (L52) -/
  | setReset
  /-- about to execute the `MPI_Fetch_and_op(REPLACE)` on the root's `last` (L56-59) -/
  | setSwap
  /-- `curid != 0`: about to `MPI_Accumulate(BOR)` my id into `next` of PE `curid - 1` (L64-67) -/
  | setLink (curid : BitVec 32)
  /-- polling my own `next` for the signal bit (L70-78) -/
  | setSpin
  /-- the call returned with the lock held -/
  | held
  /-- in `OSHMPI_clear_lock`, about to `MPI_Compare_and_swap` the root's `last` (L107-110) -/
  | clrCas
  /-- `curid != myid`: polling my own `next` for the successor (L115-124) -/
  | clrSpin
  /-- successor read; about to execute `lock->next = 0` (L127) -/
  | clrReset (nextid : BitVec 32)
  /-- about to `MPI_Accumulate(BOR)` the signal bit into `next` of PE `nextid - 1` (L131-133) -/
  | clrSignal (nextid : BitVec 32)
  /-- in `OSHMPI_test_lock`, about to `MPI_Compare_and_swap` the root's `last` (L158-161) -/
  | testCas
deriving DecidableEq, Repr

/-- Shared words of one lock (lock_impl.h L21-25) plus each PE's position. `last` is the word on PE
`OSHMPI_LOCK_ROOT_WRANK` (L14); the `last` words of the other PEs are never accessed. -/
structure State where
  last : BitVec 32
  next : Nat → BitVec 32
  pc : Nat → PC

/-- A zero-initialised lock (OpenSHMEM requires the user to do so), no PE in a call. -/
def init : State := { last := 0, next := fun _ => 0, pc := fun _ => .idle }

/-- What the program sees, and the moment a request is recorded at the root. -/
inductive Ev where
  /-- PE `p`'s request took effect at the root (L56 swap, or a successful L158 compare-and-swap) -/
  | request (p : Nat)
  /-- `shmem_set_lock` returned, or `shmem_test_lock` returned 0 -/
  | acquire (p : Nat)
  /-- `shmem_clear_lock` was called -/
  | release (p : Nat)
  /-- `shmem_test_lock` returned 1 -/
  | busy (p : Nat)
  /-- `shmem_clear_lock` returned -/
  | cleared (p : Nat)
deriving DecidableEq, Repr

/-- What PE `p` may do next: start a call (by the program), or execute the next access of the call it is in. -/
inductive Act where
  | callSet | callTest | callClear | run
deriving DecidableEq, Repr

/-- The PE index addressed by an MPI rank argument `id - 1` (lock_impl.h L64, L131). -/
def rank (id : BitVec 32) : Nat := (id - 1#32).toNat

/-- One access of PE `p`; `none` if `p` cannot do this now (a PE is in at most one call; the program calls
`clear` only while holding).  Returns the new state and the events.  A poll that fails is a step that changes
nothing. -/
def step (s : State) (p : Nat) : Act → Option (State × List Ev)
  | .callSet => if s.pc p = .idle then some ({ s with pc := upd s.pc p .setReset }, []) else none
  | .callTest => if s.pc p = .idle then some ({ s with pc := upd s.pc p .testCas }, []) else none
  | .callClear =>
      if s.pc p = .held then some ({ s with pc := upd s.pc p .clrCas }, [.release p]) else none
  | .run =>
    match s.pc p with
    | .idle => none
    | .held => none
    -- L52
    | .setReset => some ({ s with next := upd s.next p 0, pc := upd s.pc p .setSwap }, [])
    -- L56-59, branch L63
    | .setSwap =>
        let curid := s.last
        if curid ≠ 0 then
          some ({ s with last := myid p, pc := upd s.pc p (.setLink curid) }, [.request p])
        else
          some ({ s with last := myid p, pc := upd s.pc p .held }, [.request p, .acquire p])
    -- L64-67
    | .setLink curid =>
        let a := rank curid
        some ({ s with next := upd s.next a (s.next a ||| myid p), pc := upd s.pc p .setSpin }, [])
    -- L70-78
    | .setSpin =>
        if SIGNAL (s.next p) ≠ 0 then some ({ s with pc := upd s.pc p .held }, [.acquire p])
        else some (s, [])
    -- L107-110, branch L114
    | .clrCas =>
        let curid := s.last
        let last' := if curid = myid p then 0 else curid
        if curid ≠ myid p then some ({ s with last := last', pc := upd s.pc p .clrSpin }, [])
        else some ({ s with last := last', pc := upd s.pc p .idle }, [.cleared p])
    -- L115-124
    | .clrSpin =>
        let nextid := NEXT (s.next p)
        if nextid ≠ 0 then some ({ s with pc := upd s.pc p (.clrReset nextid) }, []) else some (s, [])
    -- L127
    | .clrReset nextid =>
        some ({ s with next := upd s.next p 0, pc := upd s.pc p (.clrSignal nextid) }, [])
    -- L131-133
    | .clrSignal nextid =>
        let b := rank nextid
        some ({ s with next := upd s.next b (s.next b ||| SIGNAL_MASK), pc := upd s.pc p .idle }, [.cleared p])
    -- L158-167
    | .testCas =>
        let curid := s.last
        let last' := if curid = 0 then myid p else curid
        if curid = 0 then
          some ({ s with last := last', pc := upd s.pc p .held }, [.request p, .acquire p])
        else some ({ s with last := last', pc := upd s.pc p .idle }, [.busy p])

/-- Executions over `n` PEs: any interleaving of the steps of PEs `p < n`, with the events it produces. -/
inductive Exec (n : Nat) : State → List Ev → Prop where
  | init : Exec n Lock.init []
  | step {s s' : State} {tr ev : List Ev} (p : Nat) (a : Act) :
      Exec n s tr → p < n → step s p a = some (s', ev) → Exec n s' (tr ++ ev)

/-- `MPI_Comm_size` is a C `int`. -/
def INT_MAX : Nat := 2147483647

end Verif.Lock
