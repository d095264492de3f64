import Verif.Lock.Model
import Verif.Sobj.Model
/-!
# Locks in the memory of the PEs

Source: `/repo/src/internal/lock_impl.h` L27-168 and the address translation of `/repo/src/include/oshmpi_impl.h`
L636-667.

`Verif.Lock.Model` has one lock whose words are variables of their own.  Here any number of locks lie in the
symmetric objects of the PEs; a call computes displacements from the caller's own address of the lock, and every
access is made at the address MPI derives from the displacement, byte by byte, in a memory that also holds the
users' data.  A PE may hold several locks but is in at most one call.

Simplification: one thread per PE in lock calls.  As in `Verif.Lock.Model` each access to a lock word is one step.
-/
namespace Verif.Lock

/-- Memory of one PE: a byte at every address. -/
abbrev Bytes := BitVec 64 → BitVec 8

/-- The `int` stored at `a` (little endian). (Model infrastructure for the accesses of lock_impl.h.) -/
def rd (m : Bytes) (a : BitVec 64) : BitVec 32 := m (a + 3#64) ++ m (a + 2#64) ++ m (a + 1#64) ++ m a

/-- The memory after the `int` `v` was stored at `a` (little endian). (Model infrastructure.) -/
def wr (m : Bytes) (a : BitVec 64) (v : BitVec 32) : Bytes := fun x =>
  if x = a then v.extractLsb' 0 8
  else if x = a + 1#64 then v.extractLsb' 8 8
  else if x = a + 2#64 then v.extractLsb' 16 8
  else if x = a + 3#64 then v.extractLsb' 24 8
  else m x

/-- Where a lock lies: in which symmetric object (set up as in `Sobj.setupAttr`), with which address of that object on
each PE, at which offset, and the displacement mode of the object's window (oshmpi_impl.h L114-123). -/
structure Loc where
  dyn : Bool
  kind : Sobj.Kind
  idx : Nat
  bases : Nat → BitVec 64
  size : Int
  off : BitVec 64
  mode : Sobj.Mode

/-- `n` PEs and `m` locks. -/
structure Cfg where
  n : Nat
  m : Nat
  loc : Nat → Loc

/-- The pointer `lockp` that PE `t` passes for lock `l` (lock_impl.h L27, L83, L138); `last` is at `lockp`, `next` four
bytes later (L21-25). -/
def Cfg.lockp (C : Cfg) (l t : Nat) : BitVec 64 := (C.loc l).bases t + (C.loc l).off

/-- The `sobj_attr` that PE `t` finds for lock `l` (lock_impl.h L41-43, L96-98, L149-151). -/
def Cfg.attr (C : Cfg) (l t : Nat) : Sobj.Attr :=
  Sobj.setupAttr (C.loc l).dyn (C.loc l).kind (C.loc l).idx C.n (C.loc l).bases (C.loc l).size t

/-- `OSHMPI_LOCK_ROOT_WRANK` — lock_impl.h L14. -/
def ROOT : Nat := 0

/-- `lock_last_disp` as computed by PE `t`, for the root, with the assertion that follows — lock_impl.h L44-47, L99-102,
L152-155. -/
def Cfg.lastDisp (C : Cfg) (l t : Nat) : Res (BitVec 64) :=
  (Sobj.vaddrToDisp (C.attr l t) (C.lockp l t) ROOT (C.loc l).mode).bind
    (fun d => if 0 ≤ d.toInt then .ok d else .abort)

/-- `lock_next_disp = lock_last_disp + sizeof(int)` — lock_impl.h L49, L104: one displacement, computed for the root,
used with every target. -/
def nextDisp (d : BitVec 64) : BitVec 64 := d + 4#64

/-- The address on PE `r` that MPI accesses for displacement `d` in lock `l`'s window. -/
def Cfg.at_ (C : Cfg) (l r : Nat) (d : BitVec 64) : BitVec 64 :=
  Sobj.mpiAddr ((C.loc l).bases r) d (C.loc l).mode

/-- The memories, and where each PE is in its call on each lock. -/
structure WState where
  mem : Nat → Bytes
  pc : Nat → Nat → PC

/-- `pc` of lock `l`, PE `p` set to `c`. (Model infrastructure.) -/
def WState.goto (s : WState) (l p : Nat) (c : PC) : WState := { s with pc := upd s.pc l (upd (s.pc l) p c) }

/-- The `int` `v` stored at `a` on PE `t`. (Model infrastructure.) -/
def WState.store (s : WState) (t : Nat) (a : BitVec 64) (v : BitVec 32) : WState :=
  { s with mem := upd s.mem t (wr (s.mem t) a v) }

/-- Not inside a call. -/
def PC.rest (c : PC) : Bool := decide (c = .idle) || decide (c = .held)

/-- PE `p` is inside no call on any lock. -/
def Cfg.free (C : Cfg) (s : WState) (p : Nat) : Bool := (List.range C.m).all (fun k => (s.pc k p).rest)

/-- One access of PE `p` in a call on lock `l`; same cuts as `Lock.step`, at the addresses the code computes.  `none`: `p`
cannot do this now (or the displacement is undefined or fails the assertion). -/
def wstep (C : Cfg) (s : WState) (l p : Nat) : Act → Option (WState × List Ev)
  | .callSet => if s.pc l p = .idle ∧ C.free s p = true then some (s.goto l p .setReset, []) else none
  | .callTest => if s.pc l p = .idle ∧ C.free s p = true then some (s.goto l p .testCas, []) else none
  | .callClear =>
      if s.pc l p = .held ∧ C.free s p = true then some (s.goto l p .clrCas, [.release p]) else none
  | .run =>
    match C.lastDisp l p with
    | .abort => none
    | .ub => none
    | .hang => none
    | .ok d =>
      -- the root's `last`, the `next` of PE `r`
      let lastA := C.at_ l ROOT d
      let nextA := fun r => C.at_ l r (nextDisp d)
      match s.pc l p with
      | .idle => none
      | .held => none
      -- L52: a store through the caller's own pointer
      | .setReset => some ((s.store p (C.lockp l p + 4#64) 0).goto l p .setSwap, [])
      -- L56-59, branch L63
      | .setSwap =>
          let curid := rd (s.mem ROOT) lastA
          if curid ≠ 0 then some ((s.store ROOT lastA (myid p)).goto l p (.setLink curid), [.request p])
          else some ((s.store ROOT lastA (myid p)).goto l p .held, [.request p, .acquire p])
      -- L64-67
      | .setLink curid =>
          let a := rank curid
          some ((s.store a (nextA a) (rd (s.mem a) (nextA a) ||| myid p)).goto l p .setSpin, [])
      -- L70-78
      | .setSpin =>
          if SIGNAL (rd (s.mem p) (nextA p)) ≠ 0 then some (s.goto l p .held, [.acquire p]) else some (s, [])
      -- L107-110, branch L114
      | .clrCas =>
          let curid := rd (s.mem ROOT) lastA
          if curid ≠ myid p then some (s.goto l p .clrSpin, [])
          else some ((s.store ROOT lastA 0).goto l p .idle, [.cleared p])
      -- L115-124
      | .clrSpin =>
          let nextid := NEXT (rd (s.mem p) (nextA p))
          if nextid ≠ 0 then some (s.goto l p (.clrReset nextid), []) else some (s, [])
      -- L127: a store through the caller's own pointer
      | .clrReset nextid =>
          some ((s.store p (C.lockp l p + 4#64) 0).goto l p (.clrSignal nextid), [])
      -- L131-133
      | .clrSignal nextid =>
          let b := rank nextid
          some ((s.store b (nextA b) (rd (s.mem b) (nextA b) ||| SIGNAL_MASK)).goto l p .idle, [.cleared p])
      -- L158-167
      | .testCas =>
          let curid := rd (s.mem ROOT) lastA
          if curid = 0 then some ((s.store ROOT lastA (myid p)).goto l p .held, [.request p, .acquire p])
          else some (s.goto l p .idle, [.busy p])

/-- Address `x` on PE `t` belongs to the `long` of some lock (shmem.h: `shmem_set_lock(long *)`), 8 bytes. -/
def Cfg.InLock (C : Cfg) (t : Nat) (x : BitVec 64) : Prop :=
  ∃ l, l < C.m ∧ ∃ i, i < 8 ∧ x = C.lockp l t + BitVec.ofNat 64 i

/-- A start: every lock is zero on every PE, nobody is in a call or holds a lock, everything else is arbitrary. -/
def Cfg.Init (C : Cfg) (s : WState) : Prop :=
  (∀ l p, s.pc l p = .idle) ∧ ∀ t, t < C.n → ∀ x, C.InLock t x → s.mem t x = 0#8

/-- Executions: any interleaving of lock calls of all PEs on all locks with arbitrary changes, by anybody, of memory that
is in no lock.  The trace records the lock of each event. -/
inductive WExec (C : Cfg) : WState → List (Nat × Ev) → Prop where
  | init {s : WState} : C.Init s → WExec C s []
  | call {s s' : WState} {tr : List (Nat × Ev)} {ev : List Ev} (l p : Nat) (a : Act) :
      WExec C s tr → l < C.m → p < C.n → wstep C s l p a = some (s', ev) →
      WExec C s' (tr ++ ev.map (fun e => (l, e)))
  | write {s : WState} {tr : List (Nat × Ev)} (mem' : Nat → Bytes) :
      WExec C s tr → (∀ t, t < C.n → ∀ x, C.InLock t x → mem' t x = s.mem t x) →
      WExec C { s with mem := mem' } tr

/-- What the program may rely on when it lays out locks: they are different `long`s on every PE, at user addresses (below
2^63); a window with absolute displacements exists only in a build with dynamic windows. -/
structure Cfg.WF (C : Cfg) : Prop where
  pos : 0 < C.n
  max : C.n ≤ INT_MAX
  idx : ∀ l, l < C.m → (C.loc l).idx < 2 ^ 29
  mode : ∀ l, l < C.m → (C.loc l).mode = .abs → (C.loc l).dyn = true
  off : ∀ l, l < C.m → 0 ≤ (C.loc l).off.toInt
  addr : ∀ l, l < C.m → ∀ t, t < C.n → 0 ≤ (C.lockp l t).toInt
  disj : ∀ l k, l < C.m → k < C.m → l ≠ k → ∀ t, t < C.n → ∀ i j, i < 8 → j < 8 →
    C.lockp l t + BitVec.ofNat 64 i ≠ C.lockp k t + BitVec.ofNat 64 j

/-- The condition under which the one displacement is right for every PE: a window with relative displacements, or the
object at the same address everywhere. -/
def Cfg.Uniform (C : Cfg) : Prop :=
  ∀ l, l < C.m → (C.loc l).mode = .rel ∨ ∀ t, t < C.n → (C.loc l).bases t = (C.loc l).bases ROOT

end Verif.Lock
