/-!
# Who handles active messages while a PE is blocked (C83)

Without the asynchronous thread a PE handles active messages only when it calls
`OSHMPI_am_cb_progress` (am_impl.c L287-L294).  This model follows each library routine down
to the points where it blocks, and records at which of them the PE keeps calling it.

All effects (memory of every PE, values fetched, lock words) are functions on one state of
type `M`, left arbitrary.  Simplified: one user thread per PE; a message's handler runs in one
step; a flush waits for its targets one after the other instead of all at once (am_impl.h
L50-L68); operations on an MPI window complete without the target's help
(`MPI_Win_flush` on a passive target), as in the rest of the project.
-/

namespace Verif.Serve

/-- The communicators and groups on which the library calls MPI collectives while a program
runs: `team_world_comm`, a team's `comm` (team_impl.c L50), the communicator of an active set,
and the group on which that communicator is created (coll_activeset_impl.h L106-L109).
`finalize` is `team_world_comm` as used by `finalize_impl` (setup_impl.c L865).  Simplified:
the barrier of finalize is matched only with itself. -/
inductive Comm where
  | world
  | finalize
  | team (i : Nat)
  | create (start lg size : Nat)
  | group (start lg size : Nat)
  deriving DecidableEq

/-- The blocking MPI collectives the library calls between `shmem_init` and the barrier of
`shmem_finalize`.  The first six are the wrappers of am_progress_impl.h L72-L173; the others
are called directly: `MPI_Comm_split` (team_impl.c L50), `MPI_Comm_free` (team_impl.c L38),
`MPI_Comm_create_group` (coll_activeset_impl.h L107), `MPI_Win_create` and `MPI_Win_free`
(space_impl.c L19, L30), `MPI_Allgather` (util/symm_mem.c L188). -/
inductive Mpi where
  | barrier
  | bcast
  | allgather
  | allgatherv
  | alltoall
  | allreduce
  | commSplit
  | commFree
  | commCreateGroup
  | winCreate
  | winFree
  | plainAllgather
  deriving DecidableEq

/-- Whether the PE calls `OSHMPI_am_cb_progress` while it waits for the collective: the
wrappers loop over `MPI_Test` and progress (`OSHMPI_AM_PROGRESS_MPI`, am_progress_impl.h
L16-L23); the direct calls do not. -/
def Mpi.serves : Mpi → Bool
  | .barrier => true
  | .bcast => true
  | .allgather => true
  | .allgatherv => true
  | .alltoall => true
  | .allreduce => true
  | .commSplit => false
  | .commFree => false
  | .commCreateGroup => false
  | .winCreate => false
  | .winFree => false
  | .plainAllgather => false

/-- The collectives of `Mpi` that MPI completes on a member only after all members called
them: MPI's rules, not code of the library (trusted). -/
def Mpi.sync : Mpi → Bool
  | .barrier => true
  | .bcast => false
  | .allgather => true
  | .allgatherv => true
  | .alltoall => true
  | .allreduce => true
  | .commSplit => true
  | .commFree => false
  | .commCreateGroup => true
  | .winCreate => true
  | .winFree => true
  | .plainAllgather => true

/-- What a library routine consists of, as far as blocking goes. `act`: local work or
operations on MPI windows.  `poll`: one call of `OSHMPI_am_cb_progress`.  `send t f reply`: a
packet to PE `t` whose handler does `f`; with `reply` the sender waits until it was handled
(`OSHMPI_am_progress_mpi_waitall`, e.g. amo_am_impl.h L35-L39).  `coll`: a blocking MPI
collective.  `wait b`: a loop that ends when `b` holds and calls `OSHMPI_am_cb_progress`
otherwise (p2p_impl.h L46-L56, lock_impl.h L69-L78, L115-L124).  `stop`: after
`shmem_finalize`. -/
inductive Prim (M : Type) where
  | act (f : M → M)
  | poll
  | send (t : Nat) (f : M → M) (reply : Bool)
  | coll (c : Comm) (k : Mpi)
  | wait (b : M → Bool)
  | stop

/-- The collective routines on a team or active set (coll_impl.h L46-L160,
coll_activeset_impl.h L145-L313).  `collect` with the flag `same_nelems` (coll_impl.h L89-L93). -/
inductive CollOp where
  | sync
  | broadcast
  | collect (same : Bool)
  | fcollect
  | alltoall
  | alltoalls
  | reduce

/-- The MPI collectives behind a collective routine: coll_impl.h L46-L49 (sync), L51-L68
(broadcast), L70-L104 (collect), L106-L111 (fcollect), L113-L118 (alltoall), L120-L151
(alltoalls), L153-L160 (reduce); the same calls in coll_activeset_impl.h L158, L187, L227-L239,
L254, L265, L295, L311. -/
def CollOp.mpi : CollOp → List Mpi
  | .sync => [.barrier]
  | .broadcast => [.bcast]
  | .collect same => if same then [.allgather, .allgather] else [.allgather, .allgatherv]
  | .fcollect => [.allgather]
  | .alltoall => [.alltoall]
  | .alltoalls => [.alltoall]
  | .reduce => [.allreduce]

/-- Library calls.  `local'` stands for computation and for every routine that does not send
active messages and does not block: RMA and AMO on the direct path (rma_impl.h, amo_impl.h),
`shmem_my_pe` etc.  The lock routines take the effects on the lock words as parameters (the
Lock model gives them). -/
inductive Call (M : Type) where
  /-- computation, or a routine on the direct path -/
  | local' (f : M → M)
  /-- put over active messages (rma_am_impl.h L13-L45, L84-L127) -/
  | putAm (t : Nat) (f : M → M)
  /-- get over active messages (rma_am_impl.h L48-L81, L130-L174) -/
  | getAm (t : Nat) (f : M → M)
  /-- non-fetching AMO over active messages (amo_am_impl.h L94-L125) -/
  | amoPostAm (t : Nat) (f : M → M)
  /-- fetching AMO or compare-and-swap over active messages (amo_am_impl.h L11-L92) -/
  | amoFetchAm (t : Nat) (f : M → M)
  /-- shmem_quiet, shmem_fence on the default context (order_impl.h L36-L96) -/
  | quiet
  | barrierAll
  | syncAll
  /-- malloc, calloc, align, realloc: allocate, then barrier (mem_impl.c L10-L25, L51-L95) -/
  | alloc (f : M → M)
  /-- barrier, then free (mem_impl.c L27-L49) -/
  | free (f : M → M)
  | waitUntil (b : M → Bool)
  | test (f : M → M)
  /-- `claim`: reset `next`, swap `last` and tell the predecessor; `mine`: got the lock at once
  or by signal (lock_impl.h L50-L81) -/
  | setLock (claim : M → M) (mine : M → Bool)
  /-- `release`: compare-and-swap on `last`; `free`: it succeeded or the successor is known;
  `pass`: signal the successor (lock_impl.h L103-L136) -/
  | clearLock (release : M → M) (free : M → Bool) (pass : M → M)
  /-- one compare-and-swap on `last` (lock_impl.h L156-L168) -/
  | testLock (f : M → M)
  | teamColl (i : Nat) (op : CollOp)
  /-- shmem_team_split_strided (team.c L102-L158) -/
  | teamSplit (i : Nat)
  /-- shmem_team_split_2d: splits twice (team.c L160-L212) -/
  | teamSplit2d (i : Nat)
  | teamDestroy (i : Nat)
  /-- shmem_barrier on an active set (coll_activeset_impl.h L117-L143) -/
  | asetBarrier (start lg size : Nat)
  | asetColl (start lg size : Nat) (op : CollOp)
  /-- broadcast whose root is not in the active set (coll_activeset_impl.h L190-L207) -/
  | asetBcastOut (start lg size : Nat) (f : M → M)
  /-- shmemx_space_attach of a space with that many contexts -/
  | spaceAttach (nctx : Nat)
  | spaceDetach (nctx : Nat)
  | finalize

/-- Build and run-time configuration that matters here, and MPI's choices. `eager` is whether
MPI completes the send of a packet before the target receives it (either is allowed). `ready`
is when MPI lets a member leave a collective, given the members that called it. -/
structure Cfg where
  n : Nat
  async : Bool
  dynWin : Bool
  eager : Bool
  team : Nat → List Nat
  ready : Mpi → List Nat → (Nat → Bool) → Nat → Bool

/-- MPI's rules for collectives (trusted): once every member called, every member may leave,
and the synchronising ones let nobody leave before. -/
structure Cfg.Mpi (S : Cfg) : Prop where
  all : ∀ k ms e p, (∀ q ∈ ms, e q = true) → S.ready k ms e p = true
  sync : ∀ k ms e p, k.sync = true → S.ready k ms e p = true → ∀ q ∈ ms, e q = true

/-- The PEs of an active set (coll_activeset_impl.h L99-L102). -/
def asetPes (start lg size : Nat) : List Nat :=
  (List.range size).map (fun i => start + i * 2 ^ lg)

/-- The members of a communicator: all PEs, the team's, or the active set's. -/
def Cfg.members (S : Cfg) : Comm → List Nat
  | .world => List.range S.n
  | .finalize => List.range S.n
  | .team i => S.team i
  | .create a b c => asetPes a b c
  | .group a b c => asetPes a b c

section
variable {M : Type}

/-- `OSHMPI_am_flush` (am_impl.h L22-L79): a flush packet to each PE of the range with its
outstanding flag set, and wait for the acknowledgements. -/
def flush (out : Nat → Bool) (ts : List Nat) : List (Prim M) :=
  (ts.filter out).map (fun t => .send t id true)

/-- `OSHMPI_barrier_all` (coll_impl.h L12-L32). -/
def barrierAll (S : Cfg) (out : Nat → Bool) : List (Prim M) :=
  flush out (List.range S.n) ++ [.coll .world .barrier]

/-- The test for the whole world in `coll_acquire_comm` (coll_activeset_impl.h L79). -/
def isWorld (S : Cfg) (start lg size : Nat) : Bool :=
  start == 0 && lg == 0 && size == S.n

/-- `coll_acquire_comm` (coll_activeset_impl.h L73-L116): nothing to do for the world or for an
active set already in the cache; otherwise `MPI_Comm_create_group`. -/
def acquire (S : Cfg) (known : List (Nat × Nat × Nat)) (start lg size : Nat) : List (Prim M) :=
  if isWorld S start lg size then []
  else if (start, lg, size) ∈ known then []
  else [.coll (.create start lg size) .commCreateGroup]

/-- The communicator `coll_acquire_comm` returns (coll_activeset_impl.h L79-L84, L113). -/
def asetComm (S : Cfg) (start lg size : Nat) : Comm :=
  if isWorld S start lg size then .world else .group start lg size

/-- A library call as a sequence of `Prim`, given the cache of communicators and the
outstanding flags of the calling PE.  File and lines as given at the constructors of `Call`;
in addition: barrier and sync on all PEs coll_impl.h L12-L44, wait and test p2p_impl.h L34-L83,
team destroy team_impl.c L35-L41, space attach and detach space_impl.c L276-L358, finalize
setup_impl.c L853-L868.  `test` polls also when the comparison holds (the code then skips it). -/
def expand (S : Cfg) (known : List (Nat × Nat × Nat)) (out : Nat → Bool) :
    Call M → List (Prim M)
  | .local' f => [.act f]
  | .putAm t f => [.send t f (!S.eager)]
  | .getAm t f => [.send t f true]
  | .amoPostAm t f => [.send t f (!S.eager)]
  | .amoFetchAm t f => [.send t f true]
  | .quiet => flush out (List.range S.n)
  | .barrierAll => barrierAll S out
  | .syncAll => [.coll .world .barrier]
  | .alloc f => .act f :: barrierAll S out
  | .free f => barrierAll S out ++ [.act f]
  | .waitUntil b => [.wait b]
  | .test f => [.act f, .poll]
  | .setLock f b => [.act f, .wait b]
  | .clearLock f b g => [.act f, .wait b, .act g]
  | .testLock f => [.act f]
  | .teamColl i op => op.mpi.map (.coll (.team i))
  | .teamSplit i => [.coll (.team i) .commSplit]
  | .teamSplit2d i => [.coll (.team i) .commSplit, .coll (.team i) .commSplit]
  | .teamDestroy i => [.coll (.team i) .commFree]
  | .asetBarrier a b c =>
    flush out (asetPes a b c) ++ (acquire S known a b c ++ [.coll (asetComm S a b c) .barrier])
  | .asetColl a b c op => acquire S known a b c ++ op.mpi.map (.coll (asetComm S a b c))
  | .asetBcastOut a b c f => acquire S known a b c ++ [.act f]
  | .spaceAttach k =>
    .coll .world .plainAllgather ::
      (if S.dynWin then .coll .world .barrier else .coll .world .winCreate) ::
      List.replicate k (.coll .world .winCreate)
  | .spaceDetach k =>
    (if S.dynWin then .coll .world .barrier else .coll .world .winFree) ::
      List.replicate k (.coll .world .winFree)
  | .finalize => [.coll .finalize .barrier, .stop]

/-- The outstanding flags after a call (amo_am_impl.h L48, L91, L124, rma_am_impl.h L44, L80,
L125, L172, am_impl.h L75-L78).  Simplified: updated when the call starts; nothing of the same
PE reads them in between. -/
def outAfter (S : Cfg) (out : Nat → Bool) : Call M → Nat → Bool
  | .putAm t _, x => if x = t then true else out x
  | .amoPostAm t _, x => if x = t then true else out x
  | .getAm t _, x => if x = t then false else out x
  | .amoFetchAm t _, x => if x = t then false else out x
  | .quiet, x => if x < S.n then false else out x
  | .barrierAll, x => if x < S.n then false else out x
  | .alloc _, x => if x < S.n then false else out x
  | .free _, x => if x < S.n then false else out x
  | .asetBarrier a b c, x => if x ∈ asetPes a b c then false else out x
  | .local' _, x => out x
  | .syncAll, x => out x
  | .waitUntil _, x => out x
  | .test _, x => out x
  | .setLock _ _, x => out x
  | .clearLock _ _ _, x => out x
  | .testLock _, x => out x
  | .teamColl _ _, x => out x
  | .teamSplit _, x => out x
  | .teamSplit2d _, x => out x
  | .teamDestroy _, x => out x
  | .asetColl _ _ _ _, x => out x
  | .asetBcastOut _ _ _ _, x => out x
  | .spaceAttach _, x => out x
  | .spaceDetach _, x => out x
  | .finalize, x => out x

/-- The cache of communicators after a call (`coll_set_comm_cache`,
coll_activeset_impl.h L29-L49, L111).  Simplified: updated when the call starts, as
a set (an entry found in the cache, or the world, adds nothing new that is looked up). -/
def knownAfter (known : List (Nat × Nat × Nat)) : Call M → List (Nat × Nat × Nat)
  | .asetBarrier a b c => (a, b, c) :: known
  | .asetColl a b c _ => (a, b, c) :: known
  | .asetBcastOut a b c _ => (a, b, c) :: known
  | .local' _ => known
  | .putAm _ _ => known
  | .getAm _ _ => known
  | .amoPostAm _ _ => known
  | .amoFetchAm _ _ => known
  | .quiet => known
  | .barrierAll => known
  | .syncAll => known
  | .alloc _ => known
  | .free _ => known
  | .waitUntil _ => known
  | .test _ => known
  | .setLock _ _ => known
  | .clearLock _ _ _ => known
  | .testLock _ => known
  | .teamColl _ _ => known
  | .teamSplit _ => known
  | .teamSplit2d _ => known
  | .teamDestroy _ => known
  | .spaceAttach _ => known
  | .spaceDetach _ => known
  | .finalize => known

/-- A PE: what is left of the current call, whether it waits for the answer to the packet at
its head, whether it is inside the collective at its head, its communicator cache
(`OSHMPI_coll_comm_cache`), its outstanding flags (`OSHMPI_am.outstanding_op_flags`), and how
many calls it has made (the program's position, not part of the library). -/
structure Pe (M : Type) where
  rem : List (Prim M)
  waiting : Bool
  inside : Bool
  known : List (Nat × Nat × Nat)
  out : Nat → Bool
  calls : Nat

/-- A packet on its way: origin, effect of its handler, whether the origin waits for it. -/
structure Msg (M : Type) where
  src : Nat
  f : M → M
  reply : Bool

/-- The whole job: the state all effects act on, the PEs, the packets sent to each PE and not
yet handled, and how often each PE called a collective on each communicator. -/
structure Job (M : Type) where
  mem : M
  pe : Nat → Pe M
  fly : Nat → List (Msg M)
  cnt : Comm → Nat → Nat

/-- Replace one entry of a function: the write of one array element of the code. -/
def upd {α : Type} (f : Nat → α) (p : Nat) (a : α) : Nat → α := fun x => if x = p then a else f x

/-- After initialisation (setup_impl.c L843-L845): no call in progress. -/
def Job.init (m : M) : Job M :=
  ⟨m, fun _ => ⟨[], false, false, [], fun _ => false, 0⟩, fun _ => [], fun _ _ => 0⟩

/-- Whether the PE is at a point where it calls `OSHMPI_am_cb_progress`: waiting for an answer,
inside a collective with progress, in a wait loop whose condition is false, at a `poll`. -/
def Serving (g : Job M) (t : Nat) : Prop :=
  match (g.pe t).rem with
  | [] => False
  | .act _ :: _ => False
  | .poll :: _ => True
  | .send _ _ _ :: _ => (g.pe t).waiting = true
  | .coll _ k :: _ => (g.pe t).inside = true ∧ k.serves = true
  | .wait b :: _ => b g.mem = false
  | .stop :: _ => False

/-- The members that called the collective PE `p` is inside of, that is as often as `p`. -/
def entered (g : Job M) (c : Comm) (p : Nat) : Nat → Bool :=
  fun q => decide (g.cnt c p ≤ g.cnt c q)

/-- A PE that starts the call `c`. -/
def begin' (S : Cfg) (q : Pe M) (c : Call M) : Pe M :=
  ⟨expand S q.known q.out c, false, false, knownAfter q.known c, outAfter S q.out c, q.calls + 1⟩

/-- The origin of a packet it waits for, once the answer is there: `MPI_Testall` succeeds and
the wait ends (am_progress_impl.h L61-L66). -/
def Pe.answered (q : Pe M) : Pe M := { q with waiting := false, rem := q.rem.tail }

/-- One step of the job running the program `prog` (the next call of PE `p` as a function of
the number of calls it made and of the state).  With `free = true` packets are handled at any time, whatever the target does: how
the OpenSHMEM specification describes the operations.  With `free = false` they are handled
only by the asynchronous thread (am_impl.c L49-L84) or where the target calls
`OSHMPI_am_cb_progress`.  Packets of one PE are handled in order. -/
inductive Step (S : Cfg) (prog : Nat → Nat → M → Call M) (free : Bool) : Job M → Job M → Prop
  | start (g : Job M) (p : Nat) (hp : p < S.n) (h : (g.pe p).rem = []) :
      Step S prog free g
        ⟨g.mem, upd g.pe p (begin' S (g.pe p) (prog p (g.pe p).calls g.mem)), g.fly, g.cnt⟩
  | act (g : Job M) (p : Nat) (hp : p < S.n) (f : M → M) (l : List (Prim M))
      (h : (g.pe p).rem = .act f :: l) :
      Step S prog free g ⟨f g.mem, upd g.pe p { g.pe p with rem := l }, g.fly, g.cnt⟩
  | poll (g : Job M) (p : Nat) (hp : p < S.n) (l : List (Prim M))
      (h : (g.pe p).rem = .poll :: l) :
      Step S prog free g ⟨g.mem, upd g.pe p { g.pe p with rem := l }, g.fly, g.cnt⟩
  | send (g : Job M) (p : Nat) (hp : p < S.n) (t : Nat) (f : M → M) (r : Bool)
      (l : List (Prim M)) (h : (g.pe p).rem = .send t f r :: l) (hw : (g.pe p).waiting = false) :
      Step S prog free g
        ⟨g.mem,
          upd g.pe p (if r then { g.pe p with waiting := true } else { g.pe p with rem := l }),
          upd g.fly t (g.fly t ++ [⟨p, f, r⟩]), g.cnt⟩
  | handle (g : Job M) (t : Nat) (ht : t < S.n) (a b : List (Msg M)) (m : Msg M)
      (h : g.fly t = a ++ m :: b) (hf : ∀ x ∈ a, x.src ≠ m.src)
      (hs : free = true ∨ S.async = true ∨ Serving g t) :
      Step S prog free g
        ⟨m.f g.mem, if m.reply then upd g.pe m.src (g.pe m.src).answered else g.pe,
          upd g.fly t (a ++ b), g.cnt⟩
  | enter (g : Job M) (p : Nat) (hp : p < S.n) (c : Comm) (k : Mpi) (l : List (Prim M))
      (h : (g.pe p).rem = .coll c k :: l) (hi : (g.pe p).inside = false) :
      Step S prog free g
        ⟨g.mem, upd g.pe p { g.pe p with inside := true }, g.fly,
          fun d => if d = c then upd (g.cnt d) p (g.cnt d p + 1) else g.cnt d⟩
  | leave (g : Job M) (p : Nat) (hp : p < S.n) (c : Comm) (k : Mpi) (l : List (Prim M))
      (h : (g.pe p).rem = .coll c k :: l) (hi : (g.pe p).inside = true)
      (hr : S.ready k (S.members c) (entered g c p) p = true) :
      Step S prog free g
        ⟨g.mem, upd g.pe p { g.pe p with inside := false, rem := l }, g.fly, g.cnt⟩
  | pass (g : Job M) (p : Nat) (hp : p < S.n) (b : M → Bool) (l : List (Prim M))
      (h : (g.pe p).rem = .wait b :: l) (hb : b g.mem = true) :
      Step S prog free g ⟨g.mem, upd g.pe p { g.pe p with rem := l }, g.fly, g.cnt⟩

/-- Any number of steps. -/
inductive Run (S : Cfg) (prog : Nat → Nat → M → Call M) (free : Bool) : Job M → Job M → Prop
  | refl (g : Job M) : Run S prog free g g
  | step (g h k : Job M) : Run S prog free g h → Step S prog free h k → Run S prog free g k

/-- All PEs are through `shmem_finalize`. -/
def Done (S : Cfg) (g : Job M) : Prop := ∀ p, p < S.n → (g.pe p).rem = [.stop]

/-- No step is possible any more. -/
def Stuck (S : Cfg) (prog : Nat → Nat → M → Call M) (free : Bool) (g : Job M) : Prop :=
  ∀ g', ¬ Step S prog free g g'

end
end Verif.Serve
