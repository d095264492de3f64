import Verif.Setup.Props
import Verif.Env.Model
/-!
# What the library uses while it runs

Which of the resources of `Setup.Item` each call, each packet handler, initialisation and finalisation use. Sources: the files
in `/repo/src/internal` named at each definition. A call is listed with everything it may use on any of its branches. Objects
that users create (spaces, contexts, teams) are not items; the parts of them that a call uses are left out here (C42, C53, C84).
-/
namespace Verif.Setup
open Verif.Env (AmoCfg RmaCfg Dbg MemKind RmaOp directAmo directRma)

/-- build and run: what `Cfg` needs plus the options that decide the path of an operation -/
structure Bld where
  dyn : Bool
  cache : Bool
  async : Bool
  multi : Bool
  dataSymm : Bool
  heapSymm : Bool
  amo : AmoCfg
  rma : RmaCfg
  amoDbg : Dbg
  rmaDbg : Dbg
  /-- `OSHMPI_global.amo_direct` -/
  amoDirect : Bool
  /-- `OSHMPI_env.mpi_gpu_features` -/
  features : Nat
deriving DecidableEq, Repr

/-- `OSHMPI_ENABLE_DIRECT_AMO_RUNTIME`, oshmpi_impl.h L61-74 -/
def Bld.direct (b : Bld) : Bool := directAmo b.amo b.amoDbg b.amoDirect

/-- the test with which `OSHMPI_am_initialize`, `OSHMPI_am_finalize` and `OSHMPI_am_flush` return early, am_impl.c L192,
L268, am_impl.h L33, L87; `OSHMPI_ENABLE_DIRECT_RMA_CONFIG`: oshmpi_impl.h L85-92 -/
def Bld.am (b : Bld) : Bool := !(b.direct && decide (b.rma = .direct))

/-- the parameters of `Setup.Model` -/
def Bld.cfg (b : Bld) : Cfg := ⟨b.dyn, b.cache, b.am, b.async, b.multi, b.dataSymm, b.heapSymm⟩

/-- where a symmetric address lies -/
inductive Reg where
  | data | heap | space
deriving DecidableEq, Repr

/-- `OSHMPI_sobj_query_attr_ictx` on the default context, oshmpi_impl.h L668-717 -/
def query (c : Cfg) : Reg → List Item
  | .data => []
  | .heap => []
  | .space => opt c.multi [.spaceCs]

/-- the window it returns (a space's own window is not an item) -/
def winOf (c : Cfg) : Reg → List Item
  | .data => if c.dyn then [.dynWin] else [.dataWin]
  | .heap => if c.dyn then [.dynWin] else [.heapWin]
  | .space => if c.dyn then [.dynWin] else []

/-- `base_offsets` in `OSHMPI_sobj_trans_vaddr_to_disp`, oshmpi_impl.h L635-666; only dynamic windows use absolute
displacements -/
def offOf (c : Cfg) : Reg → List Item
  | .data => opt (c.dyn && !c.dataSymm) [.dataOffsets]
  | .heap => opt (c.dyn && !c.heapSymm) [.heapOffsets]
  | .space => []

/-- an operation on the window -/
def direct (c : Cfg) (r : Reg) : List Item := query c r ++ winOf c r ++ offOf c r

/-- `OSHMPI_am_cb_progress`, am_impl.c L287-294, with `am_cb_manual_progress` L90-121: the critical section, and `MPI_Test` on
`OSHMPI_am.cb_req`. What a handler uses if a packet has arrived is in `handler`. -/
def progress (c : Cfg) : List Item := if c.async then [] else opt c.multi [.amCs] ++ [.amRecv]

/-- an operation by active message: amo_am_impl.h L11-126, rma_am_impl.h L14-176 -/
def amSend (c : Cfg) (r : Reg) : List Item := query c r ++ [.amComm, .amAckComm, .amFlags] ++ progress c

/-- `OSHMPI_create_strided_dtype`, strided_impl.h L30-75, L112-179 -/
def strided (c : Cfg) : List Item := opt (c.cache && c.multi) [.stridedCs]

/-- `OSHMPI_am_flush`, `OSHMPI_am_flush_all`, am_impl.h L22-92 -/
def amFlush (c : Cfg) : List Item := opt c.am ([.amFlags, .amComm, .amAckComm] ++ progress c)

/-- the windows of heap and data -/
def allWins (c : Cfg) : List Item := if c.dyn then [.dynWin] else [.heapWin, .dataWin]

/-- `OSHMPI_am_progress_mpi_*` on the world communicator, am_progress_impl.h -/
def worldWait (c : Cfg) : List Item := [.worldComm] ++ progress c

/-- `OSHMPI_barrier_all`, coll_impl.h L12-32 -/
def barrierAll (c : Cfg) : List Item := allWins c ++ amFlush c ++ worldWait c

/-- `coll_acquire_comm` and the collective on the result, coll_activeset_impl.h L28-118 -/
def aset (c : Cfg) : List Item := opt c.multi [.collCs] ++ [.worldGroup] ++ worldWait c

/-- calls of the user; flags say which branch of the path decision applies -/
inductive Call where
  /-- put, put_nbi, p -/
  | put (r : Reg) (originDev : Bool) (kind : MemKind)
  /-- get, get_nbi, g -/
  | get (r : Reg) (originDev : Bool) (kind : MemKind)
  | iput (r : Reg) (originDev : Bool) (kind : MemKind)
  | iget (r : Reg) (originDev : Bool) (kind : MemKind)
  /-- every AMO -/
  | amo (r : Reg)
  /-- quiet and fence on the default context -/
  | quiet
  | barrierAll
  | syncAll
  /-- collective on `SHMEM_TEAM_WORLD` -/
  | teamWorld
  /-- collective on `SHMEM_TEAM_SHARED` -/
  | teamShared
  /-- `shmem_barrier` on an active set -/
  | asetBarrier
  /-- other active-set collective -/
  | asetColl
  /-- malloc, calloc, align, realloc -/
  | malloc
  | free (r : Reg)
  | waitUntil (r : Reg)
  | test (r : Reg)
  | setLock (r : Reg)
  | clearLock (r : Reg)
  | testLock (r : Reg)
  | splitWorld
  | splitShared
  | spaceCreate
  | spaceDestroy
  | spaceAttach
  | spaceDetach
  | spaceMalloc
deriving DecidableEq, Repr

/-- put/get: rma_impl.h L107-245; `st`: items of the strided variants -/
def rma (b : Bld) (op : RmaOp) (r : Reg) (dev : Bool) (k : MemKind) (st : List Item) : Res (List Item) :=
  (directRma b.rma b.rmaDbg b.features dev k op).bind fun d =>
    .ok (st ++ if d then direct b.cfg r else amSend b.cfg r)

/-- everything a call uses -/
def uses (b : Bld) : Call → Res (List Item)
  -- rma_impl.h L107-148, L175-218
  | .put r dev k => rma b .put r dev k []
  | .get r dev k => rma b .get r dev k []
  -- rma_impl.h L55-105, L150-173, L220-245
  | .iput r dev k => rma b .put r dev k (strided b.cfg)
  | .iget r dev k => rma b .get r dev k (strided b.cfg)
  -- amo_impl.h L74-138
  | .amo r => .ok (if b.direct then direct b.cfg r else amSend b.cfg r)
  -- order_impl.h L36-96
  | .quiet => .ok (allWins b.cfg ++ opt b.multi [.spaceCs] ++ amFlush b.cfg)
  -- coll_impl.h L12-32
  | .barrierAll => .ok (barrierAll b.cfg)
  -- coll_impl.h L34-44
  | .syncAll => .ok (allWins b.cfg ++ worldWait b.cfg)
  -- coll_impl.h L46-160; alltoalls builds strided datatypes, L120-150
  | .teamWorld => .ok ([.worldTeam] ++ strided b.cfg ++ worldWait b.cfg)
  | .teamShared => .ok ([.sharedTeam, .sharedComm] ++ strided b.cfg ++ progress b.cfg)
  -- coll_activeset_impl.h L120-143
  | .asetBarrier => .ok (allWins b.cfg ++ amFlush b.cfg ++ aset b.cfg)
  -- coll_activeset_impl.h L145-313; alltoalls L270-300
  | .asetColl => .ok (strided b.cfg ++ aset b.cfg)
  -- mem_impl.c L10-24, L51-95; the memory is that of the heap window unless windows are dynamic
  | .malloc => .ok (opt b.multi [.heapCs] ++ (if b.dyn then [.heapMem] else [.heapWin]) ++ barrierAll b.cfg)
  -- mem_impl.c L26-49
  | .free r => .ok (barrierAll b.cfg ++ match r with
      | .heap => opt b.multi [.heapCs] ++ (if b.dyn then [.heapMem] else [.heapWin])
      | .data => opt b.multi [.spaceCs]
      | .space => opt b.multi [.spaceCs])
  -- p2p_impl.h L34-58, oshmpi_impl.h L799-814
  | .waitUntil r => .ok (direct b.cfg r ++ progress b.cfg ++ [.worldComm])
  -- p2p_impl.h L60-82
  | .test r => .ok (direct b.cfg r ++ progress b.cfg)
  -- lock_impl.h L27-81
  | .setLock r => .ok (direct b.cfg r ++ progress b.cfg)
  -- lock_impl.h L83-136
  | .clearLock r => .ok (direct b.cfg r ++ progress b.cfg)
  -- lock_impl.h L138-168
  | .testLock r => .ok (direct b.cfg r)
  -- team_impl.c L43-64
  | .splitWorld => .ok [.worldTeam, .worldComm]
  | .splitShared => .ok [.sharedTeam, .sharedComm]
  -- space_impl.c L166-249
  | .spaceCreate => .ok (opt b.multi [.spaceCs])
  | .spaceDestroy => .ok (opt b.multi [.spaceCs])
  -- space_impl.c L276-331, L334-359
  | .spaceAttach => .ok ([.worldComm] ++ if b.dyn then [.dynWin] ++ progress b.cfg else [])
  | .spaceDetach => .ok (if b.dyn then [.dynWin] ++ worldWait b.cfg else [])
  -- space_impl.c L362-374
  | .spaceMalloc => .ok (barrierAll b.cfg)

/-- what handling a packet uses: am_impl.c L18-23, L61-73, L105-117, amo_am_impl.c L85-180, rma_am_impl.c L10-83,
oshmpi_impl.h L719-748 -/
def handler (c : Cfg) : List Item :=
  [.amRecv, .amComm, .amAckComm, .amTypes] ++ opt c.multi [.spaceCs] ++ strided c

/-- what the creation of an item uses, apart from MPI: setup_impl.c L798-837, L117-290 with common.c L10-41 (gathering of
addresses) and symm_mem.c (search of a common address), am_impl.c L196-197, L123-148 -/
def need : Item → List Item
  | .mpiT => [] | .mpi => []
  | .worldComm => [] | .worldGroup => [.worldComm] | .worldTeam => [.worldComm, .worldGroup]
  | .sharedComm => [.worldComm] | .sharedGroup => [.sharedComm] | .sharedTeam => [.sharedComm, .sharedGroup]
  | .dynWin => [.worldComm] | .attachData => [.dynWin] | .heapMem => [.worldComm] | .attachHeap => [.dynWin, .heapMem]
  | .dataWin => [.worldComm] | .heapWin => [.worldComm] | .heapCs => []
  | .dataOffsets => [.worldComm] | .heapOffsets => [.worldComm]
  | .stridedCs => [] | .collCs => [] | .spaceCs => []
  | .amComm => [.worldComm] | .amAckComm => [.worldComm] | .amFlags => [] | .amTypes => [] | .amOps => [] | .amCs => []
  | .amRecv => [.amComm] | .amMutex => [] | .amCond => [.amRecv]

/-- needs MPI: all communicators, groups, windows and what they carry -/
def usesMpi : Item → Bool
  | .mpiT => false | .mpi => false
  | .worldComm => true | .worldGroup => true | .worldTeam => false
  | .sharedComm => true | .sharedGroup => true | .sharedTeam => false
  | .dynWin => true | .attachData => true | .heapMem => false | .attachHeap => true
  | .dataWin => true | .heapWin => true | .heapCs => false
  | .dataOffsets => false | .heapOffsets => false
  | .stridedCs => false | .collCs => false | .spaceCs => false
  | .amComm => true | .amAckComm => true | .amFlags => false | .amTypes => false | .amOps => false | .amCs => false
  | .amRecv => true | .amMutex => false | .amCond => false

/-- what the release of an item uses, apart from the item: setup_impl.c L872-903, team_impl.c L35-41, am_impl.c L150-177 -/
def relNeed (c : Cfg) (i : Item) : List Item :=
  (if usesMpi i then [.mpi] else []) ++ match i with
  | .mpiT => [] | .mpi => []
  | .worldComm => [.worldTeam] | .worldGroup => [.worldTeam] | .worldTeam => []
  | .sharedComm => [.sharedTeam] | .sharedGroup => [.sharedTeam] | .sharedTeam => []
  | .dynWin => [] | .attachData => [.dynWin] | .heapMem => [] | .attachHeap => [.dynWin, .heapMem]
  | .dataWin => [] | .heapWin => [] | .heapCs => []
  | .dataOffsets => [] | .heapOffsets => []
  | .stridedCs => [] | .collCs => [] | .spaceCs => []
  | .amComm => [] | .amAckComm => [] | .amFlags => [] | .amTypes => [] | .amOps => [] | .amCs => []
  | .amRecv => [.amComm] ++ opt c.async [.amMutex, .amCond] | .amMutex => [] | .amCond => []

/-- the item exists at a moment: its last entry in the log up to then is its creation; MPI, which the program may have
initialised itself, has not been finalised -/
def live (log : List Ev) (i : Item) : Bool :=
  if i = .mpi then !log.contains (.rel .mpi)
  else (log.filter (fun e => decide (e.item = i))).getLast? == some (.acq i)

/-- build option `--enable-async-thread`, configure.ac L450-475 -/
inductive AsyncOpt where
  | yes | no | auto
deriving DecidableEq, Repr

/-- `OSHMPI_env.enable_async_thread`, setup_impl.c L670-687: `env` is the number in `OSHMPI_ENABLE_ASYNC_THREAD`, if set.
`OSHMPI_global.amo_direct` is still 0 here: it is set at L98-103, called when the windows are created. -/
def asyncThread (o : AsyncOpt) (env : Option Int) (amo : AmoCfg) (amoDbg : Dbg) (rma : RmaCfg) : Bool := match o with
  | .yes => true
  | .no => false
  | .auto => match env with
    | some n => n != 0
    | none => !directAmo amo amoDbg false || !decide (rma = .direct)

end Verif.Setup
