import Verif.Base.CInt
/-!
# Life cycle of the library

`/repo/src/internal/setup_impl.c` L734-925 and the initialise/finalise functions it calls, `/repo/src/shmem/setup.c` L10-60,
L100-120. What is tracked: the flags that decide what init and finalize do, the state of MPI, and a log of every resource
acquired and released, in program order. MPI calls that are illegal in their state (anything after `MPI_Finalize`,
`MPI_Init` twice) abort, which is MPI's default error handling. Not tracked: short-lived objects (MPI_Info), objects that users
create (teams, spaces, contexts; see the Team, Space and Order areas), cache entries (see C20, C33) and GPU handles.
-/
namespace Verif.Setup

/-- what one initialisation acquires -/
inductive Item where
  | mpiT | mpi
  | worldComm | worldGroup | worldTeam | sharedComm | sharedGroup | sharedTeam
  | dynWin | attachData | attachHeap | heapMem | dataWin | heapWin | heapCs
  | dataOffsets | heapOffsets
  | stridedCs | collCs | spaceCs
  | amComm | amAckComm | amFlags | amTypes | amOps | amCs | amRecv | amMutex | amCond
deriving DecidableEq, Repr

/-- build options and facts of a run: dynamic windows; strided datatype cache; active messages used (am_impl.c L192);
asynchronous progress thread; `SHMEM_THREAD_MULTIPLE` granted, hence critical sections exist (oshmpi_impl.h L306-322);
symmetric addresses of data segment and heap -/
structure Cfg where
  dyn : Bool
  cache : Bool
  am : Bool
  async : Bool
  multi : Bool
  dataSymm : Bool
  heapSymm : Bool
deriving DecidableEq, Repr

/-- list if condition -/
def opt (b : Bool) (l : List Item) : List Item := if b then l else []

/-- resources acquired by `OSHMPI_initialize_thread`, in order: setup_impl.c L743 (MPI_T), L771-777 (MPI, unless the user has
initialised it), L798-822 (teams), L830-837 (with L117-204 or L206-290; `base_offsets` common.c L24-29), L839
(strided_impl.c L12-21), L840 (coll_impl.c L10-19), L841 (am_impl.c L189-263, L123-148), L842 (space_impl.c L152-156) -/
def acquired (c : Cfg) (mpiByUser : Bool) : List Item :=
  [.mpiT] ++ opt (!mpiByUser) [.mpi] ++
  [.worldComm, .worldGroup, .worldTeam, .sharedComm, .sharedGroup, .sharedTeam] ++
  opt c.dyn ([.dynWin] ++ opt (!c.dataSymm) [.dataOffsets] ++ [.attachData, .heapMem] ++ opt (!c.heapSymm) [.heapOffsets] ++
    opt c.multi [.heapCs] ++ [.attachHeap]) ++
  opt (!c.dyn) ([.dataWin, .heapWin] ++ opt c.multi [.heapCs]) ++
  opt (c.cache && c.multi) [.stridedCs] ++
  opt c.multi [.collCs] ++
  opt c.am ([.amComm, .amAckComm, .amFlags, .amTypes, .amOps] ++ opt c.multi [.amCs] ++ [.amRecv] ++
    opt c.async [.amMutex, .amCond]) ++
  opt c.multi [.spaceCs]

/-- resources released by `finalize_impl`, in order: setup_impl.c L867 (coll_impl.c L21-35), L868 (am_impl.c L265-285,
L150-177), L869 (strided_impl.c L23-36), L870 (space_impl.c L158-162), L872-896, L898-899 (common.c L43-49), L902-903
(team_impl.c L35-41), L905, L906 -/
def released (c : Cfg) : List Item :=
  opt c.multi [.collCs] ++
  opt c.am (opt c.async [.amRecv, .amCond, .amMutex] ++ opt (!c.async) [.amRecv] ++ opt c.multi [.amCs] ++
    [.amComm, .amAckComm, .amFlags, .amTypes, .amOps]) ++
  opt (c.cache && c.multi) [.stridedCs] ++
  opt c.multi [.spaceCs] ++
  opt c.dyn [.attachHeap, .attachData, .dynWin, .heapMem] ++
  opt (!c.dyn) ([.heapWin] ++ opt c.multi [.heapCs] ++ [.dataWin]) ++
  opt (c.dyn && !c.dataSymm) [.dataOffsets] ++ opt (c.dyn && !c.heapSymm) [.heapOffsets] ++
  [.sharedGroup, .sharedComm, .sharedTeam, .worldGroup, .worldComm, .worldTeam] ++
  [.mpiT, .mpi]

/-- log entries -/
inductive Ev where
  | acq (i : Item)
  | rel (i : Item)
deriving DecidableEq, Repr

/-- the item of an entry -/
def Ev.item : Ev → Item
  | .acq i => i
  | .rel i => i

/-- state of MPI in this process -/
inductive MpiSt where
  | fresh
  | active
  | done
deriving DecidableEq, Repr

/-- `OSHMPI_global.is_initialized`, `is_start_pes_initialized`, registered exit handlers, MPI, log -/
structure St where
  isInit : Bool
  startPes : Bool
  handlers : Nat
  mpi : MpiSt
  log : List Ev
deriving DecidableEq, Repr

/-- process start: `OSHMPI_global` zero (setup_impl.c L37) -/
def St.start : St := ⟨false, false, 0, .fresh, []⟩

/-- what the program does -/
inductive Op where
  /-- `shmem_init`, `shmem_init_thread` -/
  | init
  | startPes
  /-- `shmem_finalize` -/
  | fin
  /-- the program itself calls `MPI_Init` / `MPI_Finalize` -/
  | userMpiInit
  | userMpiFin
deriving DecidableEq, Repr

/-- `OSHMPI_initialize_thread`, setup_impl.c L734-850 (levels all valid, see C48) -/
def doInit (c : Cfg) (s : St) : Res St :=
  if s.isInit then .ok s
  else match s.mpi with
    | .done => .abort
    | .fresh => .ok { s with isInit := true, mpi := .active, log := s.log ++ (acquired c false).map Ev.acq }
    | .active => .ok { s with isInit := true, log := s.log ++ (acquired c true).map Ev.acq }

/-- `finalize_impl`, setup_impl.c L852-907 -/
def finImpl (c : Cfg) (s : St) : Res St := match s.mpi with
  | .done => .abort
  | .fresh => .abort
  | .active => .ok { s with isInit := false, mpi := .done, log := s.log ++ (released c).map Ev.rel }

/-- one call -/
def step (c : Cfg) (s : St) : Op → Res St
  | .init => doInit c s
  | .startPes => if s.isInit then .ok s
      else (doInit c s).bind (fun s => .ok { s with startPes := true, handlers := s.handlers + 1 })
  | .fin => if s.isInit then finImpl c s else .ok s
  | .userMpiInit => match s.mpi with
    | .fresh => .ok { s with mpi := .active }
    | .active => .abort
    | .done => .abort
  | .userMpiFin => match s.mpi with
    | .active => .ok { s with mpi := .done }
    | .fresh => .abort
    | .done => .abort

/-- a program -/
def run (c : Cfg) : St → List Op → Res St
  | s, [] => .ok s
  | s, o :: os => (step c s o).bind (fun s => run c s os)

/-- `OSHMPI_implicit_finalize`, setup_impl.c L911-915 -/
def implicitFin (c : Cfg) (s : St) : Res St := if s.startPes && s.isInit then finImpl c s else .ok s

/-- `exit`: runs the registered handlers -/
def exitProc (c : Cfg) : Nat → St → Res St
  | 0, s => .ok s
  | n + 1, s => (implicitFin c s).bind (exitProc c n)

/-- log entries of an item -/
def St.of (s : St) (i : Item) : List Ev := s.log.filter (fun e => decide (e.item = i))

end Verif.Setup
