import Verif.Env.Init
/-!
# Device memory: spaces of every memory kind, and who touches their memory how

`/repo/src/internal/space_impl.c` L70-150, L166-250, `util/gpu/cuda.h`, `util/gpu/ze.h`, `/repo/src/include/oshmpi_util.h` L267-293,
`oshmpi_impl.h` L85-104, L753-787, and the places where the library itself (not MPI) reads or writes the program's buffers. The data moved
are in `Rma`, `Amo`, `Coll`; here: which memory is accessed by what.

Trusted: the drivers. `Driver` is what `cudaPointerGetAttributes` and `zeMemGetAllocProperties` answer about memory.
-/
namespace Verif.Gpu
open Verif.Env (MemKind RmaOp)

/-- the two kinds of device that can be configured (configure.ac L582-651) -/
inductive Vendor where
  | cuda | ze
deriving DecidableEq, Repr

/-- where a buffer really is (ghost; the drivers know): ordinary host memory, host memory registered with a driver, device memory, memory
that migrates between both -/
inductive Where where
  | host | pinned (v : Vendor) | device (v : Vendor) | managed (v : Vendor)
deriving DecidableEq, Repr

/-- `OSHMPIU_gpu_pointer_type_t`, oshmpi_util.h L270-275 -/
inductive PtrTy where
  | unregistered | registered | dev | managed
deriving DecidableEq, Repr

/-- `cudaMemoryType` -/
inductive CudaTy where
  | unregistered | host | device | managed
deriving DecidableEq, Repr

/-- result of `cudaPointerGetAttributes` -/
inductive CudaRet where
  | success (t : CudaTy) | invalidValue | error
deriving DecidableEq, Repr

/-- `ze_memory_type_t`; `other`: a value the code does not know -/
inductive ZeTy where
  | unknown | host | device | shared | other
deriving DecidableEq, Repr

/-- result of `zeMemGetAllocProperties` -/
inductive ZeRet where
  | success (t : ZeTy) | error
deriving DecidableEq, Repr

/-- the drivers' answers (parameter) -/
structure Driver where
  cuda : Where → CudaRet
  ze : Where → ZeRet

/-- `OSHMPIU_gpu_query_pointer_type` with CUDA, util/gpu/cuda.h L13-43 -/
def queryCuda : CudaRet → Res PtrTy
  | .success .unregistered => .ok .unregistered
  | .success .host => .ok .registered
  | .success .device => .ok .dev
  | .success .managed => .ok .managed
  | .invalidValue => .ok .unregistered
  | .error => .abort

/-- `OSHMPIU_gpu_query_pointer_type` with Level Zero, util/gpu/ze.h L13-46 -/
def queryZe : ZeRet → Res PtrTy
  | .success .unknown => .ok .unregistered
  | .success .host => .ok .registered
  | .success .device => .ok .dev
  | .success .shared => .ok .managed
  | .success .other => .abort
  | .error => .abort

/-- build and settings: `--enable-cuda`, `--enable-ze`, the options and the variables of `Env/Init.lean` -/
structure Cfg where
  cuda : Bool
  ze : Bool
  build : Env.Build
  v : Env.Vals

/-- which `OSHMPIU_gpu_query_pointer_type` is compiled, oshmpi_util.h L283-293: CUDA's if both are enabled -/
def query (c : Cfg) (d : Driver) (w : Where) : Res PtrTy :=
  if c.cuda then queryCuda (d.cuda w) else if c.ze then queryZe (d.ze w) else .ok .unregistered

/-- `OSHMPI_check_gpu_direct_rma`, oshmpi_impl.h L753-787: the pointer is asked about only if the object is in host memory (`||`, L759-760) -/
def check (c : Cfg) (d : Driver) (origin : Where) (kind : MemKind) (op : RmaOp) : Res Bool :=
  (if kind = .cuda ∨ kind = .ze then .ok true else (query c d origin).bind fun t => .ok (t == .dev)).bind fun dev =>
    Env.checkGpuDirectRma c.v.gpu dev kind op

/-- `OSHMPI_ENABLE_DIRECT_RMA_RUNTIME`, oshmpi_impl.h L85-104 -/
def direct (c : Cfg) (d : Driver) (origin : Where) (kind : MemKind) (op : RmaOp) : Res Bool :=
  match c.build.rma with
  | .am => .ok false
  | .direct => .ok true
  | .auto => if c.v.rmaDbg = .direct then .ok true
      else if c.v.rmaDbg = .auto then check c d origin kind op else .ok false

/-- `OSHMPI_ENABLE_DIRECT_AMO_RUNTIME`, oshmpi_impl.h L61-74; `amo_direct`, setup_impl.c L96-104 -/
def directAmo (c : Cfg) : Bool := Env.directAmo c.build.amo c.v.amoDbg (Env.setMpiInfoArgs c.v.amoOps).direct

/-! ## Accesses -/

/-- what touches a buffer: an instruction of the library, a message, `MPI_Put`, `MPI_Get`, an MPI accumulate operation -/
inductive By where
  | cpu | pt2pt | put | get | acc
deriving DecidableEq, Repr

/-- an access to a buffer of the program -/
structure Acc where
  by_ : By
  mem : Where
deriving DecidableEq, Repr

/-- Calls that access memory. `o`, `src`, `dst`: where the local buffers are. -/
inductive Call where
  /-- put, put_nbi, iput, p (rma_impl.h L107-173) of `n` elements -/
  | put (o : Where) (n : Nat)
  /-- get, get_nbi, iget, g (rma_impl.h L175-243) -/
  | get (o : Where) (n : Nat)
  /-- an atomic memory operation (amo_impl.h L74-137); its operands are variables of the library -/
  | amo
  /-- one comparison of wait_until and test (p2p_impl.h L34-79) -/
  | test
  /-- lock_impl.h; `pass`: another PE waits -/
  | setLock
  | clearLock (pass : Bool)
  | testLock
  /-- shmemx_space_calloc (shmemx/space.c L49-56) -/
  | calloc (size : Nat)
  /-- team broadcast at the root (coll_impl.h L51-68), `n` bytes; only what the library itself copies -/
  | bcastRoot (src dst : Where) (n : Nat)
deriving DecidableEq, Repr

/-- The accesses of a call on an object that is recorded as `kind` at the caller and lies in memory `t`. An AMO by active message is computed
by the target's handler with C operators on the destination (amo_am_impl.c L86-186); active-message puts and gets are messages from and
into the buffers (rma_am_impl.h L32-34, rma_am_impl.c L13-94). -/
def accesses (c : Cfg) (d : Driver) (kind : MemKind) (t : Where) : Call → Res (List Acc)
  | .put o n => if n = 0 then .ok [] else (direct c d o kind .put).bind fun b =>
      .ok (if b then [⟨.put, o⟩, ⟨.put, t⟩] else [⟨.pt2pt, o⟩, ⟨.pt2pt, t⟩])
  | .get o n => if n = 0 then .ok [] else (direct c d o kind .get).bind fun b =>
      .ok (if b then [⟨.get, o⟩, ⟨.get, t⟩] else [⟨.pt2pt, o⟩, ⟨.pt2pt, t⟩])
  | .amo => .ok (if directAmo c then [⟨.acc, t⟩] else [⟨.cpu, t⟩])
  | .test => .ok [⟨.acc, t⟩]
  -- `lock->next = 0` (lock_impl.h L52), then accumulate operations
  | .setLock => .ok [⟨.cpu, t⟩, ⟨.acc, t⟩]
  -- L108-111, L127
  | .clearLock pass => .ok (⟨.acc, t⟩ :: if pass then [⟨.cpu, t⟩] else [])
  | .testLock => .ok [⟨.acc, t⟩]
  -- `memset`
  | .calloc size => .ok (if size = 0 then [] else [⟨.cpu, t⟩])
  -- `memcpy`
  | .bcastRoot src dst n => .ok (if n = 0 then [] else [⟨.cpu, src⟩, ⟨.cpu, dst⟩])

/-! ## Spaces -/

/-- the `switch` over `space_config.memkind`, space_impl.c L178-190, on the value the program passed: the memory kind recorded and where the
memory is; without the configure option `space_cuda_malloc`, `space_ze_malloc` abort (L101-105, L139-143). Failing allocations are not
modelled. -/
def spaceAlloc (c : Cfg) (raw : Int) : Res (MemKind × Where) :=
  if raw = 1 then (if c.cuda then .ok (.cuda, .device .cuda) else .abort)
  else if raw = 2 then (if c.ze then .ok (.ze, .device .ze) else .abort)
  else .ok (.host, .host)

/-- the `switch` of `OSHMPI_space_destroy`, space_impl.c L235-246: `cudaFree`, `zeMemFree`, `free`; memory of another allocator is undefined -/
def spaceFree (c : Cfg) (kind : MemKind) (w : Where) : Res Unit :=
  match kind with
  | .cuda => if c.cuda then (if w = .device .cuda then .ok () else .ub) else .abort
  | .ze => if c.ze then (if w = .device .ze then .ok () else .ub) else .abort
  | .host => if w = .host then .ok () else .ub

/-- the value of the info key "perf_preference" of a space's windows, `space_set_mpi_info_args`, space_impl.c L70-86; hints of shmemx.h.in
L26-29 -/
def perfPreference (hints : BitVec 64) : Option String :=
  if hints &&& 2#64 ≠ 0#64 then some "mr" else if hints &&& 1#64 ≠ 0#64 then some "lat" else none

/-- a space: the pointer, the recorded kind (`config.memkind`, `sobj_attr.memkind`, space_impl.c L197, L206), its memory -/
structure Sp where
  name : Nat
  kind : MemKind
  mem : Where
deriving DecidableEq, Repr

/-- The spaces of a job in which all PEs create the same spaces (space_impl.c L311: "assume all processes have the same config"), the
accesses made so far, the memory allocated and not freed. Attaching changes neither kind nor memory (L276-360). -/
structure St where
  spaces : List Sp
  log : List Acc
  live : List (Nat × Where)

/-- start-up -/
def init : St := ⟨[], [], []⟩

/-- what the program does: create and destroy a space; call on an object (`none`: symmetric heap or data segment, recorded as host memory,
setup_impl.c L150-270; `some`: a space) -/
inductive Op where
  | create (name : Nat) (raw : Int)
  | destroy (name : Nat)
  | call (obj : Option Nat) (k : Call)
deriving DecidableEq, Repr

/-- One operation. A name is a fresh pointer; using a space that does not exist is undefined. -/
def step (c : Cfg) (d : Driver) (s : St) : Op → Res St
  | .create name raw =>
    if s.spaces.any (fun x => x.name == name) then .ub
    else (spaceAlloc c raw).bind fun r =>
      .ok { s with spaces := s.spaces ++ [⟨name, r.1, r.2⟩], live := s.live ++ [(name, r.2)] }
  | .destroy name =>
    match s.spaces.find? (fun x => x.name == name) with
    | none => .ub
    | some x => (spaceFree c x.kind x.mem).bind fun _ =>
      .ok { s with spaces := s.spaces.filter (fun y => y.name != name), live := s.live.filter (fun y => y != (name, x.mem)) }
  | .call none k => (accesses c d .host .host k).bind fun l => .ok { s with log := s.log ++ l }
  | .call (some name) k =>
    match s.spaces.find? (fun x => x.name == name) with
    | none => .ub
    | some x => (accesses c d x.kind x.mem k).bind fun l => .ok { s with log := s.log ++ l }

/-- a sequence of operations -/
def run (c : Cfg) (d : Driver) (s : St) : List Op → Res St
  | [] => .ok s
  | o :: t => (step c d s o).bind fun s' => run c d s' t

end Verif.Gpu
