import Verif.Api.Reduce
import Verif.Coll.Model
import Verif.Team.Model
/-!
# The collective routines as the program calls them

`/repo/src/shmem/coll_typed.c.tpl` with the table `/repo/maint/coll_typedef.txt`, `/repo/src/shmem/coll.c` (`…mem`) and
`/repo/src/shmem/coll_activeset.c` (`…32`, `…64`): each finds its communicator and passes its MPI type on. `src p` and `dst p` are
the pointers that PE `p` passes.
-/
namespace Verif.Api
open Verif.Rma Verif.Coll

/-- a routine on a team: typed (coll_typed.c.tpl L11-49) or on bytes (coll.c L28-68) -/
inductive CFn where
  | typed (r : Row)
  | mem
deriving DecidableEq, Repr

/-- size of the MPI type the routine passes: coll_typed.c.tpl `MPI_TYPE`; coll.c `OSHMPI_MPI_COLL_BYTE_T` = `MPI_BYTE`
(oshmpi_impl.h L32) -/
def CFn.kb : CFn → Nat
  | .typed r => r.mpi.bytes
  | .mem => 1

/-- a routine on an active set (coll_activeset.c L20-82) -/
inductive AFn where
  | b32 | b64
deriving DecidableEq, Repr

/-- size of the MPI type: `OSHMPI_MPI_COLL32_T` = `MPI_UINT32_T`, `OSHMPI_MPI_COLL64_T` = `MPI_UINT64_T` (oshmpi_impl.h L33-34) -/
def AFn.kb : AFn → Nat
  | .b32 => Amo.TyIdx.uint32.bytes
  | .b64 => Amo.TyIdx.uint64.bytes

/-- `f p` is the communicator PE `p` uses; PE `me` takes part in a collective over it. If another member of it uses another
communicator, the call does not return. -/
def joint (f : Nat → Res (List Nat)) (me : Nat) : Res (List Nat) :=
  (f me).bind fun ms => if ∀ p ∈ ms, f p = .ok ms then .ok ms else .hang

/-- the communicator of the team that PE `p` passes, `OSHMPI_TEAM_GET_OBJ` (oshmpi_impl.h L349-358) and `team->comm`;
`SHMEM_TEAM_INVALID` is a null pointer -/
def commOf (cts n : Nat) (hd : Nat → Team.Handle) (p : Nat) : Res (List Nat) :=
  match Team.getObj cts n p (hd p) with
  | none => .ub
  | some o => .ok o.comm

/-- the communicator of the active set, found in or added to PE `p`'s cache (`coll_acquire_comm`, coll_activeset_impl.h L73-117) -/
def asetOf (npes : Nat) (c : Nat → Cache) (k : ASet) (p : Nat) : Res (List Nat) := (acquire npes (c p) k).bind fun x => .ok x.1

/-- `shmem_TYPENAME_broadcast`, coll_typed.c.tpl L11-18; `shmem_broadcastmem`, coll.c L28-35 -/
def broadcastT (fn : CFn) (cts n : Nat) (hd : Nat → Team.Handle) (me root : Nat) (src dst : Nat → Int) (nelems : Nat) (m : Mems) : Res Mems :=
  (joint (commOf cts n hd) me).bind fun ms => broadcastTeam fn.kb ms root src dst nelems m

/-- `shmem_TYPENAME_collect`, coll_typed.c.tpl L19-25; `shmem_collectmem`, coll.c L37-43; PE `p` contributes `ns p` elements -/
def collectT (fn : CFn) (cts n : Nat) (hd : Nat → Team.Handle) (me : Nat) (ns : Nat → Nat) (src dst : Nat → Int) (m : Mems) : Res Mems :=
  (joint (commOf cts n hd) me).bind fun ms =>
    collect fn.kb ms (fun r => ns (ms.getD r 0)) (fun r => src (ms.getD r 0)) (fun r => dst (ms.getD r 0)) m

/-- `shmem_TYPENAME_fcollect`, coll_typed.c.tpl L26-32; `shmem_fcollectmem`, coll.c L45-51 -/
def fcollectT (fn : CFn) (cts n : Nat) (hd : Nat → Team.Handle) (me : Nat) (nelems : Nat) (src dst : Nat → Int) (m : Mems) : Res Mems :=
  (joint (commOf cts n hd) me).bind fun ms =>
    fcollect fn.kb ms nelems (fun r => src (ms.getD r 0)) (fun r => dst (ms.getD r 0)) m

/-- `shmem_TYPENAME_alltoall`, coll_typed.c.tpl L34-40; `shmem_alltoallmem`, coll.c L53-59 -/
def alltoallT (fn : CFn) (cts n : Nat) (hd : Nat → Team.Handle) (me : Nat) (nelems : Nat) (src dst : Nat → Int) (m : Mems) : Res Mems :=
  (joint (commOf cts n hd) me).bind fun ms =>
    alltoall fn.kb ms nelems (fun r => src (ms.getD r 0)) (fun r => dst (ms.getD r 0)) m

/-- `shmem_TYPENAME_alltoalls`, coll_typed.c.tpl L42-49; `shmem_alltoallsmem`, coll.c L61-68; the strided datatypes as in
`Coll.alltoalls`: `sc p`, `sty p` for the send and `rc p`, `rty p` for the receive side of PE `p` -/
def alltoallsT (cts n : Nat) (hd : Nat → Team.Handle) (me : Nat) (src dst : Nat → Int) (sc : Nat → Nat) (sty : Nat → Ty)
    (rc : Nat → Nat) (rty : Nat → Ty) (m : Mems) : Res Mems :=
  (joint (commOf cts n hd) me).bind fun ms =>
    alltoalls ms (fun r => src (ms.getD r 0)) (fun r => dst (ms.getD r 0)) (fun r => sc (ms.getD r 0)) (fun r => sty (ms.getD r 0))
      (fun r => rc (ms.getD r 0)) (fun r => rty (ms.getD r 0)) m

/-- `shmem_collect32/64`, coll_activeset.c L34-44, with `OSHMPI_collect`, coll_activeset_impl.h L210-244 -/
def collectA (fn : AFn) (npes : Nat) (c : Nat → Cache) (k : ASet) (me : Nat) (ns : Nat → Nat) (src dst : Nat → Int) (m : Mems) : Res Mems :=
  (joint (asetOf npes c k) me).bind fun ms =>
    collect fn.kb ms (fun r => ns (ms.getD r 0)) (fun r => src (ms.getD r 0)) (fun r => dst (ms.getD r 0)) m

/-- `shmem_fcollect32/64`, coll_activeset.c L46-56 -/
def fcollectA (fn : AFn) (npes : Nat) (c : Nat → Cache) (k : ASet) (me : Nat) (nelems : Nat) (src dst : Nat → Int) (m : Mems) : Res Mems :=
  (joint (asetOf npes c k) me).bind fun ms =>
    fcollect fn.kb ms nelems (fun r => src (ms.getD r 0)) (fun r => dst (ms.getD r 0)) m

/-- `shmem_alltoall32/64`, coll_activeset.c L58-68 -/
def alltoallA (fn : AFn) (npes : Nat) (c : Nat → Cache) (k : ASet) (me : Nat) (nelems : Nat) (src dst : Nat → Int) (m : Mems) : Res Mems :=
  (joint (asetOf npes c k) me).bind fun ms =>
    alltoall fn.kb ms nelems (fun r => src (ms.getD r 0)) (fun r => dst (ms.getD r 0)) m

/-- `shmem_alltoalls32/64`, coll_activeset.c L70-82 -/
def alltoallsA (npes : Nat) (c : Nat → Cache) (k : ASet) (me : Nat) (src dst : Nat → Int) (sc : Nat → Nat) (sty : Nat → Ty)
    (rc : Nat → Nat) (rty : Nat → Ty) (m : Mems) : Res Mems :=
  (joint (asetOf npes c k) me).bind fun ms =>
    alltoalls ms (fun r => src (ms.getD r 0)) (fun r => dst (ms.getD r 0)) (fun r => sc (ms.getD r 0)) (fun r => sty (ms.getD r 0))
      (fun r => rc (ms.getD r 0)) (fun r => rty (ms.getD r 0)) m

/-- `shmem_broadcast32/64`, coll_activeset.c L20-32 -/
def broadcastA (fn : AFn) (procs : Nat → Sobj.Proc) (mode : Sobj.Mode) (npes : Nat) (c : Nat → Cache) (k : ASet) (me root : Nat)
    (src dst : Nat → BitVec 64) (nelems : Nat) (m : Mems) : Res Mems :=
  (joint (asetOf npes c k) me).bind fun ms => broadcast procs mode fn.kb k ms root src dst nelems m

/-- `shmem_TYPENAME_OP_reduce`, reduce_{minmax,sumprod,bitws}_team_typed.c.tpl L10-36 -/
def reduceT (r : RRow) (op : OpName) (fl : Nat → ROp → Nat → Nat → Nat) (tr : Nat → Nat → Tree) (cts n : Nat) (hd : Nat → Team.Handle)
    (me : Nat) (src dst : Nat → Int) (nelems : Nat) (m : Mems) : Res Mems :=
  (joint (commOf cts n hd) me).bind fun ms => reduceFn r op fl tr ms (fun q => src (ms.getD q 0)) (fun q => dst (ms.getD q 0)) nelems m

/-- `shmem_TYPENAME_OP_to_all`, reduce_{minmax,sumprod,bitws}_aset_typed.c.tpl L10-31, `OSHMPI_allreduce`, coll_activeset_impl.h L302-313 -/
def reduceA (r : RRow) (op : OpName) (fl : Nat → ROp → Nat → Nat → Nat) (tr : Nat → Nat → Tree) (npes : Nat) (c : Nat → Cache) (k : ASet)
    (me : Nat) (src dst : Nat → Int) (nelems : Nat) (m : Mems) : Res Mems :=
  (joint (asetOf npes c k) me).bind fun ms => reduceFn r op fl tr ms (fun q => src (ms.getD q 0)) (fun q => dst (ms.getD q 0)) nelems m

end Verif.Api
