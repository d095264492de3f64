import Verif.Rma.Dtype
import Verif.Sobj.Model
/-!
# Put and get

`/repo/src/internal/rma_impl.h` (direct path), `/repo/src/internal/rma_am_impl.{h,c}` (active messages). The functions
below give the effect of one completed operation; when it is complete is the subject of the Am and Order models. Memory
is indexed by the signed value of an address. MPI errors abort (`MPI_ERRORS_ARE_FATAL`, the default error handler).
-/
namespace Verif.Rma
open Verif.Sobj

/-- memory of one PE -/
abbrev IMem := Int → BitVec 8

/-- bytes written one after the other -/
def writes (m : IMem) : List (Int × BitVec 8) → IMem
  | [] => m
  | (a, v) :: l => writes (Function.update m a v) l

/-- absolute addresses of the bytes of `count` items of type `t` at `addr` -/
def addrs (addr : Int) (count : Nat) (t : Ty) : List Int := (t.flat count).map (fun d => addr + d)

/-- data movement of `MPI_Put` / `MPI_Get` (MPI standard, trusted): the k-th byte of the source in signature order goes to
the k-th byte of the destination; negative counts are errors; different sizes are erroneous. -/
def mpiXfer (src dst : IMem) (saddr scount : Int) (sty : Ty) (daddr dcount : Int) (dty : Ty) : Res IMem :=
  if scount < 0 ∨ dcount < 0 then .abort
  else
    let sa := addrs saddr scount.toNat sty
    let da := addrs daddr dcount.toNat dty
    if sa.length ≠ da.length then .ub else .ok (writes dst (da.zip (sa.map src)))

/-- data movement of a matched `MPI_Send`/`MPI_Recv` pair (MPI standard, trusted): the message may be shorter than the
receive buffer; a longer one is a truncation error. -/
def mpiMsg (src dst : IMem) (saddr scount : Int) (sty : Ty) (daddr dcount : Int) (dty : Ty) : Res IMem :=
  if scount < 0 ∨ dcount < 0 then .abort
  else
    let sa := addrs saddr scount.toNat sty
    let da := addrs daddr dcount.toNat dty
    if da.length < sa.length then .abort else .ok (writes dst (da.zip (sa.map src)))

/-- how a transfer is done: MPI RMA with a displacement mode, or an active message -/
inductive Path where
  | direct (mode : Mode)
  | am
deriving DecidableEq, Repr

/-- the attributes of an object on a PE -/
def objAttr (g : Proc) : Obj → Option Attr
  | .heap => some g.heap
  | .data => some g.data
  | .space nm => (g.spaces.find? (fun s => s.1 = nm)).map (·.2)

/-- `OSHMPI_sobj_query_attr_ictx`, oshmpi_impl.h L669-717: a context other than the default brings its own object
(L675-679), otherwise the lookup -/
def lookup (g : Proc) (ctx : Option (Obj × Attr)) (addr : BitVec 64) : Option (Obj × Attr) := match ctx with
  | some oa => some oa
  | none => query g addr

/-- the address on `pe` that an operation on `addr` reaches. Direct: rma_impl.h L23-30, the window is that of the object
(or the dynamic window). Active message: rma_am_impl.h L28-30 on the origin, rma_am_impl.c L16-17 on the target. -/
def resolve (procs : Nat → Proc) (path : Path) (ctx : Option (Obj × Attr)) (me pe : Nat) (addr : BitVec 64) :
    Res (BitVec 64) :=
  match lookup (procs me) ctx addr with
  | none => .abort
  | some (o, a) => match path with
    | .direct mode => (vaddrToDisp a addr pe mode).bind fun d =>
        if d.toInt < 0 then .abort
        else match objAttr (procs pe) o with
          | some b => .ok (mpiAddr b.base d mode)
          | none => .ub
    | .am => (vaddrToDisp a addr pe .rel).bind fun d =>
        if d.toInt < 0 then .abort
        else (dispToVaddr (procs pe) a.handle d).bind fun v => if v = 0#64 then .abort else .ok v

/-- a product computed in `size_t`, e.g. `pkt->bytes = typesz * nelems`, rma_am_impl.h L25, L59 -/
def toSize (x : Nat) : Nat := x % 2 ^ 64

theorem toSize_lt {x : Nat} (h : x < 2147483648) : toSize x = x := by
  unfold toSize; omega

/-- contents of the PEs' memories -/
abbrev Mems := Nat → IMem

/-- `OSHMPI_ctx_put` / `OSHMPI_ctx_put_nbi`, rma_impl.h L107-148 with `ctx_put_nbi_impl` L13-32 (`(int)` casts L28-29), or
`OSHMPI_rma_am_put`, rma_am_impl.h L12-45 (`nelems` is converted to the `int` parameter of `MPI_Isend`) and its handler
`OSHMPI_rma_am_put_pkt_cb`, rma_am_impl.c L11-22 (`bytes` converted to the `int` parameter of `MPI_Recv`). `k` is the size
of the MPI element type, `ts` the argument `typesz` (used on the active-message path only, for `bytes`, L25). -/
def ctxPut (procs : Nat → Proc) (path : Path) (ctx : Option (Obj × Attr)) (k ts : Nat) (me pe : Nat)
    (origin target : BitVec 64) (nelems : Nat) (m : Mems) : Res Mems :=
  if nelems = 0 then .ok m
  else (resolve procs path ctx me pe target).bind fun r =>
    (match path with
      | .direct _ => mpiXfer (m me) (m pe) origin.toInt (toI32 nelems) (Ty.basic k) r.toInt (toI32 nelems) (Ty.basic k)
      | .am => mpiMsg (m me) (m pe) origin.toInt (toI32 nelems) (Ty.basic k) r.toInt (toI32 (toSize (ts * nelems)))
          (Ty.basic 1)).bind fun x => .ok (Function.update m pe x)

/-- `OSHMPI_ctx_get` / `OSHMPI_ctx_get_nbi`, rma_impl.h L175-218 with L34-53, or `OSHMPI_rma_am_get`, rma_am_impl.h L47-81 and
its handler, rma_am_impl.c L25-36; `k` and `ts` as for `ctxPut` (`bytes` L59) -/
def ctxGet (procs : Nat → Proc) (path : Path) (ctx : Option (Obj × Attr)) (k ts : Nat) (me pe : Nat)
    (origin target : BitVec 64) (nelems : Nat) (m : Mems) : Res Mems :=
  if nelems = 0 then .ok m
  else (resolve procs path ctx me pe target).bind fun r =>
    (match path with
      | .direct _ => mpiXfer (m pe) (m me) r.toInt (toI32 nelems) (Ty.basic k) origin.toInt (toI32 nelems) (Ty.basic k)
      | .am => mpiMsg (m pe) (m me) r.toInt (toI32 (toSize (ts * nelems))) (Ty.basic 1) origin.toInt (toI32 nelems)
          (Ty.basic k)).bind fun x => .ok (Function.update m me x)

/-- `OSHMPI_ctx_iput`, rma_impl.h L150-173 with L55-79, or `OSHMPI_rma_am_iput`, rma_am_impl.h L83-127 and its handler,
rma_am_impl.c L40-60. `oc oty` and `tc tty` are what `OSHMPI_create_strided_dtype` returned for the origin and the target
stride (L64-71; for equal strides the code uses the origin's for both; on the active-message path the target creates its
own). -/
def ctxIput (procs : Nat → Proc) (path : Path) (ctx : Option (Obj × Attr)) (me pe : Nat) (origin target : BitVec 64)
    (nelems : Nat) (oc : Nat) (oty : Ty) (tc : Nat) (tty : Ty) (m : Mems) : Res Mems :=
  if nelems = 0 then .ok m
  else (resolve procs path ctx me pe target).bind fun r =>
    (match path with
      | .direct _ => mpiXfer (m me) (m pe) origin.toInt (toI32 oc) oty r.toInt (toI32 tc) tty
      | .am => mpiMsg (m me) (m pe) origin.toInt (toI32 oc) oty r.toInt (toI32 tc) tty).bind fun x =>
    .ok (Function.update m pe x)

/-- `OSHMPI_ctx_iget`, rma_impl.h L220-243 with L81-105, or `OSHMPI_rma_am_iget`, rma_am_impl.h L129-174 and its handler,
rma_am_impl.c L63-83 -/
def ctxIget (procs : Nat → Proc) (path : Path) (ctx : Option (Obj × Attr)) (me pe : Nat) (origin target : BitVec 64)
    (nelems : Nat) (oc : Nat) (oty : Ty) (tc : Nat) (tty : Ty) (m : Mems) : Res Mems :=
  if nelems = 0 then .ok m
  else (resolve procs path ctx me pe target).bind fun r =>
    (match path with
      | .direct _ => mpiXfer (m pe) (m me) r.toInt (toI32 tc) tty origin.toInt (toI32 oc) oty
      | .am => mpiMsg (m pe) (m me) r.toInt (toI32 tc) tty origin.toInt (toI32 oc) oty).bind fun x =>
    .ok (Function.update m me x)

end Verif.Rma
