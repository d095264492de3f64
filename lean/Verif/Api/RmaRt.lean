import Verif.Api.Model
/-!
# The put and get routines

`/repo/src/shmem/rma_typed.c.tpl`, `rma_sized.c.tpl`, `rma.c`: every routine with what it passes on, and the internal routines
`OSHMPI_ctx_put`, `_put_nbi`, `_iput`, `_get`, `_get_nbi`, `_iget` (`/repo/src/internal/rma_impl.h` L107-243) with the parameters in their
order; the strided ones make their datatypes themselves.
-/
namespace Verif.Api
open Verif.Sobj Verif.Rma
open Verif.Amo (TyIdx)

/-- a routine, by the part of its name that is not type or size -/
inductive RRt where
  | g | get | getNbi | iget | p | put | iput | putNbi
deriving DecidableEq, Repr

/-- the file a routine comes from -/
inductive Fam where
  | typed | sized | mem
deriving DecidableEq, Repr

/-- the file of a routine -/
def Fn.fam : Fn → Fam
  | .typed _ => .typed | .sized _ => .sized | .mem => .mem

/-- an address argument: parameter `dest`, parameter `source`, the address of the parameter `value`, the address of the local
variable `value`, which is then returned -/
inductive RPtr where
  | dest | source | param | local
deriving DecidableEq, Repr

/-- argument `nelems`: 1 or the parameter -/
inductive RCnt where
  | one | nelems
deriving DecidableEq, Repr

/-- a stride argument: parameter `dst` or `sst` -/
inductive RSt where
  | dst | sst
deriving DecidableEq, Repr

/-- the internal routine; of the strided ones the two stride arguments in the order of the call -/
inductive RVia where
  | put | putNbi | get | getNbi
  | iput (first second : RSt)
  | iget (first second : RSt)
deriving DecidableEq, Repr

/-- one call of an internal routine: `ctx`: the parameter `ctx` is passed on, otherwise `SHMEM_CTX_DEFAULT` -/
structure RCall where
  ctx : Bool
  via : RVia
  origin : RPtr
  target : RPtr
  cnt : RCnt
deriving DecidableEq, Repr

/-- the body of a routine, without and with `ctx_`; `none`: no such routine -/
def RRt.body : Fam → RRt → Bool → Option RCall
  -- rma_typed.c.tpl L13-19, L21-27
  | .typed, .g, false => some ⟨false, .get, .local, .source, .one⟩
  | .typed, .g, true => some ⟨true, .get, .local, .source, .one⟩
  -- L29-33, L35-40
  | .typed, .get, false => some ⟨false, .get, .dest, .source, .nelems⟩
  | .typed, .get, true => some ⟨true, .get, .dest, .source, .nelems⟩
  -- L42-46, L48-53
  | .typed, .getNbi, false => some ⟨false, .getNbi, .dest, .source, .nelems⟩
  | .typed, .getNbi, true => some ⟨true, .getNbi, .dest, .source, .nelems⟩
  -- L55-60, L62-67
  | .typed, .iget, false => some ⟨false, .iget .dst .sst, .dest, .source, .nelems⟩
  | .typed, .iget, true => some ⟨true, .iget .dst .sst, .dest, .source, .nelems⟩
  -- L69-73, L75-79
  | .typed, .p, false => some ⟨false, .put, .param, .dest, .one⟩
  | .typed, .p, true => some ⟨true, .put, .param, .dest, .one⟩
  -- L81-85, L87-92
  | .typed, .put, false => some ⟨false, .put, .source, .dest, .nelems⟩
  | .typed, .put, true => some ⟨true, .put, .source, .dest, .nelems⟩
  -- L94-99, L101-106
  | .typed, .iput, false => some ⟨false, .iput .dst .sst, .source, .dest, .nelems⟩
  | .typed, .iput, true => some ⟨true, .iput .dst .sst, .source, .dest, .nelems⟩
  -- L108-112, L114-119
  | .typed, .putNbi, false => some ⟨false, .putNbi, .source, .dest, .nelems⟩
  | .typed, .putNbi, true => some ⟨true, .putNbi, .source, .dest, .nelems⟩
  -- rma_sized.c.tpl L13-17, L19-23
  | .sized, .get, false => some ⟨false, .get, .dest, .source, .nelems⟩
  | .sized, .get, true => some ⟨true, .get, .dest, .source, .nelems⟩
  -- L25-29, L31-36
  | .sized, .getNbi, false => some ⟨false, .getNbi, .dest, .source, .nelems⟩
  | .sized, .getNbi, true => some ⟨true, .getNbi, .dest, .source, .nelems⟩
  -- L38-43, L45-50
  | .sized, .iget, false => some ⟨false, .iget .dst .sst, .dest, .source, .nelems⟩
  | .sized, .iget, true => some ⟨true, .iget .dst .sst, .dest, .source, .nelems⟩
  -- L52-56, L58-62
  | .sized, .put, false => some ⟨false, .put, .source, .dest, .nelems⟩
  | .sized, .put, true => some ⟨true, .put, .source, .dest, .nelems⟩
  -- L64-69, L71-76
  | .sized, .iput, false => some ⟨false, .iput .dst .sst, .source, .dest, .nelems⟩
  | .sized, .iput, true => some ⟨true, .iput .dst .sst, .source, .dest, .nelems⟩
  -- L78-82, L84-89
  | .sized, .putNbi, false => some ⟨false, .putNbi, .source, .dest, .nelems⟩
  | .sized, .putNbi, true => some ⟨true, .putNbi, .source, .dest, .nelems⟩
  | .sized, .g, false => none
  | .sized, .g, true => none
  | .sized, .p, false => none
  | .sized, .p, true => none
  -- rma.c L15-18, L10-13
  | .mem, .put, false => some ⟨false, .put, .source, .dest, .nelems⟩
  | .mem, .put, true => some ⟨true, .put, .source, .dest, .nelems⟩
  -- L25-28, L20-23
  | .mem, .get, false => some ⟨false, .get, .dest, .source, .nelems⟩
  | .mem, .get, true => some ⟨true, .get, .dest, .source, .nelems⟩
  -- L36-40, L30-34
  | .mem, .putNbi, false => some ⟨false, .putNbi, .source, .dest, .nelems⟩
  | .mem, .putNbi, true => some ⟨true, .putNbi, .source, .dest, .nelems⟩
  -- L48-52, L42-46
  | .mem, .getNbi, false => some ⟨false, .getNbi, .dest, .source, .nelems⟩
  | .mem, .getNbi, true => some ⟨true, .getNbi, .dest, .source, .nelems⟩
  | .mem, .g, false => none
  | .mem, .g, true => none
  | .mem, .p, false => none
  | .mem, .p, true => none
  | .mem, .iget, false => none
  | .mem, .iget, true => none
  | .mem, .iput, false => none
  | .mem, .iput, true => none

/-- what a program passes; `slot`: where the compiler put the parameter or variable `value`; `value`: the bytes of the parameter -/
structure RArgs where
  dest : BitVec 64
  source : BitVec 64
  slot : BitVec 64
  value : Nat → BitVec 8
  dst : Int
  sst : Int
  nelems : Nat

/-- value of an address argument -/
def RPtr.addr (a : RArgs) : RPtr → BitVec 64
  | .dest => a.dest | .source => a.source | .param => a.slot | .local => a.slot

/-- value of the argument `nelems` -/
def RCnt.val (a : RArgs) : RCnt → Nat
  | .one => 1 | .nelems => a.nelems

/-- value of a stride argument -/
def RSt.val (a : RArgs) : RSt → Int
  | .dst => a.dst | .sst => a.sst

/-- `OSHMPI_am.datatypes_table`, am_impl.c L206-233: what the handlers of strided operations make of the index -/
def dtTable : TyIdx → TyIdx
  | .char => .char | .schar => .schar | .short => .short | .int => .int | .long => .long | .longlong => .longlong
  | .uchar => .uchar | .ushort => .ushort | .uint => .uint | .ulong => .ulong | .ulonglong => .ulonglong
  | .int8 => .int8 | .int16 => .int16 | .int32 => .int32 | .int64 => .int64
  | .uint8 => .uint8 | .uint16 => .uint16 | .uint32 => .uint32 | .uint64 => .uint64
  | .size => .size | .ptrdiff => .ptrdiff | .float => .float | .double => .double | .longdouble => .longdouble
  | .dcomplex => .dcomplex

/-- the MPI types, numbered as the datatype cache knows them (any numbering will do) -/
def mpiTypes : List TyIdx :=
  [.char, .schar, .short, .int, .long, .longlong, .uchar, .ushort, .uint, .ulong, .ulonglong, .int8, .int16, .int32, .int64,
   .uint8, .uint16, .uint32, .uint64, .size, .ptrdiff, .float, .double, .longdouble, .dcomplex]

/-- number of an MPI type -/
def mpiId (t : TyIdx) : Nat := mpiTypes.idxOf t

/-- size of an MPI type, by number -/
def mpiSz (i : Nat) : Nat := ((mpiTypes[i]?).map TyIdx.bytes).getD 0

/-- arguments `mpi_type` and `mpi_type_idx` of the strided routines: `MPI_TYPE` and `OSHMPI_AM_MPI_TYPE`, made from the same text -/
def Fn.mpi : Fn → Option TyIdx
  | .typed r => some r.mpi
  | .sized r => some r.mpi
  | .mem => none

/-- the datatypes of a strided call. `OSHMPI_create_strided_dtype` gives one for the origin stride. Direct (rma_impl.h L64-71, L90-97): for
equal strides the target uses the same, otherwise one is made for the target stride. Active message: the handler makes one from the
packet's `target_st` and `datatypes_table[mpi_type_idx]`, rma_am_impl.c L48-54, L71-77, on the other process. -/
def Dtypes (cacheOn : Bool) (path : Path) (n : Nat) (t : TyIdx) (originSt targetSt : Int) (oc : Nat) (oty : Ty) (tc : Nat) (tty : Ty) :
    Prop :=
  Obtained cacheOn mpiSz ⟨n, originSt, mpiId t, 0⟩ oc oty ∧
  match path with
  | .direct _ => if originSt = targetSt then tc = oc ∧ tty = oty else Obtained cacheOn mpiSz ⟨n, targetSt, mpiId t, 0⟩ tc tty
  | .am => Obtained cacheOn mpiSz ⟨n, targetSt, mpiId (dtTable t), 0⟩ tc tty

/-- a call of an internal routine until its data has moved, with a possible outcome. The parameters of `OSHMPI_ctx_iput` are
`target_st, origin_st` in this order (rma_impl.h L154), those of `OSHMPI_ctx_iget` are `origin_st, target_st` (L224). Contiguous:
rma_impl.h L107-148, L175-218; the datatype cache is the process's, so a strided call depends on its history. -/
def RCall.Moves (cacheOn : Bool) (procs : Nat → Proc) (path : Path) (ctx : Option (Obj × Attr)) (me pe : Nat) (fn : Fn) (c : RCall)
    (a : RArgs) (m : Mems) (res : Res Mems) : Prop :=
  let cx := if c.ctx then ctx else none
  match c.via with
  | .put => res = ctxPut procs path cx fn.args.1 fn.args.2 me pe (c.origin.addr a) (c.target.addr a) (c.cnt.val a) m
  | .putNbi => res = ctxPut procs path cx fn.args.1 fn.args.2 me pe (c.origin.addr a) (c.target.addr a) (c.cnt.val a) m
  | .get => res = ctxGet procs path cx fn.args.1 fn.args.2 me pe (c.origin.addr a) (c.target.addr a) (c.cnt.val a) m
  | .getNbi => res = ctxGet procs path cx fn.args.1 fn.args.2 me pe (c.origin.addr a) (c.target.addr a) (c.cnt.val a) m
  | .iput tst ost => ∃ t oc oty tc tty, fn.mpi = some t ∧ Dtypes cacheOn path (c.cnt.val a) t (ost.val a) (tst.val a) oc oty tc tty ∧
      res = ctxIput procs path cx me pe (c.origin.addr a) (c.target.addr a) (c.cnt.val a) oc oty tc tty m
  | .iget ost tst => ∃ t oc oty tc tty, fn.mpi = some t ∧ Dtypes cacheOn path (c.cnt.val a) t (ost.val a) (tst.val a) oc oty tc tty ∧
      res = ctxIget procs path cx me pe (c.origin.addr a) (c.target.addr a) (c.cnt.val a) oc oty tc tty m

/-- whether the internal routine returns only when the origin buffer can be used: `ctx_local_complete_impl`, rma_impl.h L143, L168, L213,
L238 -/
def RVia.blocking : RVia → Bool
  | .put => true | .putNbi => false | .get => true | .getNbi => false | .iput _ _ => true | .iget _ _ => true

/-- number of bytes of the parameter or variable `value`: `sizeof(TYPE)` -/
def Fn.slotSz : Fn → Nat
  | .typed r => r.ty.sizeof
  | .sized _ => 0
  | .mem => 0

/-- the memories when the body starts: a parameter whose address is taken is in the caller's memory -/
def RCall.enter (fn : Fn) (c : RCall) (a : RArgs) (me : Nat) (m : Mems) : Mems :=
  if c.origin = .param then
    Function.update m me fun x =>
      if a.slot.toInt ≤ x ∧ x < a.slot.toInt + fn.slotSz then a.value (x - a.slot.toInt).toNat else m me x
  else m

/-- `shmem_[ctx_]TYPENAME_...`, `shmem_[ctx_]putSIZENAME` ..., `shmem_[ctx_]putmem` ... with a possible outcome: the memories, and the bytes
of the value returned, if there is one -/
def RRt.Run (cacheOn : Bool) (fn : Fn) (rt : RRt) (isCtx : Bool) (procs : Nat → Proc) (path : Path) (ctx : Option (Obj × Attr))
    (me pe : Nat) (a : RArgs) (m : Mems) (out : Res (Mems × Option (Nat → BitVec 8))) : Prop :=
  ∃ c, RRt.body fn.fam rt isCtx = some c ∧ ∃ res, c.Moves cacheOn procs path ctx me pe fn a (c.enter fn a me m) res ∧
    out = res.bind fun m' => .ok (m', if c.origin = .local then some fun (i : Nat) => m' me (a.slot.toInt + i) else none)

end Verif.Api
