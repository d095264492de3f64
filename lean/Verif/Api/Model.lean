import Verif.Rma.Model
import Verif.Amo.Model
/-!
# The generated API: type and size tables, put/get wrappers, accessibility queries

The typed and sized routines are generated by `/repo/maint/build_typed_api.pl` and `/repo/maint/build_sized_api.pl` from
the templates in `/repo/src/shmem` and the tables in `/repo/maint`: the generator replaces `TYPENAME`, `MPI_TYPE`, `TYPE`
(`SIZENAME`, `MPI_TYPE`, `SIZE`) by the entries of a row (typed L92-95, sized L93-95). Sizes are those of LP64 with 16-byte
`long double`.
-/
namespace Verif.Api
open Verif.Sobj Verif.Rma
open Verif.Amo (TyIdx)

/-- the C types of the tables -/
inductive CT where
  | float | double | longdouble | char | schar | short | int | long | longlong | uchar | ushort | uint | ulong
  | ulonglong | int8 | int16 | int32 | int64 | uint8 | uint16 | uint32 | uint64 | size | ptrdiff
deriving DecidableEq, Repr

/-- `sizeof(TYPE)` (LP64) -/
def CT.sizeof : CT → Nat
  | .float => 4 | .double => 8 | .longdouble => 16 | .char => 1 | .schar => 1 | .short => 2 | .int => 4 | .long => 8
  | .longlong => 8 | .uchar => 1 | .ushort => 2 | .uint => 4 | .ulong => 8 | .ulonglong => 8 | .int8 => 1 | .int16 => 2
  | .int32 => 4 | .int64 => 8 | .uint8 => 1 | .uint16 => 2 | .uint32 => 4 | .uint64 => 8 | .size => 8 | .ptrdiff => 8

/-- a row of a type table: TYPE and MPITYPE (`TyIdx` names the MPI types; the index `OSHMPI_AM_` + MPITYPE is made from the
same text, am_pre.h L12-39) -/
structure Row where
  ty : CT
  mpi : TyIdx
deriving DecidableEq, Repr

/-- maint/rma_typedef.txt L2-25 (also coll_typedef.txt L2-25, the same rows) -/
def rmaRows : List Row :=
  [⟨.float, .float⟩, ⟨.double, .double⟩, ⟨.longdouble, .longdouble⟩, ⟨.char, .char⟩, ⟨.schar, .schar⟩, ⟨.short, .short⟩,
   ⟨.int, .int⟩, ⟨.long, .long⟩, ⟨.longlong, .longlong⟩, ⟨.uchar, .uchar⟩, ⟨.ushort, .ushort⟩, ⟨.uint, .uint⟩,
   ⟨.ulong, .ulong⟩, ⟨.ulonglong, .ulonglong⟩, ⟨.int8, .int8⟩, ⟨.int16, .int16⟩, ⟨.int32, .int32⟩, ⟨.int64, .int64⟩,
   ⟨.uint8, .uint8⟩, ⟨.uint16, .uint16⟩, ⟨.uint32, .uint32⟩, ⟨.uint64, .uint64⟩, ⟨.size, .size⟩, ⟨.ptrdiff, .ptrdiff⟩]

/-- a row of the size table: SIZE and MPITYPE -/
structure SRow where
  size : Nat
  mpi : TyIdx
deriving DecidableEq, Repr

/-- maint/rma_sizedef.txt L2-6 -/
def sizedRows : List SRow := [⟨8, .uint8⟩, ⟨16, .uint16⟩, ⟨32, .uint32⟩, ⟨64, .uint64⟩, ⟨128, .dcomplex⟩]

/-- a contiguous put or get routine: typed (rma_typed.c.tpl), sized (rma_sized.c.tpl), or untyped (rma.c). `_p` and `_g` are
the typed routines with one element (rma_typed.c.tpl L13-28, L69-79); `ctx_` and `_nbi` versions have the same arguments. -/
inductive Fn where
  | typed (r : Row)
  | sized (r : SRow)
  | mem
deriving DecidableEq, Repr

/-- the arguments `mpi_type` (its size) and `typesz` a routine passes to `OSHMPI_ctx_put` / `OSHMPI_ctx_get`:
rma_typed.c.tpl L32, L83: `MPI_TYPE, sizeof(TYPE)`; rma_sized.c.tpl L15, L53: `MPI_TYPE, SIZE`; rma.c L12, L22: `MPI_BYTE, 1` -/
def Fn.args : Fn → Nat × Nat
  | .typed r => (r.mpi.bytes, r.ty.sizeof)
  | .sized r => (r.mpi.bytes, r.size)
  | .mem => (1, 1)

/-- `shmem_TYPENAME_put`, `shmem_putSIZENAME`, `shmem_putmem` with their `ctx_` and `_nbi` versions -/
def put (fn : Fn) (procs : Nat → Proc) (path : Path) (ctx : Option (Obj × Attr)) (me pe : Nat)
    (dest source : BitVec 64) (nelems : Nat) (m : Mems) : Res Mems :=
  ctxPut procs path ctx fn.args.1 fn.args.2 me pe source dest nelems m

/-- `shmem_TYPENAME_get`, `shmem_getSIZENAME`, `shmem_getmem` with their `ctx_` and `_nbi` versions -/
def get (fn : Fn) (procs : Nat → Proc) (path : Path) (ctx : Option (Obj × Attr)) (me pe : Nat)
    (dest source : BitVec 64) (nelems : Nat) (m : Mems) : Res Mems :=
  ctxGet procs path ctx fn.args.1 fn.args.2 me pe dest source nelems m

/-- `shmem_pe_accessible`, setup.c L67-70 -/
def peAccessible (npes : Nat) (pe : Int) : Int := if 0 ≤ pe ∧ pe < npes then 1 else 0

/-- `shmem_addr_accessible`, setup.c L72-77 -/
def addrAccessible (g : Proc) (npes : Nat) (addr : BitVec 64) (pe : Int) : Int :=
  if (inRange g.heap addr ∨ inRange g.data addr) ∧ 0 ≤ pe ∧ pe < npes then 1 else 0

/-- `shmem_ptr`, setup.c L79-83 (`none` = NULL) -/
def ptr (me : Nat) (dest : BitVec 64) (pe : Int) : Option (BitVec 64) := if pe = me then some dest else none

end Verif.Api
