import Verif.Api.Model
import Verif.Coll.ReduceProps
/-!
# The generated reductions

`/repo/src/shmem/reduce_{minmax,sumprod,bitws}_{team,aset}_typed.c.tpl` with the tables `/repo/maint/reduce_*_typedef.txt`. Each
routine passes `MPI_TYPE` of its row and the operator of its name to `OSHMPI_allreduce_team` / `OSHMPI_allreduce`.
-/
namespace Verif.Api
open Verif.Rma Verif.Coll
open Verif.Amo (TyIdx)

/-! ## Tables -/

/-- the C types of the reduction tables -/
inductive RC where
  | base (c : CT)
  | fcomplex
  | dcomplex
deriving DecidableEq, Repr

/-- the MPI types the reduction tables name; `MPI_C_COMPLEX` and `MPI_C_FLOAT_COMPLEX` are two names of one type -/
inductive RM where
  | base (t : TyIdx)
  | ccomplex
  | cfloatcomplex
deriving DecidableEq, Repr

/-- a row: TYPE and MPITYPE -/
structure RRow where
  ty : RC
  mpi : RM
deriving DecidableEq, Repr

/-- maint/reduce_minmax_team_typedef.txt L2-25 -/
def minmaxTeam : List RRow :=
  [⟨.base .float, .base .float⟩, ⟨.base .double, .base .double⟩, ⟨.base .longdouble, .base .longdouble⟩,
   ⟨.base .char, .base .char⟩, ⟨.base .schar, .base .schar⟩, ⟨.base .short, .base .short⟩, ⟨.base .int, .base .int⟩,
   ⟨.base .long, .base .long⟩, ⟨.base .longlong, .base .longlong⟩, ⟨.base .uchar, .base .uchar⟩,
   ⟨.base .ushort, .base .ushort⟩, ⟨.base .uint, .base .uint⟩, ⟨.base .ulong, .base .ulong⟩,
   ⟨.base .ulonglong, .base .ulonglong⟩, ⟨.base .int8, .base .int8⟩, ⟨.base .int16, .base .int16⟩,
   ⟨.base .int32, .base .int32⟩, ⟨.base .int64, .base .int64⟩, ⟨.base .uint8, .base .uint8⟩,
   ⟨.base .uint16, .base .uint16⟩, ⟨.base .uint32, .base .uint32⟩, ⟨.base .uint64, .base .uint64⟩,
   ⟨.base .size, .base .size⟩, ⟨.base .ptrdiff, .base .ptrdiff⟩]

/-- maint/reduce_sumprod_team_typedef.txt L2-27 -/
def sumprodTeam : List RRow :=
  [⟨.base .float, .base .float⟩, ⟨.base .double, .base .double⟩, ⟨.base .longdouble, .base .longdouble⟩,
   ⟨.base .char, .base .char⟩, ⟨.base .schar, .base .schar⟩, ⟨.base .short, .base .short⟩, ⟨.base .int, .base .int⟩,
   ⟨.base .long, .base .long⟩, ⟨.base .longlong, .base .longlong⟩, ⟨.base .uchar, .base .uchar⟩,
   ⟨.base .ushort, .base .ushort⟩, ⟨.base .uint, .base .uint⟩, ⟨.base .ulong, .base .ulong⟩,
   ⟨.base .ulonglong, .base .ulonglong⟩, ⟨.fcomplex, .cfloatcomplex⟩, ⟨.dcomplex, .base .dcomplex⟩,
   ⟨.base .int8, .base .int8⟩, ⟨.base .int16, .base .int16⟩,
   ⟨.base .int32, .base .int32⟩, ⟨.base .int64, .base .int64⟩, ⟨.base .uint8, .base .uint8⟩,
   ⟨.base .uint16, .base .uint16⟩, ⟨.base .uint32, .base .uint32⟩, ⟨.base .uint64, .base .uint64⟩,
   ⟨.base .size, .base .size⟩, ⟨.base .ptrdiff, .base .ptrdiff⟩]

/-- maint/reduce_bitws_team_typedef.txt L2-15 -/
def bitwsTeam : List RRow :=
  [⟨.base .uchar, .base .uchar⟩, ⟨.base .ushort, .base .ushort⟩, ⟨.base .uint, .base .uint⟩, ⟨.base .ulong, .base .ulong⟩,
   ⟨.base .ulonglong, .base .ulonglong⟩, ⟨.base .int8, .base .int8⟩, ⟨.base .int16, .base .int16⟩,
   ⟨.base .int32, .base .int32⟩, ⟨.base .int64, .base .int64⟩, ⟨.base .uint8, .base .uint8⟩,
   ⟨.base .uint16, .base .uint16⟩, ⟨.base .uint32, .base .uint32⟩, ⟨.base .uint64, .base .uint64⟩, ⟨.base .size, .base .size⟩]

/-- maint/reduce_minmax_aset_typedef.txt L2-8 -/
def minmaxAset : List RRow :=
  [⟨.base .short, .base .short⟩, ⟨.base .int, .base .int⟩, ⟨.base .double, .base .double⟩, ⟨.base .float, .base .float⟩,
   ⟨.base .long, .base .long⟩, ⟨.base .longdouble, .base .longdouble⟩, ⟨.base .longlong, .base .longlong⟩]

/-- maint/reduce_sumprod_aset_typedef.txt L2-10 -/
def sumprodAset : List RRow :=
  [⟨.dcomplex, .base .dcomplex⟩, ⟨.fcomplex, .ccomplex⟩, ⟨.base .short, .base .short⟩, ⟨.base .int, .base .int⟩,
   ⟨.base .double, .base .double⟩, ⟨.base .float, .base .float⟩, ⟨.base .long, .base .long⟩,
   ⟨.base .longdouble, .base .longdouble⟩, ⟨.base .longlong, .base .longlong⟩]

/-- maint/reduce_bitws_aset_typedef.txt L2-5 -/
def bitwsAset : List RRow :=
  [⟨.base .short, .base .short⟩, ⟨.base .int, .base .int⟩, ⟨.base .long, .base .long⟩, ⟨.base .longlong, .base .longlong⟩]

/-- the operator in the name of a routine -/
inductive OpName where
  | and | or | xor | min | max | sum | prod
deriving DecidableEq, Repr

/-- the operator the template passes: reduce_minmax_team_typed.c.tpl L13-27, reduce_sumprod_team_typed.c.tpl L13-27,
reduce_bitws_team_typed.c.tpl L13-35; reduce_minmax_aset_typed.c.tpl L14-24, reduce_sumprod_aset_typed.c.tpl L14-24,
reduce_bitws_aset_typed.c.tpl L14-30 -/
def OpName.mpi : OpName → ROp
  | .min => .min | .max => .max | .sum => .sum | .prod => .prod | .and => .band | .or => .bor | .xor => .bxor

/-- the routines that exist: `shmem_TYPENAME_OP_reduce` (`aset = false`), `shmem_TYPENAME_OP_to_all` (`aset = true`) -/
def rows (aset : Bool) : OpName → List RRow
  | .min => if aset then minmaxAset else minmaxTeam
  | .max => if aset then minmaxAset else minmaxTeam
  | .sum => if aset then sumprodAset else sumprodTeam
  | .prod => if aset then sumprodAset else sumprodTeam
  | .and => if aset then bitwsAset else bitwsTeam
  | .or => if aset then bitwsAset else bitwsTeam
  | .xor => if aset then bitwsAset else bitwsTeam

/-! ## MPI -/

/-- the classes of the MPI standard (5.9.2) for the predefined operators -/
inductive MClass where
  | cint | float | complex
deriving DecidableEq, Repr

/-- MPI standard 5.9.2: class and arithmetic of the predefined types. `MPI_CHAR` is in none of them (it stands for printable
characters). `OSHMPI_MPI_SIZE_T` is `MPI_UINT64_T`, `OSHMPI_MPI_PTRDIFF_T` is `MPI_INT64_T` (configure.ac L666-690 on LP64). -/
def RM.cls : RM → Option (MClass × RTy)
  | .base .char => none
  | .base .schar => some (.cint, .int true 1) | .base .short => some (.cint, .int true 2)
  | .base .int => some (.cint, .int true 4) | .base .long => some (.cint, .int true 8)
  | .base .longlong => some (.cint, .int true 8) | .base .uchar => some (.cint, .int false 1)
  | .base .ushort => some (.cint, .int false 2) | .base .uint => some (.cint, .int false 4)
  | .base .ulong => some (.cint, .int false 8) | .base .ulonglong => some (.cint, .int false 8)
  | .base .int8 => some (.cint, .int true 1) | .base .int16 => some (.cint, .int true 2)
  | .base .int32 => some (.cint, .int true 4) | .base .int64 => some (.cint, .int true 8)
  | .base .uint8 => some (.cint, .int false 1) | .base .uint16 => some (.cint, .int false 2)
  | .base .uint32 => some (.cint, .int false 4) | .base .uint64 => some (.cint, .int false 8)
  | .base .size => some (.cint, .int false 8) | .base .ptrdiff => some (.cint, .int true 8)
  | .base .float => some (.float, .other 0 4) | .base .double => some (.float, .other 1 8)
  | .base .longdouble => some (.float, .other 2 16)
  | .base .dcomplex => some (.complex, .other 4 16)
  | .ccomplex => some (.complex, .other 3 8) | .cfloatcomplex => some (.complex, .other 3 8)

/-- MPI standard 5.9.2: the classes an operator is defined on -/
def allowed : ROp → MClass → Bool
  | .min, .cint => true | .min, .float => true | .min, .complex => false
  | .max, .cint => true | .max, .float => true | .max, .complex => false
  | .sum, .cint => true | .sum, .float => true | .sum, .complex => true
  | .prod, .cint => true | .prod, .float => true | .prod, .complex => true
  | .band, .cint => true | .band, .float => false | .band, .complex => false
  | .bor, .cint => true | .bor, .float => false | .bor, .complex => false
  | .bxor, .cint => true | .bxor, .float => false | .bxor, .complex => false

/-- `shmem_TYPENAME_OP_reduce` and `shmem_TYPENAME_OP_to_all` (the members of the active set are `ms`): an operator that is not
defined on the datatype is an error of `MPI_Allreduce`, hence an abort. The active-set routines take an `int` count
(coll_activeset_impl.h L302), the team routines cast to `int` (coll_impl.h L159). -/
def reduceFn (r : RRow) (op : OpName) (fl : Nat → ROp → Nat → Nat → Nat) (tr : Nat → Nat → Tree) (ms : List Nat)
    (src dst : Nat → Int) (n : Nat) (m : Mems) : Res Mems :=
  match r.mpi.cls with
  | none => .abort
  | some (c, ty) => if allowed op.mpi c then reduce fl tr ms ty op.mpi src dst n m else .abort

end Verif.Api
