import Verif.Api.Model
/-!
# The typed atomic routines

`/repo/src/shmem/amo_std_typed.c.tpl`, `amo_ext_typed.c.tpl`, `amo_bitws_typed.c.tpl`: every routine of the templates with
what it passes on, and `OSHMPI_amo_cswap`, `OSHMPI_amo_fetch`, `OSHMPI_amo_post` (`/repo/src/internal/amo_impl.h` L74-137) from the
lookup of the address to the memories of the PEs.
-/
namespace Verif.Api
open Verif.Sobj Verif.Rma
open Verif.Amo (TyIdx OpIdx Fp)

/-- maint/amo_std_typedef.txt L2-13 -/
def stdRows : List Row :=
  [⟨.int, .int⟩, ⟨.long, .long⟩, ⟨.longlong, .longlong⟩, ⟨.uint, .uint⟩, ⟨.ulong, .ulong⟩, ⟨.ulonglong, .ulonglong⟩,
   ⟨.int32, .int32⟩, ⟨.int64, .int64⟩, ⟨.uint32, .uint32⟩, ⟨.uint64, .uint64⟩, ⟨.size, .size⟩, ⟨.ptrdiff, .ptrdiff⟩]

/-- maint/amo_ext_typedef.txt L2-15 -/
def extRows : List Row :=
  [⟨.float, .float⟩, ⟨.double, .double⟩, ⟨.int, .int⟩, ⟨.long, .long⟩, ⟨.longlong, .longlong⟩, ⟨.uint, .uint⟩, ⟨.ulong, .ulong⟩,
   ⟨.ulonglong, .ulonglong⟩, ⟨.int32, .int32⟩, ⟨.int64, .int64⟩, ⟨.uint32, .uint32⟩, ⟨.uint64, .uint64⟩, ⟨.size, .size⟩,
   ⟨.ptrdiff, .ptrdiff⟩]

/-- maint/amo_bitws_typedef.txt L2-8 -/
def bitwsRows : List Row :=
  [⟨.uint, .uint⟩, ⟨.ulong, .ulong⟩, ⟨.ulonglong, .ulonglong⟩, ⟨.int32, .int32⟩, ⟨.int64, .int64⟩, ⟨.uint32, .uint32⟩,
   ⟨.uint64, .uint64⟩]

/-- the routines, by the part of the name after `shmem_TYPENAME_`: `atomic_` ones, and the deprecated ones (`d`) -/
inductive ARt where
  | cswap | fetchInc | inc | fetchAdd | add | cswapNbi | fetchIncNbi | fetchAddNbi
  | dCswap | dFinc | dInc | dFadd | dAdd
  | fetch | set | swap | fetchNbi | swapNbi
  | dFetch | dSet | dSwap
  | fetchAnd | and | fetchOr | or | fetchXor | xor | fetchAndNbi | fetchOrNbi | fetchXorNbi
deriving DecidableEq, Repr

/-- the table a routine is generated from, autogen.sh L115-199 -/
def ARt.rows : ARt → List Row
  | .cswap => stdRows | .fetchInc => stdRows | .inc => stdRows | .fetchAdd => stdRows | .add => stdRows | .cswapNbi => stdRows
  | .fetchIncNbi => stdRows | .fetchAddNbi => stdRows | .dCswap => stdRows | .dFinc => stdRows | .dInc => stdRows
  | .dFadd => stdRows | .dAdd => stdRows
  | .fetch => extRows | .set => extRows | .swap => extRows | .fetchNbi => extRows | .swapNbi => extRows
  | .dFetch => extRows | .dSet => extRows | .dSwap => extRows
  | .fetchAnd => bitwsRows | .and => bitwsRows | .fetchOr => bitwsRows | .or => bitwsRows | .fetchXor => bitwsRows
  | .xor => bitwsRows | .fetchAndNbi => bitwsRows | .fetchOrNbi => bitwsRows | .fetchXorNbi => bitwsRows

/-- the internal routine called -/
inductive Via where
  /-- `OSHMPI_amo_cswap`: compares with `cond`, no operation -/
  | cswap
  /-- `OSHMPI_amo_fetch` with `op` and `op_idx` -/
  | fetch (op idx : OpIdx)
  /-- `OSHMPI_amo_post` with `op` and `op_idx` -/
  | post (op idx : OpIdx)
deriving DecidableEq, Repr

/-- argument `value_ptr`: parameter `value`, a local variable 1, NULL -/
inductive Src where
  | value | one | null
deriving DecidableEq, Repr

/-- argument `oldval_ptr`: a local variable that is returned, parameter `fetch`, none -/
inductive Out where
  | ret | fetch | none
deriving DecidableEq, Repr

/-- one call of an internal routine; `ctx`: the parameter `ctx` is passed on, otherwise `SHMEM_CTX_DEFAULT` -/
structure ACall where
  ctx : Bool
  via : Via
  src : Src
  out : Out
deriving DecidableEq, Repr

/-- the body of a routine, without and with `ctx_`; `none`: no such routine -/
def ARt.body : ARt → Bool → Option ACall
  -- amo_std_typed.c.tpl L13-19, L21-28
  | .cswap, false => some ⟨false, .cswap, .value, .ret⟩
  | .cswap, true => some ⟨true, .cswap, .value, .ret⟩
  -- L30-36, L38-44
  | .fetchInc, false => some ⟨false, .fetch .sum .sum, .one, .ret⟩
  | .fetchInc, true => some ⟨true, .fetch .sum .sum, .one, .ret⟩
  -- L46-51, L53-58
  | .inc, false => some ⟨false, .post .sum .sum, .one, .none⟩
  | .inc, true => some ⟨true, .post .sum .sum, .one, .none⟩
  -- L60-66, L68-74
  | .fetchAdd, false => some ⟨false, .fetch .sum .sum, .value, .ret⟩
  | .fetchAdd, true => some ⟨true, .fetch .sum .sum, .value, .ret⟩
  -- L76-80, L82-86
  | .add, false => some ⟨false, .post .sum .sum, .value, .none⟩
  | .add, true => some ⟨true, .post .sum .sum, .value, .none⟩
  -- L88-93, L95-100
  | .cswapNbi, false => some ⟨false, .cswap, .value, .fetch⟩
  | .cswapNbi, true => some ⟨true, .cswap, .value, .fetch⟩
  -- L102-107, L109-114
  | .fetchIncNbi, false => some ⟨false, .fetch .sum .sum, .one, .fetch⟩
  | .fetchIncNbi, true => some ⟨true, .fetch .sum .sum, .one, .fetch⟩
  -- L116-120, L122-127
  | .fetchAddNbi, false => some ⟨false, .fetch .sum .sum, .value, .fetch⟩
  | .fetchAddNbi, true => some ⟨true, .fetch .sum .sum, .value, .fetch⟩
  -- deprecated, L130-136, L138-144, L146-151, L153-159, L161-165
  | .dCswap, false => some ⟨false, .cswap, .value, .ret⟩
  | .dFinc, false => some ⟨false, .fetch .sum .sum, .one, .ret⟩
  | .dInc, false => some ⟨false, .post .sum .sum, .one, .none⟩
  | .dFadd, false => some ⟨false, .fetch .sum .sum, .value, .ret⟩
  | .dAdd, false => some ⟨false, .post .sum .sum, .value, .none⟩
  | .dCswap, true => none
  | .dFinc, true => none
  | .dInc, true => none
  | .dFadd, true => none
  | .dAdd, true => none
  -- amo_ext_typed.c.tpl L14-20, L22-28
  | .fetch, false => some ⟨false, .fetch .noop .noop, .null, .ret⟩
  | .fetch, true => some ⟨true, .fetch .noop .noop, .null, .ret⟩
  -- L30-34, L36-40
  | .set, false => some ⟨false, .post .replace .replace, .value, .none⟩
  | .set, true => some ⟨true, .post .replace .replace, .value, .none⟩
  -- L42-48, L50-56
  | .swap, false => some ⟨false, .fetch .replace .replace, .value, .ret⟩
  | .swap, true => some ⟨true, .fetch .replace .replace, .value, .ret⟩
  -- L58-62, L64-68
  | .fetchNbi, false => some ⟨false, .fetch .noop .noop, .null, .fetch⟩
  | .fetchNbi, true => some ⟨true, .fetch .noop .noop, .null, .fetch⟩
  -- L70-74, L76-81
  | .swapNbi, false => some ⟨false, .fetch .replace .replace, .value, .fetch⟩
  | .swapNbi, true => some ⟨true, .fetch .replace .replace, .value, .fetch⟩
  -- deprecated, L84-90, L92-96, L98-104
  | .dFetch, false => some ⟨false, .fetch .noop .noop, .null, .ret⟩
  | .dSet, false => some ⟨false, .post .replace .replace, .value, .none⟩
  | .dSwap, false => some ⟨false, .fetch .replace .replace, .value, .ret⟩
  | .dFetch, true => none
  | .dSet, true => none
  | .dSwap, true => none
  -- amo_bitws_typed.c.tpl L13-19, L21-27
  | .fetchAnd, false => some ⟨false, .fetch .band .band, .value, .ret⟩
  | .fetchAnd, true => some ⟨true, .fetch .band .band, .value, .ret⟩
  -- L29-33, L35-39
  | .and, false => some ⟨false, .post .band .band, .value, .none⟩
  | .and, true => some ⟨true, .post .band .band, .value, .none⟩
  -- L41-47, L49-55
  | .fetchOr, false => some ⟨false, .fetch .bor .bor, .value, .ret⟩
  | .fetchOr, true => some ⟨true, .fetch .bor .bor, .value, .ret⟩
  -- L57-61, L63-67
  | .or, false => some ⟨false, .post .bor .bor, .value, .none⟩
  | .or, true => some ⟨true, .post .bor .bor, .value, .none⟩
  -- L69-75, L77-83
  | .fetchXor, false => some ⟨false, .fetch .bxor .bxor, .value, .ret⟩
  | .fetchXor, true => some ⟨true, .fetch .bxor .bxor, .value, .ret⟩
  -- L85-89, L91-95
  | .xor, false => some ⟨false, .post .bxor .bxor, .value, .none⟩
  | .xor, true => some ⟨true, .post .bxor .bxor, .value, .none⟩
  -- L97-101, L103-108
  | .fetchAndNbi, false => some ⟨false, .fetch .band .band, .value, .fetch⟩
  | .fetchAndNbi, true => some ⟨true, .fetch .band .band, .value, .fetch⟩
  -- L110-114, L116-121
  | .fetchOrNbi, false => some ⟨false, .fetch .bor .bor, .value, .fetch⟩
  | .fetchOrNbi, true => some ⟨true, .fetch .bor .bor, .value, .fetch⟩
  -- L123-127, L129-134
  | .fetchXorNbi, false => some ⟨false, .fetch .bxor .bxor, .value, .fetch⟩
  | .fetchXorNbi, true => some ⟨true, .fetch .bxor .bxor, .value, .fetch⟩

/-- content of the origin buffer; `none` for NULL -/
def Src.val : Src → Nat → Option Nat
  | .value, v => some v
  | .one, _ => some 1
  | .null, _ => none

/-- the direct path on the target's memory: `ctx_cswap_impl`, `ctx_fetch_op_impl`, `ctx_set_op_impl`, amo_impl.h L12-72. `k`: size of
the MPI datatype. MPI reads a NULL origin only if the operation is not `MPI_NO_OP` (trusted). -/
def atDirect (m : Mem) (dest k : Nat) (via : Via) (cond : Nat) (v : Option Nat) : Res (Mem × Nat) := match via, v with
  | .cswap, some x => .ok (Amo.mpiCas m dest k (cond % 256 ^ k) x)
  | .cswap, none => .ub
  | .fetch op _, some x => .ok (Amo.mpiFetchOp m dest k op x)
  | .fetch op _, none => if op = .noop then .ok (Amo.mpiFetchOp m dest k op 0) else .ub
  | .post op _, some x => .ok ((Amo.mpiFetchOp m dest k op x).1, 0)
  | .post _ _, none => .ub

/-- the active-message path: amo_am_impl.h and the handlers. `bytes`: argument `sizeof(TYPE)`; `memcpy` from NULL is undefined,
`OSHMPI_amo_am_fetch` does not copy for `NO_OP` (L76) -/
def atAm (fp : Fp) (junk m : Mem) (dest : Nat) (ty : TyIdx) (bytes : Nat) (via : Via) (cond : Nat) (v : Option Nat) :
    Res (Mem × Nat) := match via, v with
  | .cswap, some x => Amo.amCswap fp junk m dest ty bytes cond x
  | .cswap, none => .ub
  | .fetch _ idx, some x => Amo.amFetch fp junk m dest ty bytes idx x
  | .fetch _ idx, none => if idx = .noop then Amo.amFetch fp junk m dest ty bytes idx 0 else .ub
  | .post _ idx, some x => (Amo.amPost fp junk m dest ty bytes idx x).bind fun y => .ok (y, 0)
  | .post _ _, none => .ub

/-- a PE's memory seen from an address on -/
def view (m : IMem) (a : Int) : Mem := fun i => m (a + i)

/-- and put back -/
def unview (m : IMem) (a : Int) (x : Mem) : IMem := fun p => if a ≤ p then x (p - a).toNat else m p

/-- the choice of the path, amo_impl.h L88-92, L110-114, L132-136: the type arguments are `MPI_TYPE`, `OSHMPI_AM_MPI_TYPE`,
`sizeof(TYPE)` in all templates -/
def atTarget (fp : Fp) (junk : Mem) (path : Path) (r : Row) (c : ACall) (cond value : Nat) (m : Mem) : Res (Mem × Nat) :=
  match path with
  | .direct _ => atDirect m 0 r.mpi.bytes c.via cond (c.src.val value)
  | .am => atAm fp junk m 0 r.mpi r.ty.sizeof c.via cond (c.src.val value)

/-- a call of an internal routine, `OSHMPI_amo_cswap`, `_fetch`, `_post`, amo_impl.h L74-137, until its operation has taken effect
(when, is C21, C23, C29): look the address up (L85-86, L107-108, L129-130), on the direct or the active-message path, then store
the old value where it is asked for. `fetch`: address of the parameter of that name. `ctx`: the parameter, if there is one. -/
def amo (fp : Fp) (junk : Mem) (procs : Nat → Proc) (path : Path) (ctx : Option (Obj × Attr)) (me pe : Nat) (r : Row) (c : ACall)
    (dest fetch : BitVec 64) (cond value : Nat) (m : Mems) : Res (Mems × Option Nat) :=
  (resolve procs path (if c.ctx then ctx else none) me pe dest).bind fun a =>
    (atTarget fp junk path r c cond value (view (m pe) a.toInt)).bind fun x =>
    let m' := Function.update m pe (unview (m pe) a.toInt x.1)
    match c.out with
    | .none => .ok (m', none)
    | .ret => .ok (m', some x.2)
    | .fetch => .ok (Function.update m' me (unview (m' me) fetch.toInt ((view (m' me) fetch.toInt).store 0 r.mpi.bytes x.2)), none)

/-- the routine `shmem_[ctx_]TYPENAME_...`; a call of one that does not exist does not link: not modelled, `none` -/
def ARt.run (rt : ARt) (isCtx : Bool) (fp : Fp) (junk : Mem) (procs : Nat → Proc) (path : Path) (ctx : Option (Obj × Attr))
    (me pe : Nat) (r : Row) (dest fetch : BitVec 64) (cond value : Nat) (m : Mems) : Option (Res (Mems × Option Nat)) :=
  (rt.body isCtx).map fun c => amo fp junk procs path ctx me pe r c dest fetch cond value m

end Verif.Api
