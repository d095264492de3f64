import Verif.Base.CInt
import Verif.Base.Mem
/-!
# Atomic memory operations: what one operation computes

The origin side builds a packet, the target side computes on its memory (`/repo/src/internal/amo_am_impl.{h,c}`), or MPI
does it directly (`/repo/src/internal/amo_impl.h`). Memory is byte addressed; packets carry unions of 8 bytes whose
bytes beyond the operand are not initialised (argument `junk`). LP64.
-/
namespace Verif.Amo

/-- `OSHMPI_am_mpi_datatype_index_t`, /repo/src/internal/am_pre.h L12-39 -/
inductive TyIdx where
  | char | schar | short | int | long | longlong | uchar | ushort | uint | ulong | ulonglong
  | int8 | int16 | int32 | int64 | uint8 | uint16 | uint32 | uint64 | size | ptrdiff
  | float | double | longdouble | dcomplex
deriving DecidableEq, Repr

/-- `OSHMPI_am_mpi_op_index_t`, am_pre.h L41-49 -/
inductive OpIdx where
  | band | bor | bxor | noop | replace | sum
deriving DecidableEq, Repr

/-- what the C type of an index is: signed/unsigned integer of `k` bytes, floating point of `k` bytes, other -/
inductive Kind where
  | sint (k : Nat) | uint (k : Nat) | fp (k : Nat) | other
deriving DecidableEq, Repr

/-- the `switch` of `OSHMPI_AMO_OP_TYPE_IMPL`, amo_am_impl.c L48-82: which C type the handler uses; `other` is the
default branch -/
def TyIdx.kind : TyIdx → Kind
  | .int => .sint 4 | .long => .sint 8 | .longlong => .sint 8
  | .uint => .uint 4 | .ulong => .uint 8 | .ulonglong => .uint 8
  | .int32 => .sint 4 | .int64 => .sint 8 | .size => .uint 8
  | .uint32 => .uint 4 | .uint64 => .uint 8 | .ptrdiff => .sint 8
  | .float => .fp 4 | .double => .fp 8
  | .char => .other | .schar => .other | .short => .other | .uchar => .other | .ushort => .other
  | .int8 => .other | .int16 => .other | .uint8 => .other | .uint16 => .other
  | .longdouble => .other | .dcomplex => .other

/-- `sizeof` of the C type behind an MPI datatype (LP64) -/
def TyIdx.bytes : TyIdx → Nat
  | .char => 1 | .schar => 1 | .short => 2 | .int => 4 | .long => 8 | .longlong => 8 | .uchar => 1 | .ushort => 2
  | .uint => 4 | .ulong => 8 | .ulonglong => 8 | .int8 => 1 | .int16 => 2 | .int32 => 4 | .int64 => 8 | .uint8 => 1
  | .uint16 => 2 | .uint32 => 4 | .uint64 => 8 | .size => 8 | .ptrdiff => 8 | .float => 4 | .double => 8
  | .longdouble => 16 | .dcomplex => 16

/-- floating-point hardware: addition and equality on bit patterns (parameter) -/
structure Fp where
  add : Nat → Nat → Nat → Nat
  eq : Nat → Nat → Nat → Bool

/-- `OSHMPI_AMO_OP_INT_IMPL`, amo_am_impl.c L24-46, unsigned type of `k` bytes: `a` operand, `b` old value (L26-41) -/
def opUint (k : Nat) (op : OpIdx) (a b : Nat) : Res Nat := match op with
  | .band => .ok (a &&& b)
  | .bor => .ok (a ||| b)
  | .bxor => .ok (a ^^^ b)
  | .noop => .ok b
  | .replace => .ok a
  | .sum => .ok ((b + a) % 256 ^ k)

/-- the number a `k`-byte pattern stands for in a signed type -/
def sval (k x : Nat) : Int := (x : Int).bmod (256 ^ k)

/-- the same macro for a signed type: `+=` overflows into undefined behaviour. (`int` operands promote to themselves,
all signed types here have at least the rank of `int`.) -/
def opSint (k : Nat) (op : OpIdx) (a b : Nat) : Res Nat := match op with
  | .band => .ok (a &&& b)
  | .bor => .ok (a ||| b)
  | .bxor => .ok (a ^^^ b)
  | .noop => .ok b
  | .replace => .ok a
  | .sum => if -(256 ^ k / 2 : Int) ≤ sval k b + sval k a ∧ sval k b + sval k a < (256 ^ k / 2 : Int)
      then .ok ((sval k b + sval k a) % (256 ^ k : Int)).toNat else .ub

/-- `OSHMPI_AMO_OP_FP_IMPL`, amo_am_impl.c L9-22 -/
def opFp (fp : Fp) (k : Nat) (op : OpIdx) (a b : Nat) : Res Nat := match op with
  | .noop => .ok b
  | .replace => .ok a
  | .sum => .ok (fp.add k b a % 256 ^ k)
  | .band => .abort
  | .bor => .abort
  | .bxor => .abort

/-- bytes and operation selected by the type switch -/
def opOf (fp : Fp) (ty : TyIdx) (op : OpIdx) (a b : Nat) : Res Nat := match ty.kind with
  | .sint k => opSint k op a b
  | .uint k => opUint k op a b
  | .fp k => opFp fp k op a b
  | .other => .abort

/-- width the handler accesses -/
def Kind.width : Kind → Nat
  | .sint k => k
  | .uint k => k
  | .fp k => k
  | .other => 0

/-- `OSHMPI_amo_am_post_pkt_cb`, amo_am_impl.c L151-177: `value` is the union in the packet, `dest` the address (the
translation L157 is C14). The store happens only in the branches that assign; storing the old value back is the same. -/
def postCb (fp : Fp) (m : Mem) (dest : Nat) (ty : TyIdx) (op : OpIdx) (value : Mem) : Res Mem :=
  let k := ty.kind.width
  (opOf fp ty op (value.load 0 k) (m.load dest k)).bind fun v => .ok (m.store dest k v)

/-- `OSHMPI_amo_am_fetch_pkt_cb`, amo_am_impl.c L116-148: also returns the union `oldval` (`junk`: its content before) -/
def fetchCb (fp : Fp) (m : Mem) (dest : Nat) (ty : TyIdx) (op : OpIdx) (value junk : Mem) : Res (Mem × Mem) :=
  let k := ty.kind.width
  (opOf fp ty op (value.load 0 k) (m.load dest k)).bind fun v =>
    .ok (m.store dest k v, junk.store 0 k (m.load dest k))

/-- equality of the C type (L100-104: integers by value, which is equality of patterns; floats by `==`) -/
def cEq (fp : Fp) (ty : TyIdx) (a b : Nat) : Res Bool := match ty.kind with
  | .sint k => .ok (decide (sval k a = sval k b))
  | .uint _ => .ok (decide (a = b))
  | .fp k => .ok (fp.eq k a b)
  | .other => .abort

/-- `OSHMPI_amo_am_cswap_pkt_cb`, amo_am_impl.c L85-113 -/
def cswapCb (fp : Fp) (m : Mem) (dest : Nat) (ty : TyIdx) (cond value junk : Mem) : Res (Mem × Mem) :=
  let k := ty.kind.width
  (cEq fp ty (m.load dest k) (cond.load 0 k)).bind fun e =>
    .ok (if e then m.store dest k (value.load 0 k) else m, junk.store 0 k (m.load dest k))

/-- how the packet's union is filled: `memcpy(&pkt->value, value_ptr, bytes)`, amo_am_impl.h L26-27, L77, L112; the
operand is a local variable of the API function at address 0 of its own memory, `v` -/
def fill (junk : Mem) (bytes v : Nat) : Mem := Mem.copy junk 0 (Mem.store junk 0 bytes v) 0 bytes

/-- `OSHMPI_amo_am_post` + handler, amo_am_impl.h L95-125 -/
def amPost (fp : Fp) (junk m : Mem) (dest : Nat) (ty : TyIdx) (bytes : Nat) (op : OpIdx) (v : Nat) : Res Mem :=
  postCb fp m dest ty op (fill junk bytes v)

/-- `OSHMPI_amo_am_fetch` + handler + reply, amo_am_impl.h L52-92: the operand is copied unless the op is NO_OP (L76);
the reply is received as one element of the same datatype: `ty.bytes` bytes into `oldval` -/
def amFetch (fp : Fp) (junk m : Mem) (dest : Nat) (ty : TyIdx) (bytes : Nat) (op : OpIdx) (v : Nat) : Res (Mem × Nat) :=
  (fetchCb fp m dest ty op (if op ≠ .noop then fill junk bytes v else junk) junk).bind fun x =>
    .ok (x.1, (Mem.copy junk 0 x.2 0 ty.bytes).load 0 ty.bytes)

/-- `OSHMPI_amo_am_cswap` + handler + reply, amo_am_impl.h L12-49 -/
def amCswap (fp : Fp) (junk m : Mem) (dest : Nat) (ty : TyIdx) (bytes : Nat) (cond v : Nat) : Res (Mem × Nat) :=
  (cswapCb fp m dest ty (fill junk bytes cond) (fill junk bytes v) junk).bind fun x =>
    .ok (x.1, (Mem.copy junk 0 x.2 0 ty.bytes).load 0 ty.bytes)

/-- the AMO routines of the API -/
inductive Api where
  | cswap (cond value : Nat) | finc | inc | fadd (v : Nat) | add (v : Nat) | fetch | set (v : Nat) | swap (v : Nat)
  | fand (v : Nat) | and (v : Nat) | for (v : Nat) | or (v : Nat) | fxor (v : Nat) | xor (v : Nat)
deriving DecidableEq, Repr

/-- the bodies of `/repo/src/shmem/amo_{std,ext,bitws}_typed.c.tpl` over active messages: std L12-63, ext L13-56, bitws
L13-94; the `_nbi`, `ctx_` and deprecated versions have the same bodies. Returns the memory and what the call returns
(0 for `void`). -/
def am (fp : Fp) (junk m : Mem) (dest : Nat) (ty : TyIdx) : Api → Res (Mem × Nat)
  | .cswap c v => amCswap fp junk m dest ty ty.bytes c v
  | .finc => amFetch fp junk m dest ty ty.bytes .sum 1
  | .inc => (amPost fp junk m dest ty ty.bytes .sum 1).bind fun x => .ok (x, 0)
  | .fadd v => amFetch fp junk m dest ty ty.bytes .sum v
  | .add v => (amPost fp junk m dest ty ty.bytes .sum v).bind fun x => .ok (x, 0)
  | .fetch => amFetch fp junk m dest ty ty.bytes .noop 0
  | .set v => (amPost fp junk m dest ty ty.bytes .replace v).bind fun x => .ok (x, 0)
  | .swap v => amFetch fp junk m dest ty ty.bytes .replace v
  | .fand v => amFetch fp junk m dest ty ty.bytes .band v
  | .and v => (amPost fp junk m dest ty ty.bytes .band v).bind fun x => .ok (x, 0)
  | .for v => amFetch fp junk m dest ty ty.bytes .bor v
  | .or v => (amPost fp junk m dest ty ty.bytes .bor v).bind fun x => .ok (x, 0)
  | .fxor v => amFetch fp junk m dest ty ty.bytes .bxor v
  | .xor v => (amPost fp junk m dest ty ty.bytes .bxor v).bind fun x => .ok (x, 0)

/-- MPI's predefined operations on an integer datatype of `k` bytes, as MPI implementations compute them (trusted):
bitwise operations, replacement, no-op, two's complement sum -/
def mpiOp (k : Nat) (op : OpIdx) (a b : Nat) : Nat := match op with
  | .band => a &&& b
  | .bor => a ||| b
  | .bxor => a ^^^ b
  | .noop => b
  | .replace => a
  | .sum => (b + a) % 256 ^ k

/-- `MPI_Fetch_and_op` / `MPI_Accumulate` of one element (trusted): new memory and old value -/
def mpiFetchOp (m : Mem) (dest k : Nat) (op : OpIdx) (v : Nat) : Mem × Nat :=
  (m.store dest k (mpiOp k op v (m.load dest k)), m.load dest k)

/-- `MPI_Compare_and_swap` (trusted) -/
def mpiCas (m : Mem) (dest k cond v : Nat) : Mem × Nat :=
  (if m.load dest k = cond then m.store dest k v else m, m.load dest k)

/-- the direct path for integer types: `ctx_cswap_impl`, `ctx_fetch_op_impl`, `ctx_set_op_impl`, amo_impl.h L12-72, with
the operations the templates pass. The operand `cond` is a parameter of type TYPE, its content a pattern of that width. -/
def direct (m : Mem) (dest : Nat) (ty : TyIdx) : Api → Mem × Nat
  | .cswap c v => mpiCas m dest ty.bytes (c % 256 ^ ty.bytes) v
  | .finc => mpiFetchOp m dest ty.bytes .sum 1
  | .inc => ((mpiFetchOp m dest ty.bytes .sum 1).1, 0)
  | .fadd v => mpiFetchOp m dest ty.bytes .sum v
  | .add v => ((mpiFetchOp m dest ty.bytes .sum v).1, 0)
  | .fetch => mpiFetchOp m dest ty.bytes .noop 0
  | .set v => ((mpiFetchOp m dest ty.bytes .replace v).1, 0)
  | .swap v => mpiFetchOp m dest ty.bytes .replace v
  | .fand v => mpiFetchOp m dest ty.bytes .band v
  | .and v => ((mpiFetchOp m dest ty.bytes .band v).1, 0)
  | .for v => mpiFetchOp m dest ty.bytes .bor v
  | .or v => ((mpiFetchOp m dest ty.bytes .bor v).1, 0)
  | .fxor v => mpiFetchOp m dest ty.bytes .bxor v
  | .xor v => ((mpiFetchOp m dest ty.bytes .bxor v).1, 0)

/-- the types of /repo/maint/amo_std_typedef.txt -/
def stdTypes : List TyIdx :=
  [.int, .long, .longlong, .uint, .ulong, .ulonglong, .int32, .int64, .uint32, .uint64, .size, .ptrdiff]

/-- the types of /repo/maint/amo_ext_typedef.txt -/
def extTypes : List TyIdx := [.float, .double] ++ stdTypes

/-- the types of /repo/maint/amo_bitws_typedef.txt -/
def bitwsTypes : List TyIdx := [.uint, .ulong, .ulonglong, .int32, .int64, .uint32, .uint64]

/-- the types a routine is generated for -/
def Api.types : Api → List TyIdx
  | .cswap _ _ => stdTypes | .finc => stdTypes | .inc => stdTypes | .fadd _ => stdTypes | .add _ => stdTypes
  | .fetch => extTypes | .set _ => extTypes | .swap _ => extTypes
  | .fand _ => bitwsTypes | .and _ => bitwsTypes | .for _ => bitwsTypes | .or _ => bitwsTypes
  | .fxor _ => bitwsTypes | .xor _ => bitwsTypes

end Verif.Amo
