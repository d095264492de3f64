import Verif.Api.Reduce
/-!
# The generic interface of C11

The macros of `/repo/include/shmem_*_typed.h.tpl` and `shmem_sync` (`/repo/include/shmem.h.in.tpl` L283-290). Each is a `_Generic`
expression over the type of its first argument, for some over the type of the second if the first is a context or team handle,
whose associations are generated from the rows of a type table (`/repo/maint/build_typed_api.pl` L74-111). The compiler is the
machine here: a call either does not compile or calls one function. Argument types are those after lvalue conversion (arrays are
pointers, qualifiers of the argument itself are gone).
-/
namespace Verif.Api

/-- basic types of C, pairwise not compatible (C11 6.2.5, 6.2.7) -/
inductive Bt where
  | float | double | longdouble | char | schar | short | int | long | longlong | uchar | ushort | uint | ulong | ulonglong
  | fcomplex | dcomplex
deriving DecidableEq, Repr

/-- which basic types the typedef names of `stdint.h` and `stddef.h` stand for: a choice of the platform -/
structure Abi where
  int8 : Bt
  int16 : Bt
  int32 : Bt
  int64 : Bt
  uint8 : Bt
  uint16 : Bt
  uint32 : Bt
  uint64 : Bt
  size : Bt
  ptrdiff : Bt
deriving DecidableEq, Repr

/-- Linux on 64-bit machines -/
def Abi.lp64 : Abi := ⟨.schar, .short, .int, .long, .uchar, .ushort, .uint, .ulong, .ulong, .long⟩

/-- macOS on 64-bit machines -/
def Abi.mac : Abi := ⟨.schar, .short, .int, .longlong, .uchar, .ushort, .uint, .ulonglong, .ulong, .long⟩

/-- the type a name stands for -/
def resolve (a : Abi) : RC → Bt
  | .base .float => .float | .base .double => .double | .base .longdouble => .longdouble | .base .char => .char
  | .base .schar => .schar | .base .short => .short | .base .int => .int | .base .long => .long
  | .base .longlong => .longlong | .base .uchar => .uchar | .base .ushort => .ushort | .base .uint => .uint
  | .base .ulong => .ulong | .base .ulonglong => .ulonglong
  | .base .int8 => a.int8 | .base .int16 => a.int16 | .base .int32 => a.int32 | .base .int64 => a.int64
  | .base .uint8 => a.uint8 | .base .uint16 => a.uint16 | .base .uint32 => a.uint32 | .base .uint64 => a.uint64
  | .base .size => a.size | .base .ptrdiff => a.ptrdiff
  | .fcomplex => .fcomplex | .dcomplex => .dcomplex

/-- the last column of a type table: `C11_INCLDUE` -/
inductive Flag where
  | one | zero | blank
deriving DecidableEq, Repr

/-- a row as the generator of the header sees it: TYPE and the flag -/
structure GRow where
  ty : RC
  flag : Flag
deriving DecidableEq, Repr

/-- maint/rma_typedef.txt L2-25, coll_typedef.txt L2-25, reduce_minmax_team_typedef.txt L2-25: the same rows -/
def gRma : List GRow :=
  [⟨.base .float, .one⟩, ⟨.base .double, .one⟩, ⟨.base .longdouble, .one⟩, ⟨.base .char, .one⟩, ⟨.base .schar, .one⟩,
   ⟨.base .short, .one⟩, ⟨.base .int, .one⟩, ⟨.base .long, .one⟩, ⟨.base .longlong, .one⟩, ⟨.base .uchar, .one⟩,
   ⟨.base .ushort, .one⟩, ⟨.base .uint, .one⟩, ⟨.base .ulong, .one⟩, ⟨.base .ulonglong, .one⟩, ⟨.base .int8, .zero⟩,
   ⟨.base .int16, .zero⟩, ⟨.base .int32, .zero⟩, ⟨.base .int64, .zero⟩, ⟨.base .uint8, .zero⟩, ⟨.base .uint16, .zero⟩,
   ⟨.base .uint32, .zero⟩, ⟨.base .uint64, .zero⟩, ⟨.base .size, .zero⟩, ⟨.base .ptrdiff, .zero⟩]

/-- maint/signal_typedef.txt L2-25: as above, but the flag of `double` is missing (L3) -/
def gSignal : List GRow :=
  [⟨.base .float, .one⟩, ⟨.base .double, .blank⟩, ⟨.base .longdouble, .one⟩, ⟨.base .char, .one⟩, ⟨.base .schar, .one⟩,
   ⟨.base .short, .one⟩, ⟨.base .int, .one⟩, ⟨.base .long, .one⟩, ⟨.base .longlong, .one⟩, ⟨.base .uchar, .one⟩,
   ⟨.base .ushort, .one⟩, ⟨.base .uint, .one⟩, ⟨.base .ulong, .one⟩, ⟨.base .ulonglong, .one⟩, ⟨.base .int8, .zero⟩,
   ⟨.base .int16, .zero⟩, ⟨.base .int32, .zero⟩, ⟨.base .int64, .zero⟩, ⟨.base .uint8, .zero⟩, ⟨.base .uint16, .zero⟩,
   ⟨.base .uint32, .zero⟩, ⟨.base .uint64, .zero⟩, ⟨.base .size, .zero⟩, ⟨.base .ptrdiff, .zero⟩]

/-- maint/reduce_sumprod_team_typedef.txt L2-27 -/
def gSumprod : List GRow :=
  [⟨.base .float, .one⟩, ⟨.base .double, .one⟩, ⟨.base .longdouble, .one⟩, ⟨.base .char, .one⟩, ⟨.base .schar, .one⟩,
   ⟨.base .short, .one⟩, ⟨.base .int, .one⟩, ⟨.base .long, .one⟩, ⟨.base .longlong, .one⟩, ⟨.base .uchar, .one⟩,
   ⟨.base .ushort, .one⟩, ⟨.base .uint, .one⟩, ⟨.base .ulong, .one⟩, ⟨.base .ulonglong, .one⟩, ⟨.fcomplex, .one⟩,
   ⟨.dcomplex, .one⟩, ⟨.base .int8, .zero⟩, ⟨.base .int16, .zero⟩, ⟨.base .int32, .zero⟩, ⟨.base .int64, .zero⟩,
   ⟨.base .uint8, .zero⟩, ⟨.base .uint16, .zero⟩, ⟨.base .uint32, .zero⟩, ⟨.base .uint64, .zero⟩, ⟨.base .size, .zero⟩,
   ⟨.base .ptrdiff, .zero⟩]

/-- maint/reduce_bitws_team_typedef.txt L2-15 -/
def gBitwsTeam : List GRow :=
  [⟨.base .uchar, .one⟩, ⟨.base .ushort, .one⟩, ⟨.base .uint, .one⟩, ⟨.base .ulong, .one⟩, ⟨.base .ulonglong, .one⟩,
   ⟨.base .int8, .one⟩, ⟨.base .int16, .one⟩, ⟨.base .int32, .one⟩, ⟨.base .int64, .one⟩, ⟨.base .uint8, .zero⟩,
   ⟨.base .uint16, .zero⟩, ⟨.base .uint32, .zero⟩, ⟨.base .uint64, .zero⟩, ⟨.base .size, .zero⟩]

/-- maint/amo_std_typedef.txt L2-13 -/
def gStd : List GRow :=
  [⟨.base .int, .one⟩, ⟨.base .long, .one⟩, ⟨.base .longlong, .one⟩, ⟨.base .uint, .one⟩, ⟨.base .ulong, .one⟩,
   ⟨.base .ulonglong, .one⟩, ⟨.base .int32, .zero⟩, ⟨.base .int64, .zero⟩, ⟨.base .uint32, .zero⟩, ⟨.base .uint64, .zero⟩,
   ⟨.base .size, .zero⟩, ⟨.base .ptrdiff, .zero⟩]

/-- maint/amo_ext_typedef.txt L2-15 -/
def gExt : List GRow :=
  [⟨.base .float, .one⟩, ⟨.base .double, .one⟩, ⟨.base .int, .one⟩, ⟨.base .long, .one⟩, ⟨.base .longlong, .one⟩,
   ⟨.base .uint, .one⟩, ⟨.base .ulong, .one⟩, ⟨.base .ulonglong, .one⟩, ⟨.base .int32, .zero⟩, ⟨.base .int64, .zero⟩,
   ⟨.base .uint32, .zero⟩, ⟨.base .uint64, .zero⟩, ⟨.base .size, .zero⟩, ⟨.base .ptrdiff, .zero⟩]

/-- maint/amo_bitws_typedef.txt L2-8 -/
def gBitws : List GRow :=
  [⟨.base .uint, .one⟩, ⟨.base .ulong, .one⟩, ⟨.base .ulonglong, .one⟩, ⟨.base .int32, .one⟩, ⟨.base .int64, .one⟩,
   ⟨.base .uint32, .zero⟩, ⟨.base .uint64, .zero⟩]

/-- maint/p2p_typedef.txt L2-15 -/
def gP2p : List GRow :=
  [⟨.base .short, .one⟩, ⟨.base .int, .one⟩, ⟨.base .long, .one⟩, ⟨.base .longlong, .one⟩, ⟨.base .ushort, .one⟩,
   ⟨.base .uint, .one⟩, ⟨.base .ulong, .one⟩, ⟨.base .ulonglong, .one⟩, ⟨.base .int32, .zero⟩, ⟨.base .int64, .zero⟩,
   ⟨.base .uint32, .zero⟩, ⟨.base .uint64, .zero⟩, ⟨.base .size, .zero⟩, ⟨.base .ptrdiff, .zero⟩]

/-- the rows copied into a C11 block: those whose flag is not the text `0`, build_typed_api.pl L94 -/
def c11Rows (t : List GRow) : List RC := (t.filter fun r => decide (r.flag ≠ .zero)).map GRow.ty

/-- the operation in the name of a typed routine -/
inductive Op where
  | g | get | getNbi | iget | p | put | putNbi | iput
  | cswap | cswapNbi | fetchInc | fetchIncNbi | inc | fetchAdd | fetchAddNbi | add
  | fetch | fetchNbi | set | swap | swapNbi
  | fetchAnd | and | fetchOr | or | fetchXor | xor | fetchAndNbi | fetchOrNbi | fetchXorNbi
  | broadcast | collect | fcollect | alltoall | alltoalls
  | minReduce | maxReduce | sumReduce | prodReduce | andReduce | orReduce | xorReduce
  | waitUntil | waitUntilAll | waitUntilAny | waitUntilSome | waitUntilAllVector | waitUntilAnyVector | waitUntilSomeVector
  | test | testAll | testAny | testSome | testAllVector | testAnyVector | testSomeVector
  | putSignal | putSignalNbi
deriving DecidableEq, Repr

/-- number of parameters of the routine without context, from the prototypes of the header templates: rma L3-26, amo_std L3-24,
amo_ext L3-15, amo_bitws L3-24, coll L3-9, reduce_*_team L3-5, p2p L3-29, signal L4-12 -/
def Op.params : Op → Nat
  | .g => 2 | .get => 4 | .getNbi => 4 | .iget => 6 | .p => 3 | .put => 4 | .putNbi => 4 | .iput => 6
  | .cswap => 4 | .cswapNbi => 5 | .fetchInc => 2 | .fetchIncNbi => 3 | .inc => 2 | .fetchAdd => 3 | .fetchAddNbi => 4
  | .add => 3 | .fetch => 2 | .fetchNbi => 3 | .set => 3 | .swap => 3 | .swapNbi => 4
  | .fetchAnd => 3 | .and => 3 | .fetchOr => 3 | .or => 3 | .fetchXor => 3 | .xor => 3
  | .fetchAndNbi => 4 | .fetchOrNbi => 4 | .fetchXorNbi => 4
  | .broadcast => 5 | .collect => 4 | .fcollect => 4 | .alltoall => 4 | .alltoalls => 6
  | .minReduce => 4 | .maxReduce => 4 | .sumReduce => 4 | .prodReduce => 4 | .andReduce => 4 | .orReduce => 4 | .xorReduce => 4
  | .waitUntil => 3 | .waitUntilAll => 5 | .waitUntilAny => 5 | .waitUntilSome => 6
  | .waitUntilAllVector => 5 | .waitUntilAnyVector => 5 | .waitUntilSomeVector => 6
  | .test => 3 | .testAll => 5 | .testAny => 5 | .testSome => 6
  | .testAllVector => 5 | .testAnyVector => 5 | .testSomeVector => 6
  | .putSignal => 7 | .putSignalNbi => 7

/-- a macro: its name and the functions of its associations. `ctx`: L31-43 of shmem_rma_typed.h.tpl and alike, two levels;
`ptr`: shmem_p2p_typed.h.tpl L33-38 and alike; `team`: shmem_coll_typed.h.tpl L14-23 and alike -/
inductive Shape where
  | ctx (onCtx plain : Op)
  | ptr (plain : Op)
  | team (plain : Op)
deriving DecidableEq, Repr

/-- name of a macro: that of an operation, or a deprecated one -/
inductive MName where
  | of (o : Op)
  | dCswap | dFinc | dInc | dFadd | dAdd | dFetch | dSet | dSwap
deriving DecidableEq, Repr

/-- a macro with the table its associations come from (autogen.sh L115-199) -/
structure Macro where
  name : MName
  shape : Shape
  table : List GRow
deriving DecidableEq, Repr

/-- every type-generic macro of the header -/
def macros : List Macro := [
  -- shmem_rma_typed.h.tpl L31-43, L45-57, L59-71, L73-85, L87-99, L101-113, L115-127, L129-141
  ⟨.of .g, .ctx .g .g, gRma⟩, ⟨.of .get, .ctx .get .get, gRma⟩, ⟨.of .getNbi, .ctx .getNbi .getNbi, gRma⟩,
  ⟨.of .iget, .ctx .iget .iget, gRma⟩, ⟨.of .p, .ctx .p .p, gRma⟩, ⟨.of .put, .ctx .put .put, gRma⟩,
  ⟨.of .putNbi, .ctx .putNbi .putNbi, gRma⟩, ⟨.of .iput, .ctx .iput .iput, gRma⟩,
  -- shmem_amo_std_typed.h.tpl L35-145
  ⟨.of .cswap, .ctx .cswap .cswap, gStd⟩, ⟨.of .cswapNbi, .ctx .cswapNbi .cswapNbi, gStd⟩,
  ⟨.of .fetchInc, .ctx .fetchInc .fetchInc, gStd⟩, ⟨.of .fetchIncNbi, .ctx .fetchIncNbi .fetchIncNbi, gStd⟩,
  ⟨.of .inc, .ctx .inc .inc, gStd⟩, ⟨.of .fetchAdd, .ctx .fetchAdd .fetchAdd, gStd⟩,
  ⟨.of .fetchAddNbi, .ctx .fetchAddNbi .fetchAddNbi, gStd⟩, ⟨.of .add, .ctx .add .add, gStd⟩,
  -- deprecated, L147-216
  ⟨.dCswap, .ctx .cswap .cswap, gStd⟩, ⟨.dFinc, .ctx .fetchInc .fetchInc, gStd⟩, ⟨.dInc, .ctx .inc .inc, gStd⟩,
  ⟨.dFadd, .ctx .fetchAdd .fetchAdd, gStd⟩, ⟨.dAdd, .ctx .add .add, gStd⟩,
  -- shmem_amo_ext_typed.h.tpl L25-93; deprecated, L95-136
  ⟨.of .fetch, .ctx .fetch .fetch, gExt⟩, ⟨.of .fetchNbi, .ctx .fetchNbi .fetchNbi, gExt⟩, ⟨.of .set, .ctx .set .set, gExt⟩,
  ⟨.of .swap, .ctx .swap .swap, gExt⟩, ⟨.of .swapNbi, .ctx .swapNbi .swapNbi, gExt⟩,
  ⟨.dFetch, .ctx .fetch .fetch, gExt⟩, ⟨.dSet, .ctx .set .set, gExt⟩, ⟨.dSwap, .ctx .swap .swap, gExt⟩,
  -- shmem_amo_bitws_typed.h.tpl L29-154
  ⟨.of .fetchAnd, .ctx .fetchAnd .fetchAnd, gBitws⟩, ⟨.of .and, .ctx .and .and, gBitws⟩,
  ⟨.of .fetchOr, .ctx .fetchOr .fetchOr, gBitws⟩, ⟨.of .or, .ctx .or .or, gBitws⟩,
  ⟨.of .fetchXor, .ctx .fetchXor .fetchXor, gBitws⟩, ⟨.of .xor, .ctx .xor .xor, gBitws⟩,
  ⟨.of .fetchAndNbi, .ctx .fetchAndNbi .fetchAndNbi, gBitws⟩, ⟨.of .fetchOrNbi, .ctx .fetchOrNbi .fetchOrNbi, gBitws⟩,
  ⟨.of .fetchXorNbi, .ctx .fetchXorNbi .fetchXorNbi, gBitws⟩,
  -- shmem_coll_typed.h.tpl L14-67
  ⟨.of .broadcast, .team .broadcast, gRma⟩, ⟨.of .collect, .team .collect, gRma⟩, ⟨.of .fcollect, .team .fcollect, gRma⟩,
  ⟨.of .alltoall, .team .alltoall, gRma⟩, ⟨.of .alltoalls, .team .alltoalls, gRma⟩,
  -- shmem_reduce_minmax_team_typed.h.tpl L9-29, shmem_reduce_sumprod_team_typed.h.tpl L9-29, shmem_reduce_bitws_team_typed.h.tpl L10-41
  ⟨.of .minReduce, .team .minReduce, gRma⟩, ⟨.of .maxReduce, .team .maxReduce, gRma⟩,
  ⟨.of .sumReduce, .team .sumReduce, gSumprod⟩, ⟨.of .prodReduce, .team .prodReduce, gSumprod⟩,
  ⟨.of .andReduce, .team .andReduce, gBitwsTeam⟩, ⟨.of .orReduce, .team .orReduce, gBitwsTeam⟩,
  ⟨.of .xorReduce, .team .xorReduce, gBitwsTeam⟩,
  -- shmem_p2p_typed.h.tpl L33-143
  ⟨.of .waitUntil, .ptr .waitUntil, gP2p⟩, ⟨.of .waitUntilAll, .ptr .waitUntilAll, gP2p⟩,
  ⟨.of .waitUntilAny, .ptr .waitUntilAny, gP2p⟩, ⟨.of .waitUntilSome, .ptr .waitUntilSome, gP2p⟩,
  ⟨.of .waitUntilAllVector, .ptr .waitUntilAllVector, gP2p⟩, ⟨.of .waitUntilAnyVector, .ptr .waitUntilAnyVector, gP2p⟩,
  ⟨.of .waitUntilSomeVector, .ptr .waitUntilSomeVector, gP2p⟩,
  ⟨.of .test, .ptr .test, gP2p⟩, ⟨.of .testAll, .ptr .testAll, gP2p⟩, ⟨.of .testAny, .ptr .testAny, gP2p⟩,
  ⟨.of .testSome, .ptr .testSome, gP2p⟩, ⟨.of .testAllVector, .ptr .testAllVector, gP2p⟩,
  ⟨.of .testAnyVector, .ptr .testAnyVector, gP2p⟩, ⟨.of .testSomeVector, .ptr .testSomeVector, gP2p⟩,
  -- shmem_signal_typed.h.tpl L17-43
  ⟨.of .putSignal, .ctx .putSignal .putSignal, gSignal⟩, ⟨.of .putSignalNbi, .ctx .putSignalNbi .putSignalNbi, gSignal⟩]

/-- type of an argument: pointer to a (const-qualified?) basic type; pointer to (const) `void`, which is also what
`shmem_ctx_t` and `shmem_team_t` are (shmem.h.in.tpl L87, L106); arithmetic value; anything else -/
inductive Arg where
  | ptr (const : Bool) (t : Bt)
  | vptr (const : Bool)
  | val (t : Bt)
  | other
deriving DecidableEq, Repr

/-- a typed routine: operation, `ctx_` version, row -/
structure Fun where
  op : Op
  ctx : Bool
  ty : RC
deriving DecidableEq, Repr

/-- its number of parameters: the `ctx_` version has one more -/
def Fun.params (f : Fun) : Nat := f.op.params + if f.ctx then 1 else 0

/-- the association `TYPE*: f` taken for an argument type, if any: the one with a compatible type (C11 6.5.1.1) -/
def assoc (a : Abi) (t : List GRow) (x : Option Arg) : Option RC :=
  (c11Rows t).find? fun r => decide (x = some (.ptr false (resolve a r)))

/-- the `_Generic` expression: the function it denotes; `none`: `shmem_c11_type_ignore` -/
def select (a : Abi) (m : Macro) (args : List Arg) : Option Fun := match m.shape with
  | .ctx oc o =>
    if args[0]? = some (.vptr false) then (assoc a m.table args[1]?).map fun r => ⟨oc, true, r⟩
    else (assoc a m.table args[0]?).map fun r => ⟨o, false, r⟩
  | .ptr o => (assoc a m.table args[0]?).map fun r => ⟨o, false, r⟩
  | .team o =>
    if args[0]? = some (.vptr false) then (assoc a m.table args[1]?).map fun r => ⟨o, false, r⟩ else none

/-- `_Generic` requires that no two associations have compatible types (C11 6.5.1.1) -/
def distinct (a : Abi) (m : Macro) : Bool := decide (((c11Rows m.table).map (resolve a)).Nodup)

/-- a call: `none` if it does not compile. `shmem_c11_type_ignore` has no parameters (shmem.h.in.tpl L36), so a call of it with
arguments is an error, and so is a call with the wrong number of arguments. The types of the other arguments are not modelled. -/
def call (a : Abi) (m : Macro) (args : List Arg) : Option Fun :=
  if distinct a m then
    match select a m args with
    | none => none
    | some f => if args.length = f.params then some f else none
  else none

/-- what `shmem_sync` calls -/
inductive SyncFun where
  /-- `shmem_team_sync` -/
  | team
  /-- `shmem_sync_aset` -/
  | aset
deriving DecidableEq, Repr

/-- `shmem_sync`, shmem.h.in.tpl L283-291: with C11 by the type of the first argument, without always the active-set routine;
prototypes L248, L259 -/
def sync (c11 : Bool) (args : List Arg) : Option SyncFun :=
  if c11 then
    if args[0]? = some (.vptr false) then (if args.length = 1 then some .team else none)
    else if args[0]? = some (.val .int) then (if args.length = 4 then some .aset else none)
    else none
  else if args.length = 4 then some .aset else none

end Verif.Api
