import Verif.Base.CInt
/-!
# Environment variables and the decisions taken from them

`/repo/src/internal/setup_impl.c` (parsing, printing, MPI info hints, thread level), `/repo/src/include/oshmpi_impl.h`
(run-time selection of the direct paths). C strings are lists of characters without the final NUL.
-/
namespace Verif.Env

/-! ## Comma separated lists -/

/-- all tokens `strtok_r(value, ",", ..)` returns one after the other (setup_impl.c L316, L348; trusted semantics of
`strtok_r`: maximal non-empty runs without delimiter). `acc` is the token being read. -/
def tokGo : List Char → List Char → List (List Char)
  | acc, [] => if acc = [] then [] else [acc]
  | acc, c :: cs =>
    if c = ',' then (if acc = [] then tokGo [] cs else acc :: tokGo [] cs) else tokGo (acc ++ [c]) cs

/-- see `tokGo` -/
def tokens (s : List Char) : List (List Char) := tokGo [] s

/-- `!strncmp(token, name, strlen(name))` -/
def startsWith (token name : List Char) : Bool := name.isPrefixOf token

/-- the chain of `else if`s of setup_impl.c L319-347 (and L442-449): the bit of the first name that matches -/
def firstMatch : List (List Char × Nat) → List Char → Option Nat
  | [], _ => none
  | (name, bit) :: tbl, tok => if startsWith tok name then some bit else firstMatch tbl tok

/-- the loop over the tokens, setup_impl.c L317-349 / L441-451 -/
def orBits (tbl : List (List Char × Nat)) : List (List Char) → Nat → Nat
  | [], ops => ops
  | t :: ts, ops => orBits tbl ts (match firstMatch tbl t with
    | some bit => ops ||| 2 ^ bit
    | none => ops)

/-- one `if (val & bit) c += snprintf(buf + c, maxlen - c, "%sname", (c > 0) ? "," : "")` after the other,
setup_impl.c L363-390 / L464-471. (The first one has no `%s`; `c` is 0 there. The buffer of 256 bytes is large
enough for all names, so `snprintf` never truncates.) -/
def printGo (val : Nat) : List (List Char × Nat) → List Char → List Char
  | [], buf => buf
  | (name, bit) :: tbl, buf =>
    printGo val tbl (if val.testBit bit then buf ++ (if buf.length > 0 then [','] else []) ++ name else buf)

/-- the whole printing function: "none" if nothing was printed (L392-393, L473-474) -/
def printTbl (tbl : List (List Char × Nat)) (val : Nat) : List Char :=
  let buf := printGo val tbl []
  if buf.length = 0 then "none".toList else buf

/-! ## AMO operations -/

/-- `OSHMPI_amo_op_shift_t`, oshmpi_impl.h L226-242, without the end marker -/
inductive AmoOp where
  | cswap | finc | inc | fadd | add | fetch | set | swap | fand | and | for | or | fxor | xor
deriving DecidableEq, Repr

/-- value of the enumeration constant -/
def AmoOp.shift : AmoOp → Nat
  | .cswap => 0 | .finc => 1 | .inc => 2 | .fadd => 3 | .add => 4 | .fetch => 5 | .set => 6 | .swap => 7 | .fand => 8
  | .and => 9 | .for => 10 | .or => 11 | .fxor => 12 | .xor => 13

/-- name in the environment variable, setup_impl.c L319-347 -/
def AmoOp.name : AmoOp → List Char
  | .cswap => "cswap".toList | .finc => "finc".toList | .inc => "inc".toList | .fadd => "fadd".toList
  | .add => "add".toList | .fetch => "fetch".toList | .set => "set".toList | .swap => "swap".toList
  | .fand => "fand".toList | .and => "and".toList | .for => "for".toList | .or => "or".toList
  | .fxor => "fxor".toList | .xor => "xor".toList

/-- order of the comparisons in setup_impl.c L319-347 and of the output in L363-390 -/
def amoOps : List AmoOp :=
  [.cswap, .finc, .inc, .fadd, .add, .fetch, .set, .swap, .fand, .and, .for, .or, .fxor, .xor]

/-- name table -/
def amoTbl : List (List Char × Nat) := amoOps.map fun o => (o.name, o.shift)

/-- `for (op_shift = OSHMPI_AMO_CSWAP; op_shift < OSHMPI_AMO_OP_LAST; op_shift++) ops |= (1 << op_shift);`
setup_impl.c L309-312, `n` iterations left -/
def anyOpLoop : Nat → Nat → Nat → Nat
  | 0, _, ops => ops
  | n + 1, shift, ops => anyOpLoop n (shift + 1) (ops ||| 2 ^ shift)

/-- `set_env_amo_ops`, setup_impl.c L294-354; `old` is `*ops_ptr` before -/
def setEnvAmoOps (s : List Char) (old : Nat) : Nat :=
  if startsWith s "none".toList then 0
  else if startsWith s "any_op".toList then anyOpLoop 14 0 0
  else
    let ops := orBits amoTbl (tokens s) 0
    if ops ≠ 0 then ops else old

/-- `OSHMPI_AMO_OPS`, setup_impl.c L644-649: `none` = not set -/
def envAmoOps : Option (List Char) → Nat
  | none => setEnvAmoOps "any_op".toList 0
  | some s => if s.length ≠ 0 then setEnvAmoOps s 0 else setEnvAmoOps "any_op".toList 0

/-- `getstr_env_amo_ops`, setup_impl.c L356-394 -/
def getstrAmoOps (val : Nat) : List Char := printTbl amoTbl val

/-! ## Accumulate hints -/

/-- MPI accumulate operations -/
inductive AccOp where
  | cswap | sum | noop | replace | band | bor | bxor
deriving DecidableEq, Repr

/-- value of the info key "accumulate_ops" -/
inductive AccHint where
  | sameOp | sameOpNoOp
deriving DecidableEq, Repr

/-- result of `OSHMPI_set_mpi_info_args` -/
structure InfoArgs where
  which : List AccOp
  hint : AccHint
  /-- `OSHMPI_global.amo_direct` set to 1 by this call -/
  direct : Bool
deriving DecidableEq, Repr

/-- the info value "which_accumulate_ops", setup_impl.c L56-90. L60 tests `(OSHMPI_env.amo_ops)` without a mask. -/
def whichOps (ops : Nat) : List AccOp :=
  let bit (o : AmoOp) : Bool := ops.testBit o.shift
  (if bit .cswap then [AccOp.cswap] else []) ++
  (if bit .finc || ops != 0 || bit .fadd || bit .add then [AccOp.sum] else []) ++
  (if bit .fetch then [AccOp.noop] else []) ++
  (if bit .set || bit .swap then [AccOp.replace] else []) ++
  (if bit .fand || bit .and then [AccOp.band] else []) ++
  (if bit .for || bit .or then [AccOp.bor] else []) ++
  (if bit .fxor || bit .xor then [AccOp.bxor] else [])

/-- `OSHMPI_set_mpi_info_args`, setup_impl.c L40-115, on `OSHMPI_env.amo_ops = ops`. `nops` is the length of the list; the
info keys "disable_shm_accumulate" and "accumulate_ordering" are constant and left out. -/
def setMpiInfoArgs (ops : Nat) : InfoArgs :=
  let which := whichOps ops
  let nops := which.length
  if nops = 1 then ⟨which, .sameOp, true⟩
  else if nops = 2 ∧ ops.testBit AmoOp.fetch.shift = true then ⟨which, .sameOpNoOp, true⟩
  else ⟨which, .sameOpNoOp, false⟩

/-- configure option `--enable-amo` -/
inductive AmoCfg where
  | direct | am | auto
deriving DecidableEq, Repr

/-- `OSHMPI_dbg_mode_t`, oshmpi_impl.h L254-258 -/
inductive Dbg where
  | auto | am | direct
deriving DecidableEq, Repr

/-- `OSHMPI_ENABLE_DIRECT_AMO_RUNTIME`, oshmpi_impl.h L61-74; in a build without debugging the mode is `auto` -/
def directAmo (cfg : AmoCfg) (dbg : Dbg) (amo_direct : Bool) : Bool := match cfg with
  | .direct => true
  | .am => false
  | .auto => dbg == .direct || (dbg == .auto && amo_direct)

/-- `set_env_dbg_mode`, setup_impl.c L397-404 -/
def setEnvDbg (s : List Char) (old : Dbg) : Dbg :=
  if startsWith s "am".toList then .am else if startsWith s "direct".toList then .direct else old

/-- `getstr_env_dbg_mode`, setup_impl.c L406-416 -/
def getstrDbg : Dbg → List Char
  | .am => "am".toList
  | .direct => "direct".toList
  | .auto => "auto".toList

/-! ## GPU features -/

/-- `OSHMPI_mpi_gpu_feature_shift_t`, oshmpi_impl.h L244-249; the names of setup_impl.c L442-449 -/
def gpuTbl : List (List Char × Nat) :=
  [("pt2pt".toList, 0), ("put".toList, 1), ("get".toList, 2), ("acc".toList, 3)]

/-- `set_env_mpi_gpu_features`, setup_impl.c L419-456 -/
def setEnvGpu (s : List Char) (old : Nat) : Nat :=
  if startsWith s "none".toList then 0
  else if startsWith s "all".toList then 2 ^ 0 ||| 2 ^ 1 ||| 2 ^ 2 ||| 2 ^ 3
  else
    let f := orBits gpuTbl (tokens s) 0
    if f ≠ 0 then f else old

/-- `OSHMPI_MPI_GPU_FEATURES`, setup_impl.c L651-656 -/
def envGpu : Option (List Char) → Nat
  | none => setEnvGpu "all".toList 0
  | some s => if s.length ≠ 0 then setEnvGpu s 0 else setEnvGpu "all".toList 0

/-- `getstr_env_mpi_gpu_features`, setup_impl.c L458-475 -/
def getstrGpu (val : Nat) : List Char := printTbl gpuTbl val

/-- `shmemx_memkind_t` -/
inductive MemKind where
  | host | cuda | ze
deriving DecidableEq, Repr

/-- `OSHMPI_rma_op_t`, oshmpi_impl.h L76-79 -/
inductive RmaOp where
  | put | get
deriving DecidableEq, Repr

/-- `OSHMPI_check_gpu_direct_rma`, oshmpi_impl.h L753-787; `originDev`: the origin buffer is device memory (GPU query,
a parameter); result: direct? -/
def checkGpuDirectRma (features : Nat) (originDev : Bool) (kind : MemKind) (op : RmaOp) : Res Bool :=
  let useGpu := kind == .cuda || kind == .ze || originDev
  if !useGpu then .ok true
  else
    let direct := match op with
      | .put => features.testBit 1
      | .get => features.testBit 2
    if !direct && !features.testBit 0 then .abort else .ok direct

/-- configure option `--enable-rma` -/
inductive RmaCfg where
  | am | direct | auto
deriving DecidableEq, Repr

/-- `OSHMPI_ENABLE_DIRECT_RMA_RUNTIME`, oshmpi_impl.h L85-104 -/
def directRma (cfg : RmaCfg) (dbg : Dbg) (features : Nat) (originDev : Bool) (kind : MemKind) (op : RmaOp) : Res Bool :=
  match cfg with
  | .am => .ok false
  | .direct => .ok true
  | .auto => if dbg = .direct then .ok true
      else if dbg = .auto then checkGpuDirectRma features originDev kind op else .ok false

/-! ## Thread level -/

/-- what `OSHMPI_initialize_thread` depends on, setup_impl.c L734-796. Levels are the MPI constants, in increasing order
SINGLE 0 < FUNNELED 1 < SERIALIZED 2 < MULTIPLE 3 (MPI only promises the order). -/
structure ThreadCfg where
  /-- `--enable-threads`: 0 single .. 3 multiple -/
  limit : Nat
  /-- `OSHMPI_ENABLE_AM_ASYNC_THREAD_RUNTIME` = `OSHMPI_env.enable_async_thread` (oshmpi_impl.h L106-112, setup_impl.c
  L672-688) -/
  async : Bool
  /-- MPI was initialised before by the application, with this level -/
  mpiBefore : Option Nat
  /-- the level MPI provides when asked for one -/
  mpiAnswer : Nat → Nat

/-- the level `OSHMPI_global.thread_level` gets, setup_impl.c L746-796 -/
def threadLevel (c : ThreadCfg) (requested : Nat) : Res Nat :=
  if 3 < requested then .abort
  else
    let required := if c.async then 3 else requested
    -- three `#ifdef`s, L757-766
    let shm := if c.limit = 0 ∧ 0 < required then 0
      else if c.limit = 1 ∧ 1 < required then 1
      else if c.limit = 2 ∧ 2 < required then 2
      else required
    let mpi := match c.mpiBefore with
      | some l => l
      | none => c.mpiAnswer shm
    let shm := if mpi < shm then mpi else shm
    if c.async ∧ shm < 3 then .abort else .ok shm

/-- `is_initialized` and `thread_level` -/
structure TState where
  inited : Bool
  level : Nat
deriving DecidableEq, Repr

/-- `shmem_init_thread`, shmem/setup.c L44-60 with setup_impl.c L738-739 and L847-849: new state, `*provided`, return
value (0 success, -2 other error) -/
def initThread (c : ThreadCfg) (s : TState) (requested : Nat) : Res (TState × Nat × Int) :=
  if s.inited then .ok (s, s.level, if requested ≤ s.level then 0 else -2)
  else (threadLevel c requested).bind fun l => .ok (⟨true, l⟩, l, if requested ≤ l then 0 else -2)

/-- `shmem_query_thread`, shmem/setup.c L62-65 -/
def queryThread (s : TState) : Nat := s.level

end Verif.Env
