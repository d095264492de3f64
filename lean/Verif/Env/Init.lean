import Verif.Env.Size
import Verif.Setup.Use
/-!
# Reading the environment: `initialize_env`

`/repo/src/internal/setup_impl.c` L598-692, called once at start-up (L741). C strings are lists of characters without the final NUL.
-/
namespace Verif.Env
open Verif.Setup (AsyncOpt asyncThread)

/-- `atoi` (C11 7.22.1.2): blanks, sign, decimal digits; 0 if there are none; undefined if the number does not fit in `int` -/
def atoi (s : List Char) : Res Int :=
  let (neg, t) := scanSign (s.dropWhile isBlank)
  let (n, _, _) := scanDigits 0 0 t
  let v : Int := if neg then -(n : Int) else n
  if -(2 ^ 31) ≤ v ∧ v < 2 ^ 31 then .ok v else .ub

/-- build options that matter here: `--enable-fast=ndebug`, `--enable-amo`, `--enable-rma`, `--enable-async-thread` -/
structure Build where
  ndebug : Bool
  amo : AmoCfg
  rma : RmaCfg
  async : AsyncOpt
deriving DecidableEq, Repr

/-- `OSHMPI_env_t`, oshmpi_impl.h L260-292 -/
structure Vals where
  heap : Nat
  debug : Bool
  version : Bool
  info : Bool
  verbose : Bool
  amoOps : Nat
  gpu : Nat
  amoDbg : Dbg
  rmaDbg : Dbg
  async : Bool
  mpit : Bool
deriving DecidableEq, Repr

/-- `val = getenv(..); if (val && strlen(val))`, setup_impl.c L604-605 and so on -/
def val (g : String → Option (List Char)) (name : String) : Option (List Char) := match g name with
  | some (c :: s) => some (c :: s)
  | some [] => none
  | none => none

/-- SHMEM_SYMMETRIC_SIZE, setup_impl.c L602-608: the result of `OSHMPIU_str_to_size` as `MPI_Aint`; oshmpi_impl.h L24 -/
def heapVar : Option (List Char) → Res Nat
  | none => .ok (2 ^ 27)
  | some s => (strToSize s).bind fun n => if n < 2 ^ 63 then .ok n else .abort

/-- SHMEM_DEBUG, SHMEM_VERSION, SHMEM_INFO, OSHMPI_VERBOSE, setup_impl.c L612-642 -/
def flagVar : Option (List Char) → Res Bool
  | none => .ok false
  | some s => (atoi s).bind fun n => .ok (decide (n ≠ 0))

/-- OSHMPI_AMO_DBG_MODE, OSHMPI_RMA_DBG_MODE, setup_impl.c L658-668; without debugging the macros of oshmpi_impl.h L61-104 do not look
at the mode, which is then as if `auto` -/
def dbgVar (b : Build) (o : Option (List Char)) : Dbg :=
  if b.ndebug then .auto else match o with
    | none => .auto
    | some s => setEnvDbg s .auto

/-- OSHMPI_ENABLE_ASYNC_THREAD, setup_impl.c L670-686: read only if the build leaves it open -/
def asyncVar (b : Build) (amoDbg : Dbg) (o : Option (List Char)) : Res Bool :=
  if b.async = .auto then match o with
    | none => .ok (asyncThread .auto none b.amo amoDbg b.rma)
    | some s => (atoi s).bind fun n => .ok (asyncThread .auto (some n) b.amo amoDbg b.rma)
  else .ok (asyncThread b.async none b.amo amoDbg b.rma)

/-- OSHMPI_ENABLE_MPI_T, setup_impl.c L688-691 -/
def mpitVar : Option (List Char) → Res Bool
  | none => .ok true
  | some s => (atoi s).bind fun n => .ok (decide (n ≠ 0))

/-- `initialize_env`, setup_impl.c L598-692 -/
def initEnv (b : Build) (g : String → Option (List Char)) : Res Vals :=
  (heapVar (val g "SHMEM_SYMMETRIC_SIZE")).bind fun heap =>
  (flagVar (val g "SHMEM_DEBUG")).bind fun debug =>
  (flagVar (val g "SHMEM_VERSION")).bind fun version =>
  (flagVar (val g "SHMEM_INFO")).bind fun info =>
  (flagVar (val g "OSHMPI_VERBOSE")).bind fun verbose =>
  let amoOps := envAmoOps (val g "OSHMPI_AMO_OPS")
  let gpu := envGpu (val g "OSHMPI_MPI_GPU_FEATURES")
  let amoDbg := dbgVar b (val g "OSHMPI_AMO_DBG_MODE")
  let rmaDbg := dbgVar b (val g "OSHMPI_RMA_DBG_MODE")
  (asyncVar b amoDbg (val g "OSHMPI_ENABLE_ASYNC_THREAD")).bind fun async =>
  (mpitVar (val g "OSHMPI_ENABLE_MPI_T")).bind fun mpit =>
  .ok ⟨heap, debug, version, info, verbose, amoOps, gpu, amoDbg, rmaDbg, async, mpit⟩

/-- what PE `me` prints at start-up: the library's version (shmem/setup.c L14-17, L49-52, L114-117), the standard variables
(setup_impl.c L481-488), the configuration and the other variables (L491-594) -/
def prints (v : Vals) (me : Nat) : Bool × Bool × Bool :=
  (v.version && decide (me = 0), (v.info || v.verbose) && decide (me = 0), v.verbose && decide (me = 0))

end Verif.Env
