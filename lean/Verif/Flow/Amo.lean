import Verif.Vis.Model
import Verif.Api.Amo
/-!
# The atomic routines in executions of all PEs

`Vis` says when the access of an internal AMO call is performed; `Api.Amo` says what a routine of the API passes on to the internal
routine. Here the two are put together: a call of a named atomic routine as a step of an execution.
-/
namespace Verif.Flow
open Verif.Sobj Verif.Rma Verif.Vis Verif.Api

/-- The AMO that a call of an internal routine asks for, if the arguments make sense: `OSHMPI_amo_cswap`, `OSHMPI_amo_fetch`,
`OSHMPI_amo_post` (amo_impl.h L74-137) with `op`, `op_idx` and `value_ptr`. `none`: `op` and `op_idx` differ, or NULL is read; no routine of the
templates does that (`Flow/AmoProps.lean`, `body_api`). -/
def api (c : ACall) (cond value : Nat) : Option Amo.Api := match c.via, c.src with
  | .cswap, .value => some (.cswap cond value)
  | .cswap, .one => some (.cswap cond 1)
  | .cswap, .null => none
  | .fetch .sum .sum, .value => some (.fadd value)
  | .fetch .sum .sum, .one => some .finc
  | .fetch .noop .noop, .null => some .fetch
  | .fetch .replace .replace, .value => some (.swap value)
  | .fetch .band .band, .value => some (.fand value)
  | .fetch .bor .bor, .value => some (.for value)
  | .fetch .bxor .bxor, .value => some (.fxor value)
  | .fetch _ _, _ => none
  | .post .sum .sum, .value => some (.add value)
  | .post .sum .sum, .one => some .inc
  | .post .replace .replace, .value => some (.set value)
  | .post .band .band, .value => some (.and value)
  | .post .bor .bor, .value => some (.or value)
  | .post .bxor .bxor, .value => some (.xor value)
  | .post _ _, _ => none

/-- a call of `shmem_[ctx_]TYPENAME_...` (amo_std_typed.c.tpl, amo_ext_typed.c.tpl, amo_bitws_typed.c.tpl) with its arguments; `fetch`: the
parameter of the `_nbi` routines -/
structure AName where
  rt : ARt
  row : Row
  isCtx : Bool
  ctx : Option (Nat × Nat)
  dest : BitVec 64
  fetch : BitVec 64
  cond : Nat
  value : Nat
  tgt : Nat

/-- PE `p` calls the routine in an execution: the step. The type arguments are those of the row, the context is the parameter or the default
one (`ACall.ctx`); address lookup as in `Vis.Step`. -/
def ACalls (S : Sys) (gpu : Bool) (mode : Mode) (n : AName) (p : Nat) (g0 : G) (e : Ev) (g1 : G) : Prop :=
  ∃ c op r, n.rt.body n.isCtx = some c ∧ api c n.cond n.value = some op ∧ (mode = .abs → (S.cf p).dyn = true) ∧
    resolve (procs S g0) (pathOf (S.cf p) (amoKind op) gpu mode) (ctxObj (g0.pe p) (if c.ctx then n.ctx else none)) p n.tgt n.dest = .ok r ∧
    e = .amo p n.tgt (if c.ctx then n.ctx else none) n.dest r.toInt n.row.mpi op (g0.arr p) ∧ Step S g0 e g1

/-- an execution of `N` steps: its states and events -/
structure Exec (S : Sys) (N : Nat) (h : Nat → G) (ev : Nat → Ev) : Prop where
  reach : Reach S (h 0)
  step : ∀ k < N, Step S (h k) (ev k) (h (k + 1))

/-- the call PE `p` made in step `i` returns with step `j`, in which its last access is performed; `r` is what that access gave. (The `_nbi`
routines of the AMOs have the same bodies: they wait, too, and then `r` is in `fetch`, amo_impl.h L26, L69, amo_am_impl.h L43-46, L86-89.) -/
def Returns (h : Nat → G) (ev : Nat → Ev) (p i j r : Nat) : Prop :=
  i < j ∧ (∀ k, i < k → k ≤ j → (h k).busy p ≠ []) ∧ (h (j + 1)).busy p = [] ∧ ∃ b, ev j = .done p b r

end Verif.Flow
