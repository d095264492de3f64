import Verif.Vis.Model
import Verif.Api.RmaRt
/-!
# The put and get routines in executions of all PEs

`Vis` says which elementary accesses a call of the internal put and get routines leaves to MPI or to the other PE; `Api.RmaRt` says what a
routine of the API passes on to the internal routine. Here the two are put together: a call of a named routine as a step of an execution.
-/
namespace Verif.Flow
open Verif.Sobj Verif.Rma Verif.Vis Verif.Api

/-- the counts and types of the two sides of a contiguous call, origin first: direct, rma_impl.h L28-29, L49-50; active message: the
origin sends or receives `nelems` elements (rma_am_impl.h L34, L69), the target `bytes` bytes (rma_am_impl.c L20, L34) -/
def sides (path : Path) (k ts n : Nat) : (Nat × Ty) × (Nat × Ty) := match path with
  | .direct _ => (((toI32 n).toNat, Ty.basic k), ((toI32 n).toNat, Ty.basic k))
  | .am => (((toI32 n).toNat, Ty.basic k), ((toI32 (toSize (ts * n))).toNat, Ty.basic 1))

/-- the (destination, source) bytes of a call of an internal routine: `RCall.Moves` (rma_impl.h L107-243) with the accesses instead of the
memories afterwards; `PutPairs` and `GetPairs` are those of `Vis.Step`. Counts that MPI rejects and messages that are too long, which abort in
`RCall.Moves`, are not told apart here (simplification: no property is claimed outside the limits of the routines, `RRt.InLimits`). -/
def Moving (cacheOn : Bool) (procs : Nat → Proc) (path : Path) (ctx : Option (Obj × Attr)) (me pe : Nat) (fn : Fn) (c : RCall) (a : RArgs)
    (xs : List (Int × Int)) : Prop :=
  let cx := if c.ctx then ctx else none
  let sd := sides path fn.args.1 fn.args.2 (c.cnt.val a)
  if c.cnt.val a = 0 then xs = [] else match c.via with
  | .put => PutPairs procs path cx me pe (c.target.addr a) (c.origin.addr a) sd.1.1 sd.2.1 sd.1.2 sd.2.2 xs
  | .putNbi => PutPairs procs path cx me pe (c.target.addr a) (c.origin.addr a) sd.1.1 sd.2.1 sd.1.2 sd.2.2 xs
  | .get => GetPairs procs path cx me pe (c.target.addr a) (c.origin.addr a) sd.1.1 sd.2.1 sd.1.2 sd.2.2 xs
  | .getNbi => GetPairs procs path cx me pe (c.target.addr a) (c.origin.addr a) sd.1.1 sd.2.1 sd.1.2 sd.2.2 xs
  | .iput tst ost => ∃ t oc oty tc tty, fn.mpi = some t ∧ Dtypes cacheOn path (c.cnt.val a) t (ost.val a) (tst.val a) oc oty tc tty ∧
      PutPairs procs path cx me pe (c.target.addr a) (c.origin.addr a) (toI32 oc).toNat (toI32 tc).toNat oty tty xs
  | .iget ost tst => ∃ t oc oty tc tty, fn.mpi = some t ∧ Dtypes cacheOn path (c.cnt.val a) t (ost.val a) (tst.val a) oc oty tc tty ∧
      GetPairs procs path cx me pe (c.target.addr a) (c.origin.addr a) (toI32 oc).toNat (toI32 tc).toNat oty tty xs

/-- is it a call of a put routine (rma_impl.h L107-173) or of a get routine (L175-243)? -/
def isPut : RVia → Bool
  | .put => true | .putNbi => true | .iput _ _ => true
  | .get => false | .getNbi => false | .iget _ _ => false

/-- the step a call of an internal routine is (rma_impl.h L107-243): blocking or not, the context, the remote address -/
def event (c : RCall) (ctx : Option (Nat × Nat)) (a : RArgs) (p tgt : Nat) (xs : List (Int × Int)) (ep : Nat) : Ev :=
  if isPut c.via then .put p tgt (!c.via.blocking) (if c.ctx then ctx else none) (c.target.addr a) xs ep
  else .get p tgt (!c.via.blocking) (if c.ctx then ctx else none) (c.target.addr a) xs ep

/-- PE `p` calls `shmem_[ctx_]...` (rma_typed.c.tpl, rma_sized.c.tpl, rma.c) with target PE `tgt` in an execution: the step and its bytes.
The parameter `value` of `p` is in the caller's memory at `slot` by then, `g` returns what is there when it returns. -/
def Calls (S : Sys) (cacheOn gpu : Bool) (mode : Mode) (rt : RRt) (fn : Fn) (isCtx : Bool) (ctx : Option (Nat × Nat)) (a : RArgs)
    (p tgt : Nat) (g0 : G) (xs : List (Int × Int)) (ep : Nat) (g1 : G) : Prop :=
  ∃ c, RRt.body fn.fam rt isCtx = some c ∧ Step S g0 (event c ctx a p tgt xs ep) g1 ∧ (mode = .abs → (S.cf p).dyn = true) ∧
    Moving cacheOn (procs S g0) (pathOf (S.cf p) (if isPut c.via then .put else .get) gpu mode) (ctxObj (g0.pe p) ctx) p tgt fn c a xs

end Verif.Flow
