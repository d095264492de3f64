import Verif.Sobj.Model
/-!
# Memory ordering: quiet, fence, barrier; operation tracking

`/repo/src/internal/order_impl.h`, `coll_impl.h` L12-32, `coll_activeset_impl.h` L118-143, the issuing paths of
`rma_impl.h`, `amo_impl.h`, `rma_am_impl.h`, `amo_am_impl.h`, and the window life cycle of `space_impl.c`.

One PE used by one thread (threads: `Order/Threads.lean`). What is outstanding is a ghost list `pend`, filled when an
operation is handed to MPI or sent as an active message and emptied only by MPI completing it.

MPI (trusted): `MPI_Win_flush_all(w)` and `MPI_Win_unlock_all(w)` complete every operation the caller issued on `w`;
`MPI_Win_flush_local` completes a get or a fetch-only operation; using `MPI_WIN_NULL` is an error (aborts, the default
error handler). Active messages: a flush of a PE whose flag is set completes everything sent to it (proved in
`Am`: C21), and so does a reply (C22). Data movement is in `Rma`, `Amo`.
-/
namespace Verif.Order
open Verif.Sobj

/-- `OSHMPI_ictx_t`, oshmpi_impl.h L131-137: window (`none` = `MPI_WIN_NULL`) and `outstanding_op`. -/
structure Ictx where
  win : Option Nat
  flag : Bool
deriving DecidableEq, Repr

/-- `OSHMPI_ctx_t`, oshmpi_impl.h L150-154; the attribute copy is not needed here. -/
structure Ctx where
  ictx : Ictx
  used : Bool
deriving DecidableEq, Repr

/-- `OSHMPI_space_t`, oshmpi_impl.h L156-167: `ctxs` is `ctx_list` (`none` = NULL). `att` is a ghost: attached. The
memory pool is in `MemPool`. -/
structure Sp where
  name : Nat
  attr : Attr
  nctx : Nat
  dflt : Ictx
  ctxs : Option (List Ctx)
  att : Bool

/-- how RMA is built, oshmpi_impl.h L85-104 -/
inductive Rma where
  | direct | am | auto
deriving DecidableEq, Repr

/-- Build and start-up decisions: dynamic windows, operation tracking (order_impl.h L11-21), RMA build, direct AMOs
(`OSHMPI_ENABLE_DIRECT_AMO_RUNTIME`, oshmpi_impl.h L61-74, fixed after start-up), number of PEs, and the heap and
data segment. -/
structure Cfg where
  dyn : Bool
  tracking : Bool
  rma : Rma
  amoDirect : Bool
  npes : Nat
  heap : Attr
  data : Attr

/-- how an operation left the PE: on a window, or as an active message -/
inductive Via where
  | win (w : Nat) | am
deriving DecidableEq, Repr

/-- An outstanding operation (ghost): how it left, its target PE, the user context it was issued on (`none` = default
context), the object it addresses, and the number of barriers its PE had entered when it was issued. -/
structure Pend where
  via : Via
  tgt : Nat
  ctx : Option (Nat × Nat)
  obj : Obj
  ep : Nat
deriving DecidableEq, Repr

/-- One PE: `OSHMPI_global` (oshmpi_impl.h L185-224) with the three window slots (`symm` is used with dynamic windows,
`heap`/`data` without), the spaces, `OSHMPI_am.outstanding_op_flags`, the next window MPI will hand out, the
outstanding operations and the number of barriers entered (ghost). -/
structure St where
  symm : Ictx
  heap : Ictx
  data : Ictx
  spaces : List Sp
  amFlag : Nat → Bool
  nextWin : Nat
  pend : List Pend
  ep : Nat

/-- after start-up: the windows exist, flags are 0 (setup_impl.c L123, L211, L250; am_impl.c L203) -/
def init : St :=
  { symm := ⟨some 0, false⟩, heap := ⟨some 1, false⟩, data := ⟨some 2, false⟩, spaces := [], amFlag := fun _ => false,
    nextWin := 3, pend := [], ep := 0 }

/-- a place holding an `OSHMPI_ictx_t` -/
inductive Loc where
  | symm | heap | data | dflt (name : Nat) | ctx (name i : Nat)
deriving DecidableEq, Repr

/-- the space called `name` -/
def St.find (s : St) (name : Nat) : Option Sp := s.spaces.find? (fun x => x.name == name)

/-- read an `OSHMPI_ictx_t`; `none` = NULL or dangling pointer -/
def St.ictx (s : St) : Loc → Option Ictx
  | .symm => some s.symm
  | .heap => some s.heap
  | .data => some s.data
  | .dflt nm => (s.find nm).map (fun x => x.dflt)
  | .ctx nm i => (s.find nm).bind (fun x => x.ctxs.bind (fun l => (l[i]?).map (fun y => y.ictx)))

/-- replace the space called `name` -/
def updSp (l : List Sp) (name : Nat) (f : Sp → Sp) : List Sp := l.map (fun x => if x.name = name then f x else x)

/-- store to `ictx->outstanding_op` -/
def St.setFlag (s : St) (b : Bool) : Loc → St
  | .symm => { s with symm := { s.symm with flag := b } }
  | .heap => { s with heap := { s.heap with flag := b } }
  | .data => { s with data := { s.data with flag := b } }
  | .dflt nm => { s with spaces := updSp s.spaces nm (fun x => { x with dflt := { x.dflt with flag := b } }) }
  | .ctx nm i => { s with spaces := updSp s.spaces nm (fun x =>
      { x with ctxs := x.ctxs.map (fun l => l.modify i (fun y => { y with ictx := { y.ictx with flag := b } })) }) }

/-- the kinds of operation of the API: put, put_nbi, get, get_nbi (strided forms behave the same, rma_impl.h L55-105,
L150-173, L220-243), non-fetching AMO, fetching AMO (`noop` = fetch only, `MPI_NO_OP`), compare-and-swap -/
inductive Kind where
  | put | putNbi | get | getNbi | post | fetch (noop : Bool) | cswap
deriving DecidableEq, Repr

/-- RMA (as opposed to AMO) -/
def Kind.isRma : Kind → Bool
  | .put => true
  | .putNbi => true
  | .get => true
  | .getNbi => true
  | .post => false
  | .fetch _ => false
  | .cswap => false

/-- MPI semantics: when the direct call returns, may the operation still be outstanding? A blocking get and a
fetch-only AMO are complete after `MPI_Win_flush_local`. -/
def Kind.leaves : Kind → Bool
  | .put => true
  | .putNbi => true
  | .get => false
  | .getNbi => true
  | .post => true
  | .fetch noop => !noop
  | .cswap => true

/-- the code: does the call pass `OSHMPI_OP_OUTSTANDING` to `OSHMPI_SET_OUTSTANDING_OP`? put: rma_impl.h L31;
get: L213, L238 (COMPLETED), get_nbi: L191; AMOs: amo_impl.h L28-31, L50, L71 -/
def Kind.marks : Kind → Bool
  | .put => true
  | .putNbi => true
  | .get => false
  | .getNbi => true
  | .post => true
  | .fetch noop => if noop then false else true
  | .cswap => true

/-- active-message form: does the call return without waiting for a reply? (put, iput: rma_am_impl.h L13-45, L84-127;
post: amo_am_impl.h L95-125. The non-blocking get is a blocking one, rma_impl.h L192-193.) -/
def Kind.amLeaves : Kind → Bool
  | .put => true
  | .putNbi => true
  | .get => false
  | .getNbi => false
  | .post => true
  | .fetch _ => false
  | .cswap => false

/-- active-message form: value stored to `outstanding_op_flags[pe]` (rma_am_impl.h L44, L80, L125, L172;
amo_am_impl.h L48, L91, L124) -/
def Kind.amFlagVal : Kind → Bool
  | .put => true
  | .putNbi => true
  | .get => false
  | .getNbi => false
  | .post => true
  | .fetch _ => false
  | .cswap => false

/-- direct or active message: `OSHMPI_ENABLE_DIRECT_RMA_RUNTIME` (oshmpi_impl.h L85-104; `gpu` is the runtime decision,
modelled in `Env`), `OSHMPI_ENABLE_DIRECT_AMO_RUNTIME` -/
def Cfg.isDirect (c : Cfg) (k : Kind) (gpu : Bool) : Bool :=
  if k.isRma then
    match c.rma with
    | .direct => true
    | .am => false
    | .auto => gpu
  else c.amoDirect

/-- the objects as the lookup sees them -/
def Cfg.proc (c : Cfg) (s : St) : Proc := ⟨c.heap, c.data, s.spaces.map (fun x => (x.name, x.attr))⟩

/-- window slot of an object on the default context: oshmpi_impl.h L682-710 -/
def Cfg.slot (c : Cfg) : Obj → Loc
  | .heap => if c.dyn then .symm else .heap
  | .data => if c.dyn then .symm else .data
  | .space nm => if c.dyn then .symm else .dflt nm

/-- `OSHMPI_sobj_query_attr_ictx`, oshmpi_impl.h L669-717, with the assertion of its callers. A context the user does
not hold is a dangling pointer. -/
def lookup (c : Cfg) (s : St) (ctx : Option (Nat × Nat)) (addr : BitVec 64) : Res (Loc × Obj) :=
  match ctx with
  | some (nm, i) =>
    match (s.find nm).bind (fun x => x.ctxs.bind (fun l => l[i]?)) with
    | some y => if y.used then .ok (.ctx nm i, .space nm) else .ub
    | none => .ub
  | none =>
    match query (c.proc s) addr with
    | some r => .ok (c.slot r.1, r.1)
    | none => .abort

/-- record an outstanding operation -/
def St.push (s : St) (p : Pend) : St := { s with pend := s.pend ++ [p] }

/-- `OSHMPI_SET_OUTSTANDING_OP`, oshmpi_impl.h L822-829 -/
def mark (c : Cfg) (k : Kind) (loc : Loc) (s : St) : St := if c.tracking && k.marks then s.setFlag true loc else s

/-- the direct path: hand the operation to MPI on the slot's window (rma_impl.h L13-53, amo_impl.h L12-72). Without
dynamic windows the default window of a space that is not attached is `MPI_WIN_NULL`; with dynamic windows
addressing a space that is not attached is erroneous. -/
def issueDirect (c : Cfg) (s : St) (k : Kind) (loc : Loc) (obj : Obj) (ctx : Option (Nat × Nat)) (tgt : Nat) : Res St :=
  match (s.ictx loc).bind (fun x => x.win) with
  | none => .abort
  | some w => .ok (mark c k loc (if k.leaves then s.push ⟨.win w, tgt, ctx, obj, s.ep⟩ else s))

/-- MPI or the remote PE completes the operations chosen by `done` -/
def St.drop (s : St) (done : Pend → Bool) : St := { s with pend := s.pend.filter (fun p => !(done p)) }

/-- the active-message path. A call that waits for a reply completes everything sent to that PE before. -/
def issueAm (s : St) (k : Kind) (obj : Obj) (ctx : Option (Nat × Nat)) (tgt : Nat) : St :=
  let s := if k.amLeaves then s.push ⟨.am, tgt, ctx, obj, s.ep⟩
           else s.drop (fun p => p.via == .am && p.tgt == tgt)
  { s with amFlag := fun q => if q = tgt then k.amFlagVal else s.amFlag q }

/-- one RMA or AMO call: rma_impl.h L107-243, amo_impl.h L74-137. An RMA call with `nelems = 0` returns at once. A PE
number out of range is erroneous. -/
def issue (c : Cfg) (s : St) (ctx : Option (Nat × Nat)) (addr : BitVec 64) (nelems tgt : Nat) (k : Kind) (gpu : Bool) :
    Res St :=
  if k.isRma && nelems == 0 then .ok s
  else if c.npes ≤ tgt then .ub
  else (lookup c s ctx addr).bind fun r =>
    if c.isDirect k gpu then issueDirect c s k r.1 r.2 ctx tgt else .ok (issueAm s k r.2 ctx tgt)

/-- `MPI_Win_flush_all` -/
def St.flushWin (s : St) (w : Nat) : St := s.drop (fun p => p.via == .win w)

/-- `ctx_flush_impl`, order_impl.h L23-34 -/
def flushLoc (c : Cfg) (s : St) (loc : Loc) : Res St :=
  match s.ictx loc with
  | none => .ub
  | some x =>
    if c.tracking && !x.flag then .ok s
    else match x.win with
      | none => .abort
      | some w => .ok (if c.tracking then (s.flushWin w).setFlag false loc else s.flushWin w)

/-- a sequence of `ctx_flush_impl` calls -/
def flushLocs (c : Cfg) (s : St) : List Loc → Res St
  | [] => .ok s
  | l :: t => (flushLoc c s l).bind fun s' => flushLocs c s' t

/-- `OSHMPI_am_flush` on the PEs `pes`, am_impl.h L22-79: nothing when nothing uses active messages; otherwise the PEs
whose flag is set are flushed and all flags of the set are cleared (with no flag set it returns early, which is the
same). -/
def amFlush (c : Cfg) (s : St) (pes : List Nat) : St :=
  if c.amoDirect && c.rma == .direct then s
  else
    let s' := s.drop (fun p => p.via == .am && (pes.contains p.tgt && s.amFlag p.tgt))
    { s' with amFlag := fun q => if pes.contains q then false else s.amFlag q }

/-- the flushes inside the loop over the space list, order_impl.h L84-91 -/
def spaceLocs (c : Cfg) (x : Sp) : List Loc :=
  (List.range x.nctx).map (fun i => Loc.ctx x.name i) ++ (if c.dyn then [] else [.dflt x.name])

/-- all flushes of `OSHMPI_ctx_quiet` on the default context in order, order_impl.h L74-91 -/
def quietLocs (c : Cfg) (s : St) : List Loc :=
  (if c.dyn then [.symm] else [.heap, .data]) ++ s.spaces.flatMap (spaceLocs c)

/-- `OSHMPI_ctx_quiet`, order_impl.h L67-96. `ctx = none` is `SHMEM_CTX_DEFAULT`. -/
def quiet (c : Cfg) (s : St) (ctx : Option (Nat × Nat)) : Res St :=
  match ctx with
  | some (nm, i) => flushLoc c s (.ctx nm i)
  | none => (flushLocs c s (quietLocs c s)).bind fun s' => .ok (amFlush c s' (List.range c.npes))

/-- all flushes of `OSHMPI_ctx_fence` on the default context in order, order_impl.h L43-60 -/
def fenceLocs (c : Cfg) (s : St) : List Loc :=
  (if c.dyn then [.symm] else [.heap, .data]) ++ s.spaces.flatMap (spaceLocs c)

/-- `OSHMPI_ctx_fence`, order_impl.h L36-65 -/
def fence (c : Cfg) (s : St) (ctx : Option (Nat × Nat)) : Res St :=
  match ctx with
  | some (nm, i) => flushLoc c s (.ctx nm i)
  | none => (flushLocs c s (fenceLocs c s)).bind fun s' => .ok (amFlush c s' (List.range c.npes))

/-- an unconditional `MPI_Win_flush_all` on a slot -/
def winFlush (s : St) (loc : Loc) : Res St :=
  match (s.ictx loc).bind (fun x => x.win) with
  | none => .abort
  | some w => .ok (s.flushWin w)

/-- The local part of `OSHMPI_barrier_all` (`pes` = all PEs, coll_impl.h L14-30) and of `OSHMPI_barrier` on an active
set (`pes` = the set, coll_activeset_impl.h L122-139): unconditional window flushes, then the active-message flush.
The tracking flags are left as they are. The MPI barrier is in the model of all PEs. -/
def barrierLocal (c : Cfg) (s : St) (pes : List Nat) : Res St :=
  (if c.dyn then winFlush s .symm
   else (winFlush s .heap).bind fun s1 => winFlush s1 .data).bind fun s2 =>
    let s3 := amFlush c s2 pes
    .ok { s3 with ep := s3.ep + 1 }

/-- the PEs of an active set, am_impl.h L53-55: `PE_start + i * 2^logPE_stride` -/
def activeSet (start logStride size : Nat) : List Nat := (List.range size).map (fun i => start + i * 2 ^ logStride)

/-- windows of the contexts made by one attach: fresh, flag 0, not used (space_impl.c L313-323) -/
def newCtxs (w n : Nat) : List Ctx := (List.range n).map (fun i => ⟨⟨some (w + i), false⟩, false⟩)

/-- `MPI_Win_unlock_all` + `MPI_Win_free` on a list of windows: everything outstanding on them completes -/
def St.freeWins (s : St) (ws : List (Option Nat)) : St :=
  s.drop (fun p => ws.any (fun o => match o with
    | some w => p.via == .win w
    | none => false))

/-- Calls of the program and spontaneous completion. -/
inductive Op where
  | issue (ctx : Option (Nat × Nat)) (addr : BitVec 64) (nelems tgt : Nat) (k : Kind) (gpu : Bool)
  | complete (done : Pend → Bool)
  | quiet (ctx : Option (Nat × Nat))
  | fence (ctx : Option (Nat × Nat))
  | create (name : Nat) (attr : Attr) (nctx : Nat)
  | attach (name : Nat)
  | detach (name : Nat)
  | destroy (name : Nat)
  | ctxCreate (name i : Nat)
  | ctxDestroy (name i : Nat)

/-- the default window made by an attach (space_impl.c L298-309): a new one with flag 0, nothing with dynamic windows -/
def attachDflt (c : Cfg) (s : St) (x : Sp) : Ictx := if c.dyn then x.dflt else ⟨some s.nextWin, false⟩

/-- One call. -/
def step (c : Cfg) (s : St) : Op → Res St
  | .issue ctx addr nelems tgt k gpu => Order.issue c s ctx addr nelems tgt k gpu
  | .complete done => .ok (s.drop done)
  | .quiet ctx => Order.quiet c s ctx
  | .fence ctx => Order.fence c s ctx
  -- OSHMPI_space_create, space_impl.c L195-210; the name is a fresh pointer
  | .create name attr nctx =>
    if (s.find name).isSome then .ub
    else .ok { s with spaces := s.spaces ++
      [{ name := name, attr := attr, nctx := nctx, dflt := ⟨none, false⟩, ctxs := none, att := false }] }
  -- OSHMPI_space_attach, space_impl.c L276-331; the attribute's handle is in `Space/Model.lean`
  | .attach name =>
    match s.find name with
    | none => .ub
    | some x =>
      if x.ctxs.isSome then .abort
      else .ok { s with
        nextWin := s.nextWin + 1 + x.nctx
        spaces := updSp s.spaces name (fun y => { y with
          att := true
          dflt := attachDflt c s y
          ctxs := if y.nctx = 0 then none else some (newCtxs (s.nextWin + 1) y.nctx) }) }
  -- OSHMPI_space_detach, space_impl.c L334-359; `space_ictx_destroy` (L26-32) leaves `outstanding_op` as it is
  | .detach name =>
    match s.find name with
    | none => .ub
    | some x =>
      if !c.dyn && x.dflt.win.isNone then .abort
      else if !(x.nctx == 0 || x.ctxs.isSome) then .abort
      else if (x.ctxs.getD []).any (fun y => y.used) then .abort
      else
        let s' := s.freeWins ((if c.dyn then [] else [x.dflt.win]) ++ (x.ctxs.getD []).map (fun y => y.ictx.win))
        .ok { s' with spaces := updSp s.spaces name (fun y => { y with
          att := false
          dflt := if c.dyn then y.dflt else { y.dflt with win := none }
          ctxs := none }) }
  -- OSHMPI_space_destroy, space_impl.c L225-249
  | .destroy name =>
    match s.find name with
    | none => .ub
    | some _ => .ok { s with spaces := s.spaces.filter (fun x => x.name != name) }
  -- OSHMPI_space_create_ctx, space_impl.c L253-271 (which context is chosen: `Space/Ctx.lean`)
  | .ctxCreate name i =>
    match (s.find name).bind (fun x => x.ctxs.bind (fun l => l[i]?)) with
    | none => .ub
    | some y => if y.used then .ub else .ok { s with spaces := updSp s.spaces name (fun x =>
        { x with ctxs := x.ctxs.map (fun l => l.modify i (fun z => { z with used := true })) }) }
  -- OSHMPI_ctx_destroy, ctx_impl.c L9-18
  | .ctxDestroy name i =>
    match (s.find name).bind (fun x => x.ctxs.bind (fun l => l[i]?)) with
    | none => .ub
    | some y => if y.used then .ok { s with spaces := updSp s.spaces name (fun x =>
        { x with ctxs := x.ctxs.map (fun l => l.modify i (fun z => { z with used := false })) }) } else .ub

/-- Rules of the space API that the code does not check: a space is attached only when it is not attached (comment in
space_impl.c L280: "Space should not be attached yet"; the assertion only catches spaces with contexts) and destroyed
only when it is not attached. -/
def legal (s : St) : Op → Prop
  | .attach name => ∀ x, s.find name = some x → x.att = false
  | .destroy name => ∀ x, s.find name = some x → x.att = false
  | .issue _ _ _ _ _ _ => True
  | .complete _ => True
  | .quiet _ => True
  | .fence _ => True
  | .create _ _ _ => True
  | .detach _ => True
  | .ctxCreate _ _ => True
  | .ctxDestroy _ _ => True

/-- a history of one PE, barriers included -/
inductive Hist (c : Cfg) : St → Prop
  | init : Hist c init
  | step {s s'} (op : Op) (h : Hist c s) (l : legal s op) (e : step c s op = .ok s') : Hist c s'
  | barrier {s s'} (pes : List Nat) (h : Hist c s) (e : barrierLocal c s pes = .ok s') : Hist c s'

/-- a sequence of calls, for concrete histories -/
def run (c : Cfg) (s : St) : List Op → Res St
  | [] => .ok s
  | op :: t => (step c s op).bind fun s' => run c s' t

end Verif.Order
