import Verif.Order.Global
import Verif.Rma.Model
import Verif.Amo.Model
/-!
# What the memories contain: all PEs, operations in flight with their data

The order model (`Verif.Order`: which operations are outstanding, what quiet, fence and barrier wait for) extended by the
data: an operation in flight carries the elementary accesses that MPI or the remote PE has still to perform. They are
performed one by one, in any order, at any time between the call and the completion of the operation. This allows every
behaviour MPI allows for puts and gets (no order, no atomicity beyond bytes, MPI-3 section 11.7), for accumulate
operations (each atomic) and for active messages (executed by the target at any time; that they are executed in order is
not even used). A call that waits for completion is enabled when everything it waits for has been performed.

One thread per PE. Memory is unified (`MPI_WIN_UNIFIED`, trusted): a load sees what has been performed.
-/
namespace Verif.Vis
open Verif.Sobj Verif.Rma
open Verif.Order (St Pend Cfg Op)
open Verif.Amo (TyIdx Fp)

/-- An elementary access that is still to be performed: store byte `v`; copy a byte between PEs (a non-blocking put reads
its source when MPI gets to it, a get its remote source); an AMO on the word at `a` of PE `d`, `am`: by a handler. -/
inductive Atom where
  | set (d : Nat) (a : Int) (v : BitVec 8)
  | mv (s : Nat) (sa : Int) (d : Nat) (a : Int)
  | upd (d : Nat) (a : Int) (ty : TyIdx) (api : Amo.Api) (am : Bool)

/-- does the access write byte `k.2` of PE `k.1`? -/
def Atom.writes (k : Nat × Int) : Atom → Prop
  | .set d a _ => k = (d, a)
  | .mv _ _ d a => k = (d, a)
  | .upd d a ty _ _ => k.1 = d ∧ a ≤ k.2 ∧ k.2 < a + ty.bytes

/-- the memory from address `a` on -/
def view (m : IMem) (a : Int) : Mem := fun n => m (a + n)

/-- the memory with the part from `a` on replaced -/
def unview (m : IMem) (a : Int) (x : Mem) : IMem := fun y => if a ≤ y then x (y - a).toNat else m y

/-- Perform an access. AMO: `Amo.am` (handlers, amo_am_impl.c) or `Amo.direct` (MPI, amo_impl.h); a handler that aborts or
is undefined ends the execution. -/
def Atom.perform (fp : Fp) (junk : Mem) (m : Mems) : Atom → Res Mems
  | .set d a v => .ok (Function.update m d (Function.update (m d) a v))
  | .mv s sa d a => .ok (Function.update m d (Function.update (m d) a (m s sa)))
  | .upd d a ty api am =>
    if am then (Amo.am fp junk (view (m d) a) 0 ty api).bind fun x => .ok (Function.update m d (unview (m d) a x.1))
    else .ok (Function.update m d (unview (m d) a (Amo.direct (view (m d) a) 0 ty api).1))

/-- What the call gets back: an AMO that returns the old value returns what `Amo.am` or `Amo.direct` computes (0 otherwise). -/
def Atom.result (fp : Fp) (junk : Mem) (m : Mems) : Atom → Nat
  | .set _ _ _ => 0
  | .mv _ _ _ _ => 0
  | .upd d a ty api am =>
    if am then match Amo.am fp junk (view (m d) a) 0 ty api with
      | .ok x => x.2
      | .abort => 0
      | .ub => 0
      | .hang => 0
    else (Amo.direct (view (m d) a) 0 ty api).2

/-- does the routine return the old value? (the signatures in amo_{std,ext,bitws}_typed.c.tpl) -/
def returns : Amo.Api → Bool
  | .cswap _ _ => true
  | .finc => true
  | .inc => false
  | .fadd _ => true
  | .add _ => false
  | .fetch => true
  | .set _ => false
  | .swap _ => true
  | .fand _ => true
  | .and _ => false
  | .for _ => true
  | .or _ => false
  | .fxor _ => true
  | .xor _ => false

/-- an operation in flight: its record in the order model and what is still to be done -/
structure Fly where
  pend : Pend
  todo : List Atom

/-- All PEs: states of the order model, operations in flight, accesses of the blocking call a PE is in, memories, barriers
entered and left. -/
structure G where
  pe : Nat → St
  fly : Nat → List Fly
  busy : Nat → List Atom
  mem : Mems
  arr : Nat → Nat
  lv : Nat → Nat

/-- the system: number of PEs, configuration of each (heap and data segment may lie at different addresses), floating-point
hardware and uninitialised memory (both only for AMO handlers) -/
structure Sys where
  npes : Nat
  cf : Nat → Cfg
  hn : ∀ p, (cf p).npes = npes
  fp : Fp
  junk : Mem

/-- start-up: any memory contents -/
def ginit (m : Mems) : G := ⟨fun _ => Order.init, fun _ => [], fun _ => [], m, fun _ => 0, fun _ => 0⟩

/-- What happens in a step. Calls carry the PE, the target, the context, the symmetric address, and `ep`, the number of
barriers the PE has entered before. `xs` are the (destination, source) addresses of the bytes. `poll`: one read of a wait
or test routine of PE `p`, of `n` bytes of its own at address `a`, which gives `r`. `touch`: an access of a lock call of PE `p`, which
writes the bytes `ws` (PE, address, value). `done`: an access of an operation of PE `q`
is performed, and `r` is what it returns. -/
inductive Ev where
  | put (p tgt : Nat) (nbi : Bool) (ctx : Option (Nat × Nat)) (addr : BitVec 64) (xs : List (Int × Int)) (ep : Nat)
  | get (p tgt : Nat) (nbi : Bool) (ctx : Option (Nat × Nat)) (addr : BitVec 64) (xs : List (Int × Int)) (ep : Nat)
  | amo (p tgt : Nat) (ctx : Option (Nat × Nat)) (addr : BitVec 64) (a : Int) (ty : TyIdx) (api : Amo.Api) (ep : Nat)
  | store (p : Nat) (a : Int) (v : BitVec 8)
  | poll (p : Nat) (a : Int) (n : Nat) (r : Nat)
  | touch (p : Nat) (ws : List (Nat × Int × BitVec 8))
  | call (p : Nat) (op : Op)
  | enter (p : Nat)
  | leave (p : Nat)
  | done (q : Nat) (b : Atom) (r : Nat)
  | tau

/-- is byte `k.2` of PE `k.1` written, now or later, because of this event? -/
def Ev.writes (k : Nat × Int) : Ev → Prop
  | .put _ tgt _ _ _ xs _ => k.1 = tgt ∧ ∃ x ∈ xs, x.1 = k.2
  | .get p _ _ _ _ xs _ => k.1 = p ∧ ∃ x ∈ xs, x.1 = k.2
  | .amo _ tgt _ _ a ty _ _ => k.1 = tgt ∧ a ≤ k.2 ∧ k.2 < a + ty.bytes
  | .store p a _ => k = (p, a)
  | .poll _ _ _ _ => False
  | .touch _ ws => ∃ w ∈ ws, w.1 = k.1 ∧ w.2.1 = k.2
  | .call _ _ => False
  | .enter _ => False
  | .leave _ => False
  | .done _ _ _ => False
  | .tau => False

/-- the PE that made the call, and the number of barriers it had entered -/
def Ev.src : Ev → Option (Nat × Nat)
  | .put p _ _ _ _ _ ep => some (p, ep)
  | .get p _ _ _ _ _ ep => some (p, ep)
  | .amo p _ _ _ _ _ _ ep => some (p, ep)
  | .store _ _ _ => none
  | .poll _ _ _ _ => none
  | .touch _ _ => none
  | .call _ _ => none
  | .enter _ => none
  | .leave _ => none
  | .done _ _ _ => none
  | .tau => none

/-- the object a user context stands for (`lookup` of `Rma`) -/
def ctxObj (s : St) (ctx : Option (Nat × Nat)) : Option (Obj × Attr) :=
  ctx.bind fun c => (s.find c.1).map fun x => (.space c.1, x.attr)

/-- kinds of AMO call in the order model: `shmem_*_fetch` passes `MPI_NO_OP`, amo_ext_typed.c.tpl L13-21 -/
def amoKind : Amo.Api → Order.Kind
  | .cswap _ _ => .cswap
  | .finc => .fetch false
  | .inc => .post
  | .fadd _ => .fetch false
  | .add _ => .post
  | .fetch => .fetch true
  | .set _ => .post
  | .swap _ => .fetch false
  | .fand _ => .fetch false
  | .and _ => .post
  | .for _ => .fetch false
  | .or _ => .post
  | .fxor _ => .fetch false
  | .xor _ => .post

/-- The (destination, source) addresses of the bytes of a put of `oc` items of `oty` from `src` into `tc` items of `tty` at the
address on `tgt` that `addr` resolves to: what `ctxPut` and `ctxIput` transfer (`Rma/Model.lean`). -/
def PutPairs (procs : Nat → Proc) (path : Path) (c : Option (Obj × Attr)) (p tgt : Nat) (addr src : BitVec 64)
    (oc tc : Nat) (oty tty : Ty) (xs : List (Int × Int)) : Prop :=
  ∃ r, resolve procs path c p tgt addr = .ok r ∧ xs = (addrs r.toInt tc tty).zip (addrs src.toInt oc oty)

/-- the same for a get: destination local, source remote -/
def GetPairs (procs : Nat → Proc) (path : Path) (c : Option (Obj × Attr)) (p tgt : Nat) (addr dst : BitVec 64)
    (oc tc : Nat) (oty tty : Ty) (xs : List (Int × Int)) : Prop :=
  ∃ r, resolve procs path c p tgt addr = .ok r ∧ xs = (addrs dst.toInt oc oty).zip (addrs r.toInt tc tty)

/-- the record the order model made for the call, if it left something outstanding -/
def pushed (s s' : St) : Option Pend := if s.pend.length < s'.pend.length then s'.pend.getLast? else none

/-- everything the new state of the order model no longer lists has been performed -/
def Done (fl : List Fly) (s' : St) : Prop := ∀ x ∈ fl, x.pend ∉ s'.pend → x.todo = []

/-- the operations still in flight -/
def settle (fl : List Fly) (s' : St) : List Fly := fl.filter (fun x => decide (x.pend ∈ s'.pend))

/-- PE `p` made a call that the order model allows; its accesses `new` are in flight, or belong to the blocking call -/
def after (g : G) (p : Nat) (s' : St) (new : List Atom) : G :=
  { g with
    pe := Function.update g.pe p s'
    fly := Function.update g.fly p (settle (g.fly p) s' ++ match pushed (g.pe p) s' with
      | some pd => [⟨pd, new⟩]
      | none => [])
    busy := Function.update g.busy p (match pushed (g.pe p) s' with
      | some _ => []
      | none => new) }

/-- the same for a call that waits until its accesses have been performed, whatever it leaves outstanding -/
def afterRet (g : G) (p : Nat) (s' : St) (new : List Atom) : G :=
  { after g p s' [] with busy := Function.update g.busy p new }

/-- the path a call takes; the displacement mode is relative unless windows are dynamic (oshmpi_impl.h L119-123) -/
def pathOf (c : Cfg) (k : Order.Kind) (gpu : Bool) (mode : Mode) : Path := if c.isDirect k gpu then .direct mode else .am

/-- the objects of all PEs -/
def procs (S : Sys) (g : G) : Nat → Proc := fun q => (S.cf q).proc (g.pe q)

/-- PE `p` can make a call: it is not inside a barrier or another blocking call -/
def Free (S : Sys) (g : G) (p : Nat) : Prop := p < S.npes ∧ g.arr p = g.lv p ∧ g.busy p = []

/-- the memories after the bytes `ws` were written (not code: the effect of an access) -/
def touched (m : Mems) : List (Nat × Int × BitVec 8) → Mems
  | [] => m
  | w :: ws => touched (Function.update m w.1 (Function.update (m w.1) w.2.1 w.2.2)) ws

/-- One step of the whole system. -/
inductive Step (S : Sys) : G → Ev → G → Prop
  /-- put, put_nbi, iput: a blocking put has read its source when it returns (`ctx_local_complete_impl`, rma_impl.h L143-146;
  active message: both `MPI_Isend`s have completed, rma_am_impl.h L32-36) -/
  | put {g : G} (p tgt : Nat) (nbi : Bool) (ctx : Option (Nat × Nat)) (addr src : BitVec 64) (n : Nat) (gpu : Bool)
      (mode : Mode) (oc tc : Nat) (oty tty : Ty) (xs : List (Int × Int)) (s' : St) (hf : Free S g p)
      (hm : mode = .abs → (S.cf p).dyn = true)
      (e : Order.step (S.cf p) (g.pe p) (.issue ctx addr n tgt (if nbi then .putNbi else .put) gpu) = .ok s')
      (hx : if n = 0 then xs = [] else PutPairs (procs S g) (pathOf (S.cf p) .put gpu mode) (ctxObj (g.pe p) ctx) p tgt addr
        src oc tc oty tty xs)
      (d : Done (g.fly p) s') :
      Step S g (.put p tgt nbi ctx addr xs (g.arr p)) (after g p s'
        (xs.map fun x => if nbi then .mv p x.2 tgt x.1 else .set tgt x.1 (g.mem p x.2)))
  /-- get, get_nbi, iget -/
  | get {g : G} (p tgt : Nat) (nbi : Bool) (ctx : Option (Nat × Nat)) (addr dst : BitVec 64) (n : Nat) (gpu : Bool)
      (mode : Mode) (oc tc : Nat) (oty tty : Ty) (xs : List (Int × Int)) (s' : St) (hf : Free S g p)
      (hm : mode = .abs → (S.cf p).dyn = true)
      (e : Order.step (S.cf p) (g.pe p) (.issue ctx addr n tgt (if nbi then .getNbi else .get) gpu) = .ok s')
      (hx : if n = 0 then xs = [] else GetPairs (procs S g) (pathOf (S.cf p) .get gpu mode) (ctxObj (g.pe p) ctx) p tgt addr
        dst oc tc oty tty xs)
      (d : Done (g.fly p) s') :
      Step S g (.get p tgt nbi ctx addr xs (g.arr p)) (after g p s' (xs.map fun x => .mv tgt x.2 p x.1))
  /-- AMOs without a result -/
  | amo {g : G} (p tgt : Nat) (ctx : Option (Nat × Nat)) (addr r : BitVec 64) (ty : TyIdx) (api : Amo.Api) (gpu : Bool)
      (mode : Mode) (s' : St) (hf : Free S g p) (hm : mode = .abs → (S.cf p).dyn = true) (ht : ty ∈ api.types)
      (hk : returns api = false)
      (e : Order.step (S.cf p) (g.pe p) (.issue ctx addr 1 tgt (amoKind api) gpu) = .ok s')
      (hr : resolve (procs S g) (pathOf (S.cf p) (amoKind api) gpu mode) (ctxObj (g.pe p) ctx) p tgt addr = .ok r)
      (d : Done (g.fly p) s') :
      Step S g (.amo p tgt ctx addr r.toInt ty api (g.arr p))
        (after g p s' [.upd tgt r.toInt ty api (!(S.cf p).isDirect (amoKind api) gpu)])
  /-- AMOs with a result, also the `_nbi` ones (same bodies): the call waits for the result (`ctx_local_complete_impl`,
  amo_impl.h L26, L69; the reply, amo_am_impl.h L43-46, L86-89). What is left outstanding by MPI has nothing more to do
  (trusted: when the result is there, the access has been performed). -/
  | amoRet {g : G} (p tgt : Nat) (ctx : Option (Nat × Nat)) (addr r : BitVec 64) (ty : TyIdx) (api : Amo.Api) (gpu : Bool)
      (mode : Mode) (s' : St) (hf : Free S g p) (hm : mode = .abs → (S.cf p).dyn = true) (ht : ty ∈ api.types)
      (hk : returns api = true)
      (e : Order.step (S.cf p) (g.pe p) (.issue ctx addr 1 tgt (amoKind api) gpu) = .ok s')
      (hr : resolve (procs S g) (pathOf (S.cf p) (amoKind api) gpu mode) (ctxObj (g.pe p) ctx) p tgt addr = .ok r)
      (d : Done (g.fly p) s') :
      Step S g (.amo p tgt ctx addr r.toInt ty api (g.arr p))
        (afterRet g p s' [.upd tgt r.toInt ty api (!(S.cf p).isDirect (amoKind api) gpu)])
  /-- a store of the program to its own memory -/
  | store {g : G} (p : Nat) (a : Int) (v : BitVec 8) (hf : Free S g p) :
      Step S g (.store p a v) { g with mem := Function.update g.mem p (Function.update (g.mem p) a v) }
  /-- one read of `OSHMPI_WAIT_UNTIL` or `OSHMPI_TEST`: `MPI_Fetch_and_op(MPI_NO_OP)` on the own PE through the window of the default context,
  whatever the configuration says about atomics, and `MPI_Win_flush_local` (p2p_impl.h L41-51, L67-76). That the flush completes other
  operations locally is not used. -/
  | poll {g : G} (p : Nat) (addr r : BitVec 64) (n : Nat) (mode : Mode) (hf : Free S g p) (hm : mode = .abs → (S.cf p).dyn = true)
      (hr : resolve (procs S g) (.direct mode) none p p addr = .ok r) :
      Step S g (.poll p r.toInt n ((view (g.mem p) r.toInt).load 0 n)) g
  /-- an access of a lock call: an atomic operation and the `MPI_Win_flush` after it, or a store through the caller's own pointer (lock_impl.h
  L52-78, L107-133, L158-161). Which bytes are written is not restricted here (more executions); `Lock.wstep` says which (`Crit`). -/
  | touch {g : G} (p : Nat) (ws : List (Nat × Int × BitVec 8)) (hf : Free S g p) :
      Step S g (.touch p ws) { g with mem := touched g.mem ws }
  /-- quiet, fence, and the calls on spaces and contexts -/
  | call {g : G} (p : Nat) (op : Op) (s' : St) (hf : Free S g p) (l : Order.legal (g.pe p) op)
      (hop : ∀ c ad n t k gp, op ≠ .issue c ad n t k gp) (e : Order.step (S.cf p) (g.pe p) op = .ok s')
      (d : Done (g.fly p) s') : Step S g (.call p op) (after g p s' [])
  /-- `OSHMPI_barrier_all` up to entering `MPI_Barrier` -/
  | enter {g : G} (p : Nat) (s' : St) (hf : Free S g p)
      (e : Order.barrierLocal (S.cf p) (g.pe p) (List.range S.npes) = .ok s') (d : Done (g.fly p) s') :
      Step S g (.enter p) { after g p s' [] with arr := Function.update g.arr p (g.arr p + 1) }
  /-- `MPI_Barrier` returns -/
  | leave {g : G} (p : Nat) (hp : p < S.npes) (h0 : g.lv p < g.arr p) (ha : ∀ q < S.npes, g.lv p < g.arr q) :
      Step S g (.leave p) { g with lv := Function.update g.lv p (g.lv p + 1) }
  /-- an access of an operation in flight is performed -/
  | perform {g : G} (q : Nat) (l1 l2 : List Fly) (pd : Pend) (t1 t2 : List Atom) (a : Atom) (m' : Mems) (hq : q < S.npes)
      (hl : g.fly q = l1 ++ ⟨pd, t1 ++ a :: t2⟩ :: l2) (e : a.perform S.fp S.junk g.mem = .ok m') :
      Step S g (.done q a (a.result S.fp S.junk g.mem)) { g with mem := m', fly := Function.update g.fly q (l1 ++ ⟨pd, t1 ++ t2⟩ :: l2) }
  /-- an access of the blocking call a PE is in is performed -/
  | performBusy {g : G} (q : Nat) (t1 t2 : List Atom) (a : Atom) (m' : Mems) (hq : q < S.npes)
      (hl : g.busy q = t1 ++ a :: t2) (e : a.perform S.fp S.junk g.mem = .ok m') :
      Step S g (.done q a (a.result S.fp S.junk g.mem)) { g with mem := m', busy := Function.update g.busy q (t1 ++ t2) }
  /-- MPI completes operations, at any time -/
  | fin {g : G} (q : Nat) (done : Pend → Bool) (hq : q < S.npes) (d : Done (g.fly q) ((g.pe q).drop done)) :
      Step S g .tau { g with
        pe := Function.update g.pe q ((g.pe q).drop done)
        fly := Function.update g.fly q (settle (g.fly q) ((g.pe q).drop done)) }

/-- a finite execution with its events -/
inductive Run (S : Sys) : G → List Ev → G → Prop
  | nil (g : G) : Run S g [] g
  | cons {g g1 g2 : G} {e : Ev} {l : List Ev} (s : Step S g e g1) (r : Run S g1 l g2) : Run S g (e :: l) g2

/-- a state of some execution -/
def Reach (S : Sys) (g : G) : Prop := ∃ m l, Run S (ginit m) l g

end Verif.Vis
