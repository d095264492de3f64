import Verif.Vis.Model
import Verif.Api.Coll
/-!
# Collective calls in executions of all PEs

`Vis` has the puts, gets, AMOs, stores, fences and barriers of all PEs, interleaved. `Api.Coll` says what a collective routine does to the
memories when all members call it together, as if at one moment (`run p : Mems → Res Mems`: `broadcastT`, `fcollectT`, `reduceT`, …). Here the
members enter and leave the call at different moments, between which MPI reads and writes byte by byte while the other PEs go on.

MPI's part (MPI-3 5.1, trusted): the `n`-th collective calls of the members on a communicator belong together. While a member is in its call,
MPI reads its buffers, at any moment for each byte, but each byte before it is overwritten; it may use the receive buffer as work space; a byte of
the result can be there as soon as the bytes read so far determine it. A member leaves when its result is complete. Nothing says that a member
waits for another one whose bytes its result does not depend on.

The routines (coll_impl.h L51-160, coll_activeset_impl.h L177-313, called from coll.c, coll_typed.c.tpl, coll_activeset.c, reduce_*.c.tpl) make
these MPI calls and a `memcpy` at the root of a broadcast; the progress loop (am_progress_impl.h L84-173) only calls handlers of other PEs'
active messages meanwhile, which are steps `done` of the PEs that sent them. None of them completes puts or AMOs.
-/
namespace Verif.Joint
open Verif.Rma Verif.Vis

/-- a collective call of all members: what PE `p`'s call does to the memories (`Api/Coll.lean`: coll_typed.c.tpl L11-49, coll.c L28-68,
coll_activeset.c L20-82, reduce_*.c.tpl) -/
abbrev Op := Nat → Mems → Res Mems

/-- the bytes of PE `p` the call may change -/
def Op.Changes (o : Op) (p : Nat) (a : Int) : Prop := ∃ m m', o p m = .ok m' ∧ m' p a ≠ m p a

/-- All PEs: the state of `Vis`; the number of collective calls each PE has made on each communicator; the call it is in (communicator, number);
what has been read for a call; the bytes of the call's result that are in memory. -/
structure X where
  g : G
  cnt : Nat → Nat → Nat
  loc : Nat → Option (Nat × Nat)
  cap : Nat × Nat → Nat → Int → Option (BitVec 8)
  fin : Nat → Int → Prop

/-- start-up (`Vis.ginit`), no collective call yet -/
def xinit (m : Mems) : X := ⟨ginit m, fun _ _ => 0, fun _ => none, fun _ _ _ => none, fun _ _ => False⟩

/-- what happens in a step: a step of `Vis`; PE `p` calls a collective routine; bytes are read for its call; a byte is used as work space; a byte
of the result is written; the call returns -/
inductive XEv where
  | vis (e : Ev)
  | enter (p : Nat) (i : Nat × Nat)
  | read (p : Nat)
  | scratch (p : Nat) (a : Int) (v : BitVec 8)
  | deliver (p : Nat) (a : Int) (v : BitVec 8)
  | leave (p : Nat) (i : Nat × Nat)

/-- the PE that makes the call; `none`: no PE's program goes on in this step -/
def caller : Ev → Option Nat
  | .put p _ _ _ _ _ _ => some p
  | .get p _ _ _ _ _ _ => some p
  | .amo p _ _ _ _ _ _ _ => some p
  | .store p _ _ => some p
  | .poll p _ _ _ => some p
  | .touch p _ => some p
  | .call p _ => some p
  | .enter p => some p
  | .leave p => some p
  | .done _ _ _ => none
  | .tau => none

/-- the step in terms of `Vis`: MPI writing a byte for PE `p`'s call is like a store of `p` -/
def XEv.ev : XEv → List Ev
  | .vis e => [e]
  | .enter _ _ => []
  | .read _ => []
  | .scratch p a v => [.store p a v]
  | .deliver p a v => [.store p a v]
  | .leave _ _ => []

/-- is the byte written, now or later, because of this step? -/
def XEv.writes (k : Nat × Int) (e : XEv) : Prop := ∃ w ∈ e.ev, w.writes k

/-- byte `a` of PE `p` replaced -/
def setByte (m : Mems) (p : Nat) (a : Int) (v : BitVec 8) : Mems := Function.update m p (Function.update (m p) a v)

/-- the memories in which the bytes read so far are as read -/
def Agrees (cap : Nat → Int → Option (BitVec 8)) (m : Mems) : Prop := ∀ q b v, cap q b = some v → m q b = v

/-- read the bytes in `B` of PE `p`'s memory for its call, those not yet read -/
def grab (x : X) (i : Nat × Nat) (p : Nat) (B : Int → Bool) : Nat → Int → Option (BitVec 8) :=
  fun q b => if q = p ∧ B b = true ∧ x.cap i p b = none then some (x.g.mem p b) else x.cap i q b

/-- One step of the whole system; `prog c n` is the `n`-th collective call on communicator `c`. -/
inductive XStep (S : Sys) (prog : Nat → Nat → Op) : X → XEv → X → Prop
  /-- a PE that is not in a collective call goes on, or operations in flight do -/
  | vis {x : X} (e : Ev) (g' : G) (h : Step S x.g e g') (hp : ∀ p, caller e = some p → x.loc p = none) :
      XStep S prog x (.vis e) { x with g := g' }
  /-- a collective routine is called -/
  | enter {x : X} (p c : Nat) (hf : Free S x.g p) (hl : x.loc p = none) :
      XStep S prog x (.enter p (c, x.cnt c p)) { x with
        cnt := Function.update x.cnt c (Function.update (x.cnt c) p (x.cnt c p + 1))
        loc := Function.update x.loc p (some (c, x.cnt c p))
        fin := Function.update x.fin p (fun _ => False) }
  /-- MPI reads -/
  | read {x : X} (p : Nat) (i : Nat × Nat) (B : Int → Bool) (hl : x.loc p = some i) :
      XStep S prog x (.read p) { x with cap := Function.update x.cap i (grab x i p B) }
  /-- MPI uses a byte of the receive buffer as work space -/
  | scratch {x : X} (p : Nat) (i : Nat × Nat) (a : Int) (v : BitVec 8) (hl : x.loc p = some i) (hw : Op.Changes (prog i.1 i.2) p a)
      (hr : x.cap i p a ≠ none) :
      XStep S prog x (.scratch p a v) { x with
        g := { x.g with mem := setByte x.g.mem p a v }
        fin := Function.update x.fin p (Function.update (x.fin p) a False) }
  /-- a byte of the result, which is determined by what has been read -/
  | deliver {x : X} (p : Nat) (i : Nat × Nat) (a : Int) (v : BitVec 8) (hl : x.loc p = some i) (hw : Op.Changes (prog i.1 i.2) p a)
      (hr : x.cap i p a ≠ none) (hv : ∀ m, Agrees (x.cap i) m → ∃ m', prog i.1 i.2 p m = .ok m' ∧ m' p a = v) :
      XStep S prog x (.deliver p a v) { x with
        g := { x.g with mem := setByte x.g.mem p a v }
        fin := Function.update x.fin p (Function.update (x.fin p) a True) }
  /-- the call returns -/
  | leave {x : X} (p : Nat) (i : Nat × Nat) (hl : x.loc p = some i) (hr : ∀ b, x.cap i p b ≠ none)
      (hw : ∀ a, Op.Changes (prog i.1 i.2) p a → x.fin p a) :
      XStep S prog x (.leave p i) { x with loc := Function.update x.loc p none }

/-- an execution of `N` steps: its states and events -/
structure XExec (S : Sys) (prog : Nat → Nat → Op) (N : Nat) (st : Nat → X) (ev : Nat → XEv) : Prop where
  init : ∃ m, st 0 = xinit m
  step : ∀ k < N, XStep S prog (st k) (ev k) (st (k + 1))

end Verif.Joint
