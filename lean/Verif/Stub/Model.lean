import Verif.P2p.Model
import Verif.Base.CInt
/-!
# Routines without an implementation

`/repo/src/shmem/signal.c`, `signal_typed.c.tpl`, `signal_sized.c.tpl`, the vector routines of `p2p_typed.c.tpl`,
`shmem_signal_wait_until` (p2p.c), `context.c` and `shmem_team_sync` (coll.c).
-/
namespace Verif.Stub
open Verif.P2p

/-- `OSHMPI_ASSERT(0)`, oshmpi_util.h L71-81: aborts, or (built with `--enable-fast=ndebug`, configure.ac L261-262) does nothing -/
def assert0 (ndebug : Bool) : Res Unit := if ndebug then .ok () else .abort

/-- `SHMEM_OTHER_ERR`, include/shmem.h.in.tpl L79, as the `int` it is -/
def otherErr : Int := -2

/-- an `int` returned as `size_t` or `uint64_t` -/
def asSize (x : Int) : BitVec 64 := BitVec.ofInt 64 x

/-- arguments of the vector routines of p2p_typed.c.tpl: what the variables hold while the call runs (read number, index), how many there are,
which are excluded (`status` entry not 0; `NULL`: none), comparison and value per element (the `_vector` forms give
one value per element, the others the same for all) -/
structure Vec (t : CTy) where
  obs : Nat → Nat → BitVec t.bits
  n : Nat
  excl : Nat → Bool
  op : Int
  val : Nat → BitVec t.bits

/-- `shmem_TYPENAME_wait_until_all`, `_all_vector`: p2p_typed.c.tpl L19-23, L39-43 -/
def waitAll {t : CTy} (nd : Bool) (_ : Vec t) : Res Unit := assert0 nd

/-- `shmem_TYPENAME_wait_until_any`, `_any_vector`: p2p_typed.c.tpl L25-30, L45-50 -/
def waitAny {t : CTy} (nd : Bool) (_ : Vec t) : Res (BitVec 64) := (assert0 nd).bind fun _ => .ok (asSize otherErr)

/-- `shmem_TYPENAME_wait_until_some`, `_some_vector`: p2p_typed.c.tpl L32-37, L52-57; the indices written (none) and the number returned -/
def waitSome {t : CTy} (nd : Bool) (_ : Vec t) (indices : Nat → BitVec 64) : Res ((Nat → BitVec 64) × BitVec 64) :=
  (assert0 nd).bind fun _ => .ok (indices, asSize otherErr)

/-- `shmem_TYPENAME_test_all`, `_all_vector`: p2p_typed.c.tpl L67-72, L88-93 -/
def testAll {t : CTy} (nd : Bool) (_ : Vec t) : Res Int := (assert0 nd).bind fun _ => .ok otherErr

/-- `shmem_TYPENAME_test_any`, `_any_vector`: p2p_typed.c.tpl L74-79, L95-100 -/
def testAny {t : CTy} (nd : Bool) (_ : Vec t) : Res (BitVec 64) := (assert0 nd).bind fun _ => .ok (asSize otherErr)

/-- `shmem_TYPENAME_test_some`, `_some_vector`: p2p_typed.c.tpl L81-86, L102-107 -/
def testSome {t : CTy} (nd : Bool) (_ : Vec t) (indices : Nat → BitVec 64) : Res ((Nat → BitVec 64) × BitVec 64) :=
  (assert0 nd).bind fun _ => .ok (indices, asSize otherErr)

/-- all forms of put with signal: signal.c L10-32, signal_typed.c.tpl L14-37, signal_sized.c.tpl L14-37; `m` is the
memory of all PEs by address -/
def putSignal (nd : Bool) (m : Nat → Int → BitVec 8) (_dest _src : Int) (_nbytes : Nat) (_sig : Int) (_signal : BitVec 64) (_add : Bool) (_pe : Nat) :
    Res (Nat → Int → BitVec 8) := (assert0 nd).bind fun _ => .ok m

/-- `shmem_signal_fetch`, signal.c L34-38 -/
def signalFetch (nd : Bool) (_word : BitVec 64) : Res (BitVec 64) := (assert0 nd).bind fun _ => .ok (asSize otherErr)

/-- `shmem_signal_wait_until`, p2p.c L49-53; the values successive reads would give -/
def signalWait (nd : Bool) (_obs : Nat → BitVec 64) (_op : Int) (_val : BitVec 64) : Res (BitVec 64) :=
  (assert0 nd).bind fun _ => .ok (asSize otherErr)

/-- a team handle: include/shmem.h.in.tpl L91-93, or a pointer to a team made by a split -/
inductive Team where
  | invalid | world | shared | obj (k : Nat)
deriving DecidableEq

/-- a context handle: include/shmem.h.in.tpl L107-108, or a pointer to a context of a space -/
inductive Ctx where
  | invalid | dflt | obj (k : Nat)
deriving DecidableEq

/-- `shmem_ctx_create`, context.c L9-19: the handle stored and the value returned -/
def ctxCreate (_options : Int) : Ctx × Int := (.invalid, -1)

/-- `shmem_team_create_ctx`, context.c L29-37 -/
def teamCreateCtx (team : Team) (_options : Int) : Ctx × Int := if team = .invalid then (.invalid, otherErr) else (.invalid, -1)

/-- `shmem_ctx_get_team`, context.c L39-47 -/
def ctxGetTeam (ctx : Ctx) : Team × Int := if ctx = .dflt then (.world, 0) else (.invalid, otherErr)

/-- `shmem_team_sync`, coll.c L14-21: what it returns, and whether it has called `OSHMPI_sync_all` -/
def teamSync (team : Team) : Int × Bool := if team = .world then (0, true) else (otherErr, false)

end Verif.Stub
