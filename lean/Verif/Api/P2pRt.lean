import Verif.Api.Amo
import Verif.P2p.Model
/-!
# The typed point-to-point routines

`/repo/src/shmem/p2p_typed.c.tpl` (`wait_until`, `test`; the vector routines are C69), the deprecated waits of
`/repo/src/shmem/p2p.c`, and `OSHMPI_WAIT_UNTIL`, `OSHMPI_TEST` (`/repo/src/internal/p2p_impl.h` L34-80) from the lookup of the
address to the bytes in the caller's memory.
-/
namespace Verif.Api
open Verif.Sobj Verif.Rma
open Verif.Amo (TyIdx OpIdx)

/-- maint/p2p_typedef.txt L2-15 -/
def p2pRows : List Row :=
  [⟨.short, .short⟩, ⟨.int, .int⟩, ⟨.long, .long⟩, ⟨.longlong, .longlong⟩, ⟨.ushort, .ushort⟩, ⟨.uint, .uint⟩, ⟨.ulong, .ulong⟩,
   ⟨.ulonglong, .ulonglong⟩, ⟨.int32, .int32⟩, ⟨.int64, .int64⟩, ⟨.uint32, .uint32⟩, ⟨.uint64, .uint64⟩, ⟨.size, .size⟩,
   ⟨.ptrdiff, .ptrdiff⟩]

/-- the routines: `shmem_TYPENAME_wait_until`, `shmem_TYPENAME_test`, the deprecated `shmem_TYPENAME_wait`, and, without C11,
`shmem_wait_until` and `shmem_wait` -/
inductive PRt where
  | waitUntil | test | wait | plainWaitUntil | plainWait
deriving DecidableEq, Repr

/-- TYPE and MPI type a routine exists for: p2p_typed.c.tpl, p2p.c L24-46, L12-22 -/
def PRt.rows : PRt → List Row
  | .waitUntil => p2pRows
  | .test => p2pRows
  | .wait => [⟨.short, .short⟩, ⟨.int, .int⟩, ⟨.long, .long⟩, ⟨.longlong, .longlong⟩]
  | .plainWaitUntil => [⟨.long, .long⟩]
  | .plainWait => [⟨.long, .long⟩]

/-- which macro a routine uses -/
inductive PVia where
  | wait | test
deriving DecidableEq, Repr

/-- the macro and the argument `comp_op`: p2p_typed.c.tpl L13-17, L59-65; p2p.c L24-46, L12-16, L18-22 -/
def PRt.body : PRt → Int → PVia × Int
  | .waitUntil, cmp => (.wait, cmp)
  | .test, cmp => (.test, cmp)
  | .wait, _ => (.wait, 0x100002)
  | .plainWaitUntil, cmp => (.wait, cmp)
  | .plainWait, _ => (.wait, 0x100002)

/-- signed integer types among those of the table; the others are unsigned (the C standard) -/
def ctSigned : CT → Bool
  | .short => true | .int => true | .long => true | .longlong => true | .int32 => true | .int64 => true | .ptrdiff => true
  | .schar => true | .int8 => true | .int16 => true | .char => true
  | .ushort => false | .uint => false | .ulong => false | .ulonglong => false | .uint32 => false | .uint64 => false | .size => false
  | .uchar => false | .uint8 => false | .uint16 => false | .float => false | .double => false | .longdouble => false

/-- the type of `tmp_var` and `cmp_value`: C_TYPE, p2p_impl.h L35, L62 -/
def CT.p2p (t : CT) : P2p.CTy := ⟨8 * t.sizeof, ctSigned t⟩

/-- one read: `MPI_Fetch_and_op(NULL, &tmp_var, MPI_TYPE, my_pe, target_disp, MPI_NO_OP, win)` and `MPI_Win_flush_local`,
p2p_impl.h L48-51, L73-76: the memories and `tmp_var` afterwards. `a`: the address the displacement stands for. If `MPI_TYPE` does not
have the size of `tmp_var`, bytes are undefined or the variable is overrun. -/
def p2pRead (r : Row) (me : Nat) (a : Int) (m : Mems) : Res (Mems × BitVec (8 * r.ty.sizeof)) :=
  if r.mpi.bytes = r.ty.sizeof then
    let x := Amo.mpiFetchOp (view (m me) a) 0 r.mpi.bytes .noop 0
    .ok (Function.update m me (unview (m me) a x.1), BitVec.ofNat _ x.2)
  else .ub

/-- the loop of `OSHMPI_WAIT_UNTIL`, p2p_impl.h L47-56, at most `fuel` times round: `env i` is what everybody else does to the
memories before read `i`, and the handlers called by L54-55. The result: the number of the last read and the memories after it;
`none`: still waiting. -/
def waitFrom (r : Row) (me : Nat) (a : Int) (op : Int) (v : BitVec (8 * r.ty.sizeof)) (env : Nat → Mems → Mems) :
    Nat → Nat → Nat → Mems → Res (Option (Nat × Mems))
  | 0, _, _, _ => .ok none
  | fuel + 1, i, ret, m =>
    (p2pRead r me a (env i m)).bind fun x =>
      let ret := P2p.comp r.ty.p2p x.2 op v ret
      if ret ≠ 0 then .ok (some (i, x.1)) else waitFrom r me a op v env fuel (i + 1) ret x.1

/-- what a routine has done after at most `fuel` reads: waiting, returned after read `k` without a value, or returned a value -/
inductive POut where
  | waiting
  | done (k : Nat) (m : Mems)
  | value (x : Nat) (m : Mems)

/-- how a wait ended, from the result of its loop: p2p_impl.h L53 -/
def POut.ofLoop : Option (Nat × Mems) → POut
  | none => .waiting
  | some y => .done y.1 y.2

/-- `OSHMPI_WAIT_UNTIL`, p2p_impl.h L34-57; the lookup (L41-46) is on the default context, with the caller as target; `mode`:
displacement mode of the window -/
def waitMacro (procs : Nat → Proc) (mode : Mode) (me : Nat) (r : Row) (ivar : BitVec 64) (op : Int) (v : BitVec (8 * r.ty.sizeof))
    (env : Nat → Mems → Mems) (fuel : Nat) (m : Mems) : Res POut :=
  (Rma.resolve procs (.direct mode) none me me ivar).bind fun a =>
    (waitFrom r me a.toInt op v env fuel 0 0 m).bind fun x => .ok (.ofLoop x)

/-- `OSHMPI_TEST`, p2p_impl.h L61-80, with `test_ret = 0` before (p2p_typed.c.tpl L61): the value returned, and the memories at
that time (L78-79 run handlers afterwards) -/
def testMacro (procs : Nat → Proc) (mode : Mode) (me : Nat) (r : Row) (ivar : BitVec 64) (op : Int) (v : BitVec (8 * r.ty.sizeof))
    (env : Nat → Mems → Mems) (m : Mems) : Res POut :=
  (Rma.resolve procs (.direct mode) none me me ivar).bind fun a =>
    (p2pRead r me a.toInt (env 0 m)).bind fun x => .ok (.value (P2p.comp r.ty.p2p x.2 op v 0) x.1)

/-- a routine -/
def PRt.run (rt : PRt) (procs : Nat → Proc) (mode : Mode) (me : Nat) (r : Row) (ivar : BitVec 64) (cmp : Int)
    (v : BitVec (8 * r.ty.sizeof)) (env : Nat → Mems → Mems) (fuel : Nat) (m : Mems) : Res POut :=
  match (rt.body cmp).1 with
  | .wait => waitMacro procs mode me r ivar (rt.body cmp).2 v env fuel m
  | .test => testMacro procs mode me r ivar (rt.body cmp).2 v env m

end Verif.Api
