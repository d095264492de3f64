import Verif.Base.CInt
/-!
# Point-to-point synchronisation, `/repo/src/internal/p2p_impl.h`

`MPI_Fetch_and_op(MPI_NO_OP)` on the caller's own PE followed by a flush reads the variable atomically: the model gets
the values the successive reads return as a sequence. Addressing (p2p_impl.h L41-46, L67-72) is the subject of C12-C15.
-/
namespace Verif.P2p

/-- a type of `/repo/maint/p2p_typedef.txt`: width in bits and signedness -/
structure CTy where
  bits : Nat
  signed : Bool
deriving DecidableEq, Repr

/-- the types the routines are generated for, maint/p2p_typedef.txt (LP64): short, int, long, long long, their
unsigned versions, int32, int64, uint32, uint64, size_t, ptrdiff_t -/
def types : List CTy :=
  [⟨16, true⟩, ⟨32, true⟩, ⟨64, true⟩, ⟨64, true⟩, ⟨16, false⟩, ⟨32, false⟩, ⟨64, false⟩, ⟨64, false⟩, ⟨32, true⟩,
   ⟨64, true⟩, ⟨32, false⟩, ⟨64, false⟩, ⟨64, false⟩, ⟨64, true⟩]

/-- the number a bit pattern of the type stands for; both operands of a comparison have the type, promotion of `short`
keeps the number -/
def CTy.val (t : CTy) (x : BitVec t.bits) : Int := if t.signed then x.toInt else x.toNat

/-- `OSHMPI_COMP`, p2p_impl.h L13-31; codes from include/shmem.h.in.tpl L133-138. `ret` is the variable's content
before. The default branch asserts that the code is *outside* EQ..LE, which is always so there: nothing happens. -/
def comp (t : CTy) (a : BitVec t.bits) (op : Int) (b : BitVec t.bits) (ret : Nat) : Nat :=
  if op = 0x100001 then (if t.val a = t.val b then 1 else 0)
  else if op = 0x100002 then (if t.val a ≠ t.val b then 1 else 0)
  else if op = 0x100003 then (if t.val a > t.val b then 1 else 0)
  else if op = 0x100004 then (if t.val a ≥ t.val b then 1 else 0)
  else if op = 0x100005 then (if t.val a < t.val b then 1 else 0)
  else if op = 0x100006 then (if t.val a ≤ t.val b then 1 else 0)
  else ret

/-- the loop of `OSHMPI_WAIT_UNTIL`, p2p_impl.h L47-56, from read number `i` on with `comp_ret = ret`, at most `fuel`
iterations; `some (k, v)`: it returned after read `k` which gave `v`. The progress calls of L54-55 have no effect on
the caller other than through the values read. -/
def waitLoop (t : CTy) (obs : Nat → BitVec t.bits) (op : Int) (b : BitVec t.bits) :
    Nat → Nat → Nat → Option (Nat × BitVec t.bits)
  | 0, _, _ => none
  | fuel + 1, i, ret =>
    let ret := comp t (obs i) op b ret
    if ret ≠ 0 then some (i, obs i) else waitLoop t obs op b fuel (i + 1) ret

/-- `shmem_TYPENAME_wait_until`, p2p_typed.c.tpl L13-17 (`comp_ret = 0` at the start, p2p_impl.h L39) -/
def waitUntil (t : CTy) (obs : Nat → BitVec t.bits) (op : Int) (b : BitVec t.bits) (fuel : Nat) :
    Option (Nat × BitVec t.bits) := waitLoop t obs op b fuel 0 0

/-- `shmem_TYPENAME_test`, p2p_typed.c.tpl L59-65 (`test_ret = 0` at the start) -/
def test (t : CTy) (a : BitVec t.bits) (op : Int) (b : BitVec t.bits) : Nat := comp t a op b 0

/-- the deprecated `shmem_TYPENAME_wait`, p2p.c L18-46 -/
def wait (t : CTy) (obs : Nat → BitVec t.bits) (b : BitVec t.bits) (fuel : Nat) : Option (Nat × BitVec t.bits) :=
  waitUntil t obs 0x100002 b fuel

end Verif.P2p
