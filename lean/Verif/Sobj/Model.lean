import Verif.Base.CInt
/-!
# Symmetric objects: handles, remote address translation, pointer lookup

`/repo/src/include/oshmpi_impl.h` L40-59 and L622-750, `/repo/src/internal/common.c`,
`/repo/src/internal/util/symm_mem.c` L177-206.
Addresses are 64-bit words; `MPI_Aint_add/diff` are word addition/subtraction (MPI standard, trusted).
-/
namespace Verif.Sobj

/-- `OSHMPI_sobj_kind_t`, oshmpi_impl.h L40-45. -/
inductive Kind where
  | data | heap | space | attached
deriving DecidableEq, Repr

/-- numeric value of the enum, L41-44 -/
def Kind.val : Kind → BitVec 32
  | .data => 0#32
  | .heap => 1#32
  | .space => 2#32
  | .attached => 3#32

/-- `OSHMPI_SOBJ_SET_HANDLE`, oshmpi_impl.h L58-59. `symm`, `idx` are C `int`s (32-bit words); `idx` is not masked. -/
def mkHandle (kind symm idx : BitVec 32) : BitVec 32 := (kind <<< 30) ||| (symm <<< 29) ||| idx

/-- `OSHMPI_SOBJ_HANDLE_GET_KIND`, L54 -/
def getKind (h : BitVec 32) : BitVec 32 := (h &&& 0xc0000000#32) >>> 30
/-- `OSHMPI_SOBJ_HANDLE_GET_SYMMBIT`, L55 -/
def getSymm (h : BitVec 32) : BitVec 32 := (h &&& 0x20000000#32) >>> 29
/-- `OSHMPI_SOBJ_HANDLE_CHECK_SYMMBIT`, L56 -/
def checkSymm (h : BitVec 32) : Bool := (h &&& 0x20000000#32) != 0#32
/-- `OSHMPI_SOBJ_HANDLE_GET_IDX`, L57 -/
def getIdx (h : BitVec 32) : BitVec 32 := h &&& 0x1FFFFFFF#32

/-- `OSHMPI_sobj_attr_t`, oshmpi_impl.h L139-148 (memkind is in the Gpu model). `offs` is `base_offsets`
(`none` = NULL pointer). -/
structure Attr where
  handle : BitVec 32
  base : BitVec 64
  size : Int
  offs : Option (Nat → BitVec 64)

/-- `OSHMPIU_check_symm_mem`, symm_mem.c L177-206, with the allgathered start addresses `bases` of `n` PEs, on PE
`me`: the flag and the offsets (kept only when not symmetric). -/
def checkSymmMem (n : Nat) (bases : Nat → BitVec 64) (me : Nat) : Bool × Option (Nat → BitVec 64) :=
  let flag := (List.range n).all (fun i => bases i == bases me)
  (flag, if flag then none else some (fun i => bases i - bases me))

/-- Attribute set-up of a symmetric object: `OSHMPI_sobj_init_attr` + `OSHMPI_sobj_symm_info_allgather` +
`OSHMPI_sobj_set_handle` (common.c L11-29; callers setup_impl.c L183-186, L221-223, L268-271,
space_impl.c L292-295). `dyn` = build with dynamic windows; otherwise the flag stays 0 and there are no offsets. -/
def setupAttr (dyn : Bool) (kind : Kind) (idx : Nat) (n : Nat) (bases : Nat → BitVec 64) (size : Int) (me : Nat) :
    Attr :=
  let r := if dyn then checkSymmMem n bases me else (false, none)
  { handle := mkHandle kind.val (if r.1 then 1#32 else 0#32) (BitVec.ofNat 32 idx)
    base := bases me, size := size, offs := r.2 }

/-- displacement modes, oshmpi_impl.h L114-117 -/
inductive Mode where
  | rel | abs
deriving DecidableEq, Repr

/-- `OSHMPI_sobj_trans_vaddr_to_disp`, oshmpi_impl.h L636-667. NULL `base_offsets` is UB. (In a build without dynamic
windows only `.rel` occurs, L119-123.) -/
def vaddrToDisp (a : Attr) (addr : BitVec 64) (target : Nat) : Mode → Res (BitVec 64)
  | .abs =>
    if checkSymm a.handle then .ok addr
    else match a.offs with
      | some f => .ok (addr + f target)
      | none => .ub
  | .rel => .ok (addr - a.base)

/-- The address MPI accesses on the target: window base plus displacement (`disp_unit` 1: space_impl.c L19,
setup_impl.c L229, L262), or the displacement itself in a dynamic window (MPI standard, trusted). -/
def mpiAddr (winBase : BitVec 64) (disp : BitVec 64) : Mode → BitVec 64
  | .rel => winBase + disp
  | .abs => disp

/-- `OSHMPI_sobj_check_range`, oshmpi_impl.h L629-634: signed comparison of addresses. -/
def inRange (a : Attr) (addr : BitVec 64) : Bool :=
  decide (a.base.toInt ≤ addr.toInt) && decide (addr.toInt < a.base.toInt + a.size)

/-- One PE's symmetric objects (`OSHMPI_global`, oshmpi_impl.h L185-224); spaces with a name each. -/
structure Proc where
  heap : Attr
  data : Attr
  spaces : List (Nat × Attr)

/-- An object found by the lookup. -/
inductive Obj where
  | heap | data | space (name : Nat)
deriving DecidableEq, Repr

/-- `OSHMPI_sobj_query_attr_ictx` on the default context, oshmpi_impl.h L681-716; `none` when nothing matches (the
callers then assert, e.g. rma_impl.h L119). -/
def query (g : Proc) (addr : BitVec 64) : Option (Obj × Attr) :=
  if inRange g.heap addr then some (.heap, g.heap)
  else if inRange g.data addr then some (.data, g.data)
  else match g.spaces.find? (fun s => inRange s.2 addr) with
    | some s => some (.space s.1, s.2)
    | none => none

/-- `OSHMPI_sobj_trans_disp_to_vaddr`, oshmpi_impl.h L719-750. A space that is not found leaves the NULL pointer, on
which every caller asserts (rma_am_impl.c L17, L32, L46, L69; amo_am_impl.c): `abort`. -/
def dispToVaddr (g : Proc) (h : BitVec 32) (disp : BitVec 64) : Res (BitVec 64) :=
  if getKind h = 1#32 then .ok (g.heap.base + disp)
  else if getKind h = 0#32 then .ok (g.data.base + disp)
  else if getKind h = 3#32 then
    match g.spaces.find? (fun s => s.2.handle == h) with
    | some s => .ok (s.2.base + disp)
    | none => .abort
  else .abort

end Verif.Sobj
