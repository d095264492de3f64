import Verif.Rma.Model
/-!
# Collectives

`/repo/src/internal/coll_impl.h` (teams), `/repo/src/internal/coll_activeset_impl.h` (active sets),
`/repo/src/internal/am_progress_impl.h` L84-173 (blocking call, or non-blocking call + progress loop: same result),
`/repo/src/shmem/coll.c`, `coll_typed.c.tpl`, `coll_activeset.c`, `reduce_*.c.tpl` (which only pass arguments on).

A communicator is the list of its members (world PE numbers) in rank order. Every member contributes one MPI call; the
MPI standard (trusted) says what the calls do together. Members that make different calls do not match: `hang`.
-/
namespace Verif.Coll
open Verif.Rma

/-! ## MPI -/

/-- integer type of `k` bytes, or another arithmetic type (floating, complex) with its number and size -/
inductive RTy where
  | int (signed : Bool) (k : Nat)
  | other (id k : Nat)
deriving DecidableEq, Repr

/-- size in bytes -/
def RTy.size : RTy → Nat
  | .int _ k => k
  | .other _ k => k

/-- predefined reduction operators -/
inductive ROp where
  | sum | prod | min | max | band | bor | bxor
deriving DecidableEq, Repr

/-- signed value of a `k`-byte number -/
def sval (k v : Nat) : Int := (v : Int).bmod (256 ^ k)

/-- an operator on integers of `k` bytes (values below `256 ^ k`) -/
def ROp.int (signed : Bool) (k : Nat) : ROp → Nat → Nat → Nat
  | .sum, a, b => (a + b) % 256 ^ k
  | .prod, a, b => (a * b) % 256 ^ k
  | .min, a, b => if signed then (if sval k a ≤ sval k b then a else b) else (if a ≤ b then a else b)
  | .max, a, b => if signed then (if sval k a ≤ sval k b then b else a) else (if a ≤ b then b else a)
  | .band, a, b => a &&& b
  | .bor, a, b => a ||| b
  | .bxor, a, b => a ^^^ b

/-- operator on a type; `fl` gives the operators of the other types -/
def ev (fl : Nat → ROp → Nat → Nat → Nat) : RTy → ROp → Nat → Nat → Nat
  | .int s k, op, a, b => op.int s k a b
  | .other id _, op, a, b => fl id op a b

/-- order and bracketing in which MPI combines the ranks' contributions -/
inductive Tree where
  | leaf (r : Nat)
  | node (l r : Tree)
deriving DecidableEq, Repr

/-- ranks combined -/
def Tree.leaves : Tree → List Nat
  | .leaf r => [r]
  | .node l r => l.leaves ++ r.leaves

/-- the combination -/
def Tree.eval (f : Nat → Nat → Nat) (v : Nat → Nat) : Tree → Nat
  | .leaf r => v r
  | .node l r => f (l.eval f v) (r.eval f v)

/-- value of the `k` bytes at `a`, little-endian -/
def ld (m : IMem) (a : Int) : Nat → Nat
  | 0 => 0
  | k + 1 => (m a).toNat + 256 * ld m (a + 1) k

/-- the `k` bytes of a value -/
def bytesOf (v : Nat) : Nat → List (BitVec 8)
  | 0 => []
  | k + 1 => BitVec.ofNat 8 v :: bytesOf (v / 256) k

/-- one MPI collective call by one member -/
inductive Call where
  | bcast (buf count : Int) (ty : Ty) (root : Int)
  | allgather (sbuf scount : Int) (sty : Ty) (rbuf rcount : Int) (rty : Ty)
  | allgatherv (sbuf scount : Int) (sty : Ty) (rbuf : Int) (rcounts displs : List Int) (rty : Ty)
  | alltoall (sbuf scount : Int) (sty : Ty) (rbuf rcount : Int) (rty : Ty)
  /-- `sbuf = none` is `MPI_IN_PLACE` -/
  | allreduce (sbuf : Option Int) (rbuf count : Int) (ty : RTy) (op : ROp)

/-- which collective -/
def Call.kind : Call → Nat
  | .bcast _ _ _ _ => 0
  | .allgather _ _ _ _ _ _ => 1
  | .allgatherv _ _ _ _ _ _ _ => 2
  | .alltoall _ _ _ _ _ _ => 3
  | .allreduce _ _ _ _ _ => 4

/-- arguments MPI rejects (error, hence abort): negative counts, root out of range -/
def Call.bad (n : Nat) : Call → Bool
  | .bcast _ c _ root => decide (c < 0) || decide (root < 0) || decide ((n : Int) ≤ root)
  | .allgather _ c _ _ d _ => decide (c < 0) || decide (d < 0)
  | .allgatherv _ c _ _ ds _ _ => decide (c < 0) || ds.any (fun d => decide (d < 0))
  | .alltoall _ c _ _ d _ => decide (c < 0) || decide (d < 0)
  | .allreduce _ _ c _ _ => decide (c < 0)

/-- root of a broadcast -/
def Call.root : Call → Int
  | .bcast _ _ _ root => root
  | .allgather _ _ _ _ _ _ => 0
  | .allgatherv _ _ _ _ _ _ _ => 0
  | .alltoall _ _ _ _ _ _ => 0
  | .allreduce _ _ _ _ _ => 0

/-- addresses of the bytes that rank `j` sends to rank `r`, in order -/
def Call.send (j r : Nat) : Call → List Int
  | .bcast b c ty root => if (j : Int) = root ∧ (r : Int) ≠ root then addrs b c.toNat ty else []
  | .allgather b c ty _ _ _ => addrs b c.toNat ty
  | .allgatherv b c ty _ _ _ _ => addrs b c.toNat ty
  | .alltoall b c ty _ _ _ => addrs (b + (r : Int) * (c * ty.extent)) c.toNat ty
  | .allreduce _ _ _ _ _ => []

/-- addresses where rank `r` puts the bytes from rank `j`, in order -/
def Call.recv (r j : Nat) : Call → List Int
  | .bcast b c ty root => if (j : Int) = root ∧ (r : Int) ≠ root then addrs b c.toNat ty else []
  | .allgather _ _ _ b c ty => addrs (b + (j : Int) * (c * ty.extent)) c.toNat ty
  | .allgatherv _ _ _ b cs ds ty => addrs (b + ds.getD j 0 * ty.extent) (cs.getD j 0).toNat ty
  | .alltoall _ _ _ b c ty => addrs (b + (j : Int) * (c * ty.extent)) c.toNat ty
  | .allreduce _ _ _ _ _ => []

/-- new memory of each member -/
def onMembers (ms : List Nat) (f : Nat → IMem) (m : Mems) : Mems :=
  fun p => if p ∈ ms then f (ms.idxOf p) else m p

/-- Data exchange: `S j r` is what rank `j` sends to `r`, `R r j` where `r` puts it. Different amounts, and receive
buffers overlapping send buffers, are erroneous. -/
def xchg (ms : List Nat) (S R : Nat → Nat → List Int) (m : Mems) : Res Mems :=
  let n := ms.length
  if (List.range n).any (fun r => (List.range n).any fun j => (S j r).length != (R r j).length) then .ub
  else if (List.range n).any (fun r => (List.range n).any fun j => (List.range n).any fun q =>
      (R r j).any fun a => (S r q).contains a) then .ub
  else .ok (onMembers ms (fun r => writes (m (ms.getD r 0))
    ((List.range n).flatMap fun j => (R r j).zip ((S j r).map (m (ms.getD j 0))))) m)

/-- byte ranges overlap -/
def overlap (a b : Int) (len : Nat) : Bool := decide (0 < len) && (decide (a < b + len) && decide (b < a + len))

/-- arguments of `MPI_Allreduce` -/
structure Red where
  sbuf : Option Int
  rbuf : Int
  count : Int
  ty : RTy
  op : ROp

/-- address of the contribution -/
def Red.src (a : Red) : Int := a.sbuf.getD a.rbuf

/-- the arguments, if it is one -/
def Call.red : Call → Option Red
  | .bcast _ _ _ _ => none
  | .allgather _ _ _ _ _ _ => none
  | .allgatherv _ _ _ _ _ _ _ => none
  | .alltoall _ _ _ _ _ _ => none
  | .allreduce s r c ty op => some ⟨s, r, c, ty, op⟩

/-- `MPI_Allreduce`: element by element, in an order MPI chooses (`tr rank element`). All members give the same count, type,
operator and in-place choice; send and receive buffer do not overlap. -/
def allreduce (fl : Nat → ROp → Nat → Nat → Nat) (tr : Nat → Nat → Tree) (ms : List Nat) (a : Nat → Red) (m : Mems) :
    Res Mems :=
  let n := ms.length
  let k := (a 0).ty.size
  if (List.range n).any (fun r => decide ((a r).count ≠ (a 0).count) || decide ((a r).ty ≠ (a 0).ty) ||
      decide ((a r).op ≠ (a 0).op) || decide ((a r).sbuf.isSome ≠ (a 0).sbuf.isSome)) then .ub
  else if (List.range n).any (fun r => (a r).sbuf.any (fun s => overlap s (a r).rbuf ((a 0).count.toNat * k))) then .ub
  else .ok (onMembers ms (fun r => writes (m (ms.getD r 0))
    ((List.range (a 0).count.toNat).flatMap fun (e : Nat) =>
      ((List.range k).map (fun (b : Nat) => (a r).rbuf + (e : Int) * k + (b : Int))).zip
        (bytesOf ((tr r e).eval (ev fl (a 0).ty (a 0).op) (fun q => ld (m (ms.getD q 0)) ((a q).src + (e : Int) * k) k)) k))) m)

/-- All members' calls together. -/
def mpi (fl : Nat → ROp → Nat → Nat → Nat) (tr : Nat → Nat → Tree) (ms : List Nat) (calls : Nat → Call) (m : Mems) :
    Res Mems :=
  let n := ms.length
  if (List.range n).any (fun r => (calls r).kind != (calls 0).kind) then .hang
  else if (List.range n).any (fun r => (calls r).bad n) then .abort
  else if (List.range n).any (fun r => decide ((calls r).root ≠ (calls 0).root)) then .ub
  else match (calls 0).red with
    | some a0 => allreduce fl tr ms (fun r => ((calls r).red).getD a0) m
    | none => xchg ms (fun j r => (calls j).send j r) (fun r j => (calls r).recv r j) m

/-! ## Active sets: communicators and their cache -/

/-- an active set (`PE_start`, `logPE_stride`, `PE_size`); negative arguments are erroneous -/
structure ASet where
  start : Nat
  lg : Nat
  size : Nat
deriving DecidableEq, Repr

/-- the PE list built by coll_activeset_impl.h L101-103 -/
def ASet.pes (k : ASet) : List Nat := (List.range k.size).map (fun i => k.start + i * 2 ^ k.lg)

/-- coll_activeset_impl.h L96-110: the shift and the `int` arithmetic must not overflow; `MPI_Group_incl` rejects PEs out
of range; an empty set has no member to call it -/
def newComm (npes : Nat) (k : ASet) : Res (List Nat) :=
  if 31 ≤ k.lg then .ub
  else if k.size = 0 then .ub
  else if k.pes.any (fun p => decide (IntMax < p)) then .ub
  else if k.pes.any (fun p => decide (npes ≤ p)) then .abort
  else .ok k.pes

/-- `OSHMPI_comm_cache_obj_t`, coll_activeset_impl.h L9-16 (key, and the communicator) -/
structure CEntry where
  key : ASet
  comm : List Nat
deriving DecidableEq, Repr

/-- `OSHMPI_comm_cache_t`, coll_activeset_impl.h L18-22 -/
structure Cache where
  objs : List CEntry
  nobjs : Int
deriving DecidableEq, Repr

/-- `OSHMPI_coll_initialize`, coll_impl.c L10-19 -/
def Cache.init : Cache := ⟨[], 0⟩

/-- `coll_find_comm_cache`, coll_activeset_impl.h L52-71 -/
def Cache.find (c : Cache) (k : ASet) : Option (List Nat) :=
  (c.objs.find? (fun e => e.key.start == k.start && e.key.lg == k.lg && e.key.size == k.size)).map (·.comm)

/-- `coll_set_comm_cache`, coll_activeset_impl.h L29-49 -/
def Cache.set (c : Cache) (k : ASet) (comm : List Nat) : Cache := ⟨⟨k, comm⟩ :: c.objs, c.nobjs + 1⟩

/-- `coll_acquire_comm`, coll_activeset_impl.h L73-116: communicator, cache after, and whether
`MPI_Comm_create_group` was called -/
def acquire (npes : Nat) (c : Cache) (k : ASet) : Res (List Nat × Cache × Bool) :=
  if k.start = 0 ∧ k.lg = 0 ∧ k.size = npes then .ok (List.range npes, c, false)
  else match c.find k with
    | some comm => .ok (comm, c, false)
    | none => (newComm npes k).bind fun comm => .ok (comm, c.set k comm, true)

/-- `OSHMPI_coll_finalize`, coll_impl.c L21-35: frees every cached communicator, then asserts the counter is 0 -/
def Cache.finalize (c : Cache) : Res (List (List Nat)) :=
  if c.nobjs - c.objs.length = 0 then .ok (c.objs.map (·.comm)) else .abort

/-! ## The collectives -/

/-- `coll_check_root_in_active_set`, coll_activeset_impl.h L162-175 -/
def rootIn (root : Nat) (k : ASet) : Bool := (List.range k.size).any (fun i => root == k.start + i * 2 ^ k.lg)

/-- every member gets from the root one after the other: coll_activeset_impl.h L191-206; `root` is used as a PE number -/
def gets (procs : Nat → Sobj.Proc) (mode : Sobj.Mode) (kb root : Nat) (src dst : Nat → BitVec 64) (nelems : Nat) :
    List Nat → Mems → Res Mems
  | [], m => .ok m
  | p :: ps, m =>
    (resolve procs (.direct mode) none p root (src p)).bind fun r =>
      (mpiXfer (m root) (m p) r.toInt (toI32 nelems) (Ty.basic kb) (dst p).toInt (toI32 nelems) (Ty.basic kb)).bind
        fun x => gets procs mode kb root src dst nelems ps (Function.update m p x)

/-- `OSHMPI_broadcast`, coll_activeset_impl.h L177-208, called by all members of `k` (communicator `ms`) with the same
`root` and `nelems`; `src p`, `dst p` are the pointers PE `p` passes; `kb` = element size (4 or 8) -/
def broadcast (procs : Nat → Sobj.Proc) (mode : Sobj.Mode) (kb : Nat) (k : ASet) (ms : List Nat) (root : Nat)
    (src dst : Nat → BitVec 64) (nelems : Nat) (m : Mems) : Res Mems :=
  if rootIn root k then
    mpi (fun _ _ a _ => a) (fun _ _ => .leaf 0) ms (fun r =>
      let p := ms.getD r 0
      .bcast (if root = p then src p else dst p).toInt (toI32 nelems) (Ty.basic kb) root) m
  else gets procs mode kb root src dst nelems ms m

/-- `OSHMPI_broadcast_team`, coll_impl.h L51-68: `ms` = members of the team, `root` a team PE number. The `memcpy` at the
root must not overlap. -/
def broadcastTeam (kb : Nat) (ms : List Nat) (root : Nat) (src dst : Nat → Int) (nelems : Nat) (m : Mems) : Res Mems :=
  (mpi (fun _ _ a _ => a) (fun _ _ => .leaf 0) ms (fun r =>
    let p := ms.getD r 0
    .bcast (if root = r then src p else dst p) (toI32 nelems) (Ty.basic kb) root) m).bind fun m1 =>
  let p := ms.getD root 0
  let len := nelems * kb % 2 ^ 64
  if overlap (src p) (dst p) len then .ub
  else .ok (Function.update m1 p (fun x => if dst p ≤ x ∧ x < dst p + len then m1 p (src p + (x - dst p)) else m1 p x))

/-- running displacements, coll_impl.h L88-91, coll_activeset_impl.h L229-232, in `int`: `none` on overflow (undefined) -/
def displs : Int → List Int → Option (List Int)
  | _, [] => some []
  | d, [_] => some [d]
  | d, c :: c2 :: cs => if (IntMax : Int) < d + c ∨ d + c < -(2 ^ 31) then none else (displs (d + c) (c2 :: cs)).map (fun l => d :: l)

/-- one member of `OSHMPI_collect_team` / `OSHMPI_collect` (coll_impl.h L86-100, coll_activeset_impl.h L227-240) with its
own `nelems`, after the exchange of the counts as `int`s (the low half of a `size_t`, little-endian) -/
def collectCall (kb : Nat) (rcounts ds : List Int) (nelems : Nat) (src dst : Int) : Call :=
  if rcounts.all (fun c => nelems == toU64 c) then
    .allgather src (toI32 nelems) (Ty.basic kb) dst (toI32 nelems) (Ty.basic kb)
  else .allgatherv src (toI32 nelems) (Ty.basic kb) dst rcounts ds (Ty.basic kb)

/-- `OSHMPI_collect_team` / `OSHMPI_collect` called by all members: rank `r` contributes `ns r` elements -/
def collect (kb : Nat) (ms : List Nat) (ns : Nat → Nat) (src dst : Nat → Int) (m : Mems) : Res Mems :=
  let rcounts := (List.range ms.length).map (fun r => toI32 (ns r))
  match displs 0 rcounts with
  | none => .ub
  | some ds => mpi (fun _ _ a _ => a) (fun _ _ => .leaf 0) ms
      (fun r => collectCall kb rcounts ds (ns r) (src r) (dst r)) m

/-- `OSHMPI_fcollect_team` / `OSHMPI_fcollect`, coll_impl.h L106-111, coll_activeset_impl.h L246-255 -/
def fcollect (kb : Nat) (ms : List Nat) (nelems : Nat) (src dst : Nat → Int) (m : Mems) : Res Mems :=
  mpi (fun _ _ a _ => a) (fun _ _ => .leaf 0) ms (fun r =>
    .allgather (src r) (toI32 nelems) (Ty.basic kb) (dst r) (toI32 nelems) (Ty.basic kb)) m

/-- `OSHMPI_alltoall_team` / `OSHMPI_alltoall`, coll_impl.h L113-118, coll_activeset_impl.h L257-266 -/
def alltoall (kb : Nat) (ms : List Nat) (nelems : Nat) (src dst : Nat → Int) (m : Mems) : Res Mems :=
  mpi (fun _ _ a _ => a) (fun _ _ => .leaf 0) ms (fun r =>
    .alltoall (src r) (toI32 nelems) (Ty.basic kb) (dst r) (toI32 nelems) (Ty.basic kb)) m

/-- the datatype arguments of the strided all-to-all: coll_impl.h L133-140, coll_activeset_impl.h L282-289; the extent is
`nelems * stride` in `size_t` -/
def stridedKey (nelems : Nat) (stride : Int) (base : Nat) : Key := ⟨nelems, stride, base, toU64 (nelems * stride)⟩

/-- `OSHMPI_alltoalls_team` / `OSHMPI_alltoalls`, coll_impl.h L120-151, coll_activeset_impl.h L268-300. `sc sty` and `rc rty`
are what `OSHMPI_create_strided_dtype` returned for `stridedKey nelems sst` and `stridedKey nelems dst` on rank `r` (for
equal strides the code takes the first for both). -/
def alltoalls (ms : List Nat) (src dst : Nat → Int) (sc : Nat → Nat) (sty : Nat → Ty) (rc : Nat → Nat) (rty : Nat → Ty)
    (m : Mems) : Res Mems :=
  mpi (fun _ _ a _ => a) (fun _ _ => .leaf 0) ms (fun r =>
    .alltoall (src r) (toI32 (sc r)) (sty r) (dst r) (toI32 (rc r)) (rty r)) m

/-- `OSHMPI_allreduce_team` / `OSHMPI_allreduce`, coll_impl.h L153-160, coll_activeset_impl.h L302-313, with the type and
operator the typed template passes -/
def reduce (fl : Nat → ROp → Nat → Nat → Nat) (tr : Nat → Nat → Tree) (ms : List Nat) (ty : RTy) (op : ROp)
    (src dst : Nat → Int) (nreduce : Nat) (m : Mems) : Res Mems :=
  mpi fl tr ms (fun r => .allreduce (if src r = dst r then none else some (src r)) (dst r) (toI32 nreduce) ty op) m

end Verif.Coll
