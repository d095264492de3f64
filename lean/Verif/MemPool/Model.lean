import Verif.Base.CInt
/-!
# The chunk allocator of a space, `/repo/src/internal/util/mem_pool.c`

Addresses, sizes are numbers below 2^64; C `int` counters are `Int` with explicit conversions.
Reading or writing outside `chunks_nused` is `ub`.  The loop is run with fuel; running out of fuel is `hang`.
Concurrency: callers hold `space->mem_pool_cs` (space_impl.c L366-368, L385-387), so calls are sequential.
-/
namespace Verif.MemPool

/-- `OSUMPIU_mempool_t`, oshmpi_util.h L198-206 (`size` is not read after init and left out). -/
structure Pool where
  base : Nat
  chunk : Nat
  nchunks : Int
  nused : List Nat
deriving DecidableEq, Repr

/-- `OSHMPIU_mempool_init`, mem_pool.c L13-25. Division by zero is UB; a negative `nchunks` asks `malloc` for an
impossible amount, the assertion L21 then fails. -/
def init (base size chunk : Nat) : Res Pool :=
  if chunk = 0 then .ub
  else
    let nchunks := toI32 (size / chunk)
    if nchunks < 0 then .abort
    else .ok { base := base, chunk := chunk, nchunks := nchunks, nused := List.replicate nchunks.toNat 0 }

/-- `mem_pool->chunks_nused[i]` as an r-value. -/
def rd (l : List Nat) (i : Int) : Res Nat :=
  if i < 0 then .ub else match l[i.toNat]? with
    | some v => .ok v
    | none => .ub

/-- `mem_pool->chunks_nused[i] = v`. -/
def wr (l : List Nat) (i : Int) (v : Nat) : Res (List Nat) :=
  if i < 0 then .ub else if i.toNat < l.length then .ok (l.set i.toNat v) else .ub

/-- The loop of `OSHMPIU_mempool_alloc`, mem_pool.c L48-63; returns (off, navail) at exit.
`off += nused` is computed in `unsigned` and converted back. -/
def scan (l : List Nat) (nchunks nalloc : Int) : Nat → Int → Int → Res (Int × Int)
  | 0, _, _ => .hang
  | fuel + 1, off, navail =>
    if off < nchunks then
      (rd l off).bind fun nused =>
        if nused ≠ 0 then scan l nchunks nalloc fuel (toI32 (toU32 (off + nused))) 0
        else if navail + 1 = nalloc then .ok (off + 1, navail + 1)
        else scan l nchunks nalloc fuel (off + 1) (navail + 1)
    else .ok (off, navail)

/-- `nalloc`, mem_pool.c L45-46. -/
def nallocOf (p : Pool) (size : Nat) : Int := toI32 (calignN size p.chunk / p.chunk)

/-- `OSHMPIU_mempool_alloc`, mem_pool.c L40-72. `none` is the NULL pointer. -/
def alloc (p : Pool) (size : Nat) : Res (Pool × Option Nat) :=
  let nalloc := nallocOf p size
  (scan p.nused p.nchunks nalloc (p.nused.length + 1) 0 0).bind fun r =>
    if r.2 = nalloc then
      let first := r.1 - r.2
      (wr p.nused first (toU32 nalloc)).bind fun nused' =>
        .ok ({ p with nused := nused' }, some ((p.base + toU64 first * p.chunk) % 2 ^ 64))
    else .ok (p, none)

/-- index computed by `OSHMPIU_mempool_free`, mem_pool.c L79: the division is on `size_t`, the result is stored in an `int`. -/
def offOf (p : Pool) (ptr : Nat) : Int := toI32 (toU64 ((ptr : Int) - p.base) / p.chunk)

/-- `OSHMPIU_mempool_free`, mem_pool.c L75-82. -/
def free (p : Pool) (ptr : Nat) : Res Pool :=
  let off := offOf p ptr
  if 0 ≤ off ∧ off < p.nchunks then
    (rd p.nused off).bind fun v =>
      if v ≠ 0 then (wr p.nused off 0).bind fun l => .ok { p with nused := l }
      else .abort
  else .abort

/-- `OSHMPIU_mempool_destroy`, mem_pool.c L29-36: assertion that every counter is 0. -/
def destroy (p : Pool) : Res Unit :=
  if ∀ v ∈ p.nused, v = 0 then .ok () else .abort

end Verif.MemPool
