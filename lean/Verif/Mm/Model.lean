import Verif.Dl.Props
import Verif.Space.Alloc
/-!
# All the symmetric memory of a PE: the heap and the spaces, by the names the user calls

Sources: `/repo/src/shmem/mem.c` L10-89, `/repo/src/internal/mem_impl.c` L10-95, `/repo/src/shmemx/space.c` L11-66,
`/repo/src/internal/space_impl.c` L166-249, L362-391, on top of the allocator of the heap (`Verif.Dl`, dlmalloc.c) and of the spaces
(`Verif.MemPool`, mem_pool.c). The calls of the threads of a PE are in critical sections (mem_impl.c L17-19, L34-46, L57-59, L71-73,
L86-88; space_impl.c L200-203, L227-230, L366-368, L385-387), so they form a sequence.

Pointers are numbers below 2^64; NULL is 0. The recursion marker `OSHMPI_NOINLINE_RECURSIVE` is left out.
-/
namespace Verif.Mm
open Verif.Heap (accepted trueSize heapSize maxRequest callocReq)

/-- The heap as set up: its address, the page size `2^k`, the size `S` from the environment (setup_impl.c L171-184, L252-269). -/
structure Cfg where
  base : Nat
  k : Nat
  S : Nat

/-- A space (`OSHMPI_space_t`, oshmpi_impl.h L156-167): the address of its structure, which is the user's handle, its memory and its
pool (space_impl.c L168, L187, L194). `live` is not in the code: the pool's blocks, each with the size that was passed to the pool. -/
structure Sp where
  id : Nat
  base : Nat
  size : Nat
  pool : MemPool.Pool
  live : List (Nat × Nat)

/-- The allocator state of a PE: `OSHMPI_global.symm_heap_mspace` and `OSHMPI_global.space_list` in list order. -/
structure St where
  heap : Dl.St
  spaces : List Sp

/-- what a call gives the user as a pointer -/
inductive Ptr where
  | null
  | at_ (p : Nat)
  /-- memory that dlmalloc took from the system because the heap is exhausted, outside all symmetric objects (C47) -/
  | system
deriving DecidableEq, Repr

/-- What a call returns, and how many times it called `OSHMPI_barrier_all`. -/
structure Ret where
  ptr : Ptr
  barriers : Nat
deriving DecidableEq, Repr

/-- What the surroundings do in a call: whether the system gives dlmalloc memory; where `OSHMPIU_malloc` puts a space's structure and
memory (space_impl.c L168, L187); the `size_t` words of the memory at the time of the call. Simplified as in `Dl/Model`: memory of the
system serves one request and is not kept in the heap as a further segment (dlmalloc.c L3995-4045, L4230). -/
structure Env where
  os : Bool
  handle : Nat
  mem : Nat
  word : Nat → Nat

/-! ## The heap: `mem_impl.c` -/

/-- address of the pointer of the block at offset 0 of the heap (`Verif.Heap.Hist`) -/
def Cfg.a0 (C : Cfg) : Nat := C.base + 960

/-- Result of a heap call: an offset becomes a pointer; if the heap cannot serve the request of `req` bytes, dlmalloc asks the system
(`sys_alloc`, dlmalloc.c L4051-4070), unless it is too large. -/
def Cfg.ptr (C : Cfg) (os : Bool) (req : Nat) : Option Nat → Ptr
  | some q => .at_ (C.a0 + q)
  | none => if os = true ∧ req < maxRequest then .system else .null

/-- A call of an `mspace_` routine that is legal or whose use is undefined, and then `OSHMPI_barrier_all`; `req`: what is asked from
the system if the heap is exhausted. -/
def heapCall (C : Cfg) (s : St) (e : Env) (req : Nat) (c : Heap.Call) : Res (St × Ret) :=
  match Dl.step C.a0 s.heap e.os c with
  | some (h, o) => .ok ({ s with heap := h }, ⟨C.ptr e.os req o, 1⟩)
  | none => .ub

/-- `OSHMPI_malloc`, mem_impl.c L10-26. -/
def malloc (C : Cfg) (s : St) (e : Env) (size : Nat) : Res (St × Ret) :=
  if size = 0 then .ok (s, ⟨.null, 0⟩) else heapCall C s e size (.malloc size)

/-- `OSHMPI_calloc`, mem_impl.c L80-95 -/
def calloc (C : Cfg) (s : St) (e : Env) (count size : Nat) : Res (St × Ret) :=
  if size = 0 then .ok (s, ⟨.null, 0⟩) else heapCall C s e (callocReq count size) (.calloc count size)

/-- The loop of `internal_memalign`, dlmalloc.c L4879-4881: `a <<= 1` in `size_t`. -/
def double (al : Nat) : Nat → Nat → Res Nat
  | 0, _ => .hang
  | n + 1, a => if a < al then double al n (2 * a % 2 ^ 64) else .ok a

/-- The alignment that `internal_memalign` uses, dlmalloc.c L4876-4883, for an `al` above `MALLOC_ALIGNMENT` (16). -/
def roundAl (al : Nat) : Res Nat :=
  let a := if al < 32 then 32 else al
  if a &&& (a - 1) ≠ 0 then double a 64 32 else .ok a

/-- `OSHMPI_align`, mem_impl.c L67-78: `mspace_memalign` (dlmalloc.c L5789-5799), for any alignment. -/
def align (C : Cfg) (s : St) (e : Env) (al size : Nat) : Res (St × Ret) :=
  if al ≤ 16 then heapCall C s e size (.malloc size)
  else (roundAl al).bind fun a => heapCall C s e (if size < maxRequest - a then Heap.need size + a + 24 else maxRequest) (.align a.log2 size)

/-- the offset of the heap block with pointer `p`, if there is one -/
def Cfg.block (C : Cfg) (s : St) (p : Nat) : Option Nat :=
  if C.a0 ≤ p ∧ (s.heap.live.lookup (p - C.a0)).isSome then some (p - C.a0) else none

/-- `try_realloc_chunk` (dlmalloc.c L4802-4871) for a pointer that is no block of the heap: it takes what is before the pointer for
a chunk header; if the checks L4807 fail, `USAGE_ERROR_ACTION` L4868 is `ABORT` (L2781), otherwise the memory is treated as a chunk
(undefined). `least_addr` (L5391) is the heap's base; macros L2255-2258, L3007-3013. -/
def foreign (C : Cfg) (e : Env) (p : Nat) : Res (St × Ret) :=
  let ch := p - 16
  let head := e.word (ch + 8)
  let next := (ch + head / 8 * 8) % 2 ^ 64
  if C.base ≤ ch ∧ head % 4 ≠ 1 ∧ ch < next ∧ e.word (next + 8) % 2 = 1 then .ub else .abort

/-- `OSHMPI_realloc`, mem_impl.c L50-65, with `mspace_realloc`, dlmalloc.c L5713-5755: always the heap's. -/
def realloc (C : Cfg) (s : St) (e : Env) (p size : Nat) : Res (St × Ret) :=
  if size = 0 ∧ p = 0 then .ok (s, ⟨.null, 0⟩)
  else if p = 0 then heapCall C s e size (.malloc size)
  else if maxRequest ≤ size then .ok (s, ⟨.null, 1⟩)
  else match C.block s p with
    | some off => heapCall C s e size (.realloc off size)
    | none => foreign C e p

/-! ## The spaces: `space_impl.c` -/

/-- `OSHMPI_sobj_check_range` (oshmpi_impl.h L629-634) on the attributes of a space (space_impl.c L197) -/
def Sp.hasB (t : Sp) (p : Nat) : Bool := Sobj.inRange ⟨0#32, BitVec.ofNat 64 t.base, (t.size : Int), none⟩ (BitVec.ofNat 64 p)

/-- the space with handle `id` gets another pool -/
def setPool (l : List Sp) (id : Nat) (pool : MemPool.Pool) (live : List (Nat × Nat)) : List Sp :=
  l.map (fun t => if t.id = id then { t with pool := pool, live := live } else t)

/-- blocks of a pool after `p` was freed (not in the code) -/
def drop (p : Nat) (l : List (Nat × Nat)) : List (Nat × Nat) := match l.lookup p with
  | some r => l.erase (p, r)
  | none => l

/-- `OSHMPI_space_free`, space_impl.c L383-391 -/
def spaceFree (s : St) (t : Sp) (p : Nat) : Res St :=
  (MemPool.free t.pool p).bind fun pool => .ok { s with spaces := setPool s.spaces t.id pool (drop p t.live) }

/-- `OSHMPI_free`, mem_impl.c L28-48. A pointer into the heap that is no block is an undefined use. -/
def free (C : Cfg) (s : St) (e : Env) (p : Nat) : Res (St × Ret) :=
  if accepted C.base C.k C.S p then
    match C.block s p with
    | some off => match Dl.step C.a0 s.heap e.os (.free off) with
      | some (h, _) => .ok ({ s with heap := h }, ⟨.null, 1⟩)
      | none => .ub
    | none => .ub
  else match s.spaces.find? (fun t => t.hasB p) with
    | some t => (spaceFree s t p).bind fun s' => .ok (s', ⟨.null, 1⟩)
    | none => .ok (s, ⟨.null, 1⟩)

/-- the size of a space's memory, space_impl.c L175: `OSHMPI_ALIGN(sheap_size, page_sz)` -/
def Cfg.spaceSize (C : Cfg) (size : Nat) : Nat := calignN size (2 ^ C.k)

/-- `OSHMPI_space_create`, space_impl.c L166-222, for host memory (the assertion L171; `num_contexts`, hints and contexts are in
`Verif.Space`). The handle is returned through a parameter; here it is the pointer. `LL_APPEND` L201 puts the space last. -/
def create (C : Cfg) (s : St) (e : Env) (size : Nat) : Res (St × Ret) :=
  if size = 0 then .abort
  else (MemPool.init e.mem (C.spaceSize size) (2 ^ C.k)).bind fun pool =>
    .ok ({ s with spaces := s.spaces ++ [⟨e.handle, e.mem, C.spaceSize size, pool, []⟩] }, ⟨.at_ e.handle, 0⟩)

/-- `OSHMPI_space_destroy`, space_impl.c L225-249: out of the list (`LL_DELETE` L228), then the pool's assertion (L232). A handle that
is not in the list is an undefined use. -/
def destroy (s : St) (id : Nat) : Res (St × Ret) :=
  match s.spaces.find? (fun t => t.id = id) with
  | some t => (MemPool.destroy t.pool).bind fun _ => .ok ({ s with spaces := s.spaces.filter (fun t => t.id ≠ id) }, ⟨.null, 0⟩)
  | none => .ub

/-- `OSHMPI_space_malloc`, space_impl.c L362-374 -/
def spaceMalloc (s : St) (id size : Nat) : Res (St × Ret) :=
  match s.spaces.find? (fun t => t.id = id) with
  | some t => (MemPool.alloc t.pool size).bind fun r => match r.2 with
    | some p => .ok ({ s with spaces := setPool s.spaces id r.1 ((p, size) :: t.live) }, ⟨.at_ p, 1⟩)
    | none => .ok ({ s with spaces := setPool s.spaces id r.1 t.live }, ⟨.null, 1⟩)
  | none => .ub

/-- `OSHMPI_space_align`, space_impl.c L377-380 -/
def spaceAlign (s : St) (id al size : Nat) : Res (St × Ret) := spaceMalloc s id (calignN size al)

/-! ## The names: `shmem/mem.c`, `shmemx/space.c` -/

/-- The public routines with their arguments (mem.c L10-88, shmemx/space.c L11-64); `P`: pointers, `H`: handles of spaces. -/
inductive CallOf (P H : Type) where
  | shmem_malloc (size : Nat)
  | shmem_malloc_with_hints (size : Nat) (hints : Int)
  | shmem_calloc (count size : Nat)
  | shmem_align (alignment size : Nat)
  | shmem_realloc (ptr : P) (size : Nat)
  | shmem_free (ptr : P)
  | shmalloc (size : Nat)
  | shmemalign (alignment size : Nat)
  | shrealloc (ptr : P) (size : Nat)
  | shfree (ptr : P)
  | shmemx_space_create (size : Nat)
  | shmemx_space_destroy (space : H)
  | shmemx_space_malloc (space : H) (size : Nat)
  | shmemx_space_calloc (space : H) (count size : Nat)
  | shmemx_space_align (space : H) (alignment size : Nat)
deriving DecidableEq, Repr

/-- a call with addresses and handles of one PE (mem.c L10-88, shmemx/space.c L11-64) -/
abbrev Call := CallOf Nat Nat

/-- `shmem_malloc`, mem.c L10-16 -/
def shmem_malloc (C : Cfg) (s : St) (e : Env) (size : Nat) : Res (St × Ret) := malloc C s e size

/-- `shmem_free`, mem.c L18-22 -/
def shmem_free (C : Cfg) (s : St) (e : Env) (p : Nat) : Res (St × Ret) := free C s e p

/-- `shmem_realloc`, mem.c L24-30 -/
def shmem_realloc (C : Cfg) (s : St) (e : Env) (p size : Nat) : Res (St × Ret) := realloc C s e p size

/-- `shmem_align`, mem.c L32-38 -/
def shmem_align (C : Cfg) (s : St) (e : Env) (al size : Nat) : Res (St × Ret) := align C s e al size

/-- `shmem_calloc`, mem.c L51-66 -/
def shmem_calloc (C : Cfg) (s : St) (e : Env) (count size : Nat) : Res (St × Ret) :=
  if count = 0 ∨ size = 0 then .ok (s, ⟨.null, 0⟩) else calloc C s e count size

/-- `shmemx_space_calloc`, shmemx/space.c L49-56: `count` is not used; `memset` through NULL is undefined. -/
def space_calloc (s : St) (id _count size : Nat) : Res (St × Ret) :=
  (spaceMalloc s id size).bind fun r => if r.2.ptr = .null then .ub else .ok r

/-- One call. Names: mem.c L10-88 (`shmem_malloc_with_hints` L40-49 ignores the hints, the deprecated names L70-88 forward), shmemx/space.c
L11-21, L41-64. -/
def step (C : Cfg) (s : St) (e : Env) : Call → Res (St × Ret)
  | .shmem_malloc n => shmem_malloc C s e n
  | .shmem_malloc_with_hints n _ => malloc C s e n
  | .shmem_calloc c n => shmem_calloc C s e c n
  | .shmem_align a n => shmem_align C s e a n
  | .shmem_realloc p n => shmem_realloc C s e p n
  | .shmem_free p => shmem_free C s e p
  | .shmalloc n => shmem_malloc C s e n
  | .shmemalign a n => shmem_align C s e a n
  | .shrealloc p n => shmem_realloc C s e p n
  | .shfree p => shmem_free C s e p
  | .shmemx_space_create n => create C s e n
  | .shmemx_space_destroy t => destroy s t
  | .shmemx_space_malloc t n => spaceMalloc s t n
  | .shmemx_space_calloc t c n => space_calloc s t c n
  | .shmemx_space_align t a n => spaceAlign s t a n

/-! ## What the user knows -/

/-- The blocks the user holds (pointer, bytes asked for) after a call, from the arguments and the returned pointer alone. Memory from the system
is not listed. After a `realloc` that returned NULL the old block is still held. -/
def after (held : List (Nat × Nat)) (r : Ret) : Call → List (Nat × Nat)
  | .shmem_malloc n => got n held
  | .shmem_malloc_with_hints n _ => got n held
  | .shmem_calloc c n => got (c * n) held
  | .shmem_align _ n => got n held
  | .shmem_realloc p n => moved p n
  | .shmem_free p => held.filter (fun x => x.1 ≠ p)
  | .shmalloc n => got n held
  | .shmemalign _ n => got n held
  | .shrealloc p n => moved p n
  | .shfree p => held.filter (fun x => x.1 ≠ p)
  | .shmemx_space_create _ => held
  | .shmemx_space_destroy _ => held
  | .shmemx_space_malloc _ n => got n held
  | .shmemx_space_calloc _ c n => got (c * n) held
  | .shmemx_space_align _ _ n => got n held
where
  /-- a new block of `n` bytes (result of the allocation routines, mem.c L10-66) -/
  got (n : Nat) (held : List (Nat × Nat)) : List (Nat × Nat) := match r.ptr with
    | .at_ p => (p, n) :: held
    | .null => held
    | .system => held
  /-- `p` became a block of `n` bytes (result of `shmem_realloc`, mem.c L24-30) -/
  moved (p n : Nat) : List (Nat × Nat) := match r.ptr with
    | .at_ q => (q, n) :: held.filter (fun x => x.1 ≠ p)
    | .null => held
    | .system => held.filter (fun x => x.1 ≠ p)

/-- Arguments as OpenSHMEM and the extension want them, as far as the code can be blamed for nothing: sizes are `size_t`; `realloc` and
`free` get NULL, a block that is held, or (`free`) an address in no symmetric object. For spaces: the sizes that the pool handles (C10), `count` 1 (C53).
For a new space: `malloc` puts it in memory that is not in use, below 2^63. -/
def Legal (C : Cfg) (s : St) (held : List (Nat × Nat)) (e : Env) : Call → Prop
  | .shmem_malloc n => n < 2 ^ 64
  | .shmem_malloc_with_hints n _ => n < 2 ^ 64
  | .shmem_calloc c n => c < 2 ^ 64 ∧ n < 2 ^ 64
  | .shmem_align a n => n < 2 ^ 64 ∧ a ≤ 2 ^ 63
  | .shmem_realloc p n => n < 2 ^ 64 ∧ (p = 0 ∨ p ∈ held.map Prod.fst)
  | .shmem_free p => freed p
  | .shmalloc n => n < 2 ^ 64
  | .shmemalign a n => n < 2 ^ 64 ∧ a ≤ 2 ^ 63
  | .shrealloc p n => n < 2 ^ 64 ∧ (p = 0 ∨ p ∈ held.map Prod.fst)
  | .shfree p => freed p
  | .shmemx_space_create n => 0 < n ∧ placed (C.spaceSize n) ∧ n + 2 ^ C.k ≤ 2 ^ 63 ∧ C.spaceSize n / 2 ^ C.k ≤ IntMax
  | .shmemx_space_destroy t => t ∈ s.spaces.map Sp.id
  | .shmemx_space_malloc t n => t ∈ s.spaces.map Sp.id ∧ MemPool.Valid (2 ^ C.k) n
  | .shmemx_space_calloc t c n => t ∈ s.spaces.map Sp.id ∧ MemPool.Valid (2 ^ C.k) n ∧ c = 1
  | .shmemx_space_align t a n => t ∈ s.spaces.map Sp.id ∧ MemPool.Valid (2 ^ C.k) (calignN n a) ∧ (∃ j, j < 64 ∧ a = 2 ^ j) ∧ n + a ≤ 2 ^ 64
where
  /-- `p` is in no symmetric object (mem_impl.c L33, L41) -/
  elsewhere (p : Nat) : Prop := ¬(C.base ≤ p ∧ p < C.base + trueSize C.k C.S) ∧ ∀ t ∈ s.spaces, ¬(t.base ≤ p ∧ p < t.base + t.size)
  /-- arguments of `shmem_free` (mem.c L18-22) -/
  freed (p : Nat) : Prop := p < 2 ^ 63 ∧ (p ∈ held.map Prod.fst ∨ elsewhere p)
  /-- where `malloc` can put a new space of `n` bytes (space_impl.c L168, L187) -/
  placed (n : Nat) : Prop := 0 < e.mem ∧ e.mem + n ≤ 2 ^ 63 ∧ e.handle ∉ s.spaces.map Sp.id ∧
    (e.mem + n ≤ C.base ∨ C.base + trueSize C.k C.S ≤ e.mem) ∧ ∀ t ∈ s.spaces, e.mem + n ≤ t.base ∨ t.base + t.size ≤ e.mem

/-- Histories of legal calls on one PE: its state and the blocks that the user holds. -/
inductive Hist (C : Cfg) : St → List (Nat × Nat) → Prop
  | init {h : Heap.Heap} : Heap.fresh C.k C.S = some h → Hist C ⟨⟨h, .init, []⟩, []⟩ []
  | call {s s' : St} {held : List (Nat × Nat)} {e : Env} {c : Call} {r : Ret} : Hist C s held → Legal C s held e c →
      step C s e c = .ok (s', r) → Hist C s' (after held r c)

end Verif.Mm
