import Verif.Base.CInt
/-!
# The symmetric heap: dlmalloc as used by the library

`/repo/src/internal/util/dlmalloc.c`, compiled with `ONLY_MSPACES` (`/repo/src/internal/util/Makefile.mk` L5), 64 bit, so
without locks, footers and `MORECORE`. One `mspace` is created over the memory of the symmetric heap
(`create_mspace_with_base`, L5425-5438); the library calls `mspace_malloc`, `mspace_free`, `mspace_realloc`, `mspace_memalign`
and `mspace_calloc` on it, each inside a critical section (`/repo/src/internal/mem_impl.c`).

The model keeps the physical sequence of chunks of the heap's segment: from the first chunk after the allocator's own state up
to the `top` chunk. Which free chunk serves a request (bins, trees, `dv`) is left open: every choice of a large enough free
chunk is allowed, so the theorems hold for the real choice as well. How chunks are split and merged is modelled as in the code.
Memory obtained from the operating system when the heap is full (`sys_alloc`, L4051-4248) lies outside the segment; what
happens there is not modelled, except for its effect on the segment (`add_segment`, L3995-4046). Sizes are natural numbers;
requests of `MAX_REQUEST` bytes or more are refused before any arithmetic on them (L5547).
-/
namespace Verif.Heap

/-- `sizeof(struct malloc_state)` is 936 (dlmalloc.c L2575-2598), padded (L5384): offset of the first chunk -/
def hdr : Nat := 944
/-- `TOP_FOOT_SIZE`, L2728-2729: 0 + 48 + 32 -/
def foot : Nat := 80
/-- `MIN_CHUNK_SIZE`, L2210-2211 -/
def minChunk : Nat := 32
/-- `MAX_REQUEST`, L2220 -/
def maxRequest : Nat := 2 ^ 64 - 128
/-- `request2size`, L2221-2229: size of the chunk for a request -/
def need (req : Nat) : Nat := if req < 23 then 32 else (req + 23) / 16 * 16

/-- what a chunk is used for: free; in use, with the number of bytes the user asked for (not stored by the code); unusable
rest of a former `top` -/
inductive Use where
  | free
  | user (req : Nat)
  | dead
deriving DecidableEq, Repr

/-- a chunk: `chunksize` and state (head word and in-use bits, L2242-2258) -/
structure Chunk where
  size : Nat
  use : Use
deriving DecidableEq, Repr

/-- chunks of the heap's segment in address order, and `topsize` as long as `top` is in this segment -/
structure Heap where
  chunks : List Chunk
  top : Option Nat
deriving DecidableEq, Repr

/-- bytes covered by chunks -/
def total : List Chunk → Nat
  | [] => 0
  | c :: cs => c.size + total cs

/-- `create_mspace_with_base`/`init_user_mstate`, L5382-5404, L5425-5438, over `cap` bytes -/
def create (cap : Nat) : Option Heap := if hdr + foot < cap then some ⟨[], some (cap - hdr - foot)⟩ else none

/-- use `nb` bytes of a free chunk of size `s`: L5528-5536, L5560-5570, L4486-4492, L4525-4531 -/
def carve (s nb req : Nat) : List Chunk :=
  if s - nb < minChunk then [⟨s, .user req⟩] else [⟨nb, .user req⟩, ⟨s - nb, .free⟩]

/-- the chunk at offset `p`, with what is before and after it; `o` = offset of the first chunk -/
def find (p : Nat) : Nat → List Chunk → Option (List Chunk × Chunk × List Chunk)
  | _, [] => none
  | o, c :: cs => if o = p then some ([], c, cs)
      else (find p (o + c.size) cs).map (fun x => (c :: x.1, x.2.1, x.2.2))

/-- merge with a free chunk before: L5617-5638, L4367-4391 -/
def back : List Chunk → Nat → List Chunk × Nat
  | [], s => ([], s)
  | [⟨n, .free⟩], s => ([], n + s)
  | [⟨n, .user r⟩], s => ([⟨n, .user r⟩], s)
  | [⟨n, .dead⟩], s => ([⟨n, .dead⟩], s)
  | c :: d :: cs, s => let x := back (d :: cs) s; (c :: x.1, x.2)

/-- merge with `top` or a free chunk after: L5641-5670, L4392-4421 -/
def fwd (l : List Chunk) (s : Nat) : List Chunk → Option Nat → Heap
  | [], some t => ⟨l, some (s + t)⟩
  | [], none => ⟨l ++ [⟨s, .free⟩], none⟩
  | ⟨n, .free⟩ :: r, t => ⟨l ++ ⟨s + n, .free⟩ :: r, t⟩
  | ⟨n, .user q⟩ :: r, t => ⟨l ++ ⟨s, .free⟩ :: ⟨n, .user q⟩ :: r, t⟩
  | ⟨n, .dead⟩ :: r, t => ⟨l ++ ⟨s, .free⟩ :: ⟨n, .dead⟩ :: r, t⟩

/-- `mspace_free` (L5598-5691) and `dispose_chunk` (L4364-4425) on a chunk of `s` bytes between `l` and `r`. Segments that are
not the heap's may be given back to the system here (L5651, L5679); the heap's is not, being external (L5434). -/
def dispose (l : List Chunk) (s : Nat) (r : List Chunk) (t : Option Nat) : Heap := let x := back l s; fwd x.1 x.2 r t

/-- how a request is served -/
inductive Choice where
  /-- from the free chunk at this offset -/
  | chunk (p : Nat)
  /-- from `top`, L5576-5586 -/
  | top
  /-- from the operating system, or not at all: a result outside the heap. `seg`: a new segment was added, so `top` moves
  there (L4230, L3995-4046) -/
  | outside (seg : Bool)
deriving DecidableEq, Repr

/-- `mspace_malloc`, L5485-5596. Result: offset of the chunk (the pointer is 16 bytes further), or `none` for anything that is
not in the heap. -/
def malloc (h : Heap) (req : Nat) : Choice → Option (Heap × Option Nat)
  | .chunk p => if req < maxRequest then match find p 0 h.chunks with
      | some (l, ⟨s, .free⟩, r) => if need req ≤ s then some (⟨l ++ carve s (need req) req ++ r, h.top⟩, some p) else none
      | some (_, ⟨_, .user _⟩, _) => none
      | some (_, ⟨_, .dead⟩, _) => none
      | none => none
    else none
  | .top => if req < maxRequest then match h.top with
      | some t => if need req < t then some (⟨h.chunks ++ [⟨need req, .user req⟩], some (t - need req)⟩, some (total h.chunks)) else none
      | none => none
    else none
  | .outside false => some (h, none)
  | .outside true => match h.top with
      | some t => some (⟨h.chunks ++ [⟨t, if t < minChunk then .dead else .free⟩], none⟩, none)
      | none => some (h, none)

/-- `mspace_free`, L5598-5691; `none`: not an allocated chunk, a usage error (L5614, L5685) -/
def free (h : Heap) (p : Nat) : Option Heap := match find p 0 h.chunks with
  | some (l, ⟨s, .user _⟩, r) => some (dispose l s r h.top)
  | some (_, ⟨_, .free⟩, _) => none
  | some (_, ⟨_, .dead⟩, _) => none
  | none => none

/-- in `try_realloc_chunk` L4810-4818: keep `nb` bytes of a chunk of `s`, give back the rest -/
def shrink (l : List Chunk) (s nb req : Nat) (r : List Chunk) (t : Option Nat) : Heap :=
  if s - nb < minChunk then ⟨l ++ ⟨s, .user req⟩ :: r, t⟩ else dispose (l ++ [⟨nb, .user req⟩]) (s - nb) r t

/-- `try_realloc_chunk`, L4802-4871: resize the chunk in place, if possible. Extending into a free chunk (L4850-4866) and into
`dv` (L4830-4849) has the same effect on the chunks. -/
def tryRealloc (l : List Chunk) (s nb req : Nat) (r : List Chunk) (t : Option Nat) : Option Heap :=
  if nb ≤ s then some (shrink l s nb req r t)
  else match r, t with
    | [], some t => if nb < s + t then some ⟨l ++ [⟨nb, .user req⟩], some (s + t - nb)⟩ else none
    | [], none => none
    | ⟨n, .free⟩ :: r', t => if nb ≤ s + n then some ⟨l ++ carve (s + n) nb req ++ r', t⟩ else none
    | ⟨_, .user _⟩ :: _, _ => none
    | ⟨_, .dead⟩ :: _, _ => none

/-- `mspace_realloc`, L5713-5755, on an allocated chunk: in place, or `mspace_malloc`, copy, `mspace_free`. The result `none`
means: nothing in the heap; then the old block is kept if the result is NULL and freed otherwise (`moved`). -/
def realloc (h : Heap) (p req : Nat) (ch : Choice) (moved : Bool) : Option (Heap × Option Nat) :=
  if req < maxRequest then match find p 0 h.chunks with
    | some (l, ⟨s, .user _⟩, r) => match tryRealloc l s (need req) req r h.top with
      | some h' => some (h', some p)
      | none => match malloc h req ch with
        | some (h', some q) => (free h' p).map (fun h'' => (h'', some q))
        | some (h', none) => if moved then (free h' p).map (fun h'' => (h'', none)) else some (h', none)
        | none => none
    | some (_, ⟨_, .free⟩, _) => none
    | some (_, ⟨_, .dead⟩, _) => none
    | none => none
  else some (h, none)

/-- `internal_memalign` L4896-4921: bytes to skip so that the pointer, which is at address `a0 + off`, becomes a multiple of
`al` and the skipped part is a chunk -/
def lead (al mem : Nat) : Nat :=
  if mem % al = 0 then 0
  else
    let d := (mem + al - 1) / al * al - mem
    if minChunk ≤ d then d else d + al

/-- `internal_memalign` L4924-4933: give back spare room at the end -/
def trimEnd (l : List Chunk) (s nb req : Nat) (r : List Chunk) (t : Option Nat) : Heap :=
  if nb + minChunk < s then dispose (l ++ [⟨nb, .user req⟩]) (s - nb) r t else ⟨l ++ ⟨s, .user req⟩ :: r, t⟩

/-- `internal_memalign` L4896-4921: skip `d` bytes of the chunk (size `s`, between `l` and `r`) and give them back -/
def giveLead (l : List Chunk) (s d req : Nat) (r : List Chunk) (t : Option Nat) : Heap :=
  if d = 0 then ⟨l ++ ⟨s, .user req⟩ :: r, t⟩ else dispose l d (⟨s - d, .user req⟩ :: r) t

/-- `mspace_memalign` for a power of two `al` ≥ 32 (L5789-5799, `internal_memalign` L4873-4943; smaller alignments go to
`mspace_malloc`). `a0`: address of the pointer for the chunk at offset 0. -/
def memalign (a0 : Nat) (h : Heap) (al req : Nat) (ch : Choice) : Option (Heap × Option Nat) :=
  if req < maxRequest - al then
    match malloc h (need req + al + minChunk - 8) ch with
    | some (h', some p) => match find p 0 h'.chunks with
      | some (l, ⟨s, .user _⟩, r) =>
        let d := lead al (a0 + p)
        let h1 := giveLead l s d req r h'.top
        match find (p + d) 0 h1.chunks with
        | some (l1, ⟨s1, .user _⟩, r1) => some (trimEnd l1 s1 (need req) req r1 h1.top, some (p + d))
        | some (_, ⟨_, .free⟩, _) => none
        | some (_, ⟨_, .dead⟩, _) => none
        | none => none
      | some (_, ⟨_, .free⟩, _) => none
      | some (_, ⟨_, .dead⟩, _) => none
      | none => none
    | some (h', none) => some (h', none)
    | none => none
  else some (h, none)

/-- request of `mspace_calloc`, L5701-5706, on 64-bit numbers -/
def callocReq (n sz : Nat) : Nat :=
  if n = 0 then 0
  else
    let req := n * sz % 2 ^ 64
    if (2 ^ 16 ≤ n ∨ 2 ^ 16 ≤ sz) ∧ req / n ≠ sz then 2 ^ 64 - 1 else req

end Verif.Heap
