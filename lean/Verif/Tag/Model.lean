import Verif.Dl.Props
/-!
# The symmetric heap: sizes and flags in memory

`/repo/src/internal/util/dlmalloc.c` (all line numbers below refer to it), as configured by the library; see
`Verif/Heap/Model.lean` and `Verif/Dl/Model.lean`, which describe the heap as a list of chunks. The code keeps no such list: the
size of a chunk and two flags are in the word before its payload (`head`), the size of a free chunk is also in the word behind it
(`prev_foot` of the next chunk), and all other chunks are found by adding and subtracting these numbers. The memory also holds the
users' data; the payload of a chunk in use extends over the `prev_foot` of the next chunk. This file models every access to `head`
and `prev_foot` on a memory of bytes.

The links of the bins (`fd`, `bk`, `child`, `parent`, `index`, L2389-2399) are in the payload of free chunks. They stay abstract
here (`Dl.Bins`): the code's writes to them appear as arbitrary changes of the payload of free chunks (`Scratch`). The sizes in the
nodes of the tries stand for `chunksize` of the node (L4447, L4471, L4513). Offsets count from the first chunk. The code's paths for
chunks of `mmap` (L5619-5623, L4371-4376, L4809, L4908) and its error actions (L5685, L4388, L4423, L4868) end in `none`.
-/
namespace Verif.Tag
open Heap Dl

/-- bytes, by offset from the first chunk -/
abbrev Mem := Nat → BitVec 8

/-- read a `size_t` (little endian) -/
def ld (m : Mem) (a : Nat) : Nat :=
  (m a).toNat + 2 ^ 8 * (m (a + 1)).toNat + 2 ^ 16 * (m (a + 2)).toNat + 2 ^ 24 * (m (a + 3)).toNat +
  2 ^ 32 * (m (a + 4)).toNat + 2 ^ 40 * (m (a + 5)).toNat + 2 ^ 48 * (m (a + 6)).toNat + 2 ^ 56 * (m (a + 7)).toNat

/-- write a `size_t` -/
def st (m : Mem) (a v : Nat) : Mem := fun x => if a ≤ x ∧ x < a + 8 then BitVec.ofNat 8 (v / 2 ^ (8 * (x - a))) else m x

/-! ## Fields of a chunk, L2180-2285, L3049-3060 -/

/-- `p->head` (struct malloc_chunk, L2180-2185) -/
def head (m : Mem) (p : Nat) : Nat := ld m (p + 8)
/-- `p->prev_foot`, L2181 -/
def prevFoot (m : Mem) (p : Nat) : Nat := ld m p
/-- `pinuse`, L2253 -/
def pinuse (m : Mem) (p : Nat) : Bool := head m p &&& 1 ≠ 0
/-- `cinuse`, L2252 -/
def cinuse (m : Mem) (p : Nat) : Bool := head m p &&& 2 ≠ 0
/-- `p->head & INUSE_BITS` (L2255-2256, L5630, L4383) -/
def inuseBits (m : Mem) (p : Nat) : Nat := head m p &&& 3
/-- `chunksize`, L2258: `head & ~7` -/
def chunksize (m : Mem) (p : Nat) : Nat := head m p / 8 * 8
/-- `clear_pinuse`, L2260: `head &= ~1` -/
def clearPinuse (m : Mem) (p : Nat) : Mem := st m (p + 8) (head m p / 2 * 2)
/-- `head |= PINUSE_BIT` (L3051, L3056) -/
def setPinuse (m : Mem) (p : Nat) : Mem := st m (p + 8) (head m p ||| 1)
/-- `set_foot`, L2277 -/
def setFoot (m : Mem) (p s : Nat) : Mem := st m (p + s) s
/-- `set_size_and_pinuse_of_free_chunk`, L2280-2281 -/
def setFree (m : Mem) (p s : Nat) : Mem := setFoot (st m (p + 8) (s ||| 1)) p s
/-- `set_free_with_pinuse`, L2284-2285 -/
def setFreeWith (m : Mem) (p s n : Nat) : Mem := setFree (clearPinuse m n) p s
/-- `set_inuse`, L3049-3051, without footers -/
def setInuse (m : Mem) (p s : Nat) : Mem := setPinuse (st m (p + 8) ((head m p &&& 1) ||| s ||| 2)) (p + s)
/-- `set_inuse_and_pinuse`, L3054-3056, without footers -/
def setInusePinuse (m : Mem) (p s : Nat) : Mem := setPinuse (st m (p + 8) (s ||| 1 ||| 2)) (p + s)
/-- `set_size_and_pinuse_of_inuse_chunk`, L3059-3060, without footers -/
def setSizePinuse (m : Mem) (p s : Nat) : Mem := st m (p + 8) (s ||| 1 ||| 2)

/-! ## The allocator -/

/-- what the allocator stores: the memory, and of `struct malloc_state` (L2575-2598) the bins, `dv`, `top` and `topsize` -/
structure CS where
  mem : Mem
  bins : Bins
  top : Nat
  topsize : Nat

/-- `init_user_mstate`, L5382-5404, `init_top`, L3903-3916, over `cap` bytes with any contents. The word behind `top` (L3914) is never
read. -/
def create (m : Mem) (cap : Nat) : Option CS :=
  if hdr + foot < cap then some ⟨st m 8 ((cap - hdr - foot) ||| 1), .init, 0, cap - hdr - foot⟩ else none

/-- how `mspace_malloc` serves a request -/
inductive Pick where
  /-- with the free chunk at `p`; `s` is what the code takes for its size -/
  | chunk (p s : Nat)
  | top
  | outside
deriving DecidableEq, Repr

/-- end of `mspace_malloc`, L5557-5590 -/
def pickRest (b : Bins) (topsize nb : Nat) : Pick × Bins :=
  if nb ≤ b.dvsize then match b.dv with
    | some p =>
      if minChunk ≤ b.dvsize - nb then (.chunk p b.dvsize, { b with dv := some (p + nb), dvsize := b.dvsize - nb })
      else (.chunk p b.dvsize, { b with dv := none, dvsize := 0 })
    | none => (.outside, b)
  else if nb < topsize then (.top, b) else (.outside, b)

/-- `mspace_malloc`, L5492-5590: the search, with the changes of the bins -/
def pick (b : Bins) (topsize req : Nat) : Pick × Bins :=
  let nb := need req
  if req ≤ 232 then
    let idx := nb / 8
    let bits := b.smallmap >>> idx
    if bits &&& 3 ≠ 0 then
      let i := if bits.getLsbD 0 then idx else idx + 1
      match b.small i with
      | p :: _ => (.chunk p (8 * i), b.unlinkSmall p (8 * i))
      | [] => (.outside, b)
    else if b.dvsize < nb then
      if bits ≠ 0 then
        let i := bit2idx (leastBit ((bits <<< idx) &&& leftBits (idx2bit idx)))
        match b.small i with
        | p :: _ => (.chunk p (8 * i), splitDv (b.unlinkSmall p (8 * i)) p (8 * i) nb)
        | [] => (.outside, b)
      else if b.treemap ≠ 0 then match tsmall b nb with
        | some (p, s) => (.chunk p s, splitDv (b.unlinkLarge p s) p s nb)
        | none => (.outside, b)
      else pickRest b topsize nb
    else pickRest b topsize nb
  else if maxRequest ≤ req then (.outside, b)
  else if b.treemap ≠ 0 then match tlarge b nb with
    | some (p, s) => (.chunk p s, splitBin (b.unlinkLarge p s) p s nb)
    | none => pickRest b topsize nb
  else pickRest b topsize nb

/-- a free chunk of `s` bytes is taken for `nb`: L5513, L5531-5535, L5561-5570, L4487-4491, L4526-4530. (A chunk of a smallbin that
fits without remainder is not tested for one, L5513; it is at most 8 bytes larger.) -/
def takeMem (m : Mem) (p s nb : Nat) : Mem :=
  if s - nb < minChunk then setInusePinuse m p s else setFree (setSizePinuse m p nb) (p + nb) (s - nb)

/-- `mspace_malloc`, L5485-5596 -/
def malloc (c : CS) (req : Nat) : CS × Option Nat := match pick c.bins c.topsize req with
  | (.chunk p s, b) => ({ c with mem := takeMem c.mem p s (need req), bins := b }, some p)
  | (.top, b) =>
    let r := c.top + need req
    (⟨setSizePinuse (st c.mem (r + 8) ((c.topsize - need req) ||| 1)) c.top (need req), b, r, c.topsize - need req⟩, some c.top)
  | (.outside, b) => ({ c with bins := b }, none)

/-- second half of `mspace_free`, L5641-5680, and of `dispose_chunk`, L4392-4421: chunk `p` of `s` bytes, next chunk at `nx` -/
def forward (c : CS) (p s nx : Nat) : CS :=
  if cinuse c.mem nx = false then
    if nx = c.top then
      { c with mem := st c.mem (p + 8) ((c.topsize + s) ||| 1), top := p, topsize := c.topsize + s,
               bins := if c.bins.dv = some p then { c.bins with dv := none, dvsize := 0 } else c.bins }
    else if c.bins.dv = some nx then
      { c with mem := setFree c.mem p (c.bins.dvsize + s), bins := { c.bins with dv := some p, dvsize := c.bins.dvsize + s } }
    else
      let n := chunksize c.mem nx
      let b := c.bins.unlink nx n
      { c with mem := setFree c.mem p (s + n), bins := if b.dv = some p then { b with dvsize := s + n } else b.insert p (s + n) }
  else { c with mem := setFreeWith c.mem p s nx, bins := c.bins.insert p s }

/-- `chk`: with the checks `ok_next(p, next) && ok_pinuse(next)` of `mspace_free`, L5641 -/
def forwardChk (chk : Bool) (c : CS) (p s nx : Nat) : Option CS :=
  if chk && !(decide (p < nx) && pinuse c.mem nx) then none else some (forward c p s nx)

/-- `dispose_chunk`, L4364-4425, and (`chk`) `mspace_free`, L5615-5680: give back `s` bytes at `p` -/
def dispose (chk : Bool) (c : CS) (p s : Nat) : Option CS :=
  let nx := p + s
  if pinuse c.mem p then forwardChk chk c p s nx
  else
    let n := prevFoot c.mem p
    if inuseBits c.mem p = 0 then none
    else if p < n then none
    else if c.bins.dv ≠ some (p - n) then forwardChk chk { c with bins := c.bins.unlink (p - n) n } (p - n) (n + s) nx
    else if inuseBits c.mem nx = 3 then
      some { c with mem := setFreeWith c.mem (p - n) (n + s) nx, bins := { c.bins with dvsize := n + s } }
    else forwardChk chk c (p - n) (n + s) nx

/-- `mspace_free`, L5598-5691, with `ok_inuse` (L5614) -/
def free (c : CS) (p : Nat) : Option CS := if inuseBits c.mem p = 1 then none else dispose true c p (chunksize c.mem p)

/-- L4811-4815, L4859-4863: cut `nb` bytes off the front of a region of `nb + rs` bytes at `p`, give back the rest -/
def cut (c : CS) (p nb rs : Nat) : Option CS :=
  dispose false { c with mem := setInuse (setInuse c.mem p nb) (p + nb) rs } (p + nb) rs

/-- `try_realloc_chunk`, L4802-4871; result `false`: not possible in place -/
def tryRealloc (c : CS) (p nb : Nat) : Option (CS × Bool) :=
  let old := chunksize c.mem p
  let nx := p + old
  if inuseBits c.mem p = 1 ∨ nx ≤ p ∨ pinuse c.mem nx = false ∨ inuseBits c.mem p = 0 then none
  else if nb ≤ old then
    if minChunk ≤ old - nb then (cut c p nb (old - nb)).map (fun c' => (c', true)) else some (c, true)
  else if nx = c.top then
    if nb < old + c.topsize then
      some (⟨st (setInuse c.mem p nb) (p + nb + 8) ((old + c.topsize - nb) ||| 1), c.bins, p + nb, old + c.topsize - nb⟩, true)
    else some (c, false)
  else if c.bins.dv = some nx then
    if nb ≤ old + c.bins.dvsize then
      let ds := old + c.bins.dvsize - nb
      if minChunk ≤ ds then
        some ({ c with mem := clearPinuse (setFree (setInuse c.mem p nb) (p + nb) ds) (p + nb + ds),
                       bins := { c.bins with dv := some (p + nb), dvsize := ds } }, true)
      else some ({ c with mem := setInuse c.mem p (old + c.bins.dvsize), bins := { c.bins with dv := none, dvsize := 0 } }, true)
    else some (c, false)
  else if cinuse c.mem nx = false then
    let n := chunksize c.mem nx
    if nb ≤ old + n then
      let c1 := { c with bins := c.bins.unlink nx n }
      if old + n - nb < minChunk then some ({ c1 with mem := setInuse c.mem p (old + n) }, true)
      else (cut c1 p nb (old + n - nb)).map (fun c' => (c', true))
    else some (c, false)
  else some (c, false)

/-- `memcpy` of `n` bytes from block `p` to block `q` -/
def copy (m : Mem) (p q n : Nat) : Mem := fun x => if q + 16 ≤ x ∧ x < q + 16 + n then m (p + 16 + (x - (q + 16))) else m x

/-- `mspace_realloc`, L5713-5755; `os`: `sys_alloc`, if called, returns memory -/
def realloc (c : CS) (p req : Nat) (os : Bool) : Option (CS × Option Nat) :=
  if req < maxRequest then match tryRealloc c p (need req) with
    | none => none
    | some (c1, true) => some (c1, some p)
    | some (c1, false) => match malloc c1 req with
      | (c2, some q) => (free { c2 with mem := copy c2.mem p q (min (chunksize c2.mem p - 8) req) } p).map (fun c3 => (c3, some q))
      | (c2, none) => if os then (free c2 p).map (fun c3 => (c3, none)) else some (c2, none)
  else some (c, none)

/-- `internal_memalign`, L4904-4921: skip `d` bytes of the chunk `p`, if any, and give them back -/
def giveLead (c : CS) (p d : Nat) : Option CS :=
  if d = 0 then some c
  else if inuseBits c.mem p = 0 then none
  else dispose false { c with mem := setInuse (setInuse c.mem (p + d) (chunksize c.mem p - d)) p d } p d

/-- `internal_memalign`, L4924-4933: give back spare room at the end -/
def trimEnd (c : CS) (p nb : Nat) : Option CS :=
  if inuseBits c.mem p = 0 then none
  else if nb + minChunk < chunksize c.mem p then cut c p nb (chunksize c.mem p - nb) else some c

/-- `mspace_memalign`, L5789-5799, `internal_memalign`, L4873-4943, for a power of two `al` ≥ 32; `a0`: address of the pointer of the
chunk at offset 0 -/
def memalign (a0 : Nat) (c : CS) (al req : Nat) : Option (CS × Option Nat) :=
  if req < maxRequest - al then match malloc c (need req + al + minChunk - 8) with
    | (c1, none) => some (c1, none)
    | (c1, some p) =>
      let d := lead al (a0 + p)
      (giveLead c1 p d).bind fun c2 => (trimEnd c2 (p + d) (need req)).map fun c3 => (c3, some (p + d))
  else some (c, none)

/-- `mspace_calloc`, L5693-5711: `mspace_malloc`, `memset` -/
def calloc (c : CS) (n sz : Nat) : CS × Option Nat := match malloc c (callocReq n sz) with
  | (c1, some q) => ({ c1 with mem := fun x => if q + 16 ≤ x ∧ x < q + 16 + callocReq n sz then 0 else c1.mem x }, some q)
  | (c1, none) => (c1, none)

/-! ## Histories -/

/-- the allocator, and the blocks the user holds: what was returned and requested -/
structure Sys where
  cs : CS
  live : List (Nat × Nat)

/-- blocks after a call that may return a new one -/
def Sys.grant (s : Sys) (req : Nat) : CS × Option Nat → Sys × Option Nat
  | (c, some q) => (⟨c, (q, req) :: s.live⟩, some q)
  | (c, none) => (⟨c, s.live⟩, none)

/-- one call, as `Verif.Dl.step`, on the memory. `none`: illegal use (a block that is not held), or the code aborts. -/
def step (a0 : Nat) (s : Sys) (os : Bool) : Call → Option (Sys × Option Nat)
  | .malloc req => some (s.grant req (malloc s.cs req))
  | .calloc n sz => some (s.grant (callocReq n sz) (calloc s.cs n sz))
  | .align k req => if 2 ^ k ≤ 16 then some (s.grant req (malloc s.cs req)) else (memalign a0 s.cs (2 ^ k) req).map (s.grant req)
  | .realloc p req => match s.live.lookup p with
      | none => none
      | some r => match realloc s.cs p req os with
        | some (c, some q) => some (⟨c, (q, req) :: s.live.erase (p, r)⟩, some q)
        | some (c, none) => some (⟨c, if os && decide (req < maxRequest) then s.live.erase (p, r) else s.live⟩, none)
        | none => none
  | .free p => match s.live.lookup p with
      | none => none
      | some r => (free s.cs p).map (fun c => (⟨c, s.live.erase (p, r)⟩, none))

/-- chunks that the bins know, with their size: `dv`, those in smallbins (L2580), those in tries (L2581) -/
def InBins (b : Bins) (p s : Nat) : Prop :=
  (b.dv = some p ∧ s = b.dvsize) ∨ (∃ i, p ∈ b.small i ∧ s = 8 * i) ∨ ∃ i, (b.tree i).mem p s

/-- bytes where the bins keep their links (`fd` to `index`, L2393-2398, at offsets 16 to 60 of a free chunk), that is the payload of
free chunks, and what is in `top` behind its header -/
def Scratch (c : CS) (x : Nat) : Prop := (∃ p s, InBins c.bins p s ∧ p + 16 ≤ x ∧ x < p + s) ∨ (c.top + 16 ≤ x ∧ x < c.top + c.topsize)

/-- what happens to the heap: calls, with what they return; changes of links in free chunks; writes of the user, or of other PEs, to a
block the user holds -/
inductive Ev where
  | call (c : Call) (os : Bool) (o : Option Nat)
  | scratch
  | write (p : Nat)
deriving DecidableEq, Repr

/-- one event -/
inductive Next (a0 : Nat) (s : Sys) : Ev → Sys → Prop
  | call {c : Call} {os : Bool} {o : Option Nat} {s' : Sys} : step a0 s os c = some (s', o) → Next a0 s (.call c os o) s'
  | scratch {m : Mem} : (∀ x, ¬Scratch s.cs x → m x = s.cs.mem x) → Next a0 s .scratch ⟨{ s.cs with mem := m }, s.live⟩
  | write {m : Mem} {p r : Nat} : (p, r) ∈ s.live → (∀ x, x < p + 16 ∨ p + 16 + r ≤ x → m x = s.cs.mem x) →
      Next a0 s (.write p) ⟨{ s.cs with mem := m }, s.live⟩

/-- histories of a heap of `cap` bytes, latest event first -/
inductive Run (a0 cap : Nat) : List Ev → Sys → Prop
  | init {m : Mem} {c : CS} : create m cap = some c → Run a0 cap [] ⟨c, []⟩
  | next {es : List Ev} {e : Ev} {s s' : Sys} : Run a0 cap es s → Next a0 s e s' → Run a0 cap (e :: es) s'

end Verif.Tag
