import Verif.Tag.Props
/-!
# The symmetric heap: the links of the free lists in memory

`/repo/src/internal/util/dlmalloc.c` (all line numbers below refer to it), as configured by the library; see
`Verif/Heap/Model.lean`, `Verif/Dl/Model.lean` and `Verif/Tag/Model.lean`. There the lists of small free chunks and the tries of
larger ones are lists and trees. The code has neither: a free chunk holds the addresses of its neighbours (`fd`, `bk`), of its
children and parent in a trie and the number of its trie in its payload (L2180-2185, L2389-2399); the heads of the lists and tries
are arrays in `struct malloc_state` (L2575-2598), which is in the segment, in front of the first chunk (L5384-5387). This file models
every access to them on one memory of bytes, with absolute addresses, and all calls on top of that. The remaining state is the fields
of `malloc_state` that are numbers.

`none`: an error action (L3009-3014, `ABORT` as `PROCEED_ON_ERROR` is 0), a path for chunks of `mmap`, an underflow of an address, or a
loop that does not end (loops get 2^64 rounds). Addresses are natural numbers; sums of addresses and sizes do not wrap. `should_trim`
and `release_checks` (L5657, L5676) have no effect on this heap: `sys_trim` leaves an extern segment alone (L4312, L5436) and
`release_unused_segments` the first one (L4257-4259). Writes of the fields of `malloc_state` that are not listed are left out.
-/
namespace Verif.Lnk
open Heap (need minChunk maxRequest callocReq lead hdr foot Call)
open Dl (sub64 isSmall treeIndex idx2bit leastBit leftBits bit2idx)
open Tag (Mem ld st prevFoot pinuse cinuse inuseBits chunksize clearPinuse setFree setFreeWith setInuse setInusePinuse setSizePinuse copy)

/-! ## Fields -/

/-- read an `unsigned int` (little endian) -/
def ld32 (m : Mem) (a : Nat) : Nat :=
  (m a).toNat + 2 ^ 8 * (m (a + 1)).toNat + 2 ^ 16 * (m (a + 2)).toNat + 2 ^ 24 * (m (a + 3)).toNat

/-- write an `unsigned int` -/
def st32 (m : Mem) (a v : Nat) : Mem := fun x => if a ≤ x ∧ x < a + 4 then BitVec.ofNat 8 (v / 2 ^ (8 * (x - a))) else m x

/-- `p->fd`, L2183, L2393 -/
def fd (m : Mem) (p : Nat) : Nat := ld m (p + 16)
/-- `p->bk`, L2184, L2394 -/
def bk (m : Mem) (p : Nat) : Nat := ld m (p + 24)
/-- `p->fd = v` -/
def setFd (m : Mem) (p v : Nat) : Mem := st m (p + 16) v
/-- `p->bk = v` -/
def setBk (m : Mem) (p v : Nat) : Mem := st m (p + 24) v
/-- address of `p->child[1]` or `p->child[0]`, L2396 -/
def childAt (p : Nat) (right : Bool) : Nat := if right then p + 40 else p + 32
/-- `p->parent`, L2397 -/
def parent (m : Mem) (p : Nat) : Nat := ld m (p + 48)
/-- `p->parent = v` -/
def setParent (m : Mem) (p v : Nat) : Mem := st m (p + 48) v
/-- `p->index`, L2398 -/
def index (m : Mem) (p : Nat) : Nat := ld32 m (p + 56)

/-- `smallbin_at`, L2828: `malloc_state` is 16 bytes behind the base of the segment (L5385-5386), `smallbins` at offset 72 of it (L2586) -/
def sbin (base i : Nat) : Nat := base + 88 + 16 * i
/-- `treebin_at`, L2829: `treebins` at offset 600 of `malloc_state` (L2587) -/
def tbin (base i : Nat) : Nat := base + 616 + 8 * i
/-- the first chunk, behind the 944 bytes of `malloc_state` (L5399): `hdr` -/
def first (base : Nat) : Nat := base + 944

/-- the memory, and what else `struct malloc_state` (L2575-2598) holds: `smallmap`, `treemap`, `dv`, `dvsize`, `top`, `topsize`.
`least_addr` is the base of the segment (L5391). -/
structure State where
  mem : Mem
  smallmap : BitVec 32
  treemap : BitVec 32
  dv : Nat
  dvsize : Nat
  top : Nat
  topsize : Nat

/-! ## Small bins -/

/-- `insert_small_chunk`, L3580-3596 -/
def insertSmall (base : Nat) (c : State) (p s : Nat) : Option State :=
  let i := s / 8
  let b := sbin base i
  let link (f : Nat) : Mem := setBk (setFd (setBk (setFd c.mem b p) f p) p f) p b
  if c.smallmap &&& idx2bit i = 0 then some { c with mem := link b, smallmap := c.smallmap ||| idx2bit i }
  else if base ≤ fd c.mem b then some { c with mem := link (fd c.mem b) } else none

/-- `unlink_small_chunk`, L3599-3622 -/
def unlinkSmall (base : Nat) (c : State) (p s : Nat) : Option State :=
  let i := s / 8
  let f := fd c.mem p
  let b := bk c.mem p
  if f = sbin base i ∨ (base ≤ f ∧ bk c.mem f = p) then
    if b = f then some { c with smallmap := c.smallmap &&& ~~~idx2bit i }
    else if b = sbin base i ∨ (base ≤ b ∧ fd c.mem b = p) then some { c with mem := setFd (setBk c.mem f b) b f } else none
  else none

/-- `unlink_first_small_chunk`, L3625-3641 -/
def unlinkFirst (base : Nat) (c : State) (p i : Nat) : Option State :=
  let b := sbin base i
  let f := fd c.mem p
  if b = f then some { c with smallmap := c.smallmap &&& ~~~idx2bit i }
  else if base ≤ f ∧ bk c.mem f = p then some { c with mem := setFd (setBk c.mem f b) b f } else none

/-- `replace_dv`, L3645-3654 -/
def replaceDv (base : Nat) (c : State) (p s : Nat) : Option State :=
  (if c.dvsize ≠ 0 then insertSmall base c c.dv c.dvsize else some c).map fun c => { c with dv := p, dvsize := s }

/-! ## Tries -/

/-- `leftshift_for_tree_index`, L2901-2903 -/
def leftshift (i : Nat) : Nat := if i = 31 then 0 else 63 - (i / 2 + 6)

/-- `x` becomes a node of the trie: the word at `a` points to it, `parent` is `t` (L3669-3671, L3681-3683) -/
def newNode (m : Mem) (x a t : Nat) : Mem := setFd (setBk (setParent (st m a x) x t) x x) x x

/-- loop of `insert_large_chunk`, L3676-3704 -/
def insertLoop (base x s : Nat) : Nat → Mem → Nat → BitVec 64 → Option Mem
  | 0, _, _, _ => none
  | n + 1, m, t, k =>
    if chunksize m t ≠ s then
      let c := childAt t k.msb
      if ld m c ≠ 0 then insertLoop base x s n m (ld m c) (k <<< 1)
      else if base ≤ c then some (newNode m x c t) else none
    else
      let f := fd m t
      if base ≤ t ∧ base ≤ f then some (setParent (setBk (setFd (setFd (setBk m f x) t x) x f) x t) x 0) else none

/-- `insert_large_chunk`, L3659-3706 -/
def insertLarge (base : Nat) (c : State) (x s : Nat) : Option State :=
  let i := treeIndex s
  let h := tbin base i
  let m := st (st (st32 c.mem (x + 56) i) (childAt x true) 0) (childAt x false) 0
  if c.treemap &&& idx2bit i = 0 then some { c with mem := newNode m x h h, treemap := c.treemap ||| idx2bit i }
  else (insertLoop base x s (2 ^ 64) m (ld m h) (BitVec.ofNat 64 s <<< leftshift i)).map fun m => { c with mem := m }

/-- loop of `unlink_large_chunk`, L3744-3747: the leaf and the word that points to it -/
def leafLoop (m : Mem) : Nat → Nat → Nat → Option (Nat × Nat)
  | 0, _, _ => none
  | n + 1, r, rp =>
    if ld m (childAt r true) ≠ 0 then leafLoop m n (ld m (childAt r true)) (childAt r true)
    else if ld m (childAt r false) ≠ 0 then leafLoop m n (ld m (childAt r false)) (childAt r false)
    else some (r, rp)

/-- first half of `unlink_large_chunk`, L3725-3754: the chunk that takes the place of `x` (0: none), taken from where it was -/
def substitute (base : Nat) (m : Mem) (x : Nat) : Option (Mem × Nat) :=
  if bk m x ≠ x then
    let f := fd m x
    let r := bk m x
    if base ≤ f ∧ bk m f = x ∧ fd m r = x then some (setFd (setBk m f r) r f, r) else none
  else
    let rp := if ld m (childAt x true) ≠ 0 then childAt x true else childAt x false
    if ld m rp ≠ 0 then (leafLoop m (2 ^ 64) (ld m rp) rp).bind fun y => if base ≤ y.2 then some (st m y.2 0, y.1) else none
    else some (m, 0)

/-- L3773-3780, L3781-3788: `r` gets a child of `x` -/
def adopt (base : Nat) (m : Mem) (x r : Nat) (right : Bool) : Option Mem :=
  let d := ld m (childAt x right)
  if d ≠ 0 then if base ≤ d then some (setParent (st m (childAt r right) d) d r) else none else some m

/-- second half of `unlink_large_chunk`, L3755-3791: `r` takes the place of `x` with parent `xp` -/
def relink (base : Nat) (c : State) (x xp r : Nat) : Option State :=
  let i := index c.mem x
  let h := tbin base i
  let up : Option State :=
    if x = ld c.mem h then
      some { c with mem := st c.mem h r, treemap := if r = 0 then c.treemap &&& ~~~idx2bit i else c.treemap }
    else if base ≤ xp then
      some { c with mem := st c.mem (childAt xp (decide (ld c.mem (childAt xp false) ≠ x))) r }
    else none
  up.bind fun c =>
    if r = 0 then some c
    else if base ≤ r then
      ((adopt base (setParent c.mem r xp) x r false).bind fun m => adopt base m x r true).map fun m => { c with mem := m }
    else none

/-- `unlink_large_chunk`, L3724-3792 -/
def unlinkLarge (base : Nat) (c : State) (x : Nat) : Option State :=
  let xp := parent c.mem x
  (substitute base c.mem x).bind fun y =>
    if xp ≠ 0 then relink base { c with mem := y.1 } x xp y.2 else some { c with mem := y.1 }

/-- `insert_chunk`, L3796-3798 -/
def insertChunk (base : Nat) (c : State) (p s : Nat) : Option State := if isSmall s then insertSmall base c p s else insertLarge base c p s

/-- `unlink_chunk`, L3800-3802 -/
def unlinkChunk (base : Nat) (c : State) (p s : Nat) : Option State := if isSmall s then unlinkSmall base c p s else unlinkLarge base c p

/-! ## `mspace_malloc` -/

/-- first loop of `tmalloc_large`, L4442-4461: next `t`, best chunk `v` (0: none) and its surplus -/
def descend (m : Mem) (nb : Nat) : Nat → Nat → BitVec 64 → Nat → Nat → Nat → Option (Nat × Nat × Nat)
  | 0, _, _, _, _, _ => none
  | n + 1, t, k, v, rs, rst =>
    let trem := sub64 (chunksize m t) nb
    if trem < rs ∧ trem = 0 then some (t, t, 0)
    else
      let v := if trem < rs then t else v
      let rs := if trem < rs then trem else rs
      let rt := ld m (childAt t true)
      let t := ld m (childAt t k.msb)
      let rst := if rt ≠ 0 ∧ rt ≠ t then rt else rst
      if t = 0 then some (rst, v, rs) else descend m nb n t (k <<< 1) v rs rst

/-- `leftmost_child`, L2406 -/
def leftmost (m : Mem) (t : Nat) : Nat := if ld m (childAt t false) ≠ 0 then ld m (childAt t false) else ld m (childAt t true)

/-- second loop of `tmalloc_large`, L4470-4477, loop of `tmalloc_small`, L4512-4518 -/
def scan (m : Mem) (nb : Nat) : Nat → Nat → Nat → Nat → Option (Nat × Nat)
  | 0, _, _, _ => none
  | n + 1, t, v, rs =>
    if t = 0 then some (v, rs)
    else
      let trem := sub64 (chunksize m t) nb
      scan m nb n (leftmost m t) (if trem < rs then t else v) (if trem < rs then trem else rs)

/-- L4482-4491, L4520-4530: check the chunk `v` and take it, `rs` more than `nb` -/
def takeLarge (base : Nat) (c : State) (v nb rs : Nat) : Option State :=
  if base ≤ v ∧ v < v + nb then
    (unlinkLarge base c v).map fun c =>
      { c with mem := if rs < minChunk then setInusePinuse c.mem v (rs + nb) else setFree (setSizePinuse c.mem v nb) (v + nb) rs }
  else none

/-- `tmalloc_large`, L4430-4497; result `(_, 0)`: nothing taken -/
def tmallocLarge (base : Nat) (c : State) (nb : Nat) : Option (State × Nat) :=
  let idx := treeIndex nb
  let t0 := ld c.mem (tbin base idx)
  (if t0 ≠ 0 then descend c.mem nb (2 ^ 64) t0 (BitVec.ofNat 64 nb <<< leftshift idx) 0 (sub64 0 nb) 0 else some (0, 0, sub64 0 nb)).bind fun x =>
    let lb := leftBits (idx2bit idx) &&& c.treemap
    let t := if x.1 = 0 ∧ x.2.1 = 0 then (if lb ≠ 0 then ld c.mem (tbin base (bit2idx (leastBit lb))) else x.1) else x.1
    (scan c.mem nb (2 ^ 64) t x.2.1 x.2.2).bind fun y =>
      if y.1 ≠ 0 ∧ y.2 < sub64 c.dvsize nb then
        (takeLarge base c y.1 nb y.2).bind fun c =>
          (if y.2 < minChunk then some c else insertChunk base c (y.1 + nb) y.2).map fun c => (c, y.1)
      else some (c, 0)

/-- `tmalloc_small`, L4500-4540 -/
def tmallocSmall (base : Nat) (c : State) (nb : Nat) : Option (State × Nat) :=
  let t := ld c.mem (tbin base (bit2idx (leastBit c.treemap)))
  if t = 0 then none
  else (scan c.mem nb (2 ^ 64) (leftmost c.mem t) t (sub64 (chunksize c.mem t) nb)).bind fun y =>
    (takeLarge base c y.1 nb y.2).bind fun c =>
      (if y.2 < minChunk then some c else replaceDv base c (y.1 + nb) y.2).map fun c => (c, y.1)

/-- end of `mspace_malloc`, L5557-5590. Result `none` inside: `sys_alloc`. -/
def mallocRest (c : State) (nb : Nat) : State × Option Nat :=
  if nb ≤ c.dvsize then
    if minChunk ≤ c.dvsize - nb then
      ({ c with mem := setSizePinuse (setFree c.mem (c.dv + nb) (c.dvsize - nb)) c.dv nb, dv := c.dv + nb, dvsize := c.dvsize - nb }, some c.dv)
    else ({ c with mem := setInusePinuse c.mem c.dv c.dvsize, dv := 0, dvsize := 0 }, some c.dv)
  else if nb < c.topsize then
    ({ c with mem := setSizePinuse (st c.mem (c.top + nb + 8) ((c.topsize - nb) ||| 1)) c.top nb, top := c.top + nb, topsize := c.topsize - nb }, some c.top)
  else (c, none)

/-- `mspace_malloc`, L5485-5596; the address of the chunk -/
def malloc (base : Nat) (c : State) (req : Nat) : Option (State × Option Nat) :=
  let nb := need req
  if req ≤ 232 then
    let idx := nb / 8
    let bits := c.smallmap >>> idx
    if bits &&& 3 ≠ 0 then
      let i := if bits.getLsbD 0 then idx else idx + 1
      let p := fd c.mem (sbin base i)
      (unlinkFirst base c p i).map fun c => ({ c with mem := setInusePinuse c.mem p (8 * i) }, some p)
    else if c.dvsize < nb then
      if bits ≠ 0 then
        let i := bit2idx (leastBit ((bits <<< idx) &&& leftBits (idx2bit idx)))
        let p := fd c.mem (sbin base i)
        (unlinkFirst base c p i).bind fun c =>
          (if 8 * i - nb < minChunk then some { c with mem := setInusePinuse c.mem p (8 * i) }
           else replaceDv base { c with mem := setFree (setSizePinuse c.mem p nb) (p + nb) (8 * i - nb) } (p + nb) (8 * i - nb)).map fun c => (c, some p)
      else if c.treemap ≠ 0 then (tmallocSmall base c nb).map fun y => (y.1, some y.2)
      else some (mallocRest c nb)
    else some (mallocRest c nb)
  else if maxRequest ≤ req then some (c, none)
  else if c.treemap ≠ 0 then
    (tmallocLarge base c nb).map fun y => if y.2 ≠ 0 then (y.1, some y.2) else mallocRest y.1 nb
  else some (mallocRest c nb)

/-! ## Giving chunks back -/

/-- second half of `mspace_free`, L5641-5680, and of `dispose_chunk`, L4392-4421: chunk `p` of `s` bytes, next chunk at `nx` -/
def forward (base : Nat) (c : State) (p s nx : Nat) : Option State :=
  if cinuse c.mem nx = false then
    if nx = c.top then
      some { c with mem := st c.mem (p + 8) ((c.topsize + s) ||| 1), top := p, topsize := c.topsize + s,
                    dv := if p = c.dv then 0 else c.dv, dvsize := if p = c.dv then 0 else c.dvsize }
    else if nx = c.dv then some { c with mem := setFree c.mem p (c.dvsize + s), dv := p, dvsize := c.dvsize + s }
    else
      let n := chunksize c.mem nx
      (unlinkChunk base c nx n).bind fun c =>
        if p = c.dv then some { c with mem := setFree c.mem p (s + n), dvsize := s + n }
        else insertChunk base { c with mem := setFree c.mem p (s + n) } p (s + n)
  else insertChunk base { c with mem := setFreeWith c.mem p s nx } p s

/-- with the checks of `mspace_free` (`chk`), `ok_next(p, next) && ok_pinuse(next)`, L5641, or of `dispose_chunk`, `ok_address(next)`, L4392 -/
def forwardChk (base : Nat) (chk : Bool) (c : State) (p s nx : Nat) : Option State :=
  if (if chk then decide (p < nx) && pinuse c.mem nx else decide (base ≤ nx)) then forward base c p s nx else none

/-- `dispose_chunk`, L4364-4425, and (`chk`) `mspace_free`, L5615-5680: give back `s` bytes at `p` -/
def dispose (base : Nat) (chk : Bool) (c : State) (p s : Nat) : Option State :=
  let nx := p + s
  if pinuse c.mem p then forwardChk base chk c p s nx
  else
    let n := prevFoot c.mem p
    if inuseBits c.mem p = 0 then none
    else if p < n then none
    else if p - n < base then none
    else if p - n ≠ c.dv then (unlinkChunk base c (p - n) n).bind fun c => forwardChk base chk c (p - n) (n + s) nx
    else if inuseBits c.mem nx = 3 then some { c with mem := setFreeWith c.mem (p - n) (n + s) nx, dvsize := n + s }
    else forwardChk base chk c (p - n) (n + s) nx

/-- `mspace_free`, L5598-5691, with `ok_address` and `ok_inuse` (L5614) -/
def free (base : Nat) (c : State) (p : Nat) : Option State :=
  if p < base ∨ inuseBits c.mem p = 1 then none else dispose base true c p (chunksize c.mem p)

/-- L4811-4815, L4859-4863: cut `nb` bytes off the front of a region of `nb + rs` bytes at `p`, give back the rest -/
def cut (base : Nat) (c : State) (p nb rs : Nat) : Option State :=
  dispose base false { c with mem := setInuse (setInuse c.mem p nb) (p + nb) rs } (p + nb) rs

/-- `try_realloc_chunk`, L4802-4871; result `false`: not possible in place -/
def tryRealloc (base : Nat) (c : State) (p nb : Nat) : Option (State × Bool) :=
  let old := chunksize c.mem p
  let nx := p + old
  if p < base ∨ inuseBits c.mem p = 1 ∨ nx ≤ p ∨ pinuse c.mem nx = false ∨ inuseBits c.mem p = 0 then none
  else if nb ≤ old then
    if minChunk ≤ old - nb then (cut base c p nb (old - nb)).map fun c => (c, true) else some (c, true)
  else if nx = c.top then
    if nb < old + c.topsize then
      some ({ c with mem := st (setInuse c.mem p nb) (p + nb + 8) ((old + c.topsize - nb) ||| 1), top := p + nb, topsize := old + c.topsize - nb }, true)
    else some (c, false)
  else if nx = c.dv then
    if nb ≤ old + c.dvsize then
      let ds := old + c.dvsize - nb
      if minChunk ≤ ds then
        some ({ c with mem := clearPinuse (setFree (setInuse c.mem p nb) (p + nb) ds) (p + nb + ds), dv := p + nb, dvsize := ds }, true)
      else some ({ c with mem := setInuse c.mem p (old + c.dvsize), dv := 0, dvsize := 0 }, true)
    else some (c, false)
  else if cinuse c.mem nx = false then
    let n := chunksize c.mem nx
    if nb ≤ old + n then
      (unlinkChunk base c nx n).bind fun c =>
        if old + n - nb < minChunk then some ({ c with mem := setInuse c.mem p (old + n) }, true)
        else (cut base c p nb (old + n - nb)).map fun c => (c, true)
    else some (c, false)
  else some (c, false)

/-- `mspace_realloc`, L5713-5755; `os`: `sys_alloc`, if called, returns memory -/
def realloc (base : Nat) (c : State) (p req : Nat) (os : Bool) : Option (State × Option Nat) :=
  if req < maxRequest then
    (tryRealloc base c p (need req)).bind fun x =>
      if x.2 then some (x.1, some p)
      else (malloc base x.1 req).bind fun y => match y.2 with
        | some q => (free base { y.1 with mem := copy y.1.mem p q (min (chunksize y.1.mem p - 8) req) } p).map fun c => (c, some q)
        | none => if os then (free base y.1 p).map fun c => (c, none) else some (y.1, none)
  else some (c, none)

/-- `internal_memalign`, L4904-4921: skip `d` bytes of the chunk `p`, if any, and give them back -/
def giveLead (base : Nat) (c : State) (p d : Nat) : Option State :=
  if d = 0 then some c
  else if inuseBits c.mem p = 0 then none
  else dispose base false { c with mem := setInuse (setInuse c.mem (p + d) (chunksize c.mem p - d)) p d } p d

/-- `internal_memalign`, L4924-4933: give back spare room at the end -/
def trimEnd (base : Nat) (c : State) (p nb : Nat) : Option State :=
  if inuseBits c.mem p = 0 then none
  else if nb + minChunk < chunksize c.mem p then cut base c p nb (chunksize c.mem p - nb) else some c

/-- `mspace_memalign`, L5789-5799, `internal_memalign`, L4873-4943, for a power of two `al` ≥ 32. The pointer of chunk `p` is `p + 16`. -/
def memalign (base : Nat) (c : State) (al req : Nat) : Option (State × Option Nat) :=
  if req < maxRequest - al then
    (malloc base c (need req + al + minChunk - 8)).bind fun x => match x.2 with
      | none => some (x.1, none)
      | some p =>
        let d := lead al (p + 16)
        (giveLead base x.1 p d).bind fun c => (trimEnd base c (p + d) (need req)).map fun c => (c, some (p + d))
  else some (c, none)

/-- `memset(q + 16, 0, n)` -/
def clear (m : Mem) (q n : Nat) : Mem := fun x => if q + 16 ≤ x ∧ x < q + 16 + n then 0 else m x

/-- `mspace_calloc`, L5693-5711 -/
def calloc (base : Nat) (c : State) (n sz : Nat) : Option (State × Option Nat) :=
  (malloc base c (callocReq n sz)).map fun x => match x.2 with
    | some q => ({ x.1 with mem := clear x.1.mem q (callocReq n sz) }, some q)
    | none => x

/-! ## Histories -/

/-- the head of one smallbin, `bin->fd = bin->bk = bin`, L3929-3930 -/
def initBin (base : Nat) (m : Mem) (i : Nat) : Mem := setFd (setBk m (sbin base i) (sbin base i)) (sbin base i) (sbin base i)

/-- `create_mspace_with_base`, L5425-5438, `init_user_mstate`, L5382-5404, over `cap` bytes at `base` (a multiple of 16) with any
contents: `memset` (L5387), the header of the chunk that holds `malloc_state` (L5389), `init_bins` (L3924-3932), `init_top` (L3903-3916) -/
def create (base cap : Nat) (m : Mem) : Option State :=
  if hdr + foot < cap then
    let m := st (fun x => if base + 16 ≤ x ∧ x < base + 16 + hdr then 0 else m x) (base + 8) (hdr ||| 3)
    let m := (List.range 32).foldl (initBin base) m
    let t := cap - hdr - foot
    some ⟨st (st m (first base + 8) (t ||| 1)) (first base + t + 8) foot, 0, 0, 0, 0, first base, t⟩
  else none

/-- the allocator, and the blocks the user holds: what was returned (the chunk, counted from the first one) and requested -/
structure Sys where
  cs : State
  live : List (Nat × Nat)

/-- blocks after a call that may return a new one -/
def Sys.grant (base : Nat) (s : Sys) (req : Nat) (x : State × Option Nat) : Sys × Option Nat := match x.2 with
  | some q => (⟨x.1, (q - first base, req) :: s.live⟩, some (q - first base))
  | none => (⟨x.1, s.live⟩, none)

/-- one call, as `Verif.Tag.step`. `none`: illegal use (a block that is not held), or the code aborts. -/
def step (base : Nat) (s : Sys) (os : Bool) : Call → Option (Sys × Option Nat)
  | .malloc req => (malloc base s.cs req).map (s.grant base req)
  | .calloc n sz => (calloc base s.cs n sz).map (s.grant base (callocReq n sz))
  | .align k req => if 2 ^ k ≤ 16 then (malloc base s.cs req).map (s.grant base req) else (memalign base s.cs (2 ^ k) req).map (s.grant base req)
  | .realloc p req => match s.live.lookup p with
      | none => none
      | some r => (realloc base s.cs (first base + p) req os).map fun x => match x.2 with
        | some q => (⟨x.1, (q - first base, req) :: s.live.erase (p, r)⟩, some (q - first base))
        | none => (⟨x.1, if os && decide (req < maxRequest) then s.live.erase (p, r) else s.live⟩, none)
  | .free p => match s.live.lookup p with
      | none => none
      | some r => (free base s.cs (first base + p)).map fun c => (⟨c, s.live.erase (p, r)⟩, none)

/-- what happens to the heap: calls, with what they return; writes of the user, or of other PEs, to a block the user holds -/
inductive Ev where
  | call (c : Call) (os : Bool) (o : Option Nat)
  | write (p : Nat)
deriving DecidableEq, Repr

/-- one event -/
inductive Next (base : Nat) (s : Sys) : Ev → Sys → Prop
  | call {c : Call} {os : Bool} {o : Option Nat} {s' : Sys} : step base s os c = some (s', o) → Next base s (.call c os o) s'
  | write {m : Mem} {p r : Nat} : (p, r) ∈ s.live →
      (∀ x, x < first base + p + 16 ∨ first base + p + 16 + r ≤ x → m x = s.cs.mem x) → Next base s (.write p) ⟨{ s.cs with mem := m }, s.live⟩

/-- histories of a heap of `cap` bytes at `base`, latest event first -/
inductive Run (base cap : Nat) : List Ev → Sys → Prop
  | init {m : Mem} {c : State} : create base cap m = some c → Run base cap [] ⟨c, []⟩
  | next {es : List Ev} {e : Ev} {s s' : Sys} : Run base cap es s → Next base s e s' → Run base cap (e :: es) s'

end Verif.Lnk
