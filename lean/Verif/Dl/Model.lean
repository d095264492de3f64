import Verif.Heap.Hist
import Mathlib.Logic.Function.Basic
/-!
# The symmetric heap: which free chunk dlmalloc takes

`/repo/src/internal/util/dlmalloc.c` (all line numbers below refer to it), as configured by the library; see
`Verif/Heap/Model.lean`, which leaves open which free chunk serves a request. Here the choice is modelled as in the code: the
lists of small free chunks (`smallbins`), the tries of larger ones (`treebins`), their bitmaps, and the preferred chunk `dv`.

Chunks are named by their offset in the heap's segment. Doubly linked rings are lists, tries are trees whose nodes carry the ring
of chunks of one size, so following `parent`, `fd` and `bk` pointers becomes looking up the chunk. Requests for which the code
calls `sys_alloc` (L4051-4248) get no block of the heap; the model covers the histories in which `sys_alloc` returns NULL or a
block mapped for this request alone (L4068-4075, state unchanged), not those in which it adds a segment to the heap.
-/
namespace Verif.Dl
open Heap

/-! ## Arithmetic on sizes -/

/-- subtraction of `size_t` values -/
def sub64 (a b : Nat) : Nat := (a + 2 ^ 64 - b) % 2 ^ 64

/-- `is_small`, L2822: the chunk size belongs to a smallbin -/
def isSmall (s : Nat) : Bool := s / 8 < 32

/-- `compute_tree_index`, L2833-2845 (GCC on x86): `X` is an `unsigned int`, so `S >> 8` loses the bits above 32 -/
def treeIndex (s : Nat) : Nat :=
  let x := s / 2 ^ 8 % 2 ^ 32
  if x = 0 then 0 else if 0xFFFF < x then 31 else 2 * Nat.log2 x + s / 2 ^ (Nat.log2 x + 7) % 2

/-- 64 - `leftshift_for_tree_index`, L2901-2903: how many low bits of the size are looked at in the trie of bin `i` -/
def keyBits (i : Nat) : Nat := if i = 31 then 64 else i / 2 + 7

/-- the bit that decides the branch when `b` bits are left: top bit of `K` (L3675, L4454) after the left shifts -/
def dir (s b : Nat) : Bool := if b = 0 then false else s.testBit (b - 1)

/-! ## Bitmaps -/

/-- `idx2bit`, L2912 -/
def idx2bit (i : Nat) : BitVec 32 := 1#32 <<< i
/-- `least_bit`, L2924 -/
def leastBit (x : BitVec 32) : BitVec 32 := x &&& -x
/-- `left_bits`, L2927 -/
def leftBits (x : BitVec 32) : BitVec 32 := (x <<< 1) ||| -(x <<< 1)
/-- `compute_bit2idx`, L2935-2963: `__builtin_ctz`, number of trailing zeros (32 stands for the undefined value at 0) -/
def bit2idx (x : BitVec 32) : Nat := ((List.range 32).find? (fun i => x.getLsbD i)).getD 32

/-! ## Tries -/

/-- a trie of `tchunkptr` nodes, L2389-2399: size, chunk that is in the trie, other chunks of the same size in `fd` order,
`child[0]`, `child[1]` -/
inductive Tree where
  | leaf
  | node (s p : Nat) (q : List Nat) (l r : Tree)
deriving DecidableEq, Repr

/-- `t == 0` -/
def Tree.isLeaf : Tree → Bool
  | .leaf => true
  | .node _ _ _ _ _ => false

/-- loop of `insert_large_chunk`, L3672-3704 -/
def Tree.insert (x s : Nat) : Nat → Tree → Tree
  | _, .leaf => .node s x [] .leaf .leaf
  | b, .node s' p q l r =>
    if s' ≠ s then
      if dir s b then .node s' p q l (r.insert x s (b - 1)) else .node s' p q (l.insert x s (b - 1)) r
    else .node s' p (x :: q) l r

/-- take out the leaf found by going to `child[1]` if there is one, else to `child[0]`: L3740-3747 -/
def Tree.popLeaf : Tree → Option ((Nat × Nat × List Nat) × Tree)
  | .leaf => none
  | .node s p q l r => match r.popLeaf with
    | some (x, r') => some (x, .node s p q l r')
    | none => match l.popLeaf with
      | some (x, l') => some (x, .node s p q l' r)
      | none => some ((s, p, q), .leaf)

/-- a node is gone: a leaf from below takes its place, L3737-3752, L3772-3790 -/
def Tree.dropNode (l r : Tree) : Tree := match r.popLeaf with
  | some ((s, p, q), r') => .node s p q l r'
  | none => match l.popLeaf with
    | some ((s, p, q), l') => .node s p q l' .leaf
    | none => .leaf

/-- `unlink_large_chunk`, L3724-3792, of chunk `x`; the next chunk in the trie, if `x` was, is `x->bk`, the last of the ring -/
def Tree.unlink (x : Nat) : Tree → Tree
  | .leaf => .leaf
  | .node s p q l r =>
    if x = p then match q.getLast? with
      | some z => .node s z q.dropLast l r
      | none => Tree.dropNode l r
    else if x ∈ q then .node s p (q.erase x) l r
    else .node s p q (l.unlink x) (r.unlink x)

/-! ## Bins -/

/-- the part of `struct malloc_state` (L2575-2598) that describes free chunks. `dv = none`: NULL. -/
structure Bins where
  smallmap : BitVec 32
  treemap : BitVec 32
  small : Nat → List Nat
  tree : Nat → Tree
  dv : Option Nat
  dvsize : Nat

/-- `memset` and `init_bins`, L5388, L3924-3932 -/
def Bins.init : Bins := ⟨0, 0, fun _ => [], fun _ => .leaf, none, 0⟩

/-- `insert_small_chunk`, L3580-3596: at the front -/
def Bins.insertSmall (b : Bins) (p s : Nat) : Bins :=
  { b with smallmap := b.smallmap ||| idx2bit (s / 8), small := Function.update b.small (s / 8) (p :: b.small (s / 8)) }

/-- `unlink_small_chunk`, L3599-3622, and `unlink_first_small_chunk`, L3625-3641 -/
def Bins.unlinkSmall (b : Bins) (p s : Nat) : Bins :=
  { b with smallmap := if b.small (s / 8) = [p] then b.smallmap &&& ~~~idx2bit (s / 8) else b.smallmap,
           small := Function.update b.small (s / 8) ((b.small (s / 8)).erase p) }

/-- `insert_large_chunk`, L3659-3706 -/
def Bins.insertLarge (b : Bins) (p s : Nat) : Bins :=
  { b with treemap := b.treemap ||| idx2bit (treeIndex s),
           tree := Function.update b.tree (treeIndex s) ((b.tree (treeIndex s)).insert p s (keyBits (treeIndex s))) }

/-- `unlink_large_chunk`, L3724-3792; the `index` stored in the chunk is the one computed when it was inserted (L3664) -/
def Bins.unlinkLarge (b : Bins) (p s : Nat) : Bins :=
  let t := (b.tree (treeIndex s)).unlink p
  { b with treemap := if t.isLeaf then b.treemap &&& ~~~idx2bit (treeIndex s) else b.treemap,
           tree := Function.update b.tree (treeIndex s) t }

/-- `insert_chunk`, L3796-3798 -/
def Bins.insert (b : Bins) (p s : Nat) : Bins := if isSmall s then b.insertSmall p s else b.insertLarge p s

/-- `unlink_chunk`, L3800-3802 -/
def Bins.unlink (b : Bins) (p s : Nat) : Bins := if isSmall s then b.unlinkSmall p s else b.unlinkLarge p s

/-- `replace_dv`, L3645-3654 -/
def Bins.replaceDv (b : Bins) (p s : Nat) : Bins :=
  let b' := match b.dv with
    | some d => if b.dvsize ≠ 0 then b.insertSmall d b.dvsize else b
    | none => b
  { b' with dv := some p, dvsize := s }

/-! ## `mspace_malloc` -/

/-- chunk found so far, and its size -/
abbrev Cand := Option (Nat × Nat)

/-- first loop of `tmalloc_large`, L4440-4462: down the trie along the bits of `nb`. Result: the subtree to search next, the best
chunk so far and its surplus `rsize`. -/
def descend (nb : Nat) : Nat → Tree → Cand → Nat → Tree → Tree × Cand × Nat
  | _, .leaf, v, rs, rst => (rst, v, rs)
  | b, .node s p q l r, v, rs, rst =>
    let trem := sub64 s nb
    if trem < rs ∧ trem = 0 then (.node s p q l r, some (p, s), 0)
    else
      let v' := if trem < rs then some (p, s) else v
      let rs' := if trem < rs then trem else rs
      if dir nb b then descend nb (b - 1) r v' rs' rst
      else descend nb (b - 1) l v' rs' (if r.isLeaf then rst else r)

/-- second loop of `tmalloc_large`, L4470-4477, and loop of `tmalloc_small`, L4512-4518: down the leftmost path -/
def scan (nb : Nat) : Tree → Cand → Nat → Cand × Nat
  | .leaf, v, rs => (v, rs)
  | .node s p _ l r, v, rs =>
    let trem := sub64 s nb
    let v' := if trem < rs then some (p, s) else v
    let rs' := if trem < rs then trem else rs
    if l.isLeaf then scan nb r v' rs' else scan nb l v' rs'

/-- `tmalloc_large`, L4430-4480: the chunk taken from the tries, or none if there is none or `dv` fits better -/
def tlarge (b : Bins) (nb : Nat) : Cand :=
  let idx := treeIndex nb
  let x := descend nb (keyBits idx) (b.tree idx) none (sub64 0 nb) .leaf
  let lb := leftBits (idx2bit idx) &&& b.treemap
  let t := if x.1.isLeaf && x.2.1.isNone then (if lb ≠ 0 then b.tree (bit2idx (leastBit lb)) else x.1) else x.1
  let y := scan nb t x.2.1 x.2.2
  match y.1 with
  | some v => if y.2 < sub64 b.dvsize nb then some v else none
  | none => none

/-- `tmalloc_small`, L4500-4518: the chunk taken from the tries (`none`: a NULL dereference) -/
def tsmall (b : Bins) (nb : Nat) : Cand := match b.tree (bit2idx (leastBit b.treemap)) with
  | .leaf => none
  | .node s p _ l r => (scan nb (if l.isLeaf then r else l) (some (p, s)) (sub64 s nb)).1

/-- end of `mspace_malloc`, L5557-5590: from `dv`, from `top`, or `sys_alloc` -/
def rest (b : Bins) (top : Option Nat) (nb : Nat) : Choice × Bins :=
  if nb ≤ b.dvsize then match b.dv with
    | some p =>
      if minChunk ≤ b.dvsize - nb then (.chunk p, { b with dv := some (p + nb), dvsize := b.dvsize - nb })
      else (.chunk p, { b with dv := none, dvsize := 0 })
    | none => (.outside false, b)
  else match top with
    | some t => if nb < t then (.top, b) else (.outside false, b)
    | none => (.outside false, b)

/-- bins after a small request was served with the chunk `p` of size `s`, already unlinked: L5528-5536, L4525-4532 -/
def splitDv (b : Bins) (p s nb : Nat) : Bins := if s - nb < minChunk then b else b.replaceDv (p + nb) (s - nb)

/-- bins after a large request was served with the chunk `p` of size `s`, already unlinked: L4486-4492 -/
def splitBin (b : Bins) (p s nb : Nat) : Bins := if s - nb < minChunk then b else b.insert (p + nb) (s - nb)

/-- `mspace_malloc`, L5492-5590: how a request is served and the bins after it -/
def place (b : Bins) (top : Option Nat) (req : Nat) : Choice × Bins :=
  let nb := need req
  if req ≤ 232 then
    let idx := nb / 8
    let bits := b.smallmap >>> idx
    if bits &&& 3 ≠ 0 then
      let i := if bits.getLsbD 0 then idx else idx + 1
      match b.small i with
      | p :: _ => (.chunk p, b.unlinkSmall p (8 * i))
      | [] => (.outside false, b)
    else if b.dvsize < nb then
      if bits ≠ 0 then
        let i := bit2idx (leastBit ((bits <<< idx) &&& leftBits (idx2bit idx)))
        match b.small i with
        | p :: _ => (.chunk p, splitDv (b.unlinkSmall p (8 * i)) p (8 * i) nb)
        | [] => (.outside false, b)
      else if b.treemap ≠ 0 then match tsmall b nb with
        | some (p, s) => (.chunk p, splitDv (b.unlinkLarge p s) p s nb)
        | none => (.outside false, b)
      else rest b top nb
    else rest b top nb
  else if maxRequest ≤ req then (.outside false, b)
  else if b.treemap ≠ 0 then match tlarge b nb with
    | some (p, s) => (.chunk p, splitBin (b.unlinkLarge p s) p s nb)
    | none => rest b top nb
  else rest b top nb

/-! ## Giving chunks back -/

/-- size of the chunk before, if it is free: `prev_foot`, `pinuse` (L5617-5618, L4368-4370) -/
def prevFree : List Chunk → Option Nat
  | [] => none
  | [⟨n, .free⟩] => some n
  | [⟨_, .user _⟩] => none
  | [⟨_, .dead⟩] => none
  | _ :: d :: cs => prevFree (d :: cs)

/-- `(next->head & INUSE_BITS) == INUSE_BITS` (L5630, L4383); behind a former `top` there are fence posts, marked in use (L4025) -/
def nextInUse : List Chunk → Option Nat → Bool
  | [], some _ => false
  | [], none => true
  | ⟨_, .free⟩ :: _, _ => false
  | ⟨_, .user _⟩ :: _, _ => true
  | ⟨_, .dead⟩ :: _, _ => true

/-- bins after the second half of `mspace_free` and `dispose_chunk`, L5641-5680, L4396-4421: chunk `p` of `s` bytes, next chunk at `nx` -/
def fwdBins (b : Bins) (p s nx : Nat) : List Chunk → Option Nat → Bins
  | [], some _ => if b.dv = some p then { b with dv := none, dvsize := 0 } else b
  | [], none => b.insert p s
  | ⟨n, .free⟩ :: _, _ =>
    if b.dv = some nx then { b with dv := some p, dvsize := b.dvsize + s }
    else
      let b' := b.unlink nx n
      if b'.dv = some p then { b' with dvsize := s + n } else b'.insert p (s + n)
  | ⟨_, .user _⟩ :: _, _ => b.insert p s
  | ⟨_, .dead⟩ :: _, _ => b.insert p s

/-- bins after `mspace_free`, L5612-5680, and `dispose_chunk`, L4364-4425: the chunk of `s` bytes at `p`, between `l` and `r` -/
def disposeBins (b : Bins) (l : List Chunk) (p s : Nat) (r : List Chunk) (t : Option Nat) : Bins := match prevFree l with
  | some n =>
    if b.dv = some (p - n) then
      if nextInUse r t then { b with dvsize := n + s } else fwdBins b (p - n) (n + s) (p + s) r t
    else fwdBins (b.unlink (p - n) n) (p - n) (n + s) (p + s) r t
  | none => fwdBins b p s (p + s) r t

/-- bins after a successful `try_realloc_chunk`, L4809-4866, of the chunk `p` of `s` bytes to `nb` -/
def reallocBins (b : Bins) (l : List Chunk) (p s nb req : Nat) (r : List Chunk) (t : Option Nat) : Bins :=
  if nb ≤ s then
    if s - nb < minChunk then b else disposeBins b (l ++ [⟨nb, .user req⟩]) (p + nb) (s - nb) r t
  else match r with
    | [] => b
    | ⟨n, .free⟩ :: r' =>
      if b.dv = some (p + s) then
        if minChunk ≤ s + b.dvsize - nb then { b with dv := some (p + nb), dvsize := s + b.dvsize - nb }
        else { b with dv := none, dvsize := 0 }
      else
        let b' := b.unlink (p + s) n
        if s + n - nb < minChunk then b' else disposeBins b' (l ++ [⟨nb, .user req⟩]) (p + nb) (s + n - nb) r' t
    | ⟨_, .user _⟩ :: _ => b
    | ⟨_, .dead⟩ :: _ => b

/-! ## The calls -/

/-- `mspace_malloc`, L5485-5596. Result `none`: the code would use a chunk that is not free or too small. -/
def malloc (h : Heap) (b : Bins) (req : Nat) : Option ((Heap × Bins) × Option Nat) :=
  let x := place b h.top req
  (Heap.malloc h req x.1).map (fun y => ((y.1, x.2), y.2))

/-- `mspace_free`, L5598-5691 -/
def free (h : Heap) (b : Bins) (p : Nat) : Option (Heap × Bins) := match find p 0 h.chunks with
  | some (l, ⟨s, .user _⟩, r) => some (dispose l s r h.top, disposeBins b l p s r h.top)
  | some (_, ⟨_, .free⟩, _) => none
  | some (_, ⟨_, .dead⟩, _) => none
  | none => none

/-- `mspace_realloc`, L5713-5755; `os`: `sys_alloc`, if called, returns memory -/
def realloc (h : Heap) (b : Bins) (p req : Nat) (os : Bool) : Option ((Heap × Bins) × Option Nat) :=
  if req < maxRequest then match find p 0 h.chunks with
    | some (l, ⟨s, .user _⟩, r) => match tryRealloc l s (need req) req r h.top with
      | some h' => some ((h', reallocBins b l p s (need req) req r h.top), some p)
      | none => match malloc h b req with
        | some (x, some q) => (free x.1 x.2 p).map (fun y => (y, some q))
        | some (x, none) => if os then (free x.1 x.2 p).map (fun y => (y, none)) else some (x, none)
        | none => none
    | some (_, ⟨_, .free⟩, _) => none
    | some (_, ⟨_, .dead⟩, _) => none
    | none => none
  else some ((h, b), none)

/-- bins after skipping `d` bytes: L4896-4921 -/
def leadBins (b : Bins) (l : List Chunk) (p s d req : Nat) (r : List Chunk) (t : Option Nat) : Bins :=
  if d = 0 then b else disposeBins b l p d (⟨s - d, .user req⟩ :: r) t

/-- bins after giving back spare room: L4924-4933 -/
def trimBins (b : Bins) (l : List Chunk) (p s nb req : Nat) (r : List Chunk) (t : Option Nat) : Bins :=
  if nb + minChunk < s then disposeBins b (l ++ [⟨nb, .user req⟩]) (p + nb) (s - nb) r t else b

/-- `mspace_memalign`, L5789-5799, L4873-4943, for a power of two `al` ≥ 32 -/
def memalign (a0 : Nat) (h : Heap) (b : Bins) (al req : Nat) : Option ((Heap × Bins) × Option Nat) :=
  if req < maxRequest - al then
    match malloc h b (need req + al + minChunk - 8) with
    | some (x, some p) => match find p 0 x.1.chunks with
      | some (l, ⟨s, .user _⟩, r) =>
        let d := lead al (a0 + p)
        let h1 := giveLead l s d req r x.1.top
        let b1 := leadBins x.2 l p s d req r x.1.top
        match find (p + d) 0 h1.chunks with
        | some (l1, ⟨s1, .user _⟩, r1) =>
          some ((trimEnd l1 s1 (need req) req r1 h1.top, trimBins b1 l1 (p + d) s1 (need req) req r1 h1.top), some (p + d))
        | some (_, ⟨_, .free⟩, _) => none
        | some (_, ⟨_, .dead⟩, _) => none
        | none => none
      | some (_, ⟨_, .free⟩, _) => none
      | some (_, ⟨_, .dead⟩, _) => none
      | none => none
    | some (x, none) => some (x, none)
    | none => none
  else some ((h, b), none)

/-- the heap of one PE with its bins, and the blocks the user holds -/
structure St where
  heap : Heap
  bins : Bins
  live : List (Nat × Nat)

/-- blocks after a call that may return a new one -/
def St.grant (s : St) (req : Nat) : Option ((Heap × Bins) × Option Nat) → Option (St × Option Nat)
  | some (x, some q) => some (⟨x.1, x.2, (q, req) :: s.live⟩, some q)
  | some (x, none) => some (⟨x.1, x.2, s.live⟩, none)
  | none => none

/-- one call, as `Verif.Heap.step` but with the allocator's own choice. `none`: illegal use (a block that is not held). -/
def step (a0 : Nat) (s : St) (os : Bool) : Call → Option (St × Option Nat)
  | .malloc req => s.grant req (malloc s.heap s.bins req)
  | .calloc n sz => s.grant (callocReq n sz) (malloc s.heap s.bins (callocReq n sz))
  | .align k req => if 2 ^ k ≤ 16 then s.grant req (malloc s.heap s.bins req) else s.grant req (memalign a0 s.heap s.bins (2 ^ k) req)
  | .realloc p req => match s.live.lookup p with
      | none => none
      | some r => match realloc s.heap s.bins p req os with
        | some (x, some q) => some (⟨x.1, x.2, (q, req) :: s.live.erase (p, r)⟩, some q)
        | some (x, none) => some (⟨x.1, x.2, if os && decide (req < maxRequest) then s.live.erase (p, r) else s.live⟩, none)
        | none => none
  | .free p => match s.live.lookup p with
      | none => none
      | some r => (free s.heap s.bins p).map (fun x => (⟨x.1, x.2, s.live.erase (p, r)⟩, none))

/-- histories of a heap of `cap` bytes; `create_mspace_with_base` (L5425-5438) -/
inductive Reach (a0 cap : Nat) : St → Prop
  | init {h : Heap} : create cap = some h → Reach a0 cap ⟨h, .init, []⟩
  | step {s s' : St} {o : Option Nat} {c : Call} {os : Bool} : Reach a0 cap s → step a0 s os c = some (s', o) → Reach a0 cap s'

end Verif.Dl
