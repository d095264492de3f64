import Verif.Flow.Ex
import Verif.Dl.Ex
import Verif.Heap.Props
import Mathlib.Data.List.Pairwise
/-!
# C95: the blocks of the symmetric heap in executions

All PEs make the same calls of the allocator (`Dl`); a PE uses the address it got as remote address of a put or get (`Flow`). What is written
is the other PE's copy of the same block and nothing else, so programs that keep to their blocks do not disturb each other, and data put into a
block are found by the other PE at the address it got itself.
-/
namespace Verif.Flow
open Verif.Sobj Verif.Rma Verif.Vis Verif.Api
open Verif.Heap (heapSize trueSize Call)

/-! ## Specification -/

/-- a job after start-up: pages of `2^k` bytes, `Z` bytes of heap asked for in the environment, the heap of PE `p` at `B p`
(setup_impl.c L160-290); data segments anywhere -/
structure Job (S : Sys) (k Z : Nat) (B : Nat → Nat) : Prop where
  ok : ∀ p < S.npes, Heap.Ok (B p) k Z
  objs : ∃ dyn db ds, ∀ p < S.npes, (S.cf p).dyn = dyn ∧
    (S.cf p).heap = setupAttr dyn .heap 0 S.npes (fun i => BitVec.ofNat 64 (B i)) (heapSize k Z) p ∧
    (S.cf p).data = setupAttr dyn .data 0 S.npes db ds p

/-- PE `p` has made the allocator calls `cs`; it holds the blocks `s.live` (offset, size) and got the offsets `os` -/
def Made (k Z : Nat) (B : Nat → Nat) (p : Nat) (cs : List (Call × Bool)) (s : Dl.St) (os : List (Option Nat)) : Prop :=
  Dl.run (B p + 960) (Dl.new (trueSize k Z)) cs = some (s, os)

/-- the heaps lie at the same address modulo every alignment asked for -/
def Congruent (S : Sys) (B : Nat → Nat) (cs : List (Call × Bool)) : Prop :=
  ∀ p < S.npes, ∀ q < S.npes, ∀ k ∈ Heap.aligns (cs.map (·.1)), B p % 2 ^ k = B q % 2 ^ k

/-- byte `j` of a block, on PE `p`: the address the allocator returned there (after the 960 bytes of its state), plus `j` -/
def adr (B : Nat → Nat) (p : Nat) (x : Nat × Nat) (j : Nat) : Nat := B p + 960 + x.1 + j

/-- PE `q` passes a routine an address in a block it holds, `d` bytes from its start, as remote address for PE `t`; all elements lie in the
block; default context -/
structure Use (S : Sys) (k Z : Nat) (B : Nat → Nat) (s : Dl.St) (x : Nat × Nat) (d : Nat) (q t : Nat) (gpu : Bool) (mode : Mode) (rt : RRt)
    (fn : Fn) (isCtx : Bool) (ctx : Option (Nat × Nat)) (a : RArgs) : Prop where
  exist : fn.Exists
  origin : q < S.npes
  target : t < S.npes
  held : x ∈ s.live
  /-- the block ends within the heap's official size (C47) -/
  inside : 960 + x.1 + x.2 ≤ heapSize k Z
  start : d < x.2
  fits : ∀ i < count rt a, ∀ b < fn.elem, 0 ≤ byteOf d fn.elem (if puts rt then dstride rt a else sstride rt a) i b ∧
    byteOf d fn.elem (if puts rt then dstride rt a else sstride rt a) i b < x.2
  remote : rt.remote a = BitVec.ofNat 64 (adr B q x d)
  dflt : isCtx = true → ctx = none
  limits : rt.InLimits fn (pathFor S q rt gpu mode) a

/-- nobody writes the block `x` on PE `t`: nothing is in flight to it in `g`, none of the events writes it -/
def Alone (B : Nat → Nat) (g : G) (l : List Ev) (t : Nat) (x : Nat × Nat) : Prop :=
  ∀ j < x.2, NoWriter g (t, (adr B t x j : Int)) ∧ ∀ e ∈ l, ¬ e.writes (t, (adr B t x j : Int))

/-! ## Proof -/

theorem ofNat_int {n : Nat} (h : n < 2 ^ 63) : (BitVec.ofNat 64 n).toInt = n := by
  rw [BitVec.toInt_ofNat', Int.bmod_eq_of_le] <;> omega

/-- the heap's end -/
theorem job_space {S : Sys} {k Z : Nat} {B : Nat → Nat} (J : Job S k Z B) {p : Nat} (hp : p < S.npes) : B p + heapSize k Z < 2 ^ 63 := by
  have o := J.ok p hp
  have := o.space
  have := Heap.sizes o
  omega

/-- all PEs hold the same blocks -/
theorem made_all {S : Sys} {k Z : Nat} {B : Nat → Nat} {cs : List (Call × Bool)} (hc : Congruent S B cs) {q t : Nat} (hq : q < S.npes)
    (ht : t < S.npes) {s : Dl.St} {os : List (Option Nat)} (h : Made k Z B q cs s os) : Made k Z B t cs s os := by
  unfold Made at h ⊢
  rw [← Dl.C61_actual_partial (b1 := B q) (b2 := B t) cs _ (hc q hq t ht)]
  exact h

theorem made_reach {S : Sys} {k Z : Nat} {B : Nat → Nat} (J : Job S k Z B) {q : Nat} (hq : q < S.npes) {cs : List (Call × Bool)}
    {s : Dl.St} {os : List (Option Nat)} (h : Made k Z B q cs s os) : Dl.Reach (B q + 960) (trueSize k Z) s := by
  have o := J.ok q hq
  have hs := Heap.sizes o
  have hp := Heap.page_ge o.page
  refine Dl.run_reach cs (.init ?_) h
  unfold Heap.create
  rw [if_pos (by simp only [Heap.hdr, Heap.foot]; omega)]
  simp only [Heap.hdr, Heap.foot, Nat.sub_sub]

/-- two blocks have no byte in common -/
theorem apart {S : Sys} {k Z : Nat} {B : Nat → Nat} (J : Job S k Z B) {q : Nat} (hq : q < S.npes) {cs : List (Call × Bool)}
    {s : Dl.St} {os : List (Option Nat)} (h : Made k Z B q cs s os) {x y : Nat × Nat} (hx : x ∈ s.live) (hy : y ∈ s.live) (hne : x ≠ y)
    (p : Nat) {i j : Nat} (hi : i < x.2) (hj : j < y.2) : adr B p x i ≠ adr B p y j := by
  have o := J.ok q hq
  have hs := Heap.sizes o
  have h16 := Heap.page_16 o.page
  have hd := (Dl.C70_blocks o.base16 (show 16 ∣ trueSize k Z by rw [hs.2.2.2.2]; exact Nat.dvd_add (h16.trans hs.2.2.1) h16)
    (by rw [hs.2.2.2.2]; have := o.space; omega) (made_reach J hq h)).1
  have : Std.Symm (fun x y : Nat × Nat => Heap.Disjoint (B q + 960 + x.1) x.2 (B q + 960 + y.1) y.2) := ⟨fun _ _ h => Or.symm h⟩
  have hxy := hd.forall hx hy hne
  unfold Heap.Disjoint at hxy
  unfold adr
  omega

/-- a byte of the heap is a symmetric address -/
theorem block_sym {S : Sys} {k Z : Nat} {B : Nat → Nat} (J : Job S k Z B) {q t : Nat} (hq : q < S.npes) (ht : t < S.npes) (g : G) {o : Nat}
    (ho : 0 < o) (hlt : o < heapSize k Z) {path : Path} (hp : path = .direct .abs → (S.cf q).dyn = true) :
    SymAddr (procs S g) S.npes q t path none (fun i => BitVec.ofNat 64 (B i)) (BitVec.ofNat 64 o) := by
  obtain ⟨dyn, db, ds, hobj⟩ := J.objs
  have hh : SymObj (procs S g) S.npes .heap dyn .heap 0 (fun i => BitVec.ofNat 64 (B i)) (heapSize k Z) := fun p hp' =>
    congrArg some (hobj p hp').2.1
  have hd : SymObj (procs S g) S.npes .data dyn .data 0 db ds := fun p hp' => congrArg some (hobj p hp').2.2
  have e : ∀ i, BitVec.ofNat 64 (B i) + BitVec.ofNat 64 o = BitVec.ofNat 64 (B i + o) := fun i => (BitVec.ofNat_add ..).symm
  have hsq := job_space J hq
  have hst := job_space J ht
  refine ⟨.heap, dyn, .heap, 0, heapSize k Z, hh, by decide, ht, Or.inr ⟨rfl, ?_⟩, fun h => (hobj q hq).1 ▸ hp h,
    (am_resolves_heap_data dyn S.npes _ db _ ds (procs S g) hh hd ht).1, ?_, ?_⟩
  · have hb : (procs S g q).heap = setupAttr dyn .heap 0 S.npes (fun i => BitVec.ofNat 64 (B i)) (heapSize k Z) q := (hobj q hq).2.1
    have hin : inRange (procs S g q).heap (BitVec.ofNat 64 (B q) + BitVec.ofNat 64 o) = true := by
      rw [hb, e]
      unfold inRange setupAttr
      dsimp only
      rw [ofNat_int (by omega), ofNat_int (by omega)]
      simp only [Bool.and_eq_true, decide_eq_true_eq]
      omega
    unfold query
    rw [if_pos hin, hb]
  · rw [ofNat_int (by omega)]; omega
  · dsimp only
    rw [e, ofNat_int (by omega)]; omega

section
variable {S : Sys} {k Z : Nat} {B : Nat → Nat} {s : Dl.St} {x : Nat × Nat} {d : Nat} {q t : Nat} {gpu : Bool} {mode : Mode} {rt : RRt}
  {fn : Fn} {isCtx : Bool} {ctx : Option (Nat × Nat)} {a : RArgs}

theorem Use.noctx (u : Use S k Z B s x d q t gpu mode rt fn isCtx ctx a) : (if isCtx then ctx else none) = none := by
  cases h : isCtx with
  | false => rfl
  | true => exact u.dflt h

theorem Use.noobj (u : Use S k Z B s x d q t gpu mode rt fn isCtx ctx a) (g : G) : (if isCtx then ctxObj (g.pe q) ctx else none) = none := by
  cases h : isCtx with
  | false => rfl
  | true => rw [u.dflt h]; rfl

/-- the address in the block as base and offset -/
theorem Use.sym (u : Use S k Z B s x d q t gpu mode rt fn isCtx ctx a) (J : Job S k Z B) (hm : mode = .abs → (S.cf q).dyn = true) (g : G) :
    SymAddr (procs S g) S.npes q t (pathFor S q rt gpu mode) (if isCtx then ctxObj (g.pe q) ctx else none)
      (fun i => BitVec.ofNat 64 (B i)) (BitVec.ofNat 64 (960 + x.1 + d)) ∧
    rt.remote a = BitVec.ofNat 64 (B q) + BitVec.ofNat 64 (960 + x.1 + d) ∧
    (∀ p < S.npes, (BitVec.ofNat 64 (B p) + BitVec.ofNat 64 (960 + x.1 + d)).toInt = adr B p x d) := by
  have := u.inside
  have := u.start
  have e : ∀ i, BitVec.ofNat 64 (B i) + BitVec.ofNat 64 (960 + x.1 + d) = BitVec.ofNat 64 (adr B i x d) := fun i => by
    rw [← BitVec.ofNat_add]; unfold adr; congr 1; omega
  refine ⟨?_, by rw [u.remote, e], fun p hp => ?_⟩
  · rw [u.noobj]
    refine block_sym J u.origin u.target g (by omega) (by omega) (fun h => hm ?_)
    unfold pathFor pathOf at h
    generalize (S.cf q).isDirect _ gpu = c at h
    cases c <;> cases h
    rfl
  · have := job_space J hp
    rw [e, ofNat_int (by unfold adr; omega)]

theorem Use.elem (u : Use S k Z B s x d q t gpu mode rt fn isCtx ctx a) {i b : Nat} (hi : i < count rt a) (hb : b < fn.elem) (p : Nat) :
    ∃ j < x.2, byteOf (adr B p x d) fn.elem (if puts rt then dstride rt a else sstride rt a) i b = (adr B p x j : Nat) ∧
      (j : Int) = byteOf d fn.elem (if puts rt then dstride rt a else sstride rt a) i b := by
  obtain ⟨h1, h2⟩ := u.fits i hi b hb
  generalize he : byteOf d fn.elem (if puts rt then dstride rt a else sstride rt a) i b = z at h1 h2
  refine ⟨z.toNat, by omega, ?_, by omega⟩
  unfold byteOf at he ⊢
  unfold adr
  omega

theorem mem_pairs {dd ss : Int} {n e : Nat} {ds st : Int} {y : Int × Int} (h : y ∈ pairs dd ss n e ds st) :
    ∃ i < n, ∃ b < e, y = (byteOf dd e ds i b, byteOf ss e st i b) := by
  obtain ⟨p, hp, rfl⟩ := List.mem_map.1 h
  exact ⟨p.1, (mem_idx.1 hp).1, p.2, (mem_idx.1 hp).2, rfl⟩

end

/-! ## C95 -/

section
variable {S : Sys} {k Z : Nat} {B : Nat → Nat} {cs : List (Call × Bool)} {s : Dl.St} {os : List (Option Nat)} {x : Nat × Nat} {d : Nat} {q t : Nat}
  {gpu : Bool} {mode : Mode} {rt : RRt} {fn : Fn} {isCtx : Bool} {ctx : Option (Nat × Nat)} {a : RArgs}

/-- **C95** (put): a call of a put routine on an address in a block writes, on the target PE and nowhere else, bytes of that PE's copy of the
same block, which that PE holds too; it writes no byte of another block, on any PE. Missing: blocks that end in the last part of the heap
(`C95_fails`), heaps at addresses that differ modulo an alignment asked for (C61). -/
theorem C95_put_partial (J : Job S k Z B) (hc : Congruent S B cs) (hm : Made k Z B q cs s os)
    (u : Use S k Z B s x d q t gpu mode rt fn isCtx ctx a) (hp : puts rt = true) {cacheOn : Bool} {g0 g1 : G} {xs : List (Int × Int)} {ep : Nat}
    (h1 : Calls S cacheOn gpu mode rt fn isCtx ctx a q t g0 xs ep g1) :
    Made k Z B t cs s os ∧ Step S g0 (.put q t rt.nbi none (rt.remote a) xs ep) g1 ∧
    (∀ p y, (Ev.put q t rt.nbi none (rt.remote a) xs ep).writes (p, y) → p = t ∧ ∃ j < x.2, y = (adr B t x j : Nat)) ∧
    ∀ z ∈ s.live, z ≠ x → ∀ p, ∀ j < z.2, ¬ (Ev.put q t rt.nbi none (rt.remote a) xs ep).writes (p, ((adr B p z j : Nat) : Int)) := by
  have hmode : mode = .abs → (S.cf q).dyn = true := by obtain ⟨_, _, _, h, _⟩ := h1; exact h
  obtain ⟨hs, ha, hadr⟩ := u.sym J hmode g0
  obtain ⟨st, ex⟩ := calls_put hp u.exist h1 hs ha u.limits
  rw [u.noctx] at st
  have hw : ∀ p y, (Ev.put q t rt.nbi none (rt.remote a) xs ep).writes (p, y) → p = t ∧ ∃ j < x.2, y = (adr B t x j : Nat) := by
    rintro p y ⟨hpt, w, hw, he⟩
    refine ⟨hpt, ?_⟩
    rw [ex] at hw
    obtain ⟨i, hi, b, hb, rfl⟩ := mem_pairs hw
    obtain ⟨j, hj, e, _⟩ := u.elem hi hb t
    rw [hp, if_pos rfl] at e
    refine ⟨j, hj, ?_⟩
    rw [← e]
    have h := hadr t u.target
    dsimp only at he
    rw [h] at he
    exact he.symm
  refine ⟨made_all hc u.origin u.target hm, st, hw, ?_⟩
  intro z hz hne p j hj hwr
  obtain ⟨rfl, i, hi, e⟩ := hw _ _ hwr
  exact apart J u.origin hm hz u.held hne p hj hi (by exact_mod_cast e)

/-- **C95** (get): a call of a get routine on an address in a block reads, on the other PE, bytes of its copy of the same block only -/
theorem C95_get_partial (J : Job S k Z B) (hc : Congruent S B cs) (hm : Made k Z B q cs s os)
    (u : Use S k Z B s x d q t gpu mode rt fn isCtx ctx a) (hp : puts rt = false) {cacheOn : Bool} {g0 g1 : G} {xs : List (Int × Int)} {ep : Nat}
    (h1 : Calls S cacheOn gpu mode rt fn isCtx ctx a q t g0 xs ep g1) :
    Made k Z B t cs s os ∧ Step S g0 (.get q t rt.nbi none (rt.remote a) xs ep) g1 ∧ ∀ y ∈ xs, ∃ j < x.2, y.2 = (adr B t x j : Nat) := by
  have hmode : mode = .abs → (S.cf q).dyn = true := by obtain ⟨_, _, _, h, _⟩ := h1; exact h
  obtain ⟨hs, ha, hadr⟩ := u.sym J hmode g0
  obtain ⟨st, ex⟩ := calls_get hp u.exist h1 hs ha u.limits
  rw [u.noctx] at st
  refine ⟨made_all hc u.origin u.target hm, st, ?_⟩
  intro y hy
  rw [ex] at hy
  obtain ⟨i, hi, b, hb, rfl⟩ := mem_pairs hy
  obtain ⟨j, hj, e, _⟩ := u.elem hi hb t
  rw [hp, if_neg (by decide)] at e
  refine ⟨j, hj, ?_⟩
  rw [← e]
  have h := hadr t u.target
  dsimp only
  rw [h]

/-- **C95** (calls are accepted): in every state of every execution, a PE that is in no other call can make the call: it is a step -/
theorem C95_call_partial (J : Job S k Z B) (u : Use S k Z B s x d q t gpu mode rt fn isCtx ctx a) (hmode : mode = .abs → (S.cf q).dyn = true)
    (hoff : rt.offered fn = true) (cacheOn : Bool) {g0 : G} (hr : Reach S g0) (hfree : Free S g0 q)
    (hset : Settled g0) :
    ∃ xs g1, Calls S cacheOn gpu mode rt fn isCtx ctx a q t g0 xs (g0.arr q) g1 ∧ g1.arr = g0.arr ∧ g1.lv = g0.lv ∧
      (∀ p, p ≠ q → g1.pe p = g0.pe p) := by
  obtain ⟨hs, ha, hadr⟩ := u.sym J hmode g0
  obtain ⟨dyn, db, ds, hobj⟩ := J.objs
  have hin : inRange (S.cf q).heap (rt.remote a) = true := by
    have := u.inside
    have := u.start
    have := job_space J u.origin
    have hb : (BitVec.ofNat 64 (B q)).toInt = B q := ofNat_int (by omega)
    have hx : (BitVec.ofNat 64 (adr B q x d)).toInt = adr B q x d := ofNat_int (by unfold adr; omega)
    rw [(hobj q u.origin).2.1, u.remote]
    unfold inRange setupAttr
    dsimp only
    rw [hb, hx]
    unfold adr
    simp only [Bool.and_eq_true, decide_eq_true_eq]
    omega
  obtain ⟨s', e⟩ := C94_issue hr q (Or.inl hin) (count rt a) u.target (kindOf rt) gpu
  obtain ⟨xs, h⟩ := C93_call (S := S) cacheOn hoff hfree hmode hs ha u.limits (by rw [u.noctx]; exact e) (settled_done hset q s')
  exact ⟨xs, _, h, rfl, rfl, fun p hp => Function.update_of_ne hp _ _⟩

/-- what a block that nobody else writes gives for the elements of a call -/
theorem Use.undisturbed (u : Use S k Z B s x d q t gpu mode rt fn isCtx ctx a) (J : Job S k Z B) {g : G} {l : List Ev}
    (h : Alone B g l t x) : Undisturbed g l t (BitVec.ofNat 64 (B t) + BitVec.ofNat 64 (960 + x.1 + d)).toInt (count rt a) fn.elem
      (if puts rt then dstride rt a else sstride rt a) := by
  intro i hi b hb
  have e : (BitVec.ofNat 64 (B t) + BitVec.ofNat 64 (960 + x.1 + d)).toInt = adr B t x d := by
    have := u.inside
    have := u.start
    have := job_space J u.target
    rw [← BitVec.ofNat_add, ofNat_int (by omega)]
    unfold adr; push_cast; omega
  rw [e]
  obtain ⟨j, hj, e, _⟩ := u.elem hi hb t
  rw [e]
  exact h j hj

/-- **C95** (barrier): data put into a block are in the target's copy of the block, at the same place, when any PE has left the next barrier;
blocks need no further condition, unlike C93 -/
theorem C95_barrier_partial (J : Job S k Z B) (u : Use S k Z B s x d q t gpu mode rt fn isCtx ctx a) (hp : puts rt = true) {cacheOn : Bool}
    {g0 g1 g : G} (hr : Reach S g0) {xs : List (Int × Int)} {ep : Nat} (h1 : Calls S cacheOn gpu mode rt fn isCtx ctx a q t g0 xs ep g1)
    {l : List Ev} (h2 : Run S g1 l g) (hd : Alone B g0 l t x)
    (hs : rt.nbi = true → Undisturbed g0 (.put q t true none (rt.remote a) xs ep :: l) q (here rt a).toInt (count rt a) fn.elem (sstride rt a))
    {p : Nat} (hpn : p < S.npes) (hb : ep < g.lv p) {i b : Nat} (hi : i < count rt a) (hbk : b < fn.elem) :
    ∃ j < x.2, (j : Int) = byteOf d fn.elem (dstride rt a) i b ∧
      g.mem t (adr B t x j : Nat) = g0.mem q (byteOf (here rt a).toInt fn.elem (sstride rt a) i b) := by
  have hmode : mode = .abs → (S.cf q).dyn = true := by obtain ⟨_, _, _, h, _⟩ := h1; exact h
  obtain ⟨hsy, ha, hadr⟩ := u.sym J hmode g0
  obtain ⟨dyn, db, ds, hobj⟩ := J.objs
  have hin : inRange (S.cf q).heap (rt.remote a) = true := by
    have := u.inside
    have := u.start
    have := job_space J u.origin
    have hb : (BitVec.ofNat 64 (B q)).toInt = B q := ofNat_int (by omega)
    have hx : (BitVec.ofNat 64 (adr B q x d)).toInt = adr B q x d := ofNat_int (by unfold adr; omega)
    rw [(hobj q u.origin).2.1, u.remote]
    unfold inRange setupAttr
    dsimp only
    rw [hb, hx]
    unfold adr
    simp only [Bool.and_eq_true, decide_eq_true_eq]
    omega
  have hu := u.undisturbed J hd
  rw [hp, if_pos rfl] at hu
  have key := C93_barrier_partial hr hp u.exist h1 hsy ha u.limits h2 hu (fun h => by rw [u.noctx]; exact hs h)
    (by rw [u.noctx]; exact Or.inr ⟨rfl, Or.inr (Or.inl hin)⟩) hpn hb hi hbk
  obtain ⟨j, hj, e1, e2⟩ := u.elem hi hbk t
  rw [hp, if_pos rfl] at e1 e2
  refine ⟨j, hj, e2, ?_⟩
  rw [← key, ← e1, hadr t u.target]

/-- **C95** (fence): the same once the calling PE has called `shmem_fence` or `shmem_quiet` -/
theorem C95_fence_partial (J : Job S k Z B) (u : Use S k Z B s x d q t gpu mode rt fn isCtx ctx a) (hp : puts rt = true) {cacheOn : Bool}
    {g0 g1 g : G} (hr : Reach S g0) {xs : List (Int × Int)} {ep : Nat} (h1 : Calls S cacheOn gpu mode rt fn isCtx ctx a q t g0 xs ep g1)
    {l : List Ev} (h2 : Run S g1 l g) (hd : Alone B g0 l t x)
    (hs : rt.nbi = true → Undisturbed g0 (.put q t true none (rt.remote a) xs ep :: l) q (here rt a).toInt (count rt a) fn.elem (sstride rt a))
    (hfe : Ev.call q (.fence none) ∈ l ∨ Ev.call q (.quiet none) ∈ l) {i b : Nat} (hi : i < count rt a) (hbk : b < fn.elem) :
    ∃ j < x.2, (j : Int) = byteOf d fn.elem (dstride rt a) i b ∧
      g.mem t (adr B t x j : Nat) = g0.mem q (byteOf (here rt a).toInt fn.elem (sstride rt a) i b) := by
  have hmode : mode = .abs → (S.cf q).dyn = true := by obtain ⟨_, _, _, h, _⟩ := h1; exact h
  obtain ⟨hsy, ha, hadr⟩ := u.sym J hmode g0
  have hu := u.undisturbed J hd
  rw [hp, if_pos rfl] at hu
  have key := C93_fence hr hp u.exist h1 hsy ha u.limits h2 hu (fun h => by rw [u.noctx]; exact hs h) hfe hi hbk
  obtain ⟨j, hj, e1, e2⟩ := u.elem hi hbk t
  rw [hp, if_pos rfl] at e1 e2
  refine ⟨j, hj, e2, ?_⟩
  rw [← key, ← e1, hadr t u.target]

/-- **C95** (message): PE `q` puts data into a block `x` of PE `t`; later, after a fence or quiet of `q`, a flag in another block `y` of PE `w` is
written. PE `w` waits on the flag at the address it got itself. When the wait returns the data are in the block. -/
theorem C95_message_partial (J : Job S k Z B) (hc : Congruent S B cs) (hm : Made k Z B q cs s os)
    (u : Use S k Z B s x d q t gpu mode rt fn isCtx ctx a) (hp : puts rt = true) {cacheOn : Bool} {g0 g1 : G} (hr : Reach S g0)
    {xs : List (Int × Int)} {ep : Nat} (h1 : Calls S cacheOn gpu mode rt fn isCtx ctx a q t g0 xs ep g1)
    {h : Nat → G} {l : Nat → List Ev} (h2 : ∀ j, Run S g1 (l j) (h j)) (hd : ∀ j, Alone B g0 (l j) t x)
    (hs : rt.nbi = true → ∀ j, Undisturbed g0 (.put q t true none (rt.remote a) xs ep :: l j) q (here rt a).toInt (count rt a) fn.elem
      (sstride rt a))
    {y : Nat × Nat} (hy : y ∈ s.live) (hyx : y ≠ x) (hyi : 960 + y.1 + y.2 ≤ heapSize k Z) {w : Nat} (hw : w < S.npes) {f : Nat}
    {row : Row} {pr : PRt} (hpr : pr.isTest = false) (hrow : row ∈ pr.rows) (hf : f + row.ty.sizeof ≤ y.2)
    (hfl : ∀ j, ∀ b < row.ty.sizeof, NoWriter g0 (w, ((adr B w y (f + b) : Nat) : Int)) ∧
      ∀ l1 e l2, l j = l1 ++ e :: l2 → e.writes (w, ((adr B w y (f + b) : Nat) : Int)) →
        Ev.call q (.fence none) ∈ l1 ∨ Ev.call q (.quiet none) ∈ l1)
    {wmode : Mode} (hwm : wmode = .abs → (S.cf w).dyn = true) (gw : G) (cmp : P2p.Cmp) (v : BitVec (8 * row.ty.sizeof))
    (h0 : ¬ (pr.cmp cmp).rel (numAt row.ty (g0.mem w) (adr B w y f : Nat)) (numOf row.ty v)) {fuel n : Nat} {m m' : Mems}
    (hrun : pr.run (procs S gw) wmode w row (BitVec.ofNat 64 (adr B w y f)) cmp.code v (fun j _ => (h j).mem) fuel m = .ok (.done n m'))
    {i b : Nat} (hi : i < count rt a) (hbk : b < fn.elem) :
    ∃ j < x.2, (j : Int) = byteOf d fn.elem (dstride rt a) i b ∧
      m' t (adr B t x j : Nat) = g0.mem q (byteOf (here rt a).toInt fn.elem (sstride rt a) i b) := by
  have hmode : mode = .abs → (S.cf q).dyn = true := by obtain ⟨_, _, _, h, _⟩ := h1; exact h
  obtain ⟨hsy, ha, hadr⟩ := u.sym J hmode g0
  obtain ⟨_, _, _, hno⟩ := C95_put_partial J hc hm u hp h1
  have hpos : 0 < row.ty.sizeof := by cases row.ty <;> decide
  have hspw := job_space J hw
  have hfi : (BitVec.ofNat 64 (adr B w y f)).toInt = (adr B w y f : Nat) := ofNat_int (by unfold adr; omega)
  have hfb : ∀ b : Nat, ((adr B w y f : Nat) : Int) + (b : Nat) = ((adr B w y (f + b) : Nat) : Int) := fun b => by unfold adr; push_cast; omega
  have hres : resolve (procs S gw) (.direct wmode) none w w (BitVec.ofNat 64 (adr B w y f)) = .ok (BitVec.ofNat 64 (adr B w y f)) := by
    have := symm_resolve (block_sym J hw hw gw (o := 960 + y.1 + f) (by omega) (by omega) (path := .direct wmode) (fun h => hwm (by cases h; rfl)))
    rw [← BitVec.ofNat_add] at this
    rw [show B w + (960 + y.1 + f) = adr B w y f by unfold adr; omega] at this
    exact this
  have key := C93_message hr hp u.exist h1 hsy ha u.limits h2
    (fun j => by have hu := u.undisturbed J (hd j); rw [hp, if_pos rfl] at hu; exact hu)
    (fun h j => by rw [u.noctx]; exact hs h j) hpr hrow
    (ivar := BitVec.ofNat 64 (adr B w y f)) (w := w) (fun j b hb => by
      rw [u.noctx, hfi, hfb]
      exact ⟨(hfl j b hb).1, hno y hy hyx w (f + b) (by omega), (hfl j b hb).2⟩)
    hres cmp v (by rw [hfi]; exact h0) hrun hi hbk
  obtain ⟨j, hj, e1, e2⟩ := u.elem hi hbk t
  rw [hp, if_pos rfl] at e1 e2
  refine ⟨j, hj, e2, ?_⟩
  rw [← key, ← e1, hadr t u.target]

/-- **C95** (get, values): when a blocking get from a block returns, the destination has the bytes of the other PE's copy of the block -/
theorem C95_read_partial (J : Job S k Z B) (u : Use S k Z B s x d q t gpu mode rt fn isCtx ctx a) (hp : puts rt = false) (hnb : rt.nbi = false)
    {cacheOn : Bool} {g0 g1 g : G} {xs : List (Int × Int)} {ep : Nat} (h1 : Calls S cacheOn gpu mode rt fn isCtx ctx a q t g0 xs ep g1)
    {l : List Ev} (h2 : Run S g1 l g) (hd : Undisturbed g0 l q (here rt a).toInt (count rt a) fn.elem (dstride rt a))
    (hs : Alone B g0 (.get q t false none (rt.remote a) xs ep :: l) t x) (hret : g.busy q = []) {i b : Nat} (hi : i < count rt a)
    (hbk : b < fn.elem) :
    ∃ j < x.2, (j : Int) = byteOf d fn.elem (sstride rt a) i b ∧
      g.mem q (byteOf (here rt a).toInt fn.elem (dstride rt a) i b) = g0.mem t (adr B t x j : Nat) := by
  have hmode : mode = .abs → (S.cf q).dyn = true := by obtain ⟨_, _, _, h, _⟩ := h1; exact h
  obtain ⟨hsy, ha, hadr⟩ := u.sym J hmode g0
  have hu := u.undisturbed J hs
  rw [hp, if_neg (by decide)] at hu
  have key := C93_get hp hnb u.exist h1 hsy ha u.limits h2 hd (by rw [u.noctx]; exact hu) hret hi hbk
  obtain ⟨j, hj, e1, e2⟩ := u.elem hi hbk t
  rw [hp, if_neg (by decide)] at e1 e2
  refine ⟨j, hj, e2, ?_⟩
  rw [key, ← e1, hadr t u.target]

end

end Verif.Flow
