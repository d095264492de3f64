import Verif.Flow.Model
import Verif.Vis.Props
import Verif.Vis.Ex
import Verif.Api.RmaRtProps
import Verif.Api.P2pRtProps
/-!
# C93: what arrives is what the named routine was given

From the call of a routine of the API on one PE to the elements in the memory of another, in every execution.
-/
namespace Verif.Flow
open Verif.Sobj Verif.Rma Verif.Vis Verif.Api

/-! ## Specification -/

/-- number of elements a routine moves -/
def count (rt : RRt) (a : RArgs) : Nat := match rt with
  | .p => 1 | .g => 1
  | .put => a.nelems | .putNbi => a.nelems | .iput => a.nelems | .get => a.nelems | .getNbi => a.nelems | .iget => a.nelems

/-- stride of the destination, in elements -/
def dstride (rt : RRt) (a : RArgs) : Int := match rt with
  | .iput => a.dst | .iget => a.dst
  | .p => 1 | .g => 1 | .put => 1 | .putNbi => 1 | .get => 1 | .getNbi => 1

/-- stride of the source, in elements -/
def sstride (rt : RRt) (a : RArgs) : Int := match rt with
  | .iput => a.sst | .iget => a.sst
  | .p => 1 | .g => 1 | .put => 1 | .putNbi => 1 | .get => 1 | .getNbi => 1

/-- the address on the calling PE: the source of a put, the destination of a get; for `p` and `g` the variable `value` -/
def here (rt : RRt) (a : RArgs) : BitVec 64 := match rt with
  | .p => a.slot | .g => a.slot
  | .put => a.source | .putNbi => a.source | .iput => a.source
  | .get => a.dest | .getNbi => a.dest | .iget => a.dest

/-- puts and gets -/
def puts : RRt → Bool
  | .p => true | .put => true | .putNbi => true | .iput => true
  | .g => false | .get => false | .getNbi => false | .iget => false

/-- byte `b` of element `i` of an array of elements of `k` bytes with a stride -/
def byteOf (base : Int) (k : Nat) (st : Int) (i b : Nat) : Int := base + i * st * k + b

/-- Nobody else writes the `n` elements at `base` on PE `q`: nothing is in flight to them in `g`, and none of the events writes them. -/
def Undisturbed (g : G) (l : List Ev) (q : Nat) (base : Int) (n k : Nat) (st : Int) : Prop :=
  ∀ i < n, ∀ b < k, NoWriter g (q, byteOf base k st i b) ∧ ∀ e ∈ l, ¬ e.writes (q, byteOf base k st i b)

/-- `bases me + off` is the address, on PE `me`, of offset `off` of one symmetric object (heap, data segment, or a space; with a context the
space of the context), whose copies lie at `bases` on the PEs; dynamic windows are used with absolute displacements only -/
def SymAddr (procs : Nat → Proc) (npes me pe : Nat) (path : Path) (ctx : Option (Obj × Attr)) (bases : Nat → BitVec 64)
    (off : BitVec 64) : Prop :=
  ∃ o dyn kind i size, SymObj procs npes o dyn kind i bases size ∧ i < 2 ^ 29 ∧ pe < npes ∧
    (ctx = some (o, setupAttr dyn kind i npes bases size me) ∨
      (ctx = none ∧ query (procs me) (bases me + off) = some (o, setupAttr dyn kind i npes bases size me))) ∧
    (path = .direct .abs → dyn = true) ∧ AmResolves procs (setupAttr dyn kind i npes bases size me).handle me pe bases ∧
    0 ≤ off.toInt ∧ 0 < (bases pe + off).toInt

/-- the path a routine takes on PE `p` -/
def pathFor (S : Sys) (p : Nat) (rt : RRt) (gpu : Bool) (mode : Mode) : Path :=
  pathOf (S.cf p) (if puts rt then .put else .get) gpu mode

/-! ## Proof -/

theorem symm_resolve {procs : Nat → Proc} {npes me pe : Nat} {path : Path} {ctx : Option (Obj × Attr)} {bases : Nat → BitVec 64}
    {off : BitVec 64} (h : SymAddr procs npes me pe path ctx bases off) : resolve procs path ctx me pe (bases me + off) = .ok (bases pe + off) := by
  obtain ⟨o, dyn, kind, i, size, h1, h2, h3, h4, h5, h6, h7, h8⟩ := h
  exact resolve_symm h1 h2 h3 h4 path h5 h6 h7 h8

/-- the pairs of the bytes of `n` elements -/
def pairs (d s : Int) (n k : Nat) (ds ss : Int) : List (Int × Int) :=
  (idx n k).map fun p => (byteOf d k ds p.1 p.2, byteOf s k ss p.1 p.2)

theorem zip_idx (d s : Int) (n k : Nat) (ds ss : Int) {dl sl : List Int}
    (hd : dl = (idx n k).map fun p => (p.2 : Int) + (p.1 : Int) * ds * k) (hs : sl = (idx n k).map fun p => (p.2 : Int) + (p.1 : Int) * ss * k) :
    (dl.map fun x => d + x).zip (sl.map fun x => s + x) = pairs d s n k ds ss := by
  subst hd hs
  unfold pairs
  rw [List.map_map, List.map_map, List.zip_map']
  apply List.map_congr_left
  intro p _
  simp only [Function.comp, byteOf]
  exact Prod.ext (by ring) (by ring)

theorem flat_contig {n k : Nat} (hn : n < 2 ^ 31) :
    (Ty.basic k).flat (toI32 n).toNat = (idx n k).map fun p => (p.2 : Int) + (p.1 : Int) * 1 * k := by
  rw [toI32_lt hn, Int.toNat_natCast, flat_basic]
  apply List.map_congr_left
  intro p _
  rw [Int.mul_one]

theorem flat_bytes {c : Nat} (hc : c < 2 ^ 31) : (Ty.basic 1).flat (toI32 c).toNat = (List.range c).map fun (x : Nat) => (x : Int) := by
  rw [toI32_lt hc, Int.toNat_natCast, flat_basic, idx_range, Nat.mul_one]

theorem flat_contig' {n k : Nat} (hn : n < 2 ^ 31) :
    (Ty.basic k).flat (toI32 n).toNat = (List.range (n * k)).map fun (x : Nat) => (x : Int) := by
  rw [toI32_lt hn, Int.toNat_natCast, flat_basic, idx_range]

theorem pairs_range (d s : Int) (n k : Nat) (hn : n < 2 ^ 31) :
    pairs d s n k 1 1 = (List.range (n * k)).map fun (x : Nat) => (d + x, s + x) := by
  rw [← zip_idx d s n k 1 1 (dl := (Ty.basic k).flat (toI32 n).toNat) (sl := (Ty.basic k).flat (toI32 n).toNat) (flat_contig hn)
    (flat_contig hn), flat_contig' hn, List.map_map, List.map_map, List.zip_map']
  rfl

/-- a contiguous put -/
theorem put_pairs {path : Path} {k ts n : Nat} (hn : n < 2 ^ 31) (hk : k ≤ ts) (hb : path = .am → ts * n < 2 ^ 31) (r s : Int) :
    (addrs r (sides path k ts n).2.1 (sides path k ts n).2.2).zip (addrs s (sides path k ts n).1.1 (sides path k ts n).1.2) =
      pairs r s n k 1 1 := by
  cases path with
  | direct mode =>
    unfold addrs sides
    dsimp only
    exact zip_idx r s n k 1 1 (flat_contig hn) (flat_contig hn)
  | am =>
    have hb := hb rfl
    have hle : n * k ≤ ts * n := by rw [Nat.mul_comm]; exact Nat.mul_le_mul_right n hk
    rw [pairs_range r s n k hn]
    unfold addrs sides
    dsimp only
    rw [toSize_lt hb, flat_bytes hb, flat_contig' hn, zip_take, List.map_map, List.map_map, ← List.map_take, List.length_map,
      List.length_range, List.take_range, Nat.min_eq_left hle, List.zip_map']
    rfl

/-- a contiguous get -/
theorem get_pairs {path : Path} {k ts n : Nat} (hn : n < 2 ^ 31) (hb : path = .am → ts = k ∧ k * n < 2 ^ 31) (r s : Int) :
    (addrs s (sides path k ts n).1.1 (sides path k ts n).1.2).zip (addrs r (sides path k ts n).2.1 (sides path k ts n).2.2) =
      pairs s r n k 1 1 := by
  cases path with
  | direct mode =>
    unfold addrs sides
    dsimp only
    exact zip_idx s r n k 1 1 (flat_contig hn) (flat_contig hn)
  | am =>
    obtain ⟨rfl, hb⟩ := hb rfl
    rw [pairs_range s r n ts hn]
    unfold addrs sides
    dsimp only
    rw [toSize_lt hb, flat_bytes hb, flat_contig' hn, List.map_map, List.map_map, Nat.mul_comm ts n, List.zip_map']
    rfl

/-- what a strided datatype covers -/
theorem dtype_flat {cacheOn : Bool} {path : Path} {n : Nat} {t : Amo.TyIdx} {os ts : Int} {oc tc : Nat} {oty tty : Ty}
    (h : Dtypes cacheOn path n t os ts oc oty tc tty) (hn : n < 2 ^ 31) (ho : 1 ≤ os) (ho' : os < 2 ^ 31) (ht : 1 ≤ ts) (ht' : ts < 2 ^ 31) :
    oty.flat (toI32 oc).toNat = (idx n (mpiSz (mpiId t))).map (fun p => (p.2 : Int) + (p.1 : Int) * os * (mpiSz (mpiId t) : Nat)) ∧
    tty.flat (toI32 tc).toNat = (idx n (mpiSz (mpiId t))).map (fun p => (p.2 : Int) + (p.1 : Int) * ts * (mpiSz (mpiId t) : Nat)) := by
  obtain ⟨⟨s1, t1, d1, r1, p1, l1⟩, ⟨s2, t2, d2, r2, p2, l2⟩⟩ := dtypes_obtained h
  obtain ⟨y, a, f1⟩ := C20_transparent r1 p1
  rw [l1] at a; cases a
  obtain ⟨y, a, f2⟩ := C20_transparent r2 p2
  rw [l2] at a; cases a
  exact ⟨(fresh_flat f1 hn (by omega) ho').2, (fresh_flat f2 hn (by omega) ht').2⟩

theorem unit_le {fn : Fn} (hf : fn.Exists) : fn.args.1 ≤ fn.args.2 := by
  rw [mpi_size hf, typesz hf]
  cases fn with
  | typed r => exact Nat.le_refl _
  | sized r => show Fn.elem _ ≤ 8 * Fn.elem _; omega
  | mem => exact Nat.le_refl _

theorem unit_args (fn : Fn) : fn.amUnit = fn.args.2 := by cases fn <;> rfl

theorem pairs_zero (d s : Int) (k : Nat) (ds ss : Int) : pairs d s 0 k ds ss = [] := by
  unfold pairs
  rw [map_idx]
  rfl

theorem byte_small {r : Row} (h : r ∈ rmaRows) : r.ty.sizeof < 2 ^ 31 := by
  have : ∀ r ∈ rmaRows, r.ty.sizeof < 2 ^ 31 := by decide
  exact this r h

/-- the bytes of a call are those of its elements -/
theorem moving_pairs {cacheOn : Bool} {procs : Nat → Proc} {path : Path} {ctx : Option (Obj × Attr)} {me pe : Nat} {fn : Fn} (hf : fn.Exists)
    {rt : RRt} {isCtx : Bool} {c : RCall} (hc : RRt.body fn.fam rt isCtx = some c) {a : RArgs} {xs : List (Int × Int)}
    (h : Moving cacheOn procs path ctx me pe fn c a xs) {r : BitVec 64}
    (hr : resolve procs path (if isCtx then ctx else none) me pe (rt.remote a) = .ok r) (hl : rt.InLimits fn path a) :
    c.target.addr a = rt.remote a ∧ c.ctx = isCtx ∧ isPut c.via = puts rt ∧ (!c.via.blocking) = rt.nbi ∧
    xs = if puts rt then pairs r.toInt (here rt a).toInt (count rt a) fn.elem (dstride rt a) (sstride rt a)
      else pairs (here rt a).toInt r.toInt (count rt a) fn.elem (dstride rt a) (sstride rt a) := by
  have hctx := ((C88_routines rt fn isCtx).2 c hc).1
  have hblk := ((C88_routines rt fn isCtx).2 c hc).2
  have hoff : rt.offered fn = true := by rw [← (C88_routines rt fn isCtx).1, hc]; rfl
  have hnb : (!c.via.blocking) = rt.nbi := by rw [hblk, Bool.not_not]
  have putCase : ∀ (o t : BitVec 64) (n : Nat), resolve procs path (if isCtx then ctx else none) me pe t = .ok r → n < 2 ^ 31 →
      (path = .am → fn.args.2 * n < 2 ^ 31) →
      (if n = 0 then xs = [] else PutPairs procs path (if isCtx then ctx else none) me pe t o (sides path fn.args.1 fn.args.2 n).1.1
        (sides path fn.args.1 fn.args.2 n).2.1 (sides path fn.args.1 fn.args.2 n).1.2 (sides path fn.args.1 fn.args.2 n).2.2 xs) →
      xs = pairs r.toInt o.toInt n fn.elem 1 1 := by
    intro o t n h1 h2 h3 h4
    split at h4
    · rename_i h0
      rw [h4, h0, pairs_zero]
    · obtain ⟨r', hr', e⟩ := h4
      rw [h1] at hr'; cases hr'
      rw [e, put_pairs h2 (unit_le hf) h3, mpi_size hf]
  have getCase : ∀ (o t : BitVec 64) (n : Nat), resolve procs path (if isCtx then ctx else none) me pe t = .ok r → n < 2 ^ 31 →
      (path = .am → (∀ s, fn ≠ .sized s) ∧ fn.elem * n < 2 ^ 31) →
      (if n = 0 then xs = [] else GetPairs procs path (if isCtx then ctx else none) me pe t o (sides path fn.args.1 fn.args.2 n).1.1
        (sides path fn.args.1 fn.args.2 n).2.1 (sides path fn.args.1 fn.args.2 n).1.2 (sides path fn.args.1 fn.args.2 n).2.2 xs) →
      xs = pairs o.toInt r.toInt n fn.elem 1 1 := by
    intro o t n h1 h2 h3 h4
    split at h4
    · rename_i h0
      rw [h4, h0, pairs_zero]
    · obtain ⟨r', hr', e⟩ := h4
      rw [h1] at hr'; cases hr'
      rw [e, get_pairs h2 (fun hp => ?_), mpi_size hf]
      obtain ⟨hs, hb⟩ := h3 hp
      refine ⟨?_, by rw [mpi_size hf]; exact hb⟩
      rw [mpi_size hf, typesz hf]
      cases fn with
      | typed _ => rfl
      | sized s => exact absurd rfl (hs s)
      | mem => rfl
  unfold Moving at h
  cases rt with
  | g =>
    cases fn with
    | typed row =>
      have hc' : c = ⟨isCtx, .get, .local, .source, .one⟩ := by cases isCtx <;> (cases hc; rfl)
      subst hc'
      exact ⟨rfl, rfl, rfl, rfl, getCase a.slot a.source 1 hr (by decide) (fun _ => ⟨fun s => by simp, by
        rw [Nat.mul_one]; exact byte_small hf⟩) h⟩
    | sized s => cases hoff
    | mem => cases hoff
  | p =>
    cases fn with
    | typed row =>
      have hc' : c = ⟨isCtx, .put, .param, .dest, .one⟩ := by cases isCtx <;> (cases hc; rfl)
      subst hc'
      exact ⟨rfl, rfl, rfl, rfl, putCase a.slot a.dest 1 hr (by decide) (fun _ => by rw [Nat.mul_one]; exact byte_small hf) h⟩
    | sized s => cases hoff
    | mem => cases hoff
  | get =>
    have hc' : c = ⟨isCtx, .get, .dest, .source, .nelems⟩ := by cases fn <;> cases isCtx <;> (cases hc; rfl)
    subst hc'
    exact ⟨rfl, rfl, rfl, rfl, getCase a.dest a.source a.nelems hr hl.1 hl.2 h⟩
  | getNbi =>
    have hc' : c = ⟨isCtx, .getNbi, .dest, .source, .nelems⟩ := by cases fn <;> cases isCtx <;> (cases hc; rfl)
    subst hc'
    exact ⟨rfl, rfl, rfl, rfl, getCase a.dest a.source a.nelems hr hl.1 hl.2 h⟩
  | put =>
    have hc' : c = ⟨isCtx, .put, .source, .dest, .nelems⟩ := by cases fn <;> cases isCtx <;> (cases hc; rfl)
    subst hc'
    exact ⟨rfl, rfl, rfl, rfl, putCase a.source a.dest a.nelems hr hl.1 (fun h => by rw [← unit_args]; exact hl.2 h) h⟩
  | putNbi =>
    have hc' : c = ⟨isCtx, .putNbi, .source, .dest, .nelems⟩ := by cases fn <;> cases isCtx <;> (cases hc; rfl)
    subst hc'
    exact ⟨rfl, rfl, rfl, rfl, putCase a.source a.dest a.nelems hr hl.1 (fun h => by rw [← unit_args]; exact hl.2 h) h⟩
  | iput =>
    obtain ⟨hn, ⟨hd1, hd2⟩, hs1, hs2⟩ := hl
    have hc' : c = ⟨isCtx, .iput .dst .sst, .source, .dest, .nelems⟩ := by cases fn <;> cases isCtx <;> (cases hc; try rfl)
    subst hc'
    refine ⟨rfl, rfl, rfl, rfl, ?_⟩
    show xs = pairs r.toInt a.source.toInt a.nelems fn.elem a.dst a.sst
    have h : if a.nelems = 0 then xs = [] else ∃ t oc oty tc tty, fn.mpi = some t ∧ Dtypes cacheOn path a.nelems t a.sst a.dst oc oty tc tty ∧
        PutPairs procs path (if isCtx then ctx else none) me pe a.dest a.source (toI32 oc).toNat (toI32 tc).toNat oty tty xs := h
    by_cases h0 : a.nelems = 0
    · rw [if_pos h0] at h
      rw [h, h0, pairs_zero]
    · rw [if_neg h0] at h
      obtain ⟨t, oc, oty, tc, tty, ht, hdt, r', hr', e⟩ := h
      have hr : resolve procs path (if isCtx = true then ctx else none) me pe a.dest = .ok r := hr
      rw [hr] at hr'; cases hr'
      obtain ⟨f1, f2⟩ := dtype_flat hdt hn hs1 hs2 hd1 hd2
      rw [e, ← fn_mpi hf ht]
      exact zip_idx _ _ _ _ _ _ f2 f1
  | iget =>
    obtain ⟨hn, ⟨hd1, hd2⟩, hs1, hs2⟩ := hl
    have hc' : c = ⟨isCtx, .iget .dst .sst, .dest, .source, .nelems⟩ := by cases fn <;> cases isCtx <;> (cases hc; try rfl)
    subst hc'
    refine ⟨rfl, rfl, rfl, rfl, ?_⟩
    show xs = pairs a.dest.toInt r.toInt a.nelems fn.elem a.dst a.sst
    have h : if a.nelems = 0 then xs = [] else ∃ t oc oty tc tty, fn.mpi = some t ∧ Dtypes cacheOn path a.nelems t a.dst a.sst oc oty tc tty ∧
        GetPairs procs path (if isCtx then ctx else none) me pe a.source a.dest (toI32 oc).toNat (toI32 tc).toNat oty tty xs := h
    by_cases h0 : a.nelems = 0
    · rw [if_pos h0] at h
      rw [h, h0, pairs_zero]
    · rw [if_neg h0] at h
      obtain ⟨t, oc, oty, tc, tty, ht, hdt, r', hr', e⟩ := h
      have hr : resolve procs path (if isCtx = true then ctx else none) me pe a.source = .ok r := hr
      rw [hr] at hr'; cases hr'
      obtain ⟨f1, f2⟩ := dtype_flat hdt hn hd1 hd2 hs1 hs2
      rw [e, ← fn_mpi hf ht]
      exact zip_idx _ _ _ _ _ _ f1 f2

theorem pairs_mem {d s : Int} {n k : Nat} {ds ss : Int} {i b : Nat} (hi : i < n) (hb : b < k) :
    (byteOf d k ds i b, byteOf s k ss i b) ∈ pairs d s n k ds ss := List.mem_map.2 ⟨(i, b), mem_idx.2 ⟨hi, hb⟩, rfl⟩

theorem pairs_uniq {d s : Int} {n k : Nat} {ds ss : Int} (hd : 1 ≤ ds) {i b : Nat} (hb : b < k) :
    ∀ y ∈ pairs d s n k ds ss, y.1 = byteOf d k ds i b → y = (byteOf d k ds i b, byteOf s k ss i b) := by
  intro y hy e
  obtain ⟨p, hp, rfl⟩ := List.mem_map.1 hy
  have := elem_inj hd (mem_idx.1 hp).2 hb (i := p.1) (i' := i) (by
    have : byteOf d k ds p.1 p.2 = byteOf d k ds i b := e
    unfold byteOf at this
    omega)
  rw [this.1, this.2]

theorem limits_stride {rt : RRt} {fn : Fn} {path : Path} {a : RArgs} (h : rt.InLimits fn path a) : 1 ≤ dstride rt a := by
  cases rt <;> first | exact Int.le_refl 1 | exact h.2.1.1

/-- what a call of a put routine is -/
theorem calls_put {S : Sys} {cacheOn gpu : Bool} {mode : Mode} {rt : RRt} (hp : puts rt = true) {fn : Fn} (hf : fn.Exists) {isCtx : Bool}
    {ctx : Option (Nat × Nat)} {a : RArgs} {q t : Nat} {g0 g1 : G} {xs : List (Int × Int)} {ep : Nat}
    (h : Calls S cacheOn gpu mode rt fn isCtx ctx a q t g0 xs ep g1) {bases : Nat → BitVec 64} {off : BitVec 64}
    (hs : SymAddr (procs S g0) S.npes q t (pathFor S q rt gpu mode) (if isCtx then ctxObj (g0.pe q) ctx else none) bases off)
    (ha : rt.remote a = bases q + off) (hl : rt.InLimits fn (pathFor S q rt gpu mode) a) :
    Step S g0 (.put q t rt.nbi (if isCtx then ctx else none) (rt.remote a) xs ep) g1 ∧
      xs = pairs (bases t + off).toInt (here rt a).toInt (count rt a) fn.elem (dstride rt a) (sstride rt a) := by
  obtain ⟨c, hc, h1, _, h2⟩ := h
  have hv : isPut c.via = puts rt := by
    cases fn <;> cases rt <;> cases isCtx <;> simp only [Fn.fam, RRt.body, Option.some.injEq, reduceCtorEq] at hc <;> subst hc <;> rfl
  rw [hv] at h2
  obtain ⟨e1, e2, _, e4, e5⟩ := moving_pairs hf hc h2 (by rw [ha]; exact symm_resolve hs) hl
  rw [hp, if_pos rfl] at e5
  refine ⟨?_, e5⟩
  unfold event at h1
  rw [hv, hp, if_pos rfl, e1, e2, e4] at h1
  exact h1

/-- what a call of a get routine is -/
theorem calls_get {S : Sys} {cacheOn gpu : Bool} {mode : Mode} {rt : RRt} (hp : puts rt = false) {fn : Fn} (hf : fn.Exists) {isCtx : Bool}
    {ctx : Option (Nat × Nat)} {a : RArgs} {q t : Nat} {g0 g1 : G} {xs : List (Int × Int)} {ep : Nat}
    (h : Calls S cacheOn gpu mode rt fn isCtx ctx a q t g0 xs ep g1) {bases : Nat → BitVec 64} {off : BitVec 64}
    (hs : SymAddr (procs S g0) S.npes q t (pathFor S q rt gpu mode) (if isCtx then ctxObj (g0.pe q) ctx else none) bases off)
    (ha : rt.remote a = bases q + off) (hl : rt.InLimits fn (pathFor S q rt gpu mode) a) :
    Step S g0 (.get q t rt.nbi (if isCtx then ctx else none) (rt.remote a) xs ep) g1 ∧
      xs = pairs (here rt a).toInt (bases t + off).toInt (count rt a) fn.elem (dstride rt a) (sstride rt a) := by
  obtain ⟨c, hc, h1, _, h2⟩ := h
  have hv : isPut c.via = puts rt := by
    cases fn <;> cases rt <;> cases isCtx <;> simp only [Fn.fam, RRt.body, Option.some.injEq, reduceCtorEq] at hc <;> subst hc <;> rfl
  rw [hv] at h2
  obtain ⟨e1, e2, _, e4, e5⟩ := moving_pairs hf hc h2 (by rw [ha]; exact symm_resolve hs) hl
  rw [hp, if_neg (by decide)] at e5
  refine ⟨?_, e5⟩
  unfold event at h1
  rw [hv, hp, if_neg (by decide), e1, e2, e4] at h1
  exact h1

/-! ## C93 -/

/-- **C93** (barrier): a put routine of any type, size and kind, called on PE `q` for PE `t`. Nobody else touches the destination on `t`
(for the non-blocking routines nobody writes the source either). Once any PE has left the barrier after the call, every element of the
destination, at the same offset of the target's copy of the object, is the element of the source that the name and the strides say, as it was
at the call. Not covered: contexts and spaces a barrier does not complete (`BarCov`, see C65). -/
theorem C93_barrier_partial {S : Sys} {g0 g1 g : G} (hr : Reach S g0) {cacheOn gpu : Bool} {mode : Mode} {rt : RRt} (hp : puts rt = true)
    {fn : Fn} (hf : fn.Exists) {isCtx : Bool} {ctx : Option (Nat × Nat)} {a : RArgs} {q t : Nat} {xs : List (Int × Int)} {ep : Nat}
    (h1 : Calls S cacheOn gpu mode rt fn isCtx ctx a q t g0 xs ep g1) {bases : Nat → BitVec 64} {off : BitVec 64}
    (hsym : SymAddr (procs S g0) S.npes q t (pathFor S q rt gpu mode) (if isCtx then ctxObj (g0.pe q) ctx else none) bases off)
    (ha : rt.remote a = bases q + off) (hl : rt.InLimits fn (pathFor S q rt gpu mode) a) {l : List Ev} (h2 : Run S g1 l g)
    (hd : Undisturbed g0 l t (bases t + off).toInt (count rt a) fn.elem (dstride rt a))
    (hs : rt.nbi = true → Undisturbed g0 (.put q t true (if isCtx then ctx else none) (rt.remote a) xs ep :: l) q (here rt a).toInt
      (count rt a) fn.elem (sstride rt a))
    (hc : BarCov (S.cf q) ((S.cf q).rma == .am) (if isCtx then ctx else none) (rt.remote a)) {p : Nat} (hpn : p < S.npes)
    (hb : ep < g.lv p) {i b : Nat} (hi : i < count rt a) (hbk : b < fn.elem) :
    g.mem t (byteOf (bases t + off).toInt fn.elem (dstride rt a) i b) = g0.mem q (byteOf (here rt a).toInt fn.elem (sstride rt a) i b) := by
  obtain ⟨st, ex⟩ := calls_put hp hf h1 hsym ha hl
  exact (C65_barrier_partial hr st h2 (x := (_, _)) (ex ▸ pairs_mem hi hbk) (ex ▸ pairs_uniq (limits_stride hl) hbk) (hd i hi b hbk).1
    (fun e he => (hd i hi b hbk).2 e he) (fun h => by rw [h]; exact hs h i hi b hbk) hc hpn hb).1

/-- **C93** (fence): the same once the calling PE has called `shmem_fence` or `shmem_quiet`; here every context and object -/
theorem C93_fence {S : Sys} {g0 g1 g : G} (hr : Reach S g0) {cacheOn gpu : Bool} {mode : Mode} {rt : RRt} (hp : puts rt = true)
    {fn : Fn} (hf : fn.Exists) {isCtx : Bool} {ctx : Option (Nat × Nat)} {a : RArgs} {q t : Nat} {xs : List (Int × Int)} {ep : Nat}
    (h1 : Calls S cacheOn gpu mode rt fn isCtx ctx a q t g0 xs ep g1) {bases : Nat → BitVec 64} {off : BitVec 64}
    (hsym : SymAddr (procs S g0) S.npes q t (pathFor S q rt gpu mode) (if isCtx then ctxObj (g0.pe q) ctx else none) bases off)
    (ha : rt.remote a = bases q + off) (hl : rt.InLimits fn (pathFor S q rt gpu mode) a) {l : List Ev} (h2 : Run S g1 l g)
    (hd : Undisturbed g0 l t (bases t + off).toInt (count rt a) fn.elem (dstride rt a))
    (hs : rt.nbi = true → Undisturbed g0 (.put q t true (if isCtx then ctx else none) (rt.remote a) xs ep :: l) q (here rt a).toInt
      (count rt a) fn.elem (sstride rt a))
    (hfe : Ev.call q (.fence none) ∈ l ∨ Ev.call q (.quiet none) ∈ l) {i b : Nat} (hi : i < count rt a) (hbk : b < fn.elem) :
    g.mem t (byteOf (bases t + off).toInt fn.elem (dstride rt a) i b) = g0.mem q (byteOf (here rt a).toInt fn.elem (sstride rt a) i b) := by
  obtain ⟨st, ex⟩ := calls_put hp hf h1 hsym ha hl
  exact C66_fence hr st h2 (x := (_, _)) (ex ▸ pairs_mem hi hbk) (ex ▸ pairs_uniq (limits_stride hl) hbk) (hd i hi b hbk).1
    (fun e he => (hd i hi b hbk).2 e he) (fun h => by rw [h]; exact hs h i hi b hbk) hfe

theorem num_congr {m m' : IMem} {a : Int} {t : CT} (h : ∀ b < t.sizeof, m (a + (b : Nat)) = m' (a + b)) : numAt t m a = numAt t m' a := by
  unfold numAt
  rw [Api.wordAt_congr (m' := m')]
  intro p h1 h2
  have := h (p - a).toNat (by omega)
  rw [show a + ((p - a).toNat : Int) = p by omega] at this
  exact this

/-- the condition on a flag of type `ty` at `f` on PE `w`: at the call of the data put nothing is in flight to it, the data put does not
write it, and what is written to it later, by whomever and by whichever routine, is written after a fence or quiet of PE `q` -/
def FlagAfter (g0 : G) (put : Ev) (l : List Ev) (q w : Nat) (f : Int) (n : Nat) : Prop :=
  ∀ b < n, NoWriter g0 (w, f + (b : Nat)) ∧ ¬ put.writes (w, f + (b : Nat)) ∧
    ∀ l1 e l2, l = l1 ++ e :: l2 → e.writes (w, f + (b : Nat)) → Ev.call q (.fence none) ∈ l1 ∨ Ev.call q (.quiet none) ∈ l1

/-- the data are there when the flag satisfies a relation it did not satisfy before -/
theorem message {S : Sys} {g0 g1 g : G} (hr : Reach S g0) {cacheOn gpu : Bool} {mode : Mode} {rt : RRt} (hp : puts rt = true)
    {fn : Fn} (hf : fn.Exists) {isCtx : Bool} {ctx : Option (Nat × Nat)} {a : RArgs} {q t : Nat} {xs : List (Int × Int)} {ep : Nat}
    (h1 : Calls S cacheOn gpu mode rt fn isCtx ctx a q t g0 xs ep g1) {bases : Nat → BitVec 64} {off : BitVec 64}
    (hsym : SymAddr (procs S g0) S.npes q t (pathFor S q rt gpu mode) (if isCtx then ctxObj (g0.pe q) ctx else none) bases off)
    (ha : rt.remote a = bases q + off) (hl : rt.InLimits fn (pathFor S q rt gpu mode) a) {l : List Ev} (h2 : Run S g1 l g)
    (hd : Undisturbed g0 l t (bases t + off).toInt (count rt a) fn.elem (dstride rt a))
    (hs : rt.nbi = true → Undisturbed g0 (.put q t true (if isCtx then ctx else none) (rt.remote a) xs ep :: l) q (here rt a).toInt
      (count rt a) fn.elem (sstride rt a))
    {w : Nat} {f : Int} {ty : CT}
    (hfl : FlagAfter g0 (.put q t rt.nbi (if isCtx then ctx else none) (rt.remote a) xs ep) l q w f ty.sizeof)
    (hne : numAt ty (g.mem w) f ≠ numAt ty (g0.mem w) f) {i b : Nat} (hi : i < count rt a) (hbk : b < fn.elem) :
    g.mem t (byteOf (bases t + off).toInt fn.elem (dstride rt a) i b) = g0.mem q (byteOf (here rt a).toInt fn.elem (sstride rt a) i b) := by
  obtain ⟨st, ex⟩ := calls_put hp hf h1 hsym ha hl
  by_cases hex : ∃ b < ty.sizeof, g.mem w (f + (b : Nat)) ≠ g0.mem w (f + b)
  · obtain ⟨y, hy, hdiff⟩ := hex
    obtain ⟨f1, f2, f3⟩ := hfl y hy
    exact C66_message hr st h2 (x := (_, _)) (ex ▸ pairs_mem hi hbk) (ex ▸ pairs_uniq (limits_stride hl) hbk) (hd i hi b hbk).1
      (fun e he => (hd i hi b hbk).2 e he) (fun h => by rw [h]; exact hs h i hi b hbk) f1 f2 f3 hdiff
  · exfalso
    apply hne
    apply num_congr
    intro y hy
    by_contra h
    exact hex ⟨y, hy, h⟩

/-- **C93** (message): PE `q` puts data to PE `t` with any put routine and later, after a fence or quiet, somebody writes a flag on PE `w`
(a put, an atomic, a store). PE `w` waits with `shmem_TYPE_wait_until` or one of its relatives for a relation the flag did not satisfy when
the data put was called; it reads the flag in the states `h 0`, `h 1`, ... of an execution. When it returns, all the data are on PE `t`. -/
theorem C93_message {S : Sys} {g0 g1 : G} (hr : Reach S g0) {cacheOn gpu : Bool} {mode : Mode} {rt : RRt} (hp : puts rt = true)
    {fn : Fn} (hf : fn.Exists) {isCtx : Bool} {ctx : Option (Nat × Nat)} {a : RArgs} {q t : Nat} {xs : List (Int × Int)} {ep : Nat}
    (h1 : Calls S cacheOn gpu mode rt fn isCtx ctx a q t g0 xs ep g1) {bases : Nat → BitVec 64} {off : BitVec 64}
    (hsym : SymAddr (procs S g0) S.npes q t (pathFor S q rt gpu mode) (if isCtx then ctxObj (g0.pe q) ctx else none) bases off)
    (ha : rt.remote a = bases q + off) (hl : rt.InLimits fn (pathFor S q rt gpu mode) a)
    {h : Nat → G} {l : Nat → List Ev} (h2 : ∀ j, Run S g1 (l j) (h j))
    (hd : ∀ j, Undisturbed g0 (l j) t (bases t + off).toInt (count rt a) fn.elem (dstride rt a))
    (hs : rt.nbi = true → ∀ j, Undisturbed g0 (.put q t true (if isCtx then ctx else none) (rt.remote a) xs ep :: l j) q
      (here rt a).toInt (count rt a) fn.elem (sstride rt a))
    {w : Nat} {ivar : BitVec 64} {row : Row} {pr : PRt} (hw : pr.isTest = false) (hrow : row ∈ pr.rows)
    (hfl : ∀ j, FlagAfter g0 (.put q t rt.nbi (if isCtx then ctx else none) (rt.remote a) xs ep) (l j) q w ivar.toInt row.ty.sizeof)
    {ps : Nat → Proc} {wmode : Mode} (hres : resolve ps (.direct wmode) none w w ivar = .ok ivar)
    (cmp : P2p.Cmp) (v : BitVec (8 * row.ty.sizeof)) (h0 : ¬ (pr.cmp cmp).rel (numAt row.ty (g0.mem w) ivar.toInt) (numOf row.ty v))
    {fuel k : Nat} {m m' : Mems} (hrun : pr.run ps wmode w row ivar cmp.code v (fun j _ => (h j).mem) fuel m = .ok (.done k m'))
    {i b : Nat} (hi : i < count rt a) (hbk : b < fn.elem) :
    m' t (byteOf (bases t + off).toInt fn.elem (dstride rt a) i b) = g0.mem q (byteOf (here rt a).toInt fn.elem (sstride rt a) i b) := by
  have ho : ∀ j, others (fun j _ => (h j).mem) m j = (h j).mem := fun j => by cases j <;> rfl
  obtain ⟨hb, hs'⟩ := p2p_row hrow
  obtain ⟨x, hx, hk⟩ := waitFrom_spec hb hs' w ivar.toInt (pr.cmp cmp) v (fun j _ => (h j).mem) m fuel 0 0 m rfl
  have hrun2 : pr.run ps wmode w row ivar cmp.code v (fun j _ => (h j).mem) fuel m = .ok (.ofLoop x) := by
    unfold PRt.run
    rw [p2p_body, hw]
    show waitMacro _ _ _ _ _ _ _ _ _ _ = _
    unfold waitMacro
    rw [hres, Res.bind_ok]
    show (waitFrom row w ivar.toInt (pr.cmp cmp).code v _ fuel 0 0 m).bind _ = _
    rw [hx, Res.bind_ok]
  rw [hrun] at hrun2
  have hxe : x = some (k, m') := by
    cases x with
    | none => cases hrun2
    | some y => cases hrun2; rfl
  obtain ⟨_, _, hm', hrel, _⟩ := (hk k m').1 hxe
  rw [ho] at hm' hrel
  rw [hm']
  exact message hr hp hf h1 hsym ha hl (h2 k) (hd k) (fun hn => hs hn k) (hfl k) (fun e => h0 (by rw [← e]; exact hrel)) hi hbk

/-- **C93** (message, polling): the same with `shmem_TYPE_test` returning true in state `g` -/
theorem C93_poll {S : Sys} {g0 g1 g : G} (hr : Reach S g0) {cacheOn gpu : Bool} {mode : Mode} {rt : RRt} (hp : puts rt = true)
    {fn : Fn} (hf : fn.Exists) {isCtx : Bool} {ctx : Option (Nat × Nat)} {a : RArgs} {q t : Nat} {xs : List (Int × Int)} {ep : Nat}
    (h1 : Calls S cacheOn gpu mode rt fn isCtx ctx a q t g0 xs ep g1) {bases : Nat → BitVec 64} {off : BitVec 64}
    (hsym : SymAddr (procs S g0) S.npes q t (pathFor S q rt gpu mode) (if isCtx then ctxObj (g0.pe q) ctx else none) bases off)
    (ha : rt.remote a = bases q + off) (hl : rt.InLimits fn (pathFor S q rt gpu mode) a) {l : List Ev} (h2 : Run S g1 l g)
    (hd : Undisturbed g0 l t (bases t + off).toInt (count rt a) fn.elem (dstride rt a))
    (hs : rt.nbi = true → Undisturbed g0 (.put q t true (if isCtx then ctx else none) (rt.remote a) xs ep :: l) q (here rt a).toInt
      (count rt a) fn.elem (sstride rt a))
    {w : Nat} {ivar : BitVec 64} {row : Row} (hrow : row ∈ PRt.test.rows)
    (hfl : FlagAfter g0 (.put q t rt.nbi (if isCtx then ctx else none) (rt.remote a) xs ep) l q w ivar.toInt row.ty.sizeof)
    {ps : Nat → Proc} {wmode : Mode} (hres : resolve ps (.direct wmode) none w w ivar = .ok ivar)
    (cmp : P2p.Cmp) (v : BitVec (8 * row.ty.sizeof)) (h0 : ¬ cmp.rel (numAt row.ty (g0.mem w) ivar.toInt) (numOf row.ty v))
    {fuel x : Nat} {m m' : Mems} (hrun : PRt.test.run ps wmode w row ivar cmp.code v (fun _ _ => g.mem) fuel m = .ok (.value x m'))
    (hx : x ≠ 0) {i b : Nat} (hi : i < count rt a) (hbk : b < fn.elem) :
    m' t (byteOf (bases t + off).toInt fn.elem (dstride rt a) i b) = g0.mem q (byteOf (here rt a).toInt fn.elem (sstride rt a) i b) := by
  obtain ⟨hb, hs'⟩ := p2p_row hrow
  have ht := P2p.C43_test row.ty.p2p (Api.wordAt (g.mem w) ivar.toInt row.ty.sizeof) v cmp
  rw [p2p_num hs', p2p_num hs'] at ht
  have hrun2 : PRt.test.run ps wmode w row ivar cmp.code v (fun _ _ => g.mem) fuel m =
      .ok (.value (P2p.comp row.ty.p2p (Api.wordAt (g.mem w) ivar.toInt row.ty.sizeof) cmp.code v 0) g.mem) := by
    unfold PRt.run
    rw [p2p_body]
    show testMacro _ _ _ _ _ _ _ _ _ = _
    unfold testMacro
    rw [hres, Res.bind_ok, p2pRead_ok hb, Res.bind_ok]
    rfl
  rw [hrun] at hrun2
  simp only [Res.ok.injEq, POut.value.injEq] at hrun2
  obtain ⟨rfl, rfl⟩ := hrun2
  refine message hr hp hf h1 hsym ha hl h2 hd hs hfl (fun e => h0 ?_) hi hbk
  rw [← e]
  by_contra hc
  exact hx (ht.2.2 hc)

/-- **C93** (get): when a blocking get routine (`g`, `get`, `iget`) returns, every element of the destination is the element of the remote
source, if nobody writes source or destination meanwhile. For `g` the destination is the variable it returns. -/
theorem C93_get {S : Sys} {g0 g1 g : G} {cacheOn gpu : Bool} {mode : Mode} {rt : RRt} (hp : puts rt = false) (hnb : rt.nbi = false)
    {fn : Fn} (hf : fn.Exists) {isCtx : Bool} {ctx : Option (Nat × Nat)} {a : RArgs} {q t : Nat} {xs : List (Int × Int)} {ep : Nat}
    (h1 : Calls S cacheOn gpu mode rt fn isCtx ctx a q t g0 xs ep g1) {bases : Nat → BitVec 64} {off : BitVec 64}
    (hsym : SymAddr (procs S g0) S.npes q t (pathFor S q rt gpu mode) (if isCtx then ctxObj (g0.pe q) ctx else none) bases off)
    (ha : rt.remote a = bases q + off) (hl : rt.InLimits fn (pathFor S q rt gpu mode) a) {l : List Ev} (h2 : Run S g1 l g)
    (hd : Undisturbed g0 l q (here rt a).toInt (count rt a) fn.elem (dstride rt a))
    (hs : Undisturbed g0 (.get q t false (if isCtx then ctx else none) (rt.remote a) xs ep :: l) t (bases t + off).toInt
      (count rt a) fn.elem (sstride rt a))
    (hret : g.busy q = []) {i b : Nat} (hi : i < count rt a) (hbk : b < fn.elem) :
    g.mem q (byteOf (here rt a).toInt fn.elem (dstride rt a) i b) = g0.mem t (byteOf (bases t + off).toInt fn.elem (sstride rt a) i b) := by
  obtain ⟨st, ex⟩ := calls_get hp hf h1 hsym ha hl
  rw [hnb] at st
  exact C68_get st h2 (x := (_, _)) (ex ▸ pairs_mem hi hbk) (ex ▸ pairs_uniq (limits_stride hl) hbk) (hd i hi b hbk).1 (hs i hi b hbk).1
    (hs i hi b hbk).2 (hd i hi b hbk).2 hret

/-- **C93** (get, non-blocking): the same after the next quiet (or fence) of the calling PE -/
theorem C93_get_nbi {S : Sys} {g0 g1 g : G} (hr : Reach S g0) {cacheOn gpu : Bool} {mode : Mode} {rt : RRt} (hp : puts rt = false)
    {fn : Fn} (hf : fn.Exists) {isCtx : Bool} {ctx : Option (Nat × Nat)} {a : RArgs} {q t : Nat} {xs : List (Int × Int)} {ep : Nat}
    (h1 : Calls S cacheOn gpu mode rt fn isCtx ctx a q t g0 xs ep g1) {bases : Nat → BitVec 64} {off : BitVec 64}
    (hsym : SymAddr (procs S g0) S.npes q t (pathFor S q rt gpu mode) (if isCtx then ctxObj (g0.pe q) ctx else none) bases off)
    (ha : rt.remote a = bases q + off) (hl : rt.InLimits fn (pathFor S q rt gpu mode) a) {l : List Ev} (h2 : Run S g1 l g)
    (hd : Undisturbed g0 l q (here rt a).toInt (count rt a) fn.elem (dstride rt a))
    (hs : Undisturbed g0 (.get q t rt.nbi (if isCtx then ctx else none) (rt.remote a) xs ep :: l) t (bases t + off).toInt
      (count rt a) fn.elem (sstride rt a))
    (hfe : Ev.call q (.quiet none) ∈ l ∨ Ev.call q (.fence none) ∈ l) {i b : Nat} (hi : i < count rt a) (hbk : b < fn.elem) :
    g.mem q (byteOf (here rt a).toInt fn.elem (dstride rt a) i b) = g0.mem t (byteOf (bases t + off).toInt fn.elem (sstride rt a) i b) := by
  obtain ⟨st, ex⟩ := calls_get hp hf h1 hsym ha hl
  exact C68_get_nbi hr st h2 (x := (_, _)) (ex ▸ pairs_mem hi hbk) (ex ▸ pairs_uniq (limits_stride hl) hbk) (hd i hi b hbk).1
    (hs i hi b hbk).1 (hs i hi b hbk).2 (hd i hi b hbk).2 hfe

end Verif.Flow
