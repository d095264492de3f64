import Verif.Rma.Lemmas
/-!
# C17, C18, C19: put and get
-/
namespace Verif.Rma
open Verif.Sobj

/-- `r` is `dst` with `len` bytes at `da` replaced by the bytes of `src` at `sa` -/
def Copied (src dst r : IMem) (sa da : Int) (len : Nat) : Prop :=
  ∀ x, r x = if da ≤ x ∧ x < da + len then src (sa + (x - da)) else dst x

/-- `r` is `dst` with element `i * dst_stride` replaced by element `i * src_stride` of `src`, for every `i < n` -/
def CopiedStrided (src dst r : IMem) (sa da : Int) (n k : Nat) (ss ds : Int) : Prop :=
  (∀ i < n, ∀ b < k, r (da + (i * ds) * k + b) = src (sa + (i * ss) * k + b)) ∧
  ∀ x, (∀ i < n, ∀ b < k, x ≠ da + (i * ds) * k + b) → r x = dst x

theorem idx_range (n k : Nat) : (idx n k).map (fun p => (p.2 : Int) + (p.1 : Int) * k) =
    (List.range (n * k)).map (fun (x : Nat) => (x : Int)) := by
  induction n with
  | zero =>
    rw [map_idx]; simp
  | succ n ih =>
    rw [map_idx] at ih ⊢
    rw [List.range_succ, List.flatMap_append, ih, Nat.add_mul, Nat.one_mul, List.range_add, List.map_append,
      List.map_map]
    congr 1
    simp only [List.flatMap_cons, List.flatMap_nil, List.append_nil]
    apply List.map_congr_left
    intro b _
    simp [Int.add_comm]

/-- contiguous buffers as in `CopiedStrided` with strides 1 are contiguous copies -/
theorem contig_copied (src dst : IMem) (sa da : Int) (n k : Nat) :
    Copied src dst (writes dst ((((idx n k).map (fun p => (p.2 : Int) + (p.1 : Int) * k)).map (fun d => da + d)).zip
      ((((idx n k).map (fun p => (p.2 : Int) + (p.1 : Int) * k)).map (fun d => sa + d)).map src))) sa da (n * k) := by
  have hinj : ∀ p ∈ idx n k, ∀ q ∈ idx n k, (p.2 : Int) + (p.1 : Int) * k = (q.2 : Int) + (q.1 : Int) * k → p = q := by
    intro p hp q hq h
    have := elem_inj (st := 1) (by omega) (mem_idx.1 hp).2 (mem_idx.1 hq).2 (i := p.1) (i' := q.1)
      (by rw [Int.mul_one, Int.mul_one]; exact h)
    exact Prod.ext this.1 this.2
  have h := writes_idx src dst sa da n k (fun p => (p.2 : Int) + (p.1 : Int) * k) _ hinj
  simp only at h
  intro x
  by_cases hx : da ≤ x ∧ x < da + ((n * k : Nat) : Int)
  · rw [if_pos hx]
    -- the element and byte number of `x`
    have hk : 0 < k := by
      rcases Nat.eq_zero_or_pos k with rfl | h
      · simp at hx; omega
      · exact h
    obtain ⟨y, hy⟩ : ∃ y : Nat, x = da + y := ⟨(x - da).toNat, by omega⟩
    have hyl : y < n * k := by omega
    have hp : (y / k, y % k) ∈ idx n k := mem_idx.2 ⟨(Nat.div_lt_iff_lt_mul hk).2 hyl, Nat.mod_lt _ hk⟩
    have e : ((y % k : Nat) : Int) + ((y / k : Nat) : Int) * k = y := by
      have := Nat.mod_add_div y k
      rw [Nat.mul_comm] at this
      exact_mod_cast this
    have := h.1 _ hp
    simp only at this
    rw [e] at this
    rw [hy, this]
    congr 1
    omega
  · rw [if_neg hx]
    apply h.2
    intro p hp
    have hm : (p.2 : Int) + (p.1 : Int) * k ∈ (idx n k).map (fun p => (p.2 : Int) + (p.1 : Int) * k) :=
      List.mem_map.2 ⟨p, hp, rfl⟩
    rw [idx_range, List.mem_map] at hm
    obtain ⟨z, hz, e⟩ := hm
    rw [List.mem_range] at hz
    rw [← e]
    omega

/-- both data movements for contiguous buffers -/
theorem contig_xfer (src dst : IMem) (sa da : Int) (n k : Nat) (hn : n < 2 ^ 31) :
    (∃ r, mpiXfer src dst sa (toI32 n) (Ty.basic k) da (toI32 n) (Ty.basic k) = .ok r ∧ Copied src dst r sa da (n * k)) ∧
    (k * n < 2 ^ 31 →
      (∃ r, mpiMsg src dst sa (toI32 n) (Ty.basic k) da (toI32 (toSize (k * n))) (Ty.basic 1) = .ok r ∧
        Copied src dst r sa da (n * k)) ∧
      (∃ r, mpiMsg src dst sa (toI32 (toSize (k * n))) (Ty.basic 1) da (toI32 n) (Ty.basic k) = .ok r ∧
        Copied src dst r sa da (n * k))) := by
  have hflat : (Ty.basic k).flat (toI32 n).toNat = (idx n k).map (fun p => (p.2 : Int) + (p.1 : Int) * k) := by
    rw [toI32_lt hn, Int.toNat_natCast, flat_basic]
  have hnn : ¬ toI32 n < 0 := by rw [toI32_lt hn]; omega
  constructor
  · refine ⟨_, (xfer_eq src dst sa _ _ da _ _ n k _ _ hnn hnn hflat hflat).1, ?_⟩
    exact contig_copied src dst sa da n k
  · intro hb
    have e64 : toSize (k * n) = k * n := toSize_lt hb
    have hflat1 : (Ty.basic 1).flat (toI32 (toSize (k * n))).toNat
        = (idx n k).map (fun p => (p.2 : Int) + (p.1 : Int) * k) := by
      rw [e64, toI32_lt hb, Int.toNat_natCast, flat_basic, idx_range]
      rw [idx_range, Nat.mul_one, Nat.mul_comm k n]
    have hnb : ¬ toI32 (toSize (k * n)) < 0 := by rw [e64, toI32_lt hb]; omega
    constructor
    · refine ⟨_, (xfer_eq src dst sa _ _ da _ _ n k _ _ hnn hnb hflat hflat1).2, ?_⟩
      exact contig_copied src dst sa da n k
    · refine ⟨_, (xfer_eq src dst sa _ _ da _ _ n k _ _ hnb hnn hflat1 hflat).2, ?_⟩
      exact contig_copied src dst sa da n k

theorem copied_zero (src dst : IMem) (sa da : Int) (k : Nat) : Copied src dst dst sa da (0 * k) := by
  intro x
  rw [if_neg]
  simp only [Nat.zero_mul, Int.natCast_zero]
  omega

/-! ## C17 -/

/-- A completed put of `n` elements of `k` bytes whose target resolves to `r` on PE `pe`: the `n * k` bytes at `r` become
those at `origin`, nothing else on `pe` changes and no other PE's memory changes. For every buffer, every offset, every
count below 2^31; on the active-message path additionally fewer than 2^31 bytes (see `C17_am_fails`). -/
theorem C17_put_partial (procs : Nat → Proc) (path : Path) (ctx : Option (Obj × Attr)) (k me pe : Nat)
    (origin target r : BitVec 64) (n : Nat) (m : Mems) (hr : resolve procs path ctx me pe target = .ok r)
    (hn : n < 2 ^ 31) (ham : path = .am → k * n < 2 ^ 31) :
    ∃ m', ctxPut procs path ctx k k me pe origin target n m = .ok m' ∧
      Copied (m me) (m pe) (m' pe) origin.toInt r.toInt (n * k) ∧ ∀ q, q ≠ pe → m' q = m q := by
  unfold ctxPut
  by_cases h0 : n = 0
  · subst h0
    rw [if_pos rfl]
    exact ⟨m, rfl, copied_zero _ _ _ _ _, fun _ _ => rfl⟩
  rw [if_neg h0, hr]
  simp only [Res.bind_ok]
  have hx := contig_xfer (m me) (m pe) origin.toInt r.toInt n k hn
  cases path with
  | direct mode =>
    obtain ⟨x, e, hc⟩ := hx.1
    simp only
    rw [e]
    refine ⟨_, rfl, ?_, ?_⟩
    · rw [Function.update_self]; exact hc
    · intro q hq; exact Function.update_of_ne hq _ _
  | am =>
    obtain ⟨x, e, hc⟩ := (hx.2 (ham rfl)).1
    simp only
    rw [e]
    refine ⟨_, rfl, ?_, ?_⟩
    · rw [Function.update_self]; exact hc
    · intro q hq; exact Function.update_of_ne hq _ _

/-- A completed get: the `n * k` bytes at `origin` on the calling PE become those at `r` on `pe`; nothing else changes. -/
theorem C17_get_partial (procs : Nat → Proc) (path : Path) (ctx : Option (Obj × Attr)) (k me pe : Nat)
    (origin target r : BitVec 64) (n : Nat) (m : Mems) (hr : resolve procs path ctx me pe target = .ok r)
    (hn : n < 2 ^ 31) (ham : path = .am → k * n < 2 ^ 31) :
    ∃ m', ctxGet procs path ctx k k me pe origin target n m = .ok m' ∧
      Copied (m pe) (m me) (m' me) r.toInt origin.toInt (n * k) ∧ ∀ q, q ≠ me → m' q = m q := by
  unfold ctxGet
  by_cases h0 : n = 0
  · subst h0
    rw [if_pos rfl]
    exact ⟨m, rfl, copied_zero _ _ _ _ _, fun _ _ => rfl⟩
  rw [if_neg h0, hr]
  simp only [Res.bind_ok]
  have hx := contig_xfer (m pe) (m me) r.toInt origin.toInt n k hn
  cases path with
  | direct mode =>
    obtain ⟨x, e, hc⟩ := hx.1
    simp only
    rw [e]
    refine ⟨_, rfl, ?_, ?_⟩
    · rw [Function.update_self]; exact hc
    · intro q hq; exact Function.update_of_ne hq _ _
  | am =>
    obtain ⟨x, e, hc⟩ := (hx.2 (ham rfl)).2
    simp only
    rw [e]
    refine ⟨_, rfl, ?_, ?_⟩
    · rw [Function.update_self]; exact hc
    · intro q hq; exact Function.update_of_ne hq _ _

/-- Zero elements: a no-op whatever the arguments (no address is looked up, nothing aborts). -/
theorem C17_zero (procs : Nat → Proc) (path : Path) (ctx : Option (Obj × Attr)) (k ts me pe : Nat)
    (origin target : BitVec 64) (m : Mems) :
    ctxPut procs path ctx k ts me pe origin target 0 m = .ok m ∧ ctxGet procs path ctx k ts me pe origin target 0 m = .ok m := by
  unfold ctxPut ctxGet
  exact ⟨by rw [if_pos rfl], by rw [if_pos rfl]⟩

/-- The address a call on a symmetric object resolves to. `A` is the object's attribute on `me`; the call is made on a context
of the object, or on the default context with an address the address query finds in the object. -/
theorem resolve_symm {procs : Nat → Proc} {npes : Nat} {o : Obj} {dyn : Bool} {kind : Sobj.Kind} {i : Nat}
    {bases : Nat → BitVec 64} {size : Int} (hsym : SymObj procs npes o dyn kind i bases size) (hi : i < 2 ^ 29)
    {me pe : Nat} (hpe : pe < npes) {ctx : Option (Obj × Attr)} {off : BitVec 64}
    (hq : ctx = some (o, setupAttr dyn kind i npes bases size me) ∨
      (ctx = none ∧ query (procs me) (bases me + off) = some (o, setupAttr dyn kind i npes bases size me)))
    (path : Path) (hm : path = .direct .abs → dyn = true)
    (hres : AmResolves procs (setupAttr dyn kind i npes bases size me).handle me pe bases)
    (ho : 0 ≤ off.toInt) (ha : 0 < (bases pe + off).toInt) :
    resolve procs path ctx me pe (bases me + off) = .ok (bases pe + off) := by
  have hq' : lookup (procs me) ctx (bases me + off) = some (o, setupAttr dyn kind i npes bases size me) := by
    rcases hq with rfl | ⟨rfl, h⟩
    · rfl
    · exact h
  cases path with
  | direct mode =>
    exact resolve_direct hsym hi hpe hq' mode (fun h => hm (by rw [h])) ho (by omega)
  | am =>
    apply resolve_am hq' hres ho
    intro hz
    rw [hz] at ha
    exact absurd ha (by decide)

/-- End to end on a symmetric object with base `bases p` on PE `p` (the heap, the global data, a space; with or without
dynamic windows, bases equal or not; on the default context or a context of the object): what is written to offset `off` of
the object from PE `me` arrives at offset `off` of the object of PE `pe`, on the direct path in both displacement modes and
on the active-message path. -/
theorem C17_put_symmetric_partial {procs : Nat → Proc} {npes : Nat} {o : Obj} {dyn : Bool} {kind : Sobj.Kind} {i : Nat}
    {bases : Nat → BitVec 64} {size : Int} (hsym : SymObj procs npes o dyn kind i bases size) (hi : i < 2 ^ 29)
    {me pe : Nat} (hpe : pe < npes) {ctx : Option (Obj × Attr)} {off : BitVec 64}
    (hq : ctx = some (o, setupAttr dyn kind i npes bases size me) ∨
      (ctx = none ∧ query (procs me) (bases me + off) = some (o, setupAttr dyn kind i npes bases size me)))
    (path : Path) (hm : path = .direct .abs → dyn = true)
    (hres : AmResolves procs (setupAttr dyn kind i npes bases size me).handle me pe bases)
    (ho : 0 ≤ off.toInt) (ha : 0 < (bases pe + off).toInt) (k n : Nat) (hn : n < 2 ^ 31)
    (ham : path = .am → k * n < 2 ^ 31) (origin : BitVec 64) (m : Mems) :
    ∃ m', ctxPut procs path ctx k k me pe origin (bases me + off) n m = .ok m' ∧
      Copied (m me) (m pe) (m' pe) origin.toInt (bases pe + off).toInt (n * k) ∧ ∀ q, q ≠ pe → m' q = m q :=
  C17_put_partial _ _ _ _ _ _ _ _ _ _ _ (resolve_symm hsym hi hpe hq path hm hres ho ha) hn ham

/-- The same for a get: the bytes at offset `off` of the object of PE `pe` arrive at the local address `dst`. -/
theorem C17_get_symmetric_partial {procs : Nat → Proc} {npes : Nat} {o : Obj} {dyn : Bool} {kind : Sobj.Kind} {i : Nat}
    {bases : Nat → BitVec 64} {size : Int} (hsym : SymObj procs npes o dyn kind i bases size) (hi : i < 2 ^ 29)
    {me pe : Nat} (hpe : pe < npes) {ctx : Option (Obj × Attr)} {off : BitVec 64}
    (hq : ctx = some (o, setupAttr dyn kind i npes bases size me) ∨
      (ctx = none ∧ query (procs me) (bases me + off) = some (o, setupAttr dyn kind i npes bases size me)))
    (path : Path) (hm : path = .direct .abs → dyn = true)
    (hres : AmResolves procs (setupAttr dyn kind i npes bases size me).handle me pe bases)
    (ho : 0 ≤ off.toInt) (ha : 0 < (bases pe + off).toInt) (k n : Nat) (hn : n < 2 ^ 31)
    (ham : path = .am → k * n < 2 ^ 31) (dst : BitVec 64) (m : Mems) :
    ∃ m', ctxGet procs path ctx k k me pe dst (bases me + off) n m = .ok m' ∧
      Copied (m pe) (m me) (m' me) (bases pe + off).toInt dst.toInt (n * k) ∧ ∀ q, q ≠ me → m' q = m q :=
  C17_get_partial _ _ _ _ _ _ _ _ _ _ _ (resolve_symm hsym hi hpe hq path hm hres ho ha) hn ham

/-- The heap and the global data meet the active-message hypothesis in every build (C14). -/
theorem am_resolves_heap_data (dyn : Bool) (npes : Nat) (hb db : Nat → BitVec 64) (hs ds : Int)
    (procs : Nat → Proc) (h1 : SymObj procs npes .heap dyn .heap 0 hb hs) (h2 : SymObj procs npes .data dyn .data 0 db ds)
    {me pe : Nat} (hpe : pe < npes) :
    AmResolves procs (setupAttr dyn .heap 0 npes hb hs me).handle me pe hb ∧
    AmResolves procs (setupAttr dyn .data 0 npes db ds me).handle me pe db := by
  have flag : ∀ c : Bool, (if c = true then 1#32 else 0#32 : BitVec 32).toNat < 2 := by intro c; cases c <;> decide
  have kind : ∀ (k : Sobj.Kind) (b : Nat → BitVec 64) (sz : Int),
      getKind (setupAttr dyn k 0 npes b sz me).handle = k.val := by
    intro k b sz
    unfold setupAttr
    simp only
    exact (C12_round_trip k (flag _) (by decide)).1
  have e1 : (procs pe).heap = setupAttr dyn .heap 0 npes hb hs pe := Option.some.inj (h1 pe hpe)
  have e2 : (procs pe).data = setupAttr dyn .data 0 npes db ds pe := Option.some.inj (h2 pe hpe)
  constructor
  · intro off
    have e : hb me + off - hb me = off := by rw [BitVec.add_comm, BitVec.add_sub_cancel]
    unfold dispToVaddr
    rw [if_pos (show _ = 1#32 from kind .heap hb hs), e1, e]
    rfl
  · intro off
    have e : db me + off - db me = off := by rw [BitVec.add_comm, BitVec.add_sub_cancel]
    unfold dispToVaddr
    rw [if_neg (by rw [kind .data db ds]; decide), if_pos (show _ = 0#32 from kind .data db ds), e2, e]
    rfl

/-- What fails: on the active-message path the handler receives `(int) bytes` bytes. A put of 2^28 elements of 8 bytes,
fine on the direct path, aborts. -/
theorem C17_am_fails (procs : Nat → Proc) (ctx : Option (Obj × Attr)) (me pe : Nat) (origin target r : BitVec 64)
    (m : Mems) (hr : resolve procs .am ctx me pe target = .ok r) :
    ctxPut procs .am ctx 8 8 me pe origin target (2 ^ 28) m = .abort := by
  unfold ctxPut
  rw [if_neg (by decide), hr]
  simp only [Res.bind_ok]
  unfold mpiMsg
  rw [if_pos (Or.inr (by decide))]
  rfl

/-! ## C18 -/

theorem strided_xfer {c c' : Bool} {sz : Nat → Nat} (src dst : IMem) (sa da : Int) {n base sc dc : Nat} {sty dty : Ty} {ss ds : Int}
    (hs : Obtained c sz ⟨n, ss, base, 0⟩ sc sty) (hd : Obtained c' sz ⟨n, ds, base, 0⟩ dc dty) (hn : n < 2 ^ 31)
    (hs1 : 1 ≤ ss) (hs2 : ss < 2 ^ 31) (hd1 : 1 ≤ ds) (hd2 : ds < 2 ^ 31) :
    ∃ r, mpiXfer src dst sa (toI32 sc) sty da (toI32 dc) dty = .ok r ∧
      mpiMsg src dst sa (toI32 sc) sty da (toI32 dc) dty = .ok r ∧ CopiedStrided src dst r sa da n (sz base) ss ds := by
  obtain ⟨s, t, dt, r1, p1, l1⟩ := hs
  obtain ⟨s', t', dt', r2, p2, l2⟩ := hd
  obtain ⟨y, a, f1⟩ := C20_transparent r1 p1
  rw [l1] at a; cases a
  obtain ⟨y, a, f2⟩ := C20_transparent r2 p2
  rw [l2] at a; cases a
  obtain ⟨n1, e1⟩ := fresh_flat f1 hn (by omega) hs2
  obtain ⟨n2, e2⟩ := fresh_flat f2 hn (by omega) hd2
  obtain ⟨x1, x2⟩ := xfer_eq src dst sa _ _ da _ _ n (sz base) _ _ n1 n2 e1 e2
  refine ⟨_, x1, x2, ?_⟩
  have hinj : ∀ p ∈ idx n (sz base), ∀ q ∈ idx n (sz base),
      (p.2 : Int) + (p.1 : Int) * ds * (sz base : Nat) = (q.2 : Int) + (q.1 : Int) * ds * (sz base : Nat) → p = q := by
    intro p hp q hq h
    have := elem_inj hd1 (mem_idx.1 hp).2 (mem_idx.1 hq).2 h
    exact Prod.ext this.1 this.2
  have h := writes_idx src dst sa da n (sz base) (fun p => (p.2 : Int) + (p.1 : Int) * ss * (sz base : Nat)) _ hinj
  simp only at h
  constructor
  · intro i hi b hb
    have := h.1 (i, b) (mem_idx.2 ⟨hi, hb⟩)
    simp only at this
    rw [show da + (i : Int) * ds * (sz base : Nat) + b = da + (b + (i : Int) * ds * (sz base : Nat)) by ring,
      show sa + (i : Int) * ss * (sz base : Nat) + b = sa + (b + (i : Int) * ss * (sz base : Nat)) by ring]
    exact this
  · intro x hx
    apply h.2
    intro p hp
    have := hx p.1 (mem_idx.1 hp).1 p.2 (mem_idx.1 hp).2
    intro c
    apply this
    rw [c]; ring

/-- iput: for all counts below 2^31 and strides from 1 below 2^31, whatever datatypes the two
`OSHMPI_create_strided_dtype` calls returned in whatever history (cache on or off, any number of threads), on both paths:
element `i * tst` of the target becomes element `i * sst` of the source for every `i < n`, nothing else changes. -/
theorem C18_iput_partial {c c' : Bool} {sz : Nat → Nat} (procs : Nat → Proc) (path : Path) (ctx : Option (Obj × Attr))
    (me pe : Nat) (origin target r : BitVec 64) (m : Mems) {n base oc tc : Nat} {oty tty : Ty} {sst tst : Int}
    (ho : Obtained c sz ⟨n, sst, base, 0⟩ oc oty) (ht : Obtained c' sz ⟨n, tst, base, 0⟩ tc tty) (hn : n < 2 ^ 31)
    (hs1 : 1 ≤ sst) (hs2 : sst < 2 ^ 31) (hd1 : 1 ≤ tst) (hd2 : tst < 2 ^ 31)
    (hr : resolve procs path ctx me pe target = .ok r) :
    ∃ m', ctxIput procs path ctx me pe origin target n oc oty tc tty m = .ok m' ∧
      CopiedStrided (m me) (m pe) (m' pe) origin.toInt r.toInt n (sz base) sst tst ∧ ∀ q, q ≠ pe → m' q = m q := by
  unfold ctxIput
  by_cases h0 : n = 0
  · subst h0
    rw [if_pos rfl]
    exact ⟨m, rfl, ⟨fun i hi => absurd hi (by omega), fun _ _ => rfl⟩, fun _ _ => rfl⟩
  rw [if_neg h0, hr]
  simp only [Res.bind_ok]
  obtain ⟨x, e1, e2, hc⟩ := strided_xfer (m me) (m pe) origin.toInt r.toInt ho ht hn hs1 hs2 hd1 hd2
  cases path with
  | direct mode =>
    simp only
    rw [e1]
    exact ⟨_, rfl, by rw [Function.update_self]; exact hc, fun q hq => Function.update_of_ne hq _ _⟩
  | am =>
    simp only
    rw [e2]
    exact ⟨_, rfl, by rw [Function.update_self]; exact hc, fun q hq => Function.update_of_ne hq _ _⟩

/-- iget, symmetrically: element `i * dst` at `origin` on the calling PE becomes element `i * sst` of the remote array. -/
theorem C18_iget_partial {c c' : Bool} {sz : Nat → Nat} (procs : Nat → Proc) (path : Path) (ctx : Option (Obj × Attr))
    (me pe : Nat) (origin target r : BitVec 64) (m : Mems) {n base oc tc : Nat} {oty tty : Ty} {dst sst : Int}
    (ho : Obtained c sz ⟨n, dst, base, 0⟩ oc oty) (ht : Obtained c' sz ⟨n, sst, base, 0⟩ tc tty) (hn : n < 2 ^ 31)
    (hs1 : 1 ≤ sst) (hs2 : sst < 2 ^ 31) (hd1 : 1 ≤ dst) (hd2 : dst < 2 ^ 31)
    (hr : resolve procs path ctx me pe target = .ok r) :
    ∃ m', ctxIget procs path ctx me pe origin target n oc oty tc tty m = .ok m' ∧
      CopiedStrided (m pe) (m me) (m' me) r.toInt origin.toInt n (sz base) sst dst ∧ ∀ q, q ≠ me → m' q = m q := by
  unfold ctxIget
  by_cases h0 : n = 0
  · subst h0
    rw [if_pos rfl]
    exact ⟨m, rfl, ⟨fun i hi => absurd hi (by omega), fun _ _ => rfl⟩, fun _ _ => rfl⟩
  rw [if_neg h0, hr]
  simp only [Res.bind_ok]
  obtain ⟨x, e1, e2, hc⟩ := strided_xfer (m pe) (m me) r.toInt origin.toInt ht ho hn hs1 hs2 hd1 hd2
  cases path with
  | direct mode =>
    simp only
    rw [e1]
    exact ⟨_, rfl, by rw [Function.update_self]; exact hc, fun q hq => Function.update_of_ne hq _ _⟩
  | am =>
    simp only
    rw [e2]
    exact ⟨_, rfl, by rw [Function.update_self]; exact hc, fun q hq => Function.update_of_ne hq _ _⟩

/-- Two strided copies with the same parameters give the same memory: the path and the datatypes are irrelevant. -/
theorem C18_path_independent {src dst r r' : IMem} {sa da : Int} {n k : Nat} {ss ds : Int}
    (h : CopiedStrided src dst r sa da n k ss ds) (h' : CopiedStrided src dst r' sa da n k ss ds) : r = r' := by
  funext x
  by_cases hx : ∃ i, i < n ∧ ∃ b, b < k ∧ x = da + (i * ds) * k + b
  · obtain ⟨i, hi, b, hb, rfl⟩ := hx
    rw [h.1 i hi b hb, h'.1 i hi b hb]
  · have : ∀ i < n, ∀ b < k, x ≠ da + ((i : Int) * ds) * k + b := by
      intro i hi b hb c
      exact hx ⟨i, hi, b, hb, c⟩
    rw [h.2 x this, h'.2 x this]

/-- With strides 1 a strided put is a contiguous one. -/
theorem C18_unit_stride {src dst r : IMem} {sa da : Int} {n k : Nat} (h : CopiedStrided src dst r sa da n k 1 1) :
    Copied src dst r sa da (n * k) := by
  intro x
  by_cases hx : da ≤ x ∧ x < da + ((n * k : Nat) : Int)
  · rw [if_pos hx]
    have hk : 0 < k := by
      rcases Nat.eq_zero_or_pos k with rfl | h
      · simp at hx; omega
      · exact h
    obtain ⟨y, hy⟩ : ∃ y : Nat, x = da + y := ⟨(x - da).toNat, by omega⟩
    have hyl : y < n * k := by omega
    have e : ((y / k : Nat) : Int) * 1 * k + ((y % k : Nat) : Int) = y := by
      have := Nat.div_add_mod y k
      rw [Nat.mul_comm] at this
      rw [Int.mul_one]
      exact_mod_cast this
    have := h.1 (y / k) ((Nat.div_lt_iff_lt_mul hk).2 hyl) (y % k) (Nat.mod_lt _ hk)
    rw [Int.add_assoc, e, Int.add_assoc, e] at this
    rw [hy, this]
    congr 1
    omega
  · rw [if_neg hx]
    apply h.2
    intro i hi b hb c
    apply hx
    have h1 : i * k + b < n * k := by
      have : (i + 1) * k ≤ n * k := Nat.mul_le_mul_right k hi
      rw [Nat.add_mul, Nat.one_mul] at this
      omega
    have h2 : x = da + ((i * k + b : Nat) : Int) := by
      rw [c]; push_cast; ring
    omega

/-- What fails: a stride of 2^31 or more is converted to `int` before it reaches `MPI_Type_vector`. With stride 2^32 + 2 the
datatype that the call hands out describes stride 2, in every history. -/
theorem C18_large_stride_fails {c : Bool} {sz : Nat → Nat} {n base cnt : Nat} {ty : Ty}
    (h : Obtained c sz ⟨n, 4294967298, base, 0⟩ cnt ty) (hn : n < 2 ^ 31) :
    cnt = 1 ∧ ty.flat 1 = (idx n (sz base)).map (fun p => (p.2 : Int) + (p.1 : Int) * 2 * (sz base : Nat)) := by
  obtain ⟨s, t, dt, r1, p1, l1⟩ := h
  obtain ⟨y, a, f⟩ := C20_transparent r1 p1
  rw [l1] at a; cases a
  unfold Fresh at f
  rw [if_neg (by simp)] at f
  obtain ⟨rfl, f⟩ := f
  refine ⟨rfl, ?_⟩
  have e : toI32s 4294967298 = 2 := by decide
  unfold newType at f
  simp only [toI32_lt hn, e] at f
  rw [if_neg (by omega)] at f
  simp only [gt_iff_lt, Nat.lt_irrefl, if_false, Option.some.injEq, Int.toNat_natCast] at f
  rw [← f]
  show (Ty.vector n 2 (Ty.basic (sz base))).flat 1 = _
  rw [flat_one, vector_map]

/-! ## C19 -/

theorem toI32_toNat_lt (n : Nat) : (toI32 n).toNat < 2 ^ 31 := by
  have h : toI32 n < 2147483648 := by
    unfold toI32
    rw [show (2 ^ 32 : Nat) = 4294967296 from rfl]
    have := Int.bmod_lt (x := (n : Int)) (m := 4294967296) (by omega)
    omega
  have e : (2 : Nat) ^ 31 = 2147483648 := by norm_num
  rw [e]
  omega

theorem put_direct (procs : Nat → Proc) (mode : Mode) (ctx : Option (Obj × Attr)) (k ts me pe : Nat)
    (origin target : BitVec 64) (n : Nat) (m : Mems) :
    ctxPut procs (.direct mode) ctx k ts me pe origin target n m = if n = 0 then .ok m
      else (resolve procs (.direct mode) ctx me pe target).bind fun r =>
        (mpiXfer (m me) (m pe) origin.toInt (toI32 n) (Ty.basic k) r.toInt (toI32 n) (Ty.basic k)).bind fun x =>
          .ok (Function.update m pe x) := rfl

theorem get_direct (procs : Nat → Proc) (mode : Mode) (ctx : Option (Obj × Attr)) (k ts me pe : Nat)
    (origin target : BitVec 64) (n : Nat) (m : Mems) :
    ctxGet procs (.direct mode) ctx k ts me pe origin target n m = if n = 0 then .ok m
      else (resolve procs (.direct mode) ctx me pe target).bind fun r =>
        (mpiXfer (m pe) (m me) r.toInt (toI32 n) (Ty.basic k) origin.toInt (toI32 n) (Ty.basic k)).bind fun x =>
          .ok (Function.update m me x) := rfl

theorem xfer_neg {n : Nat} (hneg : toI32 n < 0) (a b : IMem) (c : Int) (t : Ty) (d : Int) (t' : Ty) :
    mpiXfer a b c (toI32 n) t d (toI32 n) t' = .abort := by
  unfold mpiXfer
  rw [if_pos (Or.inl hneg)]

/-- For every 64-bit count on the direct path: what is transferred is `(int) n` elements, and the program is aborted when
that is negative. -/
theorem C19_count_is_int_partial (procs : Nat → Proc) (mode : Mode) (ctx : Option (Obj × Attr)) (k ts me pe : Nat)
    (origin target r : BitVec 64) (n : Nat) (m : Mems) (hr : resolve procs (.direct mode) ctx me pe target = .ok r)
    (h0 : n ≠ 0) :
    (toI32 n < 0 → ctxPut procs (.direct mode) ctx k ts me pe origin target n m = .abort ∧
      ctxGet procs (.direct mode) ctx k ts me pe origin target n m = .abort) ∧
    (0 ≤ toI32 n →
      (∃ m', ctxPut procs (.direct mode) ctx k ts me pe origin target n m = .ok m' ∧
        Copied (m me) (m pe) (m' pe) origin.toInt r.toInt ((toI32 n).toNat * k)) ∧
      ∃ m', ctxGet procs (.direct mode) ctx k ts me pe origin target n m = .ok m' ∧
        Copied (m pe) (m me) (m' me) r.toInt origin.toInt ((toI32 n).toNat * k)) := by
  constructor
  · intro hneg
    rw [put_direct, get_direct, if_neg h0, if_neg h0, hr, Res.bind_ok, Res.bind_ok, xfer_neg hneg, xfer_neg hneg,
      Res.bind_abort]
    exact ⟨rfl, rfl⟩
  · intro hpos
    have hlt : (toI32 n).toNat < 2 ^ 31 := toI32_toNat_lt n
    have e : toI32 (toI32 n).toNat = toI32 n := by
      rw [toI32_lt hlt]; omega
    have hx := (contig_xfer (m me) (m pe) origin.toInt r.toInt _ k hlt).1
    have hy := (contig_xfer (m pe) (m me) r.toInt origin.toInt _ k hlt).1
    rw [e] at hx hy
    obtain ⟨x, ex, hcx⟩ := hx
    obtain ⟨y, ey, hcy⟩ := hy
    rw [put_direct, get_direct, if_neg h0, if_neg h0, hr, Res.bind_ok, Res.bind_ok, ex, ey, Res.bind_ok, Res.bind_ok]
    refine ⟨⟨_, rfl, ?_⟩, ⟨_, rfl, ?_⟩⟩
    · rw [Function.update_self]; exact hcx
    · rw [Function.update_self]; exact hcy

/-- What fails: 2^32 elements are silently not transferred at all, 2^32 + 1 elements transfer one, 2^31 abort. -/
theorem C19_fails (procs : Nat → Proc) (mode : Mode) (ctx : Option (Obj × Attr)) (k ts me pe : Nat)
    (origin target r : BitVec 64) (m : Mems) (hr : resolve procs (.direct mode) ctx me pe target = .ok r) :
    (∃ m', ctxPut procs (.direct mode) ctx k ts me pe origin target (4294967296) m = .ok m' ∧
      Copied (m me) (m pe) (m' pe) origin.toInt r.toInt 0) ∧
    (∃ m', ctxPut procs (.direct mode) ctx k ts me pe origin target (4294967297) m = .ok m' ∧
      Copied (m me) (m pe) (m' pe) origin.toInt r.toInt k) ∧
    ctxPut procs (.direct mode) ctx k ts me pe origin target (2147483648) m = .abort := by
  have e0 : toI32 (4294967296) = 0 := by decide
  have e1 : toI32 (4294967297) = 1 := by decide
  have e2 : toI32 (2147483648) < 0 := by decide
  refine ⟨?_, ?_, ?_⟩
  · have := ((C19_count_is_int_partial procs mode ctx k ts me pe origin target r (4294967296) m hr (by decide)).2 (by rw [e0])).1
    rw [e0] at this
    simpa using this
  · have := ((C19_count_is_int_partial procs mode ctx k ts me pe origin target r (4294967297) m hr (by decide)).2
      (by rw [e1]; omega)).1
    rw [e1] at this
    simpa using this
  · exact ((C19_count_is_int_partial procs mode ctx k ts me pe origin target r (2147483648) m hr (by decide)).1 e2).1

/-! ## Non-vacuity -/

/-- two PEs with heaps at 0x10000 and 0x20000 (not symmetric) and global data -/
def exProcs (dyn : Bool) : Nat → Proc := fun p =>
  { heap := setupAttr dyn .heap 0 2 (fun i => BitVec.ofNat 64 (0x10000 * (i + 1))) 4096 p
    data := setupAttr dyn .data 0 2 (fun _ => 0x80000#64) 4096 p
    spaces := [] }

/-- PE 0 writes to offset 24 of the heap of PE 1: reaches 0x20018 on all paths -/
example : resolve (exProcs true) (.direct .abs) none 0 1 0x10018#64 = .ok 0x20018#64 ∧
    resolve (exProcs false) (.direct .rel) none 0 1 0x10018#64 = .ok 0x20018#64 ∧
    resolve (exProcs true) .am none 0 1 0x10018#64 = .ok 0x20018#64 := by decide +kernel

/-- hypotheses of `C17_put_symmetric_partial` and `C17_get_symmetric_partial` -/
example : SymObj (exProcs true) 2 .heap true .heap 0 (fun i => BitVec.ofNat 64 (0x10000 * (i + 1))) 4096 ∧
    query (exProcs true 0) 0x10018#64 =
      some (.heap, setupAttr true .heap 0 2 (fun i => BitVec.ofNat 64 (0x10000 * (i + 1))) 4096 0) := by
  refine ⟨fun p _ => rfl, ?_⟩
  unfold query
  rw [if_pos (by decide +kernel)]
  rfl

/-- hypotheses of `C18_iput_partial`: strides 2 and 3 of 4-byte elements -/
example : (∃ oc oty, Obtained true (fun _ => 4) ⟨5, 2, 0, 0⟩ oc oty) ∧ ∃ tc tty, Obtained true (fun _ => 4) ⟨5, 3, 0, 0⟩ tc tty :=
  ⟨obtained_exists _ _ _ (by decide), obtained_exists _ _ _ (by decide)⟩

end Verif.Rma
