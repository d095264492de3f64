import Verif.Api.Amo
import Verif.Api.C11Props
import Verif.Amo.Exact
import Verif.Rma.Props
/-!
# C87: every typed atomic routine does what its name says
-/
namespace Verif.Api
open Verif.Sobj Verif.Rma
open Verif.Amo (TyIdx OpIdx Fp NoOverflow)

/-! ## Specification -/

/-- the operation in the name of a routine (OpenSHMEM 1.5, 9.8), with its operands -/
def ARt.means (rt : ARt) (cond value : Nat) : Amo.Api := match rt with
  | .cswap => .cswap cond value | .cswapNbi => .cswap cond value | .dCswap => .cswap cond value
  | .fetchInc => .finc | .fetchIncNbi => .finc | .dFinc => .finc
  | .inc => .inc | .dInc => .inc
  | .fetchAdd => .fadd value | .fetchAddNbi => .fadd value | .dFadd => .fadd value
  | .add => .add value | .dAdd => .add value
  | .fetch => .fetch | .fetchNbi => .fetch | .dFetch => .fetch
  | .set => .set value | .dSet => .set value
  | .swap => .swap value | .swapNbi => .swap value | .dSwap => .swap value
  | .fetchAnd => .fand value | .fetchAndNbi => .fand value | .and => .and value
  | .fetchOr => .for value | .fetchOrNbi => .for value | .or => .or value
  | .fetchXor => .fxor value | .fetchXorNbi => .fxor value | .xor => .xor value

/-- nonblocking: the old value goes to the parameter `fetch` -/
def ARt.nbi : ARt → Bool
  | .cswapNbi => true | .fetchIncNbi => true | .fetchAddNbi => true | .fetchNbi => true | .swapNbi => true
  | .fetchAndNbi => true | .fetchOrNbi => true | .fetchXorNbi => true
  | .cswap => false | .fetchInc => false | .inc => false | .fetchAdd => false | .add => false
  | .dCswap => false | .dFinc => false | .dInc => false | .dFadd => false | .dAdd => false
  | .fetch => false | .set => false | .swap => false | .dFetch => false | .dSet => false | .dSwap => false
  | .fetchAnd => false | .and => false | .fetchOr => false | .or => false | .fetchXor => false | .xor => false

/-- returns no value and fetches none -/
def ARt.void : ARt → Bool
  | .inc => true | .add => true | .dInc => true | .dAdd => true | .set => true | .dSet => true | .and => true | .or => true
  | .xor => true
  | .cswapNbi => false | .fetchIncNbi => false | .fetchAddNbi => false | .fetchNbi => false | .swapNbi => false
  | .fetchAndNbi => false | .fetchOrNbi => false | .fetchXorNbi => false
  | .cswap => false | .fetchInc => false | .fetchAdd => false | .dCswap => false | .dFinc => false | .dFadd => false
  | .fetch => false | .swap => false | .dFetch => false | .dSwap => false
  | .fetchAnd => false | .fetchOr => false | .fetchXor => false

/-- deprecated routines, which have no `ctx_` version -/
def ARt.deprecated : ARt → Bool
  | .dCswap => true | .dFinc => true | .dInc => true | .dFadd => true | .dAdd => true | .dFetch => true | .dSet => true
  | .dSwap => true
  | .inc => false | .add => false | .set => false | .and => false | .or => false | .xor => false
  | .cswapNbi => false | .fetchIncNbi => false | .fetchAddNbi => false | .fetchNbi => false | .swapNbi => false
  | .fetchAndNbi => false | .fetchOrNbi => false | .fetchXorNbi => false
  | .cswap => false | .fetchInc => false | .fetchAdd => false
  | .fetch => false | .swap => false
  | .fetchAnd => false | .fetchOr => false | .fetchXor => false

/-- signed integer types -/
def CT.signed : CT → Bool
  | .schar => true | .short => true | .int => true | .long => true | .longlong => true | .int8 => true | .int16 => true
  | .int32 => true | .int64 => true | .ptrdiff => true
  | .char => true
  | .float => false | .double => false | .longdouble => false | .uchar => false | .ushort => false | .uint => false
  | .ulong => false | .ulonglong => false | .uint8 => false | .uint16 => false | .uint32 => false | .uint64 => false
  | .size => false

/-- the object of `k` bytes at an address of a PE -/
def wordAt (m : IMem) (a : Int) (k : Nat) : BitVec (8 * k) := Amo.word (view m a) 0 k

/-! ## Proof -/

theorem row_ok : ∀ r ∈ extRows, r.mpi.bytes = r.ty.sizeof ∧ r.mpi ∈ Amo.extTypes := by decide

theorem rows_ext (rt : ARt) : ∀ r ∈ rt.rows, r ∈ extRows := by cases rt <;> decide

theorem rows_types (rt : ARt) (cond value : Nat) {r : Row} (h : r ∈ rt.rows) : r.mpi ∈ (rt.means cond value).types := by
  have h1 : ∀ r ∈ stdRows, r.mpi ∈ Amo.stdTypes := by decide
  have h2 : ∀ r ∈ extRows, r.mpi ∈ Amo.extTypes := by decide
  have h3 : ∀ r ∈ bitwsRows, r.mpi ∈ Amo.bitwsTypes := by decide
  cases rt <;> first | exact h1 r h | exact h2 r h | exact h3 r h

theorem body_out {rt : ARt} {b : Bool} {c : ACall} (h : rt.body b = some c) :
    c.ctx = b ∧ c.out = (if rt.void then .none else if rt.nbi then .fetch else .ret) := by
  cases rt <;> cases b <;> first | (cases h; exact ⟨rfl, rfl⟩) | cases h

theorem body_direct {rt : ARt} {b : Bool} {c : ACall} (h : rt.body b = some c) (m : Mem) (dest : Nat) (ty : TyIdx) (cond v : Nat) :
    atDirect m dest ty.bytes c.via cond (c.src.val v) = .ok (Amo.direct m dest ty (rt.means cond v)) := by
  cases rt <;> cases b <;> first | (cases h; rfl) | cases h

theorem body_am {rt : ARt} {b : Bool} {c : ACall} (h : rt.body b = some c) (fp : Fp) (junk m : Mem) (dest : Nat) (ty : TyIdx)
    (cond v : Nat) :
    atAm fp junk m dest ty ty.bytes c.via cond (c.src.val v) = Amo.am fp junk m dest ty (rt.means cond v) := by
  cases rt <;> cases b <;> first | (cases h; rfl) | cases h

theorem body_some (rt : ARt) (b : Bool) (h : b = true → rt.deprecated = false) : ∃ c, rt.body b = some c := by
  cases rt <;> cases b <;> first | exact ⟨_, rfl⟩ | exact absurd (h rfl) (by decide)

theorem view_unview (m : IMem) (a : Int) (x : Mem) : view (unview m a x) a = x := by
  funext i
  unfold view unview
  rw [if_pos (by omega)]
  congr 1
  omega

theorem unview_out (m : IMem) (a : Int) (x : Mem) (k : Nat) (hx : ∀ p, k ≤ p → x p = view m a p) (p : Int) (hp : p < a ∨ a + k ≤ p) :
    unview m a x p = m p := by
  unfold unview
  split
  · rename_i h
    rw [hx _ (by omega)]
    unfold view
    congr 1
    omega
  · rfl

theorem wordAt_congr {m m' : IMem} {a : Int} {k : Nat} (h : ∀ p, a ≤ p → p < a + k → m p = m' p) : wordAt m a k = wordAt m' a k := by
  unfold wordAt Amo.word
  rw [Mem.load_congr (m' := view m' a)]
  intro x h1 h2
  exact h _ (by omega) (by omega)

/-- the operation on the target's memory -/
theorem core {rt : ARt} {b : Bool} {c : ACall} (hc : rt.body b = some c) {r : Row} (hr : r ∈ rt.rows) (fp : Fp) (junk m : Mem)
    (path : Path) (cond v : Nat)
    (ho : path = .am → r.ty.signed = true → NoOverflow m 0 r.ty.sizeof (rt.means cond v)) :
    ∃ x, atTarget fp junk path r c cond v m = .ok x ∧
      Amo.Meets m 0 r.ty.sizeof (rt.means cond v) x := by
  have hs := (row_ok r (rows_ext rt r hr)).1
  unfold atTarget
  rw [← hs]
  cases path with
  | direct mode => exact ⟨_, body_direct hc m 0 r.mpi cond v, Amo.C24_direct m 0⟩
  | am =>
    rw [← hs] at ho
    have ht := rows_types rt cond v hr
    dsimp only
    rw [body_am hc]
    by_cases hf : r.mpi = .float ∨ r.mpi = .double
    · exact Amo.C24_fp fp junk m 0 ht hf
    · push Not at hf
      refine Amo.am_int fp junk m 0 ht hf (fun hk => ho rfl ?_)
      have : ∀ r ∈ extRows, r.mpi.kind = .sint r.mpi.bytes → r.ty.signed = true := by decide
      exact this r (rows_ext rt r hr) hk

/-- **C87**: every typed atomic routine, of every type, without or with context, on both paths: the object of type TYPE at the
target address becomes what the operation in the routine's name says, the old value is returned, or stored through `fetch` by the
`_nbi` routines, and no other byte of any PE changes. `_partial`: over active messages a signed addition must not overflow (C24). The
two objects of an `_nbi` call must not overlap. -/
theorem C87_partial {rt : ARt} {isCtx : Bool} (hx : isCtx = true → rt.deprecated = false) {r : Row} (hr : r ∈ rt.rows) (fp : Fp)
    (junk : Mem) (procs : Nat → Proc) (path : Path) (ctx : Option (Obj × Attr)) (me pe : Nat) (dest fetch a : BitVec 64)
    (cond value : Nat) (m : Mems)
    (hres : Rma.resolve procs path (if isCtx then ctx else none) me pe dest = .ok a)
    (ho : path = .am → r.ty.signed = true → NoOverflow (view (m pe) a.toInt) 0 r.ty.sizeof (rt.means cond value))
    (hd : rt.nbi = true → me = pe → fetch.toInt + r.ty.sizeof ≤ a.toInt ∨ a.toInt + r.ty.sizeof ≤ fetch.toInt) :
    ∃ m' ret, rt.run isCtx fp junk procs path ctx me pe r dest fetch cond value m = some (.ok (m', ret)) ∧
      wordAt (m' pe) a.toInt r.ty.sizeof = (Amo.spec (wordAt (m pe) a.toInt r.ty.sizeof) (rt.means cond value)).1 ∧
      (if rt.void || rt.nbi then ret = none else ret = some (wordAt (m pe) a.toInt r.ty.sizeof).toNat) ∧
      (rt.nbi = true → wordAt (m' me) fetch.toInt r.ty.sizeof = wordAt (m pe) a.toInt r.ty.sizeof) ∧
      ∀ q p, ¬(q = pe ∧ a.toInt ≤ p ∧ p < a.toInt + r.ty.sizeof) →
        ¬(rt.nbi = true ∧ q = me ∧ fetch.toInt ≤ p ∧ p < fetch.toInt + r.ty.sizeof) → m' q p = m q p := by
  obtain ⟨c, hc⟩ := body_some rt isCtx hx
  obtain ⟨hctx, hout⟩ := body_out hc
  obtain ⟨x, hx1, hw, hold, hframe⟩ := core hc hr fp junk (view (m pe) a.toInt) path cond value ho
  have hs := (row_ok r (rows_ext rt r hr)).1
  have hnv : rt.nbi = true → rt.void = false := by cases rt <;> decide
  have hsp : rt.void = false → (Amo.spec (Amo.word (view (m pe) a.toInt) 0 r.ty.sizeof) (rt.means cond value)).2 =
      some (Amo.word (view (m pe) a.toInt) 0 r.ty.sizeof) := by
    cases rt <;> intro h <;> first | rfl | cases h
  have hrun : rt.run isCtx fp junk procs path ctx me pe r dest fetch cond value m =
      some (let m' := Function.update m pe (unview (m pe) a.toInt x.1)
        match c.out with
        | .none => .ok (m', none)
        | .ret => .ok (m', some x.2)
        | .fetch => .ok (Function.update m' me (unview (m' me) fetch.toInt
            ((view (m' me) fetch.toInt).store 0 r.mpi.bytes x.2)), none)) := by
    unfold ARt.run amo
    rw [hc]
    simp only [Option.map_some]
    rw [hctx, hres]
    simp only [Res.bind_ok]
    rw [hx1]
    rfl
  have hfr : ∀ q p, ¬(q = pe ∧ a.toInt ≤ p ∧ p < a.toInt + r.ty.sizeof) →
      Function.update m pe (unview (m pe) a.toInt x.1) q p = m q p := by
    intro q p h
    by_cases hq : q = pe
    · subst hq
      rw [Function.update_self]
      exact unview_out _ _ _ r.ty.sizeof (fun p hp => hframe p (Or.inr (by omega))) p (by omega)
    · rw [Function.update_of_ne hq]
  have hwd : wordAt (Function.update m pe (unview (m pe) a.toInt x.1) pe) a.toInt r.ty.sizeof =
      (Amo.spec (wordAt (m pe) a.toInt r.ty.sizeof) (rt.means cond value)).1 := by
    rw [Function.update_self]
    unfold wordAt
    rw [view_unview]
    exact hw
  cases hv : rt.void with
  | true =>
    rw [hv] at hout
    have hn : rt.nbi = false := by
      cases h : rt.nbi with
      | false => rfl
      | true => rw [hnv h] at hv; cases hv
    refine ⟨_, _, by rw [hrun, hout]; rfl, hwd, by simp, (fun h => by rw [hn] at h; cases h), fun q p h _ => hfr q p h⟩
  | false =>
    rw [hv] at hout
    obtain ⟨hb, hlt⟩ := hold _ (hsp hv)
    have hval : x.2 = (wordAt (m pe) a.toInt r.ty.sizeof).toNat := by
      unfold wordAt
      rw [← hb, BitVec.toNat_ofNat, Amo.p256, Nat.mod_eq_of_lt hlt]
    cases hn : rt.nbi with
    | false =>
      rw [hn] at hout
      refine ⟨_, _, by rw [hrun, hout]; rfl, hwd, by simp [hval], (fun h => by cases h), fun q p h _ => hfr q p h⟩
    | true =>
      rw [hn] at hout
      refine ⟨_, _, by rw [hrun, hout]; rfl, ?_, by simp, ?_, ?_⟩
      · rw [← hwd]
        apply wordAt_congr
        intro p h1 h2
        by_cases hq : pe = me
        · subst hq
          rw [Function.update_self]
          have hdj := hd hn rfl
          refine unview_out _ _ _ r.ty.sizeof (fun i hi => ?_) p (by omega)
          exact Mem.store_frame _ _ _ _ _ (Or.inr (by rw [hs]; omega))
        · rw [Function.update_of_ne hq]
      · intro _
        rw [Function.update_self]
        unfold wordAt
        rw [view_unview, ← hs, Amo.word_store]
        rw [← hs] at hb
        exact hb
      · intro q p h1 h2
        by_cases hq : q = me
        · subst hq
          rw [Function.update_self]
          rw [unview_out _ _ _ r.ty.sizeof (fun i hi => Mem.store_frame _ _ _ _ _ (Or.inr (by rw [hs]; omega))) p
            (by
              by_contra hh
              exact h2 ⟨rfl, rfl, by omega, by omega⟩)]
          exact hfr q p h1
        · rw [Function.update_of_ne hq]
          exact hfr q p h1

/-- **C87** (symmetric objects): the object changed is that at the same offset of the same symmetric object (heap, global data, or
a space) on the target PE, wherever the PEs' copies lie, on the default context or a context of the object -/
theorem C87_symmetric_partial {procs : Nat → Proc} {npes : Nat} {o : Obj} {dyn : Bool} {kind : Sobj.Kind} {i : Nat}
    {bases : Nat → BitVec 64} {size : Int} (hsym : SymObj procs npes o dyn kind i bases size) (hi : i < 2 ^ 29)
    {me pe : Nat} (hpe : pe < npes) {ctx : Option (Obj × Attr)} {off : BitVec 64} {isCtx : Bool}
    (hq : (if isCtx then ctx else none) = some (o, setupAttr dyn kind i npes bases size me) ∨
      ((if isCtx then ctx else none) = none ∧ query (procs me) (bases me + off) = some (o, setupAttr dyn kind i npes bases size me)))
    (path : Path) (hm : path = .direct .abs → dyn = true)
    (hres : AmResolves procs (setupAttr dyn kind i npes bases size me).handle me pe bases)
    (h0 : 0 ≤ off.toInt) (ha : 0 < (bases pe + off).toInt)
    {rt : ARt} (hx : isCtx = true → rt.deprecated = false) {r : Row} (hr : r ∈ rt.rows) (fp : Fp) (junk : Mem) (fetch : BitVec 64)
    (cond value : Nat) (m : Mems)
    (ho : path = .am → r.ty.signed = true →
      NoOverflow (view (m pe) (bases pe + off).toInt) 0 r.ty.sizeof (rt.means cond value))
    (hd : rt.nbi = true → me = pe →
      fetch.toInt + r.ty.sizeof ≤ (bases pe + off).toInt ∨ (bases pe + off).toInt + r.ty.sizeof ≤ fetch.toInt) :
    ∃ m' ret, rt.run isCtx fp junk procs path ctx me pe r (bases me + off) fetch cond value m = some (.ok (m', ret)) ∧
      wordAt (m' pe) (bases pe + off).toInt r.ty.sizeof =
        (Amo.spec (wordAt (m pe) (bases pe + off).toInt r.ty.sizeof) (rt.means cond value)).1 ∧
      (if rt.void || rt.nbi then ret = none else ret = some (wordAt (m pe) (bases pe + off).toInt r.ty.sizeof).toNat) ∧
      (rt.nbi = true → wordAt (m' me) fetch.toInt r.ty.sizeof = wordAt (m pe) (bases pe + off).toInt r.ty.sizeof) ∧
      ∀ q p, ¬(q = pe ∧ (bases pe + off).toInt ≤ p ∧ p < (bases pe + off).toInt + r.ty.sizeof) →
        ¬(rt.nbi = true ∧ q = me ∧ fetch.toInt ≤ p ∧ p < fetch.toInt + r.ty.sizeof) → m' q p = m q p :=
  C87_partial hx hr fp junk procs path ctx me pe _ fetch _ cond value m
    (resolve_symm hsym hi hpe hq path hm hres h0 ha) ho hd

/-- **C87 violated**, and exactly how: over active messages, every routine that adds to a signed type is undefined when the sum is
not representable; OpenSHMEM's atomics wrap around, as MPI's do -/
theorem C87_overflow_violation {rt : ARt} {isCtx : Bool} (hx : isCtx = true → rt.deprecated = false) {r : Row} (hr : r ∈ rt.rows)
    (hsg : r.ty.signed = true) (fp : Fp) (junk : Mem) (procs : Nat → Proc) (ctx : Option (Obj × Attr)) (me pe : Nat)
    (dest fetch a : BitVec 64) (cond value : Nat) (m : Mems)
    (hres : Rma.resolve procs .am (if isCtx then ctx else none) me pe dest = .ok a)
    (ho : ¬ NoOverflow (view (m pe) a.toInt) 0 r.ty.sizeof (rt.means cond value)) :
    rt.run isCtx fp junk procs .am ctx me pe r dest fetch cond value m = some .ub := by
  obtain ⟨c, hc⟩ := body_some rt isCtx hx
  have hs := (row_ok r (rows_ext rt r hr)).1
  have hk : r.mpi.kind = .sint r.mpi.bytes := by
    have : ∀ r ∈ extRows, r.ty.signed = true → r.mpi.kind = .sint r.mpi.bytes := by decide
    exact this r (rows_ext rt r hr) hsg
  rw [← hs] at ho
  unfold ARt.run amo
  rw [hc]
  simp only [Option.map_some]
  rw [(body_out hc).1, hres]
  simp only [Res.bind_ok]
  unfold atTarget
  dsimp only
  rw [← hs, body_am hc, Amo.am_ub fp junk _ 0 (rows_types rt cond value hr) hk ho]
  rfl

/-! ## From the generic call to the effect -/

/-- the routine a generic AMO operation names -/
def Op.amoRt : Op → Option ARt
  | .cswap => some .cswap | .cswapNbi => some .cswapNbi | .fetchInc => some .fetchInc | .fetchIncNbi => some .fetchIncNbi
  | .inc => some .inc | .fetchAdd => some .fetchAdd | .fetchAddNbi => some .fetchAddNbi | .add => some .add
  | .fetch => some .fetch | .fetchNbi => some .fetchNbi | .set => some .set | .swap => some .swap | .swapNbi => some .swapNbi
  | .fetchAnd => some .fetchAnd | .and => some .and | .fetchOr => some .fetchOr | .or => some .or | .fetchXor => some .fetchXor
  | .xor => some .xor | .fetchAndNbi => some .fetchAndNbi | .fetchOrNbi => some .fetchOrNbi | .fetchXorNbi => some .fetchXorNbi
  | .g => none | .get => none | .getNbi => none | .iget => none | .p => none | .put => none | .putNbi => none
  | .iput => none | .broadcast => none | .collect => none | .fcollect => none | .alltoall => none | .alltoalls => none
  | .minReduce => none | .maxReduce => none | .sumReduce => none | .prodReduce => none | .andReduce => none | .orReduce => none
  | .xorReduce => none | .waitUntil => none | .waitUntilAll => none | .waitUntilAny => none | .waitUntilSome => none
  | .waitUntilAllVector => none | .waitUntilAnyVector => none | .waitUntilSomeVector => none
  | .test => none | .testAll => none | .testAny => none | .testSome => none | .testAllVector => none | .testAnyVector => none
  | .testSomeVector => none | .putSignal => none | .putSignalNbi => none

/-- **C87** (generic calls): a type-generic atomic call that compiles names a routine that exists: generated from a row of the
routine's table, without or with context, and its operation is the macro's -/
theorem C87_generic {a : Abi} {m : Macro} (hm : m ∈ macros) {args : List Arg} {f : Fun} (h : call a m args = some f) {rt : ARt}
    (hrt : f.op.amoRt = some rt) : (∃ r ∈ rt.rows, RC.base r.ty = f.ty) ∧ (∃ c, rt.body f.ctx = some c) ∧ f.op = m.name.means := by
  obtain ⟨h1, _, _, h4, _, _⟩ := C86_selects hm h
  refine ⟨?_, ?_, h1⟩
  · have hall : ∀ m ∈ macros, ∀ rt, m.name.means.amoRt = some rt → ∀ t ∈ m.table.map GRow.ty, t ∈ rt.rows.map fun r => RC.base r.ty := by
      have : ∀ m ∈ macros, ∀ rt ∈ m.name.means.amoRt.toList, ∀ t ∈ m.table.map GRow.ty, t ∈ rt.rows.map fun r => RC.base r.ty := by
        decide +kernel
      intro m hm rt e
      exact this m hm rt (by rw [e]; exact List.mem_singleton.2 rfl)
    obtain ⟨r, hr, e⟩ := List.mem_map.1 (hall m hm rt (by rw [← h1]; exact hrt) f.ty h4)
    exact ⟨r, hr, e⟩
  · have : rt.deprecated = false := by
      cases ho : f.op <;> rw [ho] at hrt <;> simp only [Op.amoRt, Option.some.injEq, reduceCtorEq] at hrt <;> subst hrt <;> rfl
    exact body_some rt f.ctx (fun _ => this)

/-! ## The hypotheses are met -/

/-- `shmem_int_atomic_fetch_add(dest, 2, pe)`: a plain call, over active messages, of an `int` holding 5 -/
example : let m : Mems := fun _ => unview (fun _ => 0) 0 (Mem.store (fun _ => 9) 8 4 5)
    NoOverflow (view (m 1) 8) 0 (CT.int.sizeof) ((ARt.fetchAdd).means 0 2) ∧ wordAt (m 1) 8 4 = 5 ∧
    (Amo.spec (wordAt (m 1) 8 4) ((ARt.fetchAdd).means 0 2)).1 = 7 ∧
    (⟨.int, .int⟩ : Row) ∈ ARt.fetchAdd.rows ∧ ARt.fetchAdd.deprecated = false := by
  refine ⟨?_, by decide, by decide, by decide, rfl⟩
  intro v hv
  cases hv
  decide

/-- an `int` holding the largest number: adding overflows -/
example : ¬ NoOverflow (view (unview (fun _ => 0) 0 (Mem.store (fun _ => 9) 8 4 0x7fffffff)) 8) 0 (CT.int.sizeof)
    (ARt.inc.means 0 0) := fun h => absurd (h 1 rfl) (by decide)

/-- a generic `shmem_atomic_fetch_add(ctx, int *, int, int)` leads to that routine -/
example : ∃ f, call .lp64 ⟨.of .fetchAdd, .ctx .fetchAdd .fetchAdd, gStd⟩ [.vptr false, .ptr false .int, .val .int, .val .int] = some f ∧
    f.op.amoRt = some .fetchAdd ∧ f.ctx = true := ⟨⟨.fetchAdd, true, .base .int⟩, by decide +kernel⟩

end Verif.Api
