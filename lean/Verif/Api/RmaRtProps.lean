import Verif.Api.RmaRt
import Verif.Api.AmoProps
import Verif.Api.Props
/-!
# C88: every put and get routine does what its name says
-/
namespace Verif.Api
open Verif.Sobj Verif.Rma
open Verif.Amo (TyIdx)

/-- routines that exist: typed all eight, sized without `p` and `g`, `mem` the contiguous ones; each without and with `ctx_` -/
def RRt.offered : RRt → Fn → Bool
  | .g, .typed _ => true | .p, .typed _ => true
  | .g, .sized _ => false | .p, .sized _ => false | .g, .mem => false | .p, .mem => false
  | .iget, .mem => false | .iput, .mem => false
  | .iget, .typed _ => true | .iput, .typed _ => true | .iget, .sized _ => true | .iput, .sized _ => true
  | .get, .typed _ => true | .getNbi, .typed _ => true | .put, .typed _ => true | .putNbi, .typed _ => true
  | .get, .sized _ => true | .getNbi, .sized _ => true | .put, .sized _ => true | .putNbi, .sized _ => true
  | .get, .mem => true | .getNbi, .mem => true | .put, .mem => true | .putNbi, .mem => true

/-- the address on the other PE: the destination of a put, the source of a get -/
def RRt.remote (rt : RRt) (a : RArgs) : BitVec 64 := match rt with
  | .g => a.source | .get => a.source | .getNbi => a.source | .iget => a.source
  | .p => a.dest | .put => a.dest | .putNbi => a.dest | .iput => a.dest

/-- names with `_nbi` -/
def RRt.nbi : RRt → Bool
  | .getNbi => true | .putNbi => true
  | .g => false | .get => false | .iget => false | .p => false | .put => false | .iput => false

/-- bytes an active-message put counts per element: for the sized routines the number of bits -/
def Fn.amUnit : Fn → Nat
  | .typed r => r.ty.sizeof
  | .sized s => s.size
  | .mem => 1

/-- the limits within which the routine works: element counts and strides fit an `int`; over active messages the byte count of the
contiguous ones as well (an eighth of that for the sized puts); the sized gets do not work at all over active messages -/
def RRt.InLimits (rt : RRt) (fn : Fn) (path : Path) (a : RArgs) : Prop := match rt with
  | .g => True
  | .p => True
  | .get => a.nelems < 2 ^ 31 ∧ (path = .am → (∀ s, fn ≠ .sized s) ∧ fn.elem * a.nelems < 2 ^ 31)
  | .getNbi => a.nelems < 2 ^ 31 ∧ (path = .am → (∀ s, fn ≠ .sized s) ∧ fn.elem * a.nelems < 2 ^ 31)
  | .put => a.nelems < 2 ^ 31 ∧ (path = .am → fn.amUnit * a.nelems < 2 ^ 31)
  | .putNbi => a.nelems < 2 ^ 31 ∧ (path = .am → fn.amUnit * a.nelems < 2 ^ 31)
  | .iget => a.nelems < 2 ^ 31 ∧ (1 ≤ a.dst ∧ a.dst < 2 ^ 31) ∧ 1 ≤ a.sst ∧ a.sst < 2 ^ 31
  | .iput => a.nelems < 2 ^ 31 ∧ (1 ≤ a.dst ∧ a.dst < 2 ^ 31) ∧ 1 ≤ a.sst ∧ a.sst < 2 ^ 31

/-- what the name says, for elements of `k` bytes; `r`: where the remote address lies on PE `pe`. `p` stores the value; `g` returns it;
`put` and `get` copy `nelems` elements; `iput` and `iget` copy element `i * sst` of the source to element `i * dst` of the destination.
Nothing else changes, except the caller's own variable `value`. -/
def RRt.Does (rt : RRt) (k : Nat) (a : RArgs) (me pe : Nat) (r : Int) (m m' : Mems) (ret : Option (Nat → BitVec 8)) : Prop :=
  match rt with
  | .p => (∀ b < k, m' pe (r + b) = a.value b) ∧
      (∀ q x, ¬(q = pe ∧ r ≤ x ∧ x < r + k) → ¬(q = me ∧ a.slot.toInt ≤ x ∧ x < a.slot.toInt + k) → m' q x = m q x) ∧ ret = none
  | .g => (∃ v, ret = some v ∧ ∀ b < k, v b = m pe (r + b)) ∧
      ∀ q x, ¬(q = me ∧ a.slot.toInt ≤ x ∧ x < a.slot.toInt + k) → m' q x = m q x
  | .put => Copied (m me) (m pe) (m' pe) a.source.toInt r (a.nelems * k) ∧ (∀ q, q ≠ pe → m' q = m q) ∧ ret = none
  | .putNbi => Copied (m me) (m pe) (m' pe) a.source.toInt r (a.nelems * k) ∧ (∀ q, q ≠ pe → m' q = m q) ∧ ret = none
  | .get => Copied (m pe) (m me) (m' me) r a.dest.toInt (a.nelems * k) ∧ (∀ q, q ≠ me → m' q = m q) ∧ ret = none
  | .getNbi => Copied (m pe) (m me) (m' me) r a.dest.toInt (a.nelems * k) ∧ (∀ q, q ≠ me → m' q = m q) ∧ ret = none
  | .iput => CopiedStrided (m me) (m pe) (m' pe) a.source.toInt r a.nelems k a.sst a.dst ∧ (∀ q, q ≠ pe → m' q = m q) ∧ ret = none
  | .iget => CopiedStrided (m pe) (m me) (m' me) r a.dest.toInt a.nelems k a.sst a.dst ∧ (∀ q, q ≠ me → m' q = m q) ∧ ret = none

/-- **C88** (which routines there are, and that those with a context use it, and that exactly those named `_nbi` do not wait) -/
theorem C88_routines (rt : RRt) (fn : Fn) (isCtx : Bool) :
    ((RRt.body fn.fam rt isCtx).isSome = rt.offered fn) ∧
    ∀ c, RRt.body fn.fam rt isCtx = some c → c.ctx = isCtx ∧ c.via.blocking = !rt.nbi := by
  constructor
  · cases fn <;> cases rt <;> cases isCtx <;> rfl
  · intro c h
    cases fn <;> cases rt <;> cases isCtx <;> simp only [Fn.fam, RRt.body, Option.some.injEq, reduceCtorEq] at h <;> subst h <;>
      exact ⟨rfl, rfl⟩

theorem mpi_sz (t : TyIdx) : mpiSz (mpiId t) = t.bytes := by cases t <;> rfl

theorem dtTable_id (t : TyIdx) : dtTable t = t := by cases t <;> rfl

/-- both datatypes come from `OSHMPI_create_strided_dtype` for the element type and the stride of their side -/
theorem dtypes_obtained {cacheOn : Bool} {path : Path} {n : Nat} {t : TyIdx} {os ts : Int} {oc tc : Nat} {oty tty : Ty}
    (h : Dtypes cacheOn path n t os ts oc oty tc tty) :
    Obtained cacheOn mpiSz ⟨n, os, mpiId t, 0⟩ oc oty ∧ Obtained cacheOn mpiSz ⟨n, ts, mpiId t, 0⟩ tc tty := by
  obtain ⟨h1, h2⟩ := h
  refine ⟨h1, ?_⟩
  cases path with
  | direct mode =>
    dsimp only at h2
    by_cases e : os = ts
    · rw [if_pos e] at h2
      obtain ⟨rfl, rfl⟩ := h2
      rw [← e]; exact h1
    · rw [if_neg e] at h2
      exact h2
  | am =>
    dsimp only at h2
    rw [dtTable_id] at h2
    exact h2

theorem dtypes_exist (cacheOn : Bool) (path : Path) (n : Nat) (t : TyIdx) (os ts : Int) (hn : n < 2 ^ 31) :
    ∃ oc oty tc tty, Dtypes cacheOn path n t os ts oc oty tc tty := by
  obtain ⟨oc, oty, h1⟩ := obtained_exists cacheOn mpiSz ⟨n, os, mpiId t, 0⟩ hn
  cases path with
  | direct mode =>
    by_cases e : os = ts
    · exact ⟨oc, oty, oc, oty, h1, by dsimp only; rw [if_pos e]; exact ⟨rfl, rfl⟩⟩
    · obtain ⟨tc, tty, h2⟩ := obtained_exists cacheOn mpiSz ⟨n, ts, mpiId t, 0⟩ hn
      exact ⟨oc, oty, tc, tty, h1, by dsimp only; rw [if_neg e]; exact h2⟩
  | am =>
    obtain ⟨tc, tty, h2⟩ := obtained_exists cacheOn mpiSz ⟨n, ts, mpiId (dtTable t), 0⟩ hn
    exact ⟨oc, oty, tc, tty, h1, h2⟩

theorem fn_mpi {fn : Fn} {t : TyIdx} (hf : fn.Exists) (h : fn.mpi = some t) : mpiSz (mpiId t) = fn.elem := by
  have := mpi_size hf
  cases fn with
  | typed r => cases h; rw [mpi_sz]; exact this
  | sized r => cases h; rw [mpi_sz]; exact this
  | mem => cases h

/-- **C88**: every routine that exists, of every type and size, on every path, within its limits: all outcomes of the call are normal and
do what the name says -/
theorem C88_partial {rt : RRt} {fn : Fn} (hf : fn.Exists) (cacheOn isCtx : Bool) (procs : Nat → Proc) (path : Path)
    (ctx : Option (Obj × Attr)) (me pe : Nat) (a : RArgs) (m : Mems) (r : BitVec 64)
    (hr : Rma.resolve procs path (if isCtx then ctx else none) me pe (rt.remote a) = .ok r) (hl : rt.InLimits fn path a)
    {out : Res (Mems × Option (Nat → BitVec 8))} (hrun : rt.Run cacheOn fn isCtx procs path ctx me pe a m out) :
    ∃ m' ret, out = .ok (m', ret) ∧ rt.Does fn.elem a me pe r.toInt m m' ret := by
  obtain ⟨c, hc, res, hm, rfl⟩ := hrun
  have putCase : ∀ (o t : BitVec 64) (n : Nat) (m0 : Mems), Rma.resolve procs path (if isCtx then ctx else none) me pe t = .ok r →
      n < 2 ^ 31 → (path = .am → fn.args.2 * n < 2 ^ 31) →
      ∃ m', ctxPut procs path (if isCtx then ctx else none) fn.args.1 fn.args.2 me pe o t n m0 = .ok m' ∧
        Copied (m0 me) (m0 pe) (m' pe) o.toInt r.toInt (n * fn.elem) ∧ ∀ q, q ≠ pe → m' q = m0 q :=
    fun o t n m0 h1 h2 h3 => C63_put_partial hf procs path _ me pe t o r n m0 h1 h2 h3
  have getCase : ∀ (o t : BitVec 64) (n : Nat) (m0 : Mems), Rma.resolve procs path (if isCtx then ctx else none) me pe t = .ok r →
      n < 2 ^ 31 → (path = .am → (∀ s, fn ≠ .sized s) ∧ fn.elem * n < 2 ^ 31) →
      ∃ m', ctxGet procs path (if isCtx then ctx else none) fn.args.1 fn.args.2 me pe o t n m0 = .ok m' ∧
        Copied (m0 pe) (m0 me) (m' me) r.toInt o.toInt (n * fn.elem) ∧ ∀ q, q ≠ me → m' q = m0 q :=
    fun o t n m0 h1 h2 h3 => C63_get_partial hf procs path _ me pe o t r n m0 h1 h2 h3
  have targs : fn.amUnit = fn.args.2 := by cases fn <;> rfl
  have hctx := ((C88_routines rt fn isCtx).2 c hc).1
  have hoff : rt.offered fn = true := by rw [← (C88_routines rt fn isCtx).1, hc]; rfl
  cases rt with
  | g =>
    cases fn with
    | typed row =>
      have hc' : c = ⟨isCtx, .get, .local, .source, .one⟩ := by cases isCtx <;> (cases hc; rfl)
      subst hc'
      simp only [RCall.Moves, RCall.enter, RPtr.addr, RCnt.val, reduceCtorEq, if_false] at hm
      have he : ∀ r ∈ rmaRows, r.ty.sizeof < 2 ^ 31 := by decide
      obtain ⟨m', e, hcp, hq⟩ := getCase a.slot a.source 1 m hr (by decide) (fun _ => ⟨fun s => by simp, by
        rw [Nat.mul_one]; exact he row hf⟩)
      rw [hm, e]
      refine ⟨m', some fun (i : Nat) => m' me (a.slot.toInt + i), rfl, ⟨_, rfl, ?_⟩, ?_⟩
      · intro b hb
        rw [hcp, if_pos (by constructor <;> omega)]
        congr 1
        omega
      · intro q x hx
        by_cases hqm : q = me
        · subst hqm
          rw [hcp, if_neg (by
            rintro ⟨h1, h2⟩
            exact hx ⟨rfl, h1, by rw [Nat.one_mul] at h2; exact h2⟩)]
        · rw [hq q hqm]
    | sized s => cases hoff
    | mem => cases hoff
  | p =>
    cases fn with
    | typed row =>
      have hc' : c = ⟨isCtx, .put, .param, .dest, .one⟩ := by cases isCtx <;> (cases hc; rfl)
      subst hc'
      simp only [RCall.Moves, RPtr.addr, RCnt.val] at hm
      have he : ∀ r ∈ rmaRows, r.ty.sizeof < 2 ^ 31 := by decide
      obtain ⟨m', e, hcp, hq⟩ := putCase a.slot a.dest 1 (RCall.enter (.typed row) ⟨isCtx, .put, .param, .dest, .one⟩ a me m) hr
        (by decide) (fun _ => by rw [Nat.mul_one]; exact he row hf)
      rw [hm, e]
      have hme : ∀ x, RCall.enter (.typed row) ⟨isCtx, .put, .param, .dest, .one⟩ a me m me x =
          if a.slot.toInt ≤ x ∧ x < a.slot.toInt + (Fn.typed row).elem then a.value (x - a.slot.toInt).toNat else m me x := by
        intro x
        simp only [RCall.enter, if_true, Function.update_self]
        rfl
      have hoth : ∀ q, q ≠ me → RCall.enter (.typed row) ⟨isCtx, .put, .param, .dest, .one⟩ a me m q = m q := by
        intro q h
        simp only [RCall.enter, if_true]
        exact Function.update_of_ne h _ _
      refine ⟨m', none, rfl, ?_, ?_, rfl⟩
      · intro b hb
        rw [hcp, if_pos (by constructor <;> omega), hme, if_pos (by constructor <;> omega)]
        congr 1
        omega
      · intro q x h1 h2
        have key : m' q x = RCall.enter (.typed row) ⟨isCtx, .put, .param, .dest, .one⟩ a me m q x := by
          by_cases hqp : q = pe
          · subst hqp
            rw [hcp, if_neg (by
              rintro ⟨h3, h4⟩
              exact h1 ⟨rfl, h3, by rw [Nat.one_mul] at h4; exact h4⟩)]
          · rw [hq q hqp]
        rw [key]
        by_cases hqm : q = me
        · subst hqm
          rw [hme, if_neg (fun h => h2 ⟨rfl, h⟩)]
        · rw [hoth q hqm]
    | sized s => cases hoff
    | mem => cases hoff
  | get =>
    have hc' : c = ⟨isCtx, .get, .dest, .source, .nelems⟩ := by cases fn <;> cases isCtx <;> (cases hc; rfl)
    subst hc'
    simp only [RCall.Moves, RCall.enter, RPtr.addr, RCnt.val, reduceCtorEq, if_false] at hm
    obtain ⟨m', e, hcp, hq⟩ := getCase a.dest a.source a.nelems m hr hl.1 hl.2
    rw [hm, e]
    exact ⟨m', none, rfl, hcp, hq, rfl⟩
  | getNbi =>
    have hc' : c = ⟨isCtx, .getNbi, .dest, .source, .nelems⟩ := by cases fn <;> cases isCtx <;> (cases hc; rfl)
    subst hc'
    simp only [RCall.Moves, RCall.enter, RPtr.addr, RCnt.val, reduceCtorEq, if_false] at hm
    obtain ⟨m', e, hcp, hq⟩ := getCase a.dest a.source a.nelems m hr hl.1 hl.2
    rw [hm, e]
    exact ⟨m', none, rfl, hcp, hq, rfl⟩
  | put =>
    have hc' : c = ⟨isCtx, .put, .source, .dest, .nelems⟩ := by cases fn <;> cases isCtx <;> (cases hc; rfl)
    subst hc'
    simp only [RCall.Moves, RCall.enter, RPtr.addr, RCnt.val, reduceCtorEq, if_false] at hm
    obtain ⟨m', e, hcp, hq⟩ := putCase a.source a.dest a.nelems m hr hl.1 (fun h => by rw [← targs]; exact hl.2 h)
    rw [hm, e]
    exact ⟨m', none, rfl, hcp, hq, rfl⟩
  | putNbi =>
    have hc' : c = ⟨isCtx, .putNbi, .source, .dest, .nelems⟩ := by cases fn <;> cases isCtx <;> (cases hc; rfl)
    subst hc'
    simp only [RCall.Moves, RCall.enter, RPtr.addr, RCnt.val, reduceCtorEq, if_false] at hm
    obtain ⟨m', e, hcp, hq⟩ := putCase a.source a.dest a.nelems m hr hl.1 (fun h => by rw [← targs]; exact hl.2 h)
    rw [hm, e]
    exact ⟨m', none, rfl, hcp, hq, rfl⟩
  | iput =>
    obtain ⟨hn, ⟨hd1, hd2⟩, hs1, hs2⟩ := hl
    have hc' : c = ⟨isCtx, .iput .dst .sst, .source, .dest, .nelems⟩ := by cases fn <;> cases isCtx <;> (cases hc; try rfl)
    subst hc'
    simp only [RCall.Moves, RCall.enter, RPtr.addr, RCnt.val, RSt.val, reduceCtorEq, if_false] at hm
    obtain ⟨t, oc, oty, tc, tty, ht, hdt, e⟩ := hm
    obtain ⟨ho, htg⟩ := dtypes_obtained hdt
    obtain ⟨m', e', hcp, hq⟩ := C18_iput_partial procs path _ me pe a.source a.dest r m ho htg hn hs1 hs2 hd1 hd2 hr
    rw [e, e']
    rw [fn_mpi hf ht] at hcp
    exact ⟨m', none, rfl, hcp, hq, rfl⟩
  | iget =>
    obtain ⟨hn, ⟨hd1, hd2⟩, hs1, hs2⟩ := hl
    have hc' : c = ⟨isCtx, .iget .dst .sst, .dest, .source, .nelems⟩ := by cases fn <;> cases isCtx <;> (cases hc; try rfl)
    subst hc'
    simp only [RCall.Moves, RCall.enter, RPtr.addr, RCnt.val, RSt.val, reduceCtorEq, if_false] at hm
    obtain ⟨t, oc, oty, tc, tty, ht, hdt, e⟩ := hm
    obtain ⟨ho, htg⟩ := dtypes_obtained hdt
    obtain ⟨m', e', hcp, hq⟩ := C18_iget_partial procs path _ me pe a.dest a.source r m ho htg hn hs1 hs2 hd1 hd2 hr
    rw [e, e']
    rw [fn_mpi hf ht] at hcp
    exact ⟨m', none, rfl, hcp, hq, rfl⟩

/-- **C88** (a call has an outcome): the statement about all outcomes is not empty -/
theorem C88_runs {rt : RRt} {fn : Fn} (ho : rt.offered fn = true) (cacheOn isCtx : Bool) (procs : Nat → Proc) (path : Path)
    (ctx : Option (Obj × Attr)) (me pe : Nat) (a : RArgs) (m : Mems) (hn : a.nelems < 2 ^ 31) :
    ∃ out, rt.Run cacheOn fn isCtx procs path ctx me pe a m out := by
  obtain ⟨c, hc⟩ := Option.isSome_iff_exists.1 ((C88_routines rt fn isCtx).1.trans ho)
  suffices h : ∃ res, c.Moves cacheOn procs path ctx me pe fn a (c.enter fn a me m) res by
    obtain ⟨res, h⟩ := h
    exact ⟨_, c, hc, res, h, rfl⟩
  have hcnt : c.cnt.val a < 2 ^ 31 := by
    cases hx : c.cnt
    · show 1 < 2 ^ 31
      decide
    · exact hn
  have hst : (∃ s s', c.via = .iput s s') ∨ (∃ s s', c.via = .iget s s') → ∃ t, fn.mpi = some t := by
    intro h
    cases fn with
    | typed r => exact ⟨_, rfl⟩
    | sized r => exact ⟨_, rfl⟩
    | mem =>
      exfalso
      cases rt <;> cases isCtx <;> simp only [Fn.fam, RRt.body, Option.some.injEq, reduceCtorEq] at hc <;> subst hc <;> simp at h
  unfold RCall.Moves
  cases hv : c.via with
  | put => exact ⟨_, rfl⟩
  | putNbi => exact ⟨_, rfl⟩
  | get => exact ⟨_, rfl⟩
  | getNbi => exact ⟨_, rfl⟩
  | iput s s' =>
    obtain ⟨t, ht⟩ := hst (Or.inl ⟨s, s', hv⟩)
    obtain ⟨oc, oty, tc, tty, hd⟩ := dtypes_exist cacheOn path (c.cnt.val a) t (s'.val a) (s.val a) hcnt
    exact ⟨_, t, oc, oty, tc, tty, ht, hd, rfl⟩
  | iget s s' =>
    obtain ⟨t, ht⟩ := hst (Or.inr ⟨s, s', hv⟩)
    obtain ⟨oc, oty, tc, tty, hd⟩ := dtypes_exist cacheOn path (c.cnt.val a) t (s.val a) (s'.val a) hcnt
    exact ⟨_, t, oc, oty, tc, tty, ht, hd, rfl⟩

/-- **C88** (symmetric objects): the remote memory is that at the same offset of the same symmetric object (heap, global data, or a
space) on the other PE, wherever the PEs' copies lie -/
theorem C88_symmetric_partial {procs : Nat → Proc} {npes : Nat} {o : Obj} {dyn : Bool} {kind : Sobj.Kind} {i : Nat}
    {bases : Nat → BitVec 64} {size : Int} (hsym : SymObj procs npes o dyn kind i bases size) (hi : i < 2 ^ 29)
    {me pe : Nat} (hpe : pe < npes) {ctx : Option (Obj × Attr)} {off : BitVec 64} {isCtx : Bool}
    (hq : (if isCtx then ctx else none) = some (o, setupAttr dyn kind i npes bases size me) ∨
      ((if isCtx then ctx else none) = none ∧ query (procs me) (bases me + off) = some (o, setupAttr dyn kind i npes bases size me)))
    (path : Path) (hm : path = .direct .abs → dyn = true)
    (hres : AmResolves procs (setupAttr dyn kind i npes bases size me).handle me pe bases)
    (h0 : 0 ≤ off.toInt) (ha : 0 < (bases pe + off).toInt) {rt : RRt} {fn : Fn} (hf : fn.Exists) (cacheOn : Bool) (a : RArgs)
    (he : rt.remote a = bases me + off) (m : Mems) (hl : rt.InLimits fn path a) {out : Res (Mems × Option (Nat → BitVec 8))}
    (hrun : rt.Run cacheOn fn isCtx procs path ctx me pe a m out) :
    ∃ m' ret, out = .ok (m', ret) ∧ rt.Does fn.elem a me pe (bases pe + off).toInt m m' ret :=
  C88_partial hf cacheOn isCtx procs path ctx me pe a m _ (by rw [he]; exact resolve_symm hsym hi hpe hq path hm hres h0 ha) hl hrun

/-- **C88 violated**: the sized gets, blocking or not, abort over active messages for every positive number of elements -/
theorem C88_sized_get_violation {s : SRow} (hs : s ∈ sizedRows) {rt : RRt} (hrt : rt = .get ∨ rt = .getNbi) (cacheOn isCtx : Bool)
    (procs : Nat → Proc) (ctx : Option (Obj × Attr)) (me pe : Nat) (a : RArgs) (m : Mems) (r : BitVec 64)
    (hr : Rma.resolve procs .am (if isCtx then ctx else none) me pe a.source = .ok r) (h0 : 0 < a.nelems)
    (hb : s.size * a.nelems < 2 ^ 31) {out : Res (Mems × Option (Nat → BitVec 8))}
    (hrun : rt.Run cacheOn (.sized s) isCtx procs .am ctx me pe a m out) : out = .abort := by
  obtain ⟨c, hc, res, hm, rfl⟩ := hrun
  have h := C63_sized_get_fails hs procs (if isCtx then ctx else none) me pe a.dest a.source r a.nelems m hr h0 hb
  have : res = .abort := by
    rcases hrt with rfl | rfl
    · have hc' : c = ⟨isCtx, .get, .dest, .source, .nelems⟩ := by cases isCtx <;> (cases hc; rfl)
      subst hc'
      exact hm.trans h
    · have hc' : c = ⟨isCtx, .getNbi, .dest, .source, .nelems⟩ := by cases isCtx <;> (cases hc; rfl)
      subst hc'
      exact hm.trans h
  rw [this]
  rfl

/-! ## From the generic call to the effect -/

/-- the routine a generic put or get operation names -/
def Op.rmaRt : Op → Option RRt
  | .g => some .g | .get => some .get | .getNbi => some .getNbi | .iget => some .iget | .p => some .p | .put => some .put
  | .putNbi => some .putNbi | .iput => some .iput
  | .cswap => none | .cswapNbi => none | .fetchInc => none | .fetchIncNbi => none | .inc => none | .fetchAdd => none
  | .fetchAddNbi => none | .add => none | .fetch => none | .fetchNbi => none | .set => none | .swap => none | .swapNbi => none
  | .fetchAnd => none | .and => none | .fetchOr => none | .or => none | .fetchXor => none | .xor => none | .fetchAndNbi => none
  | .fetchOrNbi => none | .fetchXorNbi => none
  | .broadcast => none | .collect => none | .fcollect => none | .alltoall => none | .alltoalls => none
  | .minReduce => none | .maxReduce => none | .sumReduce => none | .prodReduce => none | .andReduce => none | .orReduce => none
  | .xorReduce => none | .waitUntil => none | .waitUntilAll => none | .waitUntilAny => none | .waitUntilSome => none
  | .waitUntilAllVector => none | .waitUntilAnyVector => none | .waitUntilSomeVector => none
  | .test => none | .testAll => none | .testAny => none | .testSome => none | .testAllVector => none | .testAnyVector => none
  | .testSomeVector => none | .putSignal => none | .putSignalNbi => none

/-- **C88** (generic calls): a type-generic put or get that compiles names a routine that exists -/
theorem C88_generic {a : Abi} {m : Macro} (hm : m ∈ macros) {args : List Arg} {f : Fun} (h : call a m args = some f) {rt : RRt}
    (hrt : f.op.rmaRt = some rt) :
    (∃ r, (Fn.typed r).Exists ∧ RC.base r.ty = f.ty ∧ rt.offered (.typed r) = true) ∧ f.op = m.name.means := by
  obtain ⟨h1, _, _, h4, _, _⟩ := C86_selects hm h
  refine ⟨?_, h1⟩
  have hall : ∀ m ∈ macros, ∀ rt ∈ m.name.means.rmaRt.toList, ∀ t ∈ m.table.map GRow.ty, t ∈ rmaRows.map fun r => RC.base r.ty := by
    decide +kernel
  obtain ⟨r, hr, e⟩ := List.mem_map.1
    (hall m hm rt (by rw [← h1, hrt]; exact List.mem_singleton.2 rfl) f.ty h4)
  exact ⟨r, hr, e, by cases rt <;> rfl⟩

/-! ## The hypotheses are met -/

/-- `shmem_long_iput(dest, source, 3, 2, 5, 1)` and `shmem_iget128` with those strides, on PE 0, both paths -/
example : (Fn.typed ⟨.long, .long⟩).Exists ∧ (Fn.sized ⟨128, .dcomplex⟩).Exists ∧
    (let a : RArgs := ⟨0x10018#64, 0x10018#64, 0x70000#64, fun _ => 0, 3, 2, 5⟩
     RRt.iput.InLimits (.typed ⟨.long, .long⟩) .am a ∧ RRt.iget.InLimits (.sized ⟨128, .dcomplex⟩) .am a ∧
     Rma.resolve (exProcs false) .am none 0 1 (RRt.iput.remote a) = .ok 0x20018#64 ∧
     (∃ out, RRt.iput.Run true (.typed ⟨.long, .long⟩) false (exProcs false) .am none 0 1 a (fun _ _ => 7) out) ∧
     ∃ out, RRt.iget.Run true (.sized ⟨128, .dcomplex⟩) false (exProcs false) (.direct .rel) none 0 1 a (fun _ _ => 7) out) := by
  refine ⟨by show _ ∈ rmaRows; decide, by show _ ∈ sizedRows; decide, ?_, ?_, by decide +kernel, ?_, ?_⟩
  · exact ⟨by decide, ⟨by decide, by decide⟩, by decide, by decide⟩
  · exact ⟨by decide, ⟨by decide, by decide⟩, by decide, by decide⟩
  · exact C88_runs rfl _ _ _ _ _ _ _ _ _ (by decide)
  · exact C88_runs rfl _ _ _ _ _ _ _ _ _ (by decide)

/-- `shmem_p` with a context and an `int *` leads to `shmem_ctx_int_p` -/
example : ∃ f, call .lp64 ⟨.of .p, .ctx .p .p, gRma⟩ [.vptr false, .ptr false .int, .val .int, .val .int] = some f ∧
    f.op.rmaRt = some .p ∧ f.ctx = true := ⟨⟨.p, true, .base .int⟩, by decide +kernel⟩

end Verif.Api
