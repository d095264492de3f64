import Verif.Api.C11
import Verif.Api.ReduceProps
/-!
# C86: a type-generic call calls the routine for the type of its pointer, or does not compile
-/
namespace Verif.Api
open Verif.Amo (TyIdx)

/-! ## Specification -/

/-- what the name of a macro stands for; the deprecated names by the OpenSHMEM specification 1.4, section 9.7 -/
def MName.means : MName → Op
  | .of o => o
  | .dCswap => .cswap | .dFinc => .fetchInc | .dInc => .inc | .dFadd => .fetchAdd | .dAdd => .add
  | .dFetch => .fetch | .dSet => .set | .dSwap => .swap

/-- collective operations: first argument is a team -/
def Op.onTeam : Op → Bool
  | .broadcast => true | .collect => true | .fcollect => true | .alltoall => true | .alltoalls => true
  | .minReduce => true | .maxReduce => true | .sumReduce => true | .prodReduce => true
  | .andReduce => true | .orReduce => true | .xorReduce => true
  | .g => false | .get => false | .getNbi => false | .iget => false | .p => false | .put => false | .putNbi => false
  | .iput => false | .cswap => false | .cswapNbi => false | .fetchInc => false | .fetchIncNbi => false | .inc => false
  | .fetchAdd => false | .fetchAddNbi => false | .add => false | .fetch => false | .fetchNbi => false | .set => false
  | .swap => false | .swapNbi => false | .fetchAnd => false | .and => false | .fetchOr => false | .or => false
  | .fetchXor => false | .xor => false | .fetchAndNbi => false | .fetchOrNbi => false | .fetchXorNbi => false
  | .waitUntil => false | .waitUntilAll => false | .waitUntilAny => false | .waitUntilSome => false
  | .waitUntilAllVector => false | .waitUntilAnyVector => false | .waitUntilSomeVector => false | .test => false
  | .testAll => false | .testAny => false | .testSome => false | .testAllVector => false | .testAnyVector => false
  | .testSomeVector => false | .putSignal => false | .putSignalNbi => false

/-- waiting and testing: local, without context -/
def Op.isWait : Op → Bool
  | .waitUntil => true | .waitUntilAll => true | .waitUntilAny => true | .waitUntilSome => true
  | .waitUntilAllVector => true | .waitUntilAnyVector => true | .waitUntilSomeVector => true | .test => true
  | .testAll => true | .testAny => true | .testSome => true | .testAllVector => true | .testAnyVector => true
  | .testSomeVector => true
  | .g => false | .get => false | .getNbi => false | .iget => false | .p => false | .put => false | .putNbi => false
  | .iput => false | .cswap => false | .cswapNbi => false | .fetchInc => false | .fetchIncNbi => false | .inc => false
  | .fetchAdd => false | .fetchAddNbi => false | .add => false | .fetch => false | .fetchNbi => false | .set => false
  | .swap => false | .swapNbi => false | .fetchAnd => false | .and => false | .fetchOr => false | .or => false
  | .fetchXor => false | .xor => false | .fetchAndNbi => false | .fetchOrNbi => false | .fetchXorNbi => false
  | .broadcast => false | .collect => false | .fcollect => false | .alltoall => false | .alltoalls => false
  | .minReduce => false | .maxReduce => false | .sumReduce => false | .prodReduce => false
  | .andReduce => false | .orReduce => false | .xorReduce => false
  | .putSignal => false | .putSignalNbi => false

/-- operations that can be issued on a context -/
def Op.hasCtx (o : Op) : Bool := !o.onTeam && !o.isWait

/-- a C implementation: 8 and 16 bits are `char` and `short`; 32 and 64 bits are two of `int`, `long`, `long long`; signed and
unsigned alike; `size_t` and `ptrdiff_t` have at least the rank of `int` -/
def Abi.Ok (a : Abi) : Prop :=
  a.int8 = .schar ∧ a.uint8 = .uchar ∧ a.int16 = .short ∧ a.uint16 = .ushort ∧
  ((a.int32 = .int ∧ a.uint32 = .uint ∧ a.int64 = .long ∧ a.uint64 = .ulong) ∨
   (a.int32 = .int ∧ a.uint32 = .uint ∧ a.int64 = .longlong ∧ a.uint64 = .ulonglong) ∨
   (a.int32 = .long ∧ a.uint32 = .ulong ∧ a.int64 = .longlong ∧ a.uint64 = .ulonglong)) ∧
  (a.size = .uint ∨ a.size = .ulong ∨ a.size = .ulonglong) ∧ (a.ptrdiff = .int ∨ a.ptrdiff = .long ∨ a.ptrdiff = .longlong)

/-- those implementations, listed -/
def abis : List Abi :=
  [(Bt.int, Bt.uint, Bt.long, Bt.ulong), (.int, .uint, .longlong, .ulonglong), (.long, .ulong, .longlong, .ulonglong)].flatMap
    fun x => [Bt.uint, .ulong, .ulonglong].flatMap fun s => [Bt.int, .long, .longlong].map fun d =>
      ⟨.schar, .short, x.1, x.2.2.1, .uchar, .ushort, x.2.1, x.2.2.2, s, d⟩

theorem abis_all {a : Abi} (h : a.Ok) : a ∈ abis := by
  obtain ⟨i8, i16, i32, i64, u8, u16, u32, u64, sz, pd⟩ := a
  obtain ⟨h1, h2, h3, h4, h5, h6, h7⟩ := h
  dsimp only at h1 h2 h3 h4 h5 h6 h7
  subst h1 h2 h3 h4
  rcases h5 with ⟨rfl, rfl, rfl, rfl⟩ | ⟨rfl, rfl, rfl, rfl⟩ | ⟨rfl, rfl, rfl, rfl⟩ <;>
    rcases h6 with rfl | rfl | rfl <;> rcases h7 with rfl | rfl | rfl <;> decide

/-! ## Every macro compiles -/

/-- **C86** (all platforms): in no macro do two associations have the same type, whatever the typedef names stand for -/
theorem C86_compiles {a : Abi} (ha : a.Ok) {m : Macro} (hm : m ∈ macros) : distinct a m = true := by
  have h : ∀ a ∈ abis, ∀ m ∈ macros, distinct a m = true := by decide +kernel
  exact h a (abis_all ha) m hm

example : Abi.lp64.Ok ∧ Abi.mac.Ok := by unfold Abi.Ok; decide +kernel

/-- the associations must be chosen with care: with `int32_t` in the list of the put macro it would not compile -/
example : distinct .lp64 ⟨.of .put, .ctx .put .put, gRma ++ [⟨.base .int32, .one⟩]⟩ = false := by decide +kernel

/-! ## What a call calls -/

theorem assoc_some {a : Abi} {t : List GRow} {x : Option Arg} {r : RC} (h : assoc a t x = some r) :
    r ∈ t.map GRow.ty ∧ x = some (.ptr false (resolve a r)) := by
  have h1 := List.mem_of_find?_eq_some h
  have h2 := List.find?_some h
  refine ⟨?_, by simpa using h2⟩
  unfold c11Rows at h1
  obtain ⟨y, hy, rfl⟩ := List.mem_map.1 h1
  exact List.mem_map.2 ⟨y, (List.mem_filter.1 hy).1, rfl⟩

/-- a macro does what its name says -/
def Shape.Says (o : Op) : Shape → Prop
  | .ctx oc op => oc = o ∧ op = o ∧ o.hasCtx = true
  | .ptr op => op = o ∧ o.isWait = true
  | .team op => op = o ∧ o.onTeam = true

instance (o : Op) (s : Shape) : Decidable (s.Says o) := by cases s <;> unfold Shape.Says <;> infer_instance

theorem names : ∀ m ∈ macros, m.shape.Says m.name.means := by decide +kernel

theorem kinds (o : Op) : (o.onTeam = true → o.hasCtx = false) ∧ (o.isWait = true → o.hasCtx = false ∧ o.onTeam = false) ∧
    (o.hasCtx = true → o.onTeam = false) := by cases o <;> decide

/-- **C86** (selection): a call that compiles calls the operation in the macro's name; it is the version with context if and only
if the operation has one and the first argument is a handle; it has the right number of arguments; and the type in the function's
name is the type the deciding pointer argument points to: the first argument, or the second after a handle. Whatever the
arguments and the platform. -/
theorem C86_selects {a : Abi} {m : Macro} (hm : m ∈ macros) {args : List Arg} {f : Fun} (h : call a m args = some f) :
    f.op = m.name.means ∧
    (f.ctx = true ↔ f.op.hasCtx = true ∧ args[0]? = some (.vptr false)) ∧
    args.length = f.op.params + (if f.ctx then 1 else 0) ∧
    f.ty ∈ m.table.map GRow.ty ∧
    (f.op.onTeam = true → args[0]? = some (.vptr false)) ∧
    args[if f.ctx || f.op.onTeam then 1 else 0]? = some (.ptr false (resolve a f.ty)) := by
  have hn := names m hm
  unfold call at h
  cases hd : distinct a m with
  | false => rw [hd] at h; simp at h
  | true =>
    rw [hd] at h
    simp only [if_true] at h
    cases hs : select a m args with
    | none => rw [hs] at h; simp at h
    | some f' =>
      rw [hs] at h
      dsimp only at h
      split at h
      · rename_i hl
        simp only [Option.some.injEq] at h
        subst h
        unfold Fun.params at hl
        unfold select at hs
        cases hsh : m.shape with
        | ctx oc o =>
          rw [hsh] at hs hn
          dsimp only [Shape.Says] at hs hn
          obtain ⟨h1, h2, h3⟩ := hn
          have hot := (kinds m.name.means).2.2 h3
          split at hs
          · rename_i h0
            cases ha : assoc a m.table args[1]? with
            | none => rw [ha] at hs; simp at hs
            | some r =>
              rw [ha] at hs
              simp only [Option.map_some, Option.some.injEq] at hs
              subst hs
              obtain ⟨hr, hx⟩ := assoc_some ha
              subst h1
              exact ⟨rfl, by simp [h0, h3], hl, hr, fun _ => h0, by simpa using hx⟩
          · rename_i h0
            cases ha : assoc a m.table args[0]? with
            | none => rw [ha] at hs; simp at hs
            | some r =>
              rw [ha] at hs
              simp only [Option.map_some, Option.some.injEq] at hs
              subst hs
              obtain ⟨hr, hx⟩ := assoc_some ha
              subst h2
              exact ⟨rfl, by simp [h0], hl, hr, fun h => (Bool.eq_false_iff.1 hot h).elim, by simp [hot, hx]⟩
        | ptr o =>
          rw [hsh] at hs hn
          dsimp only [Shape.Says] at hs hn
          obtain ⟨h1, h3⟩ := hn
          obtain ⟨hc, hot⟩ := (kinds m.name.means).2.1 h3
          cases ha : assoc a m.table args[0]? with
          | none => rw [ha] at hs; simp at hs
          | some r =>
            rw [ha] at hs
            simp only [Option.map_some, Option.some.injEq] at hs
            subst hs
            obtain ⟨hr, hx⟩ := assoc_some ha
            subst h1
            exact ⟨rfl, by simp [hc], hl, hr, fun h => (Bool.eq_false_iff.1 hot h).elim, by simp [hot, hx]⟩
        | team o =>
          rw [hsh] at hs hn
          dsimp only [Shape.Says] at hs hn
          obtain ⟨h1, h3⟩ := hn
          have hc := (kinds m.name.means).1 h3
          split at hs
          · rename_i h0
            cases ha : assoc a m.table args[1]? with
            | none => rw [ha] at hs; simp at hs
            | some r =>
              rw [ha] at hs
              simp only [Option.map_some, Option.some.injEq] at hs
              subst hs
              obtain ⟨hr, hx⟩ := assoc_some ha
              subst h1
              exact ⟨rfl, by simp [hc], hl, hr, fun _ => h0, by simp [h3, hx]⟩
          · simp at hs
      · simp at h

/-- `shmem_put(ctx, dest, source, n, pe)` with `double *dest`; without context and with `size_t *dest`; and the same with a `void *`
destination, which looks like a context but does not compile -/
example :
    call .lp64 ⟨.of .put, .ctx .put .put, gRma⟩ [.vptr false, .ptr false .double, .ptr true .double, .val .int, .val .int] =
      some ⟨.put, true, .base .double⟩ ∧
    call .lp64 ⟨.of .put, .ctx .put .put, gRma⟩ [.ptr false (resolve .lp64 (.base .size)), .ptr true .ulong, .val .int, .val .int] =
      some ⟨.put, false, .base .ulong⟩ ∧
    call .lp64 ⟨.of .put, .ctx .put .put, gRma⟩ [.vptr false, .ptr false .int, .val .int, .val .int] = none ∧
    (⟨.of .put, .ctx .put .put, gRma⟩ : Macro) ∈ macros := by decide +kernel

/-! ## What compiles -/

/-- every type of a table, also those left out of the macro, is the type of some association -/
theorem covered {a : Abi} (ha : a.Ok) {m : Macro} (hm : m ∈ macros) {t : RC} (ht : t ∈ m.table.map GRow.ty) :
    ∃ r, assoc a m.table (some (.ptr false (resolve a t))) = some r := by
  have h : ∀ a ∈ abis, ∀ m ∈ macros, ∀ t ∈ m.table.map GRow.ty, (assoc a m.table (some (.ptr false (resolve a t)))).isSome := by
    decide +kernel
  exact Option.isSome_iff_exists.1 (h a (abis_all ha) m hm t ht)

/-- **C86** (acceptance): a call with the right number of arguments whose deciding argument points to any type of the operation's
table (`int32_t`, `size_t` and so on included, whatever they stand for) compiles, and calls a routine made for that very type.
`_partial`: not if the pointer is to a const-qualified type, see `C86_const_violation`. -/
theorem C86_accepts_partial {a : Abi} (ha : a.Ok) {m : Macro} (hm : m ∈ macros) {t : RC} (ht : t ∈ m.table.map GRow.ty)
    (rest : List Arg) :
    (m.name.means.onTeam = false → rest.length + 1 = m.name.means.params →
      ∃ f, call a m (.ptr false (resolve a t) :: rest) = some f ∧ f.op = m.name.means ∧ f.ctx = false ∧
        resolve a f.ty = resolve a t) ∧
    (m.name.means.hasCtx = true → rest.length + 1 = m.name.means.params →
      ∃ f, call a m (.vptr false :: .ptr false (resolve a t) :: rest) = some f ∧ f.op = m.name.means ∧ f.ctx = true ∧
        resolve a f.ty = resolve a t) ∧
    (m.name.means.onTeam = true → rest.length + 2 = m.name.means.params →
      ∃ f, call a m (.vptr false :: .ptr false (resolve a t) :: rest) = some f ∧ f.op = m.name.means ∧ f.ctx = false ∧
        resolve a f.ty = resolve a t) := by
  have hn := names m hm
  have hd := C86_compiles ha hm
  obtain ⟨r, hr⟩ := covered ha hm ht
  have hres : resolve a r = resolve a t := by
    have := (assoc_some hr).2
    simp only [Option.some.injEq, Arg.ptr.injEq, true_and] at this
    exact this.symm
  obtain ⟨k1, k2, k3⟩ := kinds m.name.means
  have key : ∀ args f, select a m args = some f → args.length = f.params → call a m args = some f := by
    intro args f hs hl
    unfold call
    rw [hd, hs]
    simp [hl]
  have hv : ∀ b, (some (Arg.ptr b (resolve a t))) ≠ some (Arg.vptr false) := by intro b; simp
  cases hsh : m.shape with
  | ctx oc o =>
    rw [hsh] at hn
    obtain ⟨rfl, rfl, h3⟩ := hn
    refine ⟨fun _ hl => ?_, fun _ hl => ?_, fun h => absurd h (by rw [k3 h3]; decide)⟩
    · refine ⟨⟨m.name.means, false, r⟩, key _ _ ?_ (by simp [Fun.params, hl]), rfl, rfl, hres⟩
      unfold select
      rw [hsh]
      refine (if_neg (hv false)).trans ?_
      show (assoc a m.table (some (.ptr false (resolve a t)))).map _ = _
      rw [hr]; rfl
    · refine ⟨⟨m.name.means, true, r⟩, key _ _ ?_ (by simp [Fun.params, hl]), rfl, rfl, hres⟩
      unfold select
      rw [hsh]
      refine (if_pos rfl).trans ?_
      show (assoc a m.table (some (.ptr false (resolve a t)))).map _ = _
      rw [hr]; rfl
  | ptr o =>
    rw [hsh] at hn
    obtain ⟨rfl, h3⟩ := hn
    refine ⟨fun _ hl => ?_, fun h => absurd h (by rw [(k2 h3).1]; decide), fun h => absurd h (by rw [(k2 h3).2]; decide)⟩
    refine ⟨⟨m.name.means, false, r⟩, key _ _ ?_ (by simp [Fun.params, hl]), rfl, rfl, hres⟩
    unfold select
    rw [hsh]
    show (assoc a m.table (some (.ptr false (resolve a t)))).map _ = _
    rw [hr]; rfl
  | team o =>
    rw [hsh] at hn
    obtain ⟨rfl, h3⟩ := hn
    refine ⟨fun h => absurd h (by rw [h3]; decide), fun h => absurd h (by rw [k1 h3]; decide), fun _ hl => ?_⟩
    refine ⟨⟨m.name.means, false, r⟩, key _ _ ?_ (by simp [Fun.params, hl]), rfl, rfl, hres⟩
    unfold select
    rw [hsh]
    refine (if_pos rfl).trans ?_
    show (assoc a m.table (some (.ptr false (resolve a t)))).map _ = _
    rw [hr]; rfl

/-- `shmem_wait_until(int64_t *, ...)` on macOS; `shmem_sum_reduce(team, double _Complex *, ...)` -/
example : (∃ f, call .mac ⟨.of .waitUntil, .ptr .waitUntil, gP2p⟩ [.ptr false (resolve .mac (.base .int64)), .val .int, .val .int] = some f ∧
      f.op = .waitUntil ∧ resolve .mac f.ty = .longlong) ∧
    (∃ f, call .mac ⟨.of .sumReduce, .team .sumReduce, gSumprod⟩ [.vptr false, .ptr false .dcomplex, .ptr true .dcomplex, .val .ulong] = some f ∧
      f.op = .sumReduce ∧ f.ty = .dcomplex) := ⟨⟨⟨.waitUntil, false, .base .longlong⟩, by decide +kernel⟩, ⟨⟨.sumReduce, false, .dcomplex⟩, by decide +kernel⟩⟩

/-- the routines that read through their first pointer only: it points to const, shmem_rma_typed.h.tpl L3, shmem_amo_ext_typed.h.tpl
L3 -/
def Op.constSource : List Op := [.g, .fetch]

/-- **C86 violated**: `shmem_g` and `shmem_atomic_fetch` of a const object do not compile, although the routines they stand for take
a pointer to const: `TYPE*` in the association does not match `const TYPE*` -/
theorem C86_const_violation (a : Abi) (m : Macro) (t : Bt) (rest : List Arg) :
    call a m (.ptr true t :: rest) = none ∧
    ∃ m' ∈ macros, m'.name.means ∈ Op.constSource ∧ call .lp64 m' [.ptr true .int, .val .int] = none ∧
      (call .lp64 m' [.ptr false .int, .val .int]).isSome := by
  refine ⟨?_, ⟨.of .g, .ctx .g .g, gRma⟩, by decide +kernel, by decide +kernel, by decide +kernel, by decide +kernel⟩
  have hno : ∀ x, x = some (Arg.ptr true t) → assoc a m.table x = none := by
    rintro x rfl
    cases h : assoc a m.table (some (.ptr true t)) with
    | none => rfl
    | some r => have := (assoc_some h).2; simp at this
  unfold call select
  split
  · cases m.shape with
    | ctx oc o => simp [hno]
    | ptr o => simp [hno]
    | team o => simp
  · rfl

/-! ## Calling the routine of an equal type is the same -/

/-- **C86** (effect of put and get): the routine a call selects and the routine named after the type the program wrote behave alike,
for all arguments and memories: element size and MPI datatype agree. On Linux; the types are those of `Verif.Api.Model`. -/
theorem C86_rma {r r' : Row} (hr : r ∈ rmaRows) (hr' : r' ∈ rmaRows)
    (h : resolve .lp64 (.base r.ty) = resolve .lp64 (.base r'.ty)) : put (.typed r) = put (.typed r') ∧ get (.typed r) = get (.typed r') := by
  have hall : ∀ r ∈ rmaRows, ∀ r' ∈ rmaRows, resolve .lp64 (.base r.ty) = resolve .lp64 (.base r'.ty) →
      (Fn.typed r).args = (Fn.typed r').args := by decide +kernel
  have e := hall r hr r' hr' h
  constructor
  · funext procs path ctx me pe dest source n m
    unfold put
    rw [e]
  · funext procs path ctx me pe dest source n m
    unfold get
    rw [e]

/-- the rows of the AMO tables: TYPE and MPITYPE (maint/amo_ext_typedef.txt L2-15, which has all types of the three tables) -/
def amoRows : List Row :=
  [⟨.float, .float⟩, ⟨.double, .double⟩, ⟨.int, .int⟩, ⟨.long, .long⟩, ⟨.longlong, .longlong⟩, ⟨.uint, .uint⟩, ⟨.ulong, .ulong⟩,
   ⟨.ulonglong, .ulonglong⟩, ⟨.int32, .int32⟩, ⟨.int64, .int64⟩, ⟨.uint32, .uint32⟩, ⟨.uint64, .uint64⟩, ⟨.size, .size⟩,
   ⟨.ptrdiff, .ptrdiff⟩]

theorem am_congr {ty ty' : TyIdx} (hk : ty.kind = ty'.kind) (hb : ty.bytes = ty'.bytes) (fp : Amo.Fp) (junk m : Mem) (dest : Nat)
    (o : Amo.Api) : Amo.am fp junk m dest ty o = Amo.am fp junk m dest ty' o := by
  cases o <;> simp only [Amo.am, Amo.amCswap, Amo.amFetch, Amo.amPost, Amo.cswapCb, Amo.fetchCb, Amo.postCb, Amo.opOf, Amo.cEq, hk, hb]

theorem direct_congr {ty ty' : TyIdx} (hb : ty.bytes = ty'.bytes) (m : Mem) (dest : Nat) (o : Amo.Api) :
    Amo.direct m dest ty o = Amo.direct m dest ty' o := by
  cases o <;> simp only [Amo.direct, hb]

/-- **C86** (effect of AMOs): likewise for every AMO, by active message and on the window -/
theorem C86_amo {r r' : Row} (hr : r ∈ amoRows) (hr' : r' ∈ amoRows)
    (h : resolve .lp64 (.base r.ty) = resolve .lp64 (.base r'.ty)) (fp : Amo.Fp) (junk m : Mem) (dest : Nat) (o : Amo.Api) :
    Amo.am fp junk m dest r.mpi o = Amo.am fp junk m dest r'.mpi o ∧ Amo.direct m dest r.mpi o = Amo.direct m dest r'.mpi o := by
  have hall : ∀ r ∈ amoRows, ∀ r' ∈ amoRows, resolve .lp64 (.base r.ty) = resolve .lp64 (.base r'.ty) →
      r.mpi.kind = r'.mpi.kind ∧ r.mpi.bytes = r'.mpi.bytes := by decide +kernel
  obtain ⟨hk, hb⟩ := hall r hr r' hr' h
  exact ⟨am_congr hk hb fp junk m dest o, direct_congr hb m dest o⟩

/-- **C86** (effect of reductions): likewise for every team reduction -/
theorem C86_reduce {op : OpName} {r r' : RRow} (hr : r ∈ rows false op) (hr' : r' ∈ rows false op)
    (h : resolve .lp64 r.ty = resolve .lp64 r'.ty) : reduceFn r op = reduceFn r' op := by
  have hall : ∀ op ∈ [OpName.and, .or, .xor, .min, .max, .sum, .prod], ∀ r ∈ rows false op, ∀ r' ∈ rows false op,
      resolve .lp64 r.ty = resolve .lp64 r'.ty → r.mpi.cls = r'.mpi.cls := by decide +kernel
  have e := hall op (by cases op <;> decide) r hr r' hr' h
  funext fl tr ms src dst n m
  unfold reduceFn
  rw [e]

/-- `size_t` and `unsigned long`; `int32_t` and `int` -/
example : put (.typed ⟨.size, .size⟩) = put (.typed ⟨.ulong, .ulong⟩) := (C86_rma (by decide) (by decide) (by decide)).1
example (fp : Amo.Fp) (junk m : Mem) (dest : Nat) : Amo.am fp junk m dest .int32 .finc = Amo.am fp junk m dest .int .finc :=
  (C86_amo (r := ⟨.int32, .int32⟩) (r' := ⟨.int, .int⟩) (by decide) (by decide) (by decide) fp junk m dest _).1

/-! ## Every type-generic interface, with all its types -/

/-- standard RMA types, OpenSHMEM 1.5 table 4; also those of collectives, minimum and maximum, and put with signal -/
def specRma : List RC := [.base .float, .base .double, .base .longdouble, .base .char, .base .schar, .base .short, .base .int, .base .long,
  .base .longlong, .base .uchar, .base .ushort, .base .uint, .base .ulong, .base .ulonglong, .base .int8, .base .int16, .base .int32,
  .base .int64, .base .uint8, .base .uint16, .base .uint32, .base .uint64, .base .size, .base .ptrdiff]

/-- standard AMO types, table 5 -/
def specStd : List RC := [.base .int, .base .long, .base .longlong, .base .uint, .base .ulong, .base .ulonglong, .base .int32, .base .int64,
  .base .uint32, .base .uint64, .base .size, .base .ptrdiff]

/-- bitwise AMO types, table 7 -/
def specBitws : List RC := [.base .uint, .base .ulong, .base .ulonglong, .base .int32, .base .int64, .base .uint32, .base .uint64]

/-- types of team reductions with and, or, xor, table 10 -/
def specBitwsTeam : List RC := [.base .uchar, .base .ushort, .base .uint, .base .ulong, .base .ulonglong, .base .int8, .base .int16,
  .base .int32, .base .int64, .base .uint8, .base .uint16, .base .uint32, .base .uint64, .base .size]

/-- the types an operation is specified for; extended AMO types (table 6) are the standard ones, `float` and `double`; point-to-point
types (table 12) the standard ones, `short` and `unsigned short`; sum and product (table 10) have complex types -/
def Op.specTypes : Op → List RC
  | .g => specRma | .get => specRma | .getNbi => specRma | .iget => specRma | .p => specRma | .put => specRma | .putNbi => specRma
  | .iput => specRma
  | .cswap => specStd | .cswapNbi => specStd | .fetchInc => specStd | .fetchIncNbi => specStd | .inc => specStd | .fetchAdd => specStd
  | .fetchAddNbi => specStd | .add => specStd
  | .fetch => .base .float :: .base .double :: specStd | .fetchNbi => .base .float :: .base .double :: specStd
  | .set => .base .float :: .base .double :: specStd | .swap => .base .float :: .base .double :: specStd
  | .swapNbi => .base .float :: .base .double :: specStd
  | .fetchAnd => specBitws | .and => specBitws | .fetchOr => specBitws | .or => specBitws | .fetchXor => specBitws | .xor => specBitws
  | .fetchAndNbi => specBitws | .fetchOrNbi => specBitws | .fetchXorNbi => specBitws
  | .broadcast => specRma | .collect => specRma | .fcollect => specRma | .alltoall => specRma | .alltoalls => specRma
  | .minReduce => specRma | .maxReduce => specRma
  | .sumReduce => .fcomplex :: .dcomplex :: specRma | .prodReduce => .fcomplex :: .dcomplex :: specRma
  | .andReduce => specBitwsTeam | .orReduce => specBitwsTeam | .xorReduce => specBitwsTeam
  | .waitUntil => .base .short :: .base .ushort :: specStd | .waitUntilAll => .base .short :: .base .ushort :: specStd
  | .waitUntilAny => .base .short :: .base .ushort :: specStd | .waitUntilSome => .base .short :: .base .ushort :: specStd
  | .waitUntilAllVector => .base .short :: .base .ushort :: specStd | .waitUntilAnyVector => .base .short :: .base .ushort :: specStd
  | .waitUntilSomeVector => .base .short :: .base .ushort :: specStd
  | .test => .base .short :: .base .ushort :: specStd | .testAll => .base .short :: .base .ushort :: specStd
  | .testAny => .base .short :: .base .ushort :: specStd | .testSome => .base .short :: .base .ushort :: specStd
  | .testAllVector => .base .short :: .base .ushort :: specStd | .testAnyVector => .base .short :: .base .ushort :: specStd
  | .testSomeVector => .base .short :: .base .ushort :: specStd
  | .putSignal => specRma | .putSignalNbi => specRma

/-- **C86** (types): every operation has a type-generic macro of its name, and every macro covers exactly the types OpenSHMEM lists for
the operation it stands for -/
theorem C86_types : (∀ o : Op, ∃ m ∈ macros, m.name = .of o) ∧
    ∀ m ∈ macros, ∀ t : RC, t ∈ m.table.map GRow.ty ↔ t ∈ m.name.means.specTypes := by
  constructor
  · intro o
    cases o <;> decide +kernel
  · have h1 : ∀ m ∈ macros, ∀ t ∈ m.table.map GRow.ty, t ∈ m.name.means.specTypes := by decide +kernel
    have h2 : ∀ m ∈ macros, ∀ t ∈ m.name.means.specTypes, t ∈ m.table.map GRow.ty := by decide +kernel
    exact fun m hm t => ⟨h1 m hm t, h2 m hm t⟩

/-- the reduction in the name of an operation -/
def Op.redOp : Op → Option OpName
  | .minReduce => some .min | .maxReduce => some .max | .sumReduce => some .sum | .prodReduce => some .prod | .andReduce => some .and
  | .orReduce => some .or | .xorReduce => some .xor
  | .g => none | .get => none | .getNbi => none | .iget => none | .p => none | .put => none | .putNbi => none | .iput => none
  | .cswap => none | .cswapNbi => none | .fetchInc => none | .fetchIncNbi => none | .inc => none | .fetchAdd => none
  | .fetchAddNbi => none | .add => none | .fetch => none | .fetchNbi => none | .set => none | .swap => none | .swapNbi => none
  | .fetchAnd => none | .and => none | .fetchOr => none | .or => none | .fetchXor => none | .xor => none | .fetchAndNbi => none
  | .fetchOrNbi => none | .fetchXorNbi => none
  | .broadcast => none | .collect => none | .fcollect => none | .alltoall => none | .alltoalls => none
  | .waitUntil => none | .waitUntilAll => none | .waitUntilAny => none | .waitUntilSome => none
  | .waitUntilAllVector => none | .waitUntilAnyVector => none | .waitUntilSomeVector => none
  | .test => none | .testAll => none | .testAny => none | .testSome => none | .testAllVector => none | .testAnyVector => none
  | .testSomeVector => none | .putSignal => none | .putSignalNbi => none

/-- **C86** (generic reductions): a type-generic team reduction that compiles calls a routine that exists, for the operator in the
macro's name -/
theorem C86_reduce_generic {a : Abi} {m : Macro} (hm : m ∈ macros) {args : List Arg} {f : Fun} (h : call a m args = some f) {op : OpName}
    (ho : f.op.redOp = some op) : (∃ r ∈ rows false op, r.ty = f.ty) ∧ f.op = m.name.means := by
  obtain ⟨h1, _, _, h4, _, _⟩ := C86_selects hm h
  refine ⟨?_, h1⟩
  have hall : ∀ m ∈ macros, ∀ op ∈ m.name.means.redOp.toList, ∀ t ∈ m.table.map GRow.ty, t ∈ (rows false op).map RRow.ty := by
    decide +kernel
  obtain ⟨r, hr, e⟩ := List.mem_map.1 (hall m hm op (by rw [← h1, ho]; exact List.mem_singleton.2 rfl) f.ty h4)
  exact ⟨r, hr, e⟩

/-- a sum of double complex on a team -/
example : ∃ m ∈ macros, ∃ f, call .lp64 m [.vptr false, .ptr false .dcomplex, .ptr false .dcomplex, .val .ulong] = some f ∧
    f.op.redOp = some .sum ∧ f.ty = .dcomplex :=
  ⟨⟨.of .sumReduce, .team .sumReduce, gSumprod⟩, by decide +kernel, ⟨.sumReduce, false, .dcomplex⟩, by decide +kernel⟩

/-! ## shmem_sync -/

/-- **C86** (`shmem_sync`): with C11 a handle calls the team routine and an `int` the active-set routine, each with its own number of
arguments; nothing else compiles. Without C11 the team form does not compile. -/
theorem C86_sync (args : List Arg) :
    (sync true args = some .team ↔ args = [.vptr false]) ∧
    (sync true args = some .aset ↔ args[0]? = some (.val .int) ∧ args.length = 4) ∧
    sync false [.vptr false] = none := by
  refine ⟨⟨fun h => ?_, ?_⟩, ⟨fun h => ?_, ?_⟩, by decide⟩
  · unfold sync at h
    match args, h with
    | [], h => simp at h
    | [x], h =>
      by_cases hx : x = .vptr false
      · rw [hx]
      · simp [hx] at h
    | x :: y :: l, h =>
      by_cases hx : x = .vptr false
      · simp [hx] at h
      · simp [hx] at h
  · rintro rfl; decide
  · unfold sync at h
    simp only [if_true] at h
    split at h
    · split at h <;> simp at h
    · split at h
      · rename_i h0
        split at h
        · exact ⟨h0, by assumption⟩
        · simp at h
      · simp at h
  · rintro ⟨h0, hl⟩
    unfold sync
    rw [if_pos rfl, h0, if_neg (by decide), if_pos rfl, if_pos hl]

example : sync true [.val .int, .val .int, .val .int, .ptr false .long] = some .aset := by decide

end Verif.Api
