import Verif.Api.P2pRt
import Verif.Api.AmoProps
import Verif.P2p.Props
/-!
# C91: every point-to-point routine does what its name says
-/
namespace Verif.Api
open Verif.Sobj Verif.Rma
open Verif.P2p (Cmp)

/-! ## Specification -/

/-- the number an object of type `t` at an address of a PE holds: bytes from the lowest address up, least significant first, two's
complement for signed types -/
def numAt (t : CT) (m : IMem) (a : Int) : Int := if t.signed then (wordAt m a t.sizeof).toInt else (wordAt m a t.sizeof).toNat

/-- the number of an argument of type `t` -/
def numOf (t : CT) (v : BitVec (8 * t.sizeof)) : Int := if t.signed then v.toInt else v.toNat

/-- the memories when read `i` takes place, if the routine itself changes nothing: only what the others did -/
def others (env : Nat → Mems → Mems) (m : Mems) : Nat → Mems
  | 0 => env 0 m
  | i + 1 => env (i + 1) (others env m i)

/-- the relation in the name or the argument of a routine (OpenSHMEM 1.5, 9.10 and the deprecated `shmem_wait`: until the variable is
no longer equal to the value) -/
def PRt.cmp : PRt → Cmp → Cmp
  | .waitUntil, c => c | .test, c => c | .plainWaitUntil, c => c
  | .wait, _ => .ne | .plainWait, _ => .ne

/-- returns a value instead of waiting -/
def PRt.isTest : PRt → Bool
  | .test => true | .waitUntil => false | .wait => false | .plainWaitUntil => false | .plainWait => false

/-! ## Proof -/

theorem p2p_row {rt : PRt} {r : Row} (h : r ∈ rt.rows) : r.mpi.bytes = r.ty.sizeof ∧ ctSigned r.ty = r.ty.signed := by
  have : ∀ rt : PRt, ∀ r ∈ rt.rows, r.mpi.bytes = r.ty.sizeof ∧ ctSigned r.ty = r.ty.signed := by
    intro rt; cases rt <;> decide
  exact this rt r h

theorem p2p_body (rt : PRt) (c : Cmp) : rt.body c.code = (if rt.isTest then .test else .wait, (rt.cmp c).code) := by
  cases rt <;> rfl

theorem unview_view (m : IMem) (a : Int) : unview m a (view m a) = m := by
  funext p
  unfold unview view
  split
  · congr 1; omega
  · rfl

/-- a read changes nothing and gives the object -/
theorem p2pRead_ok {r : Row} (h : r.mpi.bytes = r.ty.sizeof) (me : Nat) (a : Int) (m : Mems) :
    p2pRead r me a m = .ok (m, wordAt (m me) a r.ty.sizeof) := by
  unfold p2pRead
  rw [if_pos h]
  have e : (Amo.mpiFetchOp (view (m me) a) 0 r.mpi.bytes .noop 0).1 = view (m me) a := by
    show Mem.store _ _ _ _ = _
    exact Mem.store_load _ _ _
  dsimp only
  rw [e, unview_view, Function.update_eq_self]
  show Res.ok (m, BitVec.ofNat _ (Mem.load _ _ r.mpi.bytes)) = _
  rw [h]
  rfl

theorem p2p_num {r : Row} (h : ctSigned r.ty = r.ty.signed) (x : BitVec (8 * r.ty.sizeof)) : r.ty.p2p.val x = numOf r.ty x := by
  unfold P2p.CTy.val CT.p2p numOf
  rw [← h]

theorem waitFrom_spec {r : Row} (hb : r.mpi.bytes = r.ty.sizeof) (hs : ctSigned r.ty = r.ty.signed) (me : Nat) (a : Int) (c : Cmp)
    (v : BitVec (8 * r.ty.sizeof)) (env : Nat → Mems → Mems) (m0 : Mems) :
    ∀ fuel i ret m, env i m = others env m0 i → ∃ o, waitFrom r me a c.code v env fuel i ret m = .ok o ∧
      (∀ k m', o = some (k, m') ↔ (i ≤ k ∧ k < i + fuel ∧ m' = others env m0 k ∧
        c.rel (numAt r.ty (others env m0 k me) a) (numOf r.ty v) ∧
        ∀ j, i ≤ j → j < k → ¬ c.rel (numAt r.ty (others env m0 j me) a) (numOf r.ty v))) := by
  intro fuel
  induction fuel with
  | zero =>
    intro i ret m _
    refine ⟨none, rfl, fun k m' => ⟨(fun h => by cases h), fun h => by omega⟩⟩
  | succ fuel ih =>
    intro i ret m hm
    have hc := P2p.comp_rel r.ty.p2p (wordAt (others env m0 i me) a r.ty.sizeof) v c ret
    rw [p2p_num hs, p2p_num hs] at hc
    have hn : numOf r.ty (wordAt (others env m0 i me) a r.ty.sizeof) = numAt r.ty (others env m0 i me) a := rfl
    rw [hn] at hc
    unfold waitFrom
    rw [hm, p2pRead_ok hb, Res.bind_ok]
    by_cases hr : c.rel (numAt r.ty (others env m0 i me) a) (numOf r.ty v)
    · dsimp only
      rw [hc.1 hr, if_pos (by decide)]
      refine ⟨_, rfl, fun k m' => ?_⟩
      constructor
      · intro h
        simp only [Option.some.injEq, Prod.mk.injEq] at h
        obtain ⟨rfl, rfl⟩ := h
        exact ⟨Nat.le_refl _, by omega, rfl, hr, fun j h1 h2 => by omega⟩
      · rintro ⟨h1, h2, rfl, h4, h5⟩
        have : i = k := by
          by_contra hne
          exact h5 i (Nat.le_refl _) (by omega) hr
        rw [this]
    · dsimp only
      rw [hc.2 hr, if_neg (by decide)]
      obtain ⟨o, ho, hk⟩ := ih (i + 1) 0 (others env m0 i) rfl
      refine ⟨o, ho, fun k m' => (hk k m').trans ?_⟩
      constructor
      · rintro ⟨h1, h2, h3, h4, h5⟩
        refine ⟨by omega, by omega, h3, h4, fun j hj hjk => ?_⟩
        by_cases e : j = i
        · rw [e]; exact hr
        · exact h5 j (by omega) hjk
      · rintro ⟨h1, h2, h3, h4, h5⟩
        have : i ≠ k := by rintro rfl; exact hr h4
        exact ⟨by omega, by omega, h3, h4, fun j hj hjk => h5 j (by omega) hjk⟩

/-- a variable found by the address query is read where it is -/
theorem resolve_self {procs : Nat → Proc} {npes : Nat} {o : Obj} {dyn : Bool} {kind : Sobj.Kind} {i : Nat}
    {bases : Nat → BitVec 64} {size : Int} (hsym : SymObj procs npes o dyn kind i bases size) (hi : i < 2 ^ 29) {me : Nat} (hme : me < npes)
    {ivar : BitVec 64} (hq : query (procs me) ivar = some (o, setupAttr dyn kind i npes bases size me)) {mode : Mode}
    (hm : mode = .abs → dyn = true) (h0 : 0 ≤ (ivar - bases me).toInt) (h1 : 0 ≤ ivar.toInt) :
    Rma.resolve procs (.direct mode) none me me ivar = .ok ivar := by
  have e : ivar = bases me + (ivar - bases me) := by rw [BitVec.add_comm, BitVec.sub_add_cancel]
  have := resolve_direct hsym hi (me := me) (pe := me) hme (ctx := none) (off := ivar - bases me) (by rw [← e]; exact hq) mode hm h0
    (by rw [← e]; exact h1)
  rw [← e] at this
  exact this

/-- **C91**: the waiting routines, for every type they exist for, whatever the others do to the memories meanwhile: among the first
`fuel` reads the routine returns with read `k` exactly if the variable at `ivar` then satisfies the relation and did not at an earlier
read. It changes no byte itself. -/
theorem C91_wait {procs : Nat → Proc} {npes : Nat} {o : Obj} {dyn : Bool} {kind : Sobj.Kind} {i : Nat}
    {bases : Nat → BitVec 64} {size : Int} (hsym : SymObj procs npes o dyn kind i bases size) (hi : i < 2 ^ 29) {me : Nat} (hme : me < npes)
    {ivar : BitVec 64} (hq : query (procs me) ivar = some (o, setupAttr dyn kind i npes bases size me)) {mode : Mode}
    (hm : mode = .abs → dyn = true) (h0 : 0 ≤ (ivar - bases me).toInt) (h1 : 0 ≤ ivar.toInt)
    {rt : PRt} (hrt : rt.isTest = false) {r : Row} (hr : r ∈ rt.rows) (c : Cmp) (v : BitVec (8 * r.ty.sizeof)) (env : Nat → Mems → Mems)
    (fuel : Nat) (m : Mems) :
    ∃ out, rt.run procs mode me r ivar c.code v env fuel m = .ok out ∧ (∀ x m', out ≠ .value x m') ∧
      ∀ k m', out = .done k m' ↔ (k < fuel ∧ m' = others env m k ∧
        (rt.cmp c).rel (numAt r.ty (others env m k me) ivar.toInt) (numOf r.ty v) ∧
        ∀ j < k, ¬ (rt.cmp c).rel (numAt r.ty (others env m j me) ivar.toInt) (numOf r.ty v)) := by
  obtain ⟨hb, hs⟩ := p2p_row hr
  obtain ⟨x, hx, hk⟩ := waitFrom_spec hb hs me ivar.toInt (rt.cmp c) v env m fuel 0 0 m rfl
  have hrun : rt.run procs mode me r ivar c.code v env fuel m = .ok (.ofLoop x) := by
    unfold PRt.run
    rw [p2p_body, hrt]
    show waitMacro _ _ _ _ _ _ _ _ _ _ = _
    unfold waitMacro
    rw [resolve_self hsym hi hme hq hm h0 h1, Res.bind_ok]
    show (waitFrom r me ivar.toInt (rt.cmp c).code v env fuel 0 0 m).bind _ = _
    rw [hx, Res.bind_ok]
  refine ⟨_, hrun, ?_, ?_⟩
  · intro y m' h; cases x <;> cases h
  · intro k m'
    have := hk k m'
    constructor
    · intro h
      have e : x = some (k, m') := by
        cases x with
        | none => cases h
        | some y => cases h; rfl
      obtain ⟨_, h2, h3, h4, h5⟩ := this.1 e
      exact ⟨by omega, h3, h4, fun j hj => h5 j (Nat.zero_le _) hj⟩
    · rintro ⟨h2, h3, h4, h5⟩
      rw [this.2 ⟨Nat.zero_le _, by omega, h3, h4, fun j _ hj => h5 j hj⟩]
      rfl

/-- **C91**: `test` returns 1 if the variable at `ivar` satisfies the relation at that time and 0 otherwise, and changes no byte -/
theorem C91_test {procs : Nat → Proc} {npes : Nat} {o : Obj} {dyn : Bool} {kind : Sobj.Kind} {i : Nat}
    {bases : Nat → BitVec 64} {size : Int} (hsym : SymObj procs npes o dyn kind i bases size) (hi : i < 2 ^ 29) {me : Nat} (hme : me < npes)
    {ivar : BitVec 64} (hq : query (procs me) ivar = some (o, setupAttr dyn kind i npes bases size me)) {mode : Mode}
    (hm : mode = .abs → dyn = true) (h0 : 0 ≤ (ivar - bases me).toInt) (h1 : 0 ≤ ivar.toInt)
    {rt : PRt} (hrt : rt.isTest = true) {r : Row} (hr : r ∈ rt.rows) (c : Cmp) (v : BitVec (8 * r.ty.sizeof)) (env : Nat → Mems → Mems)
    (fuel : Nat) (m : Mems) :
    ∃ x, rt.run procs mode me r ivar c.code v env fuel m = .ok (.value x (env 0 m)) ∧
      (x = 1 ↔ (rt.cmp c).rel (numAt r.ty (env 0 m me) ivar.toInt) (numOf r.ty v)) ∧
      (x = 0 ↔ ¬ (rt.cmp c).rel (numAt r.ty (env 0 m me) ivar.toInt) (numOf r.ty v)) := by
  obtain ⟨hb, hs⟩ := p2p_row hr
  have ht := P2p.C43_test r.ty.p2p (wordAt (env 0 m me) ivar.toInt r.ty.sizeof) v (rt.cmp c)
  rw [p2p_num hs, p2p_num hs] at ht
  refine ⟨_, ?_, ht⟩
  unfold PRt.run
  rw [p2p_body, hrt]
  show testMacro _ _ _ _ _ _ _ _ _ = _
  unfold testMacro
  rw [resolve_self hsym hi hme hq hm h0 h1, Res.bind_ok, p2pRead_ok hb, Res.bind_ok]
  rfl

/-- **C91**: if from some read on the variable satisfies the relation for ever (or just at one read), the routine returns -/
theorem C91_live {procs : Nat → Proc} {npes : Nat} {o : Obj} {dyn : Bool} {kind : Sobj.Kind} {i : Nat}
    {bases : Nat → BitVec 64} {size : Int} (hsym : SymObj procs npes o dyn kind i bases size) (hi : i < 2 ^ 29) {me : Nat} (hme : me < npes)
    {ivar : BitVec 64} (hq : query (procs me) ivar = some (o, setupAttr dyn kind i npes bases size me)) {mode : Mode}
    (hm : mode = .abs → dyn = true) (h0 : 0 ≤ (ivar - bases me).toInt) (h1 : 0 ≤ ivar.toInt)
    {rt : PRt} (hrt : rt.isTest = false) {r : Row} (hr : r ∈ rt.rows) (c : Cmp) (v : BitVec (8 * r.ty.sizeof)) (env : Nat → Mems → Mems)
    (m : Mems) {n : Nat} (hn : (rt.cmp c).rel (numAt r.ty (others env m n me) ivar.toInt) (numOf r.ty v)) {fuel : Nat} (hf : n < fuel) :
    ∃ k m', rt.run procs mode me r ivar c.code v env fuel m = .ok (.done k m') ∧ k ≤ n := by
  classical
  obtain ⟨out, e, _, h⟩ := C91_wait hsym hi hme hq hm h0 h1 hrt hr c v env fuel m
  have hex : ∃ n, (rt.cmp c).rel (numAt r.ty (others env m n me) ivar.toInt) (numOf r.ty v) := ⟨n, hn⟩
  have hle := Nat.find_min' hex hn
  refine ⟨Nat.find hex, others env m (Nat.find hex), ?_, hle⟩
  rw [e, (h _ _).2 ⟨by omega, rfl, Nat.find_spec hex, fun j hj => Nat.find_min hex hj⟩]

/-- **C91**: on an address that is in no symmetric object the routines abort before any access -/
theorem C91_not_symmetric {procs : Nat → Proc} {me : Nat} {ivar : BitVec 64} (hq : query (procs me) ivar = none) (rt : PRt) (mode : Mode)
    (r : Row) (cmp : Int) (v : BitVec (8 * r.ty.sizeof)) (env : Nat → Mems → Mems) (fuel : Nat) (m : Mems) :
    rt.run procs mode me r ivar cmp v env fuel m = .abort := by
  have h : Rma.resolve procs (.direct mode) none me me ivar = .abort := by
    have hl : lookup (procs me) none ivar = none := hq
    unfold Rma.resolve
    rw [hl]
  unfold PRt.run waitMacro testMacro
  rw [h]
  split <;> rfl

/-! ## From the generic call to the effect -/

/-- the routine a generic point-to-point operation names, if it is implemented -/
def Op.p2pRt : Op → Option PRt
  | .waitUntil => some .waitUntil | .test => some .test
  | .g => none | .get => none | .getNbi => none | .iget => none | .p => none | .put => none | .putNbi => none | .iput => none
  | .cswap => none | .cswapNbi => none | .fetchInc => none | .fetchIncNbi => none | .inc => none | .fetchAdd => none
  | .fetchAddNbi => none | .add => none | .fetch => none | .fetchNbi => none | .set => none | .swap => none | .swapNbi => none
  | .fetchAnd => none | .and => none | .fetchOr => none | .or => none | .fetchXor => none | .xor => none | .fetchAndNbi => none
  | .fetchOrNbi => none | .fetchXorNbi => none
  | .broadcast => none | .collect => none | .fcollect => none | .alltoall => none | .alltoalls => none
  | .minReduce => none | .maxReduce => none | .sumReduce => none | .prodReduce => none | .andReduce => none | .orReduce => none
  | .xorReduce => none | .waitUntilAll => none | .waitUntilAny => none | .waitUntilSome => none
  | .waitUntilAllVector => none | .waitUntilAnyVector => none | .waitUntilSomeVector => none
  | .testAll => none | .testAny => none | .testSome => none | .testAllVector => none | .testAnyVector => none
  | .testSomeVector => none | .putSignal => none | .putSignalNbi => none

/-- **C91** (generic calls): a type-generic `shmem_wait_until` or `shmem_test` that compiles names a routine that exists -/
theorem C91_generic {a : Abi} {m : Macro} (hm : m ∈ macros) {args : List Arg} {f : Fun} (h : call a m args = some f) {rt : PRt}
    (hrt : f.op.p2pRt = some rt) : (∃ r ∈ rt.rows, RC.base r.ty = f.ty) ∧ f.op = m.name.means := by
  obtain ⟨h1, _, _, h4, _, _⟩ := C86_selects hm h
  refine ⟨?_, h1⟩
  have hall : ∀ m ∈ macros, ∀ rt ∈ m.name.means.p2pRt.toList, ∀ t ∈ m.table.map GRow.ty, t ∈ rt.rows.map fun r => RC.base r.ty := by
    decide +kernel
  obtain ⟨r, hr, e⟩ := List.mem_map.1
    (hall m hm rt (by rw [← h1, hrt]; exact List.mem_singleton.2 rfl) f.ty h4)
  exact ⟨r, hr, e⟩

/-! ## The hypotheses are met -/

/-- PE 1 of two with different heap addresses waits for an `int` at offset 24 of its heap to become negative: it is 5 at the first three
reads and -2 from then on. Everybody else keeps changing other bytes. -/
def exEnv (i : Nat) (m : Mems) : Mems :=
  fun q => unview (m q) 0x20018 (Mem.store (fun _ => BitVec.ofNat 8 i) 0 4 (if i < 3 then 5 else 0xfffffffe))

example : SymObj (exProcs true) 2 .heap true .heap 0 (fun i => BitVec.ofNat 64 (0x10000 * (i + 1))) 4096 ∧
    query (exProcs true 1) 0x20018#64 =
      some (.heap, setupAttr true .heap 0 2 (fun i => BitVec.ofNat 64 (0x10000 * (i + 1))) 4096 1) ∧
    0 ≤ (0x20018#64 - 0x20000#64).toInt ∧ (⟨.int, .int⟩ : Row) ∈ PRt.waitUntil.rows ∧ PRt.waitUntil.isTest = false ∧
    (PRt.waitUntil.cmp .lt).rel (numAt .int (others exEnv (fun _ _ => 0) 3 1) 0x20018) (numOf .int (0 : BitVec 32)) ∧
    (∀ j < 3, ¬ (PRt.waitUntil.cmp .lt).rel (numAt .int (others exEnv (fun _ _ => 0) j 1) 0x20018) (numOf .int (0 : BitVec 32))) := by
  refine ⟨fun p _ => rfl, ?_, by decide, by decide, rfl, ?_, ?_⟩
  · unfold query
    rw [if_pos (by decide +kernel)]
    rfl
  · exact (by decide +kernel : numAt .int (others exEnv (fun _ _ => 0) 3 1) 0x20018 < numOf .int (0 : BitVec 32))
  · exact (by decide +kernel : ∀ j < 3, ¬ numAt .int (others exEnv (fun _ _ => 0) j 1) 0x20018 < numOf .int (0 : BitVec 32))

/-- `0xffff` is greater than 1 as an `unsigned short`, less as a `short` -/
example : (Cmp.gt).rel (numOf .ushort (0xffff : BitVec 16)) (numOf .ushort (1 : BitVec 16)) ∧
    (Cmp.lt).rel (numOf .short (0xffff : BitVec 16)) (numOf .short (1 : BitVec 16)) :=
  ⟨(by decide : numOf .ushort (0xffff : BitVec 16) > numOf .ushort (1 : BitVec 16)),
   (by decide : numOf .short (0xffff : BitVec 16) < numOf .short (1 : BitVec 16))⟩

/-- an address outside the objects -/
example : query (exProcs true 1) 0x70000#64 = none := by decide +kernel

/-- a generic `shmem_wait_until(int *, int, int)` -/
example : ∃ f, call .lp64 ⟨.of .waitUntil, .ptr .waitUntil, gP2p⟩ [.ptr false .int, .val .int, .val .int] = some f ∧
    f.op.p2pRt = some .waitUntil := ⟨⟨.waitUntil, false, .base .int⟩, by decide +kernel⟩

end Verif.Api
