import Verif.Bsp.Fair
import Verif.Flow.AmoEx
/-!
# C106: programs written with the routines of the API, on blocks of the symmetric heap

The programs of `Bsp/Model.lean` move bytes between addresses. Here they call the routines of the API (`shmem_long_put`, `shmem_int_g`,
`shmem_iput32`, ...; `Api/RmaRt.lean`; `shmem_long_atomic_add`, ...; `Api/Amo.lean`) with addresses in blocks that `shmem_malloc` and the other allocator routines returned (`Dl`, C95).
-/
namespace Verif.Bsp
open Verif.Sobj Verif.Rma Verif.Vis Verif.Api Verif.Flow
open Verif.Heap (heapSize trueSize Call)

/-! ## Specification -/

/-- What a program does next: a routine of the API (rma_typed.c.tpl L11-119, rma_sized.c.tpl L11-89, rma.c L9-52; `isCtx`: the variant with a
context argument, called with SHMEM_CTX_DEFAULT), an atomic addition without result (`atomic_inc`, `atomic_add`, `inc`, `add`;
amo_std_typed.c.tpl L46-58, L76-86, L146-165), a store to its own memory, `shmem_quiet`, `shmem_fence` (order.c L9-27). -/
inductive NAct where
  | rma (rt : RRt) (fn : Fn) (isCtx : Bool) (a : RArgs) (tgt : Nat)
  | add (n : AName)
  | store (a : Int) (v : BitVec 8)
  | quiet
  | fence

/-- a program: as `Prog` -/
structure NProg where
  next : Nat → Nat → Nat → IMem → Option NAct
  looks : Nat → Nat → Nat → Int → Prop
  dep : ∀ p k i m m', (∀ a, looks p k i a → m a = m' a) → next p k i m = next p k i m'

/-- PE `q` calls an atomic addition without result (`n.rt`: `inc` or `add`, also with context or deprecated) of one of its types, on an object in
a block it holds, `d` bytes from its start; default context -/
structure AUse (S : Sys) (k Z : Nat) (B : Nat → Nat) (s : Dl.St) (x : Nat × Nat) (d q : Nat) (n : AName) : Prop where
  adds : n.rt.operand n.value ≠ none
  void : n.rt.void = true
  exist : n.isCtx = true → n.rt.deprecated = false
  row : n.row ∈ n.rt.rows
  origin : q < S.npes
  target : n.tgt < S.npes
  held : x ∈ s.live
  /-- the block ends within the heap's official size (C47) -/
  inside : 960 + x.1 + x.2 ≤ heapSize k Z
  fits : d + n.row.ty.sizeof ≤ x.2
  dest : n.dest = BitVec.ofNat 64 (adr B q x d)
  dflt : n.isCtx = true → n.ctx = none

/-- the step of the execution that the call of PE `p` is: the code of the routine (`Calls`, C93; `ACalls`, C97), any path the data may take -/
def NAct.Does (S : Sys) (p : Nat) : NAct → G → Ev → G → Prop
  | .rma rt fn isCtx a tgt, g, e, g' => ∃ cacheOn gpu mode c xs ep, RRt.body fn.fam rt isCtx = some c ∧ e = event c none a p tgt xs ep ∧
      Calls S cacheOn gpu mode rt fn isCtx none a p tgt g xs ep g'
  | .add n, g, e, g' => ∃ gpu mode, ACalls S gpu mode n p g e g'
  | .store a v, g, e, g' => e = .store p a v ∧ Step S g e g'
  | .quiet, g, e, g' => e = .call p (.quiet none) ∧ Step S g e g'
  | .fence, g, e, g' => e = .call p (.fence none) ∧ Step S g e g'

/-- The arguments are right: the remote address is in a block the PE holds, all elements lie in it, the call is within the limits of the routine
(C88), whichever path it takes. -/
def NAct.Ok (S : Sys) (k Z : Nat) (B : Nat → Nat) (s : Dl.St) (p : Nat) : NAct → Prop
  | .rma rt fn isCtx a tgt => rt.offered fn = true ∧ ∃ x d, ∀ gpu mode, (mode = .abs → (S.cf p).dyn = true) →
      Use S k Z B s x d p tgt gpu mode rt fn isCtx none a
  | .add n => ∃ x d, AUse S k Z B s x d p n
  | .store _ _ => True
  | .quiet => True
  | .fence => True

/-- what the call means: element `i` of the source is copied to element `i` of the destination, as the name of the routine says, between the
caller's memory and the same place in the target's heap; an addition adds to the object of the type at the same place in the target's heap -/
def NAct.act (B : Nat → Nat) (p : Nat) : NAct → Act
  | .rma rt fn _ a tgt =>
    if puts rt then .put tgt rt.nbi (pairs ((rt.remote a).toInt - B p + B tgt) (here rt a).toInt (count rt a) fn.elem (dstride rt a) (sstride rt a))
    else .get tgt rt.nbi (pairs (here rt a).toInt ((rt.remote a).toInt - B p + B tgt) (count rt a) fn.elem (dstride rt a) (sstride rt a))
  | .add n => .add n.tgt (n.dest.toInt - B p + B n.tgt) n.row.mpi ((n.rt.operand n.value).getD 0)
  | .store a v => .store a v
  | .quiet => .quiet
  | .fence => .quiet

/-- the program as one that moves bytes -/
def NProg.prog (N : NProg) (B : Nat → Nat) : Prog where
  next p k i m := (N.next p k i m).map (NAct.act B p)
  looks := N.looks
  dep p k i m m' h := by rw [N.dep p k i m m' h]

/-- One step of an execution of program `N`: as `XStep`, by the code of the routines. -/
inductive NStep (S : Sys) (D : Nat × Int → Prop) (N : NProg) : X → Ev → X → Prop
  | act {x : X} {e : Ev} {g' : G} (p : Nat) (a : NAct) (hn : N.next p (x.g.arr p) (x.pos p) (x.g.mem p) = some a) (hd : a.Does S p x.g e g') :
      NStep S D N x e ⟨g', Function.update x.pos p (x.pos p + 1)⟩
  | bar {x : X} {g' : G} (p : Nat) (hn : N.next p (x.g.arr p) (x.pos p) (x.g.mem p) = none) (s : Step S x.g (.enter p) g') :
      NStep S D N x (.enter p) ⟨g', Function.update x.pos p 0⟩
  | other {x : X} {e : Ev} {g' : G} (hb : ∀ p, e ≠ .enter p) (hw : ∀ b, D b → ¬ e.writes b) (s : Step S x.g e g') :
      NStep S D N x e ⟨g', x.pos⟩

/-- an execution of the program -/
inductive NRun (S : Sys) (D : Nat × Int → Prop) (N : NProg) : X → List Ev → X → Prop
  | nil (x : X) : NRun S D N x [] x
  | snoc {x y z : X} {l : List Ev} {e : Ev} (r : NRun S D N x l y) (s : NStep S D N y e z) : NRun S D N x (l ++ [e]) z

/-- The meaning of the program from memory `M 0`, phase by phase, without races, all calls with right arguments: `acts k p` are the calls of PE
`p` in phase `k` if it works alone. -/
structure NMeans (S : Sys) (k Z : Nat) (B : Nat → Nat) (s : Dl.St) (D : Nat × Int → Prop) (N : NProg) (M : Nat → Mems)
    (acts : Nat → Nat → List NAct) : Prop where
  means : Means S.npes D (N.prog B) M (fun j p => (acts j p).map (NAct.act B p))
  calls : ∀ j, ∀ p < S.npes, ∀ i ≤ (acts j p).length,
    N.next p j i (alone (M j) p ((acts j p).map (NAct.act B p)) i p) = (acts j p)[i]?
  ok : ∀ j, ∀ p < S.npes, ∀ a ∈ acts j p, a.Ok S k Z B s p

/-- The execution `R` is one of program `N`, which calls `n` barriers (as `Exec`): PEs do nothing but their program (`own`), and a PE that can go
on stands at its next call (`stands`; for a routine: whichever step the call would be is what the PE is about to do), additions to signed words are made with AMOs of
MPI (`safe`, as in `Exec`). That the library accepts the calls is not assumed. -/
structure NExec {S : Sys} (D : Nat × Int → Prop) (N : NProg) (n : Nat) (R : Inf S) (pos : Nat → Nat → Nat) : Prop where
  pos0 : pos 0 = fun _ => 0
  step : ∀ i e, R.ev i = some e → NStep S D N ⟨R.st i, pos i⟩ e ⟨R.st (i + 1), pos (i + 1)⟩
  idle : ∀ i, R.ev i = none → pos (i + 1) = pos i
  own : ∀ i e p, R.ev i = some e → e.own = some p → e = .enter p ∨
    ∃ a : NAct, N.next p ((R.st i).arr p) (pos i p) ((R.st i).mem p) = some a ∧ a.Does S p (R.st i) e (R.st (i + 1)) ∧ pos (i + 1) p = pos i p + 1
  stands : ∀ i p, Free S (R.st i) p → (R.st i).arr p < n →
    match N.next p ((R.st i).arr p) (pos i p) ((R.st i).mem p) with
    | none => AtBarrier R i p
    | some .quiet => AtCall R i p (.quiet none)
    | some .fence => AtCall R i p (.fence none)
    | some (.store a v) => R.want i p (.store p a v)
    | some (.rma rt fn isCtx a tgt) => ∀ e g', (NAct.rma rt fn isCtx a tgt).Does S p ((R.st i).clear p) e g' → R.want i p e
    | some (.add n) => ∀ e g', (NAct.add n).Does S p ((R.st i).clear p) e g' → R.want i p e
  safe : ∀ i p m, Free S (R.st i) p → N.next p ((R.st i).arr p) (pos i p) ((R.st i).mem p) = some (.add m) → (S.cf p).amoDirect = true ∨ m.row.mpi.kind ≠ .sint m.row.mpi.bytes

/-! ## Proof -/

section
variable {S : Sys} {k Z : Nat} {B : Nat → Nat} {s : Dl.St} {D : Nat × Int → Prop} {N : NProg} {M : Nat → Mems} {acts : Nat → Nat → List NAct}

theorem use_adr {x : Nat × Nat} {d q t : Nat} {gpu : Bool} {mode : Mode} {rt : RRt} {fn : Fn} {isCtx : Bool} {ctx : Option (Nat × Nat)}
    {a : RArgs} (J : Job S k Z B) (u : Use S k Z B s x d q t gpu mode rt fn isCtx ctx a) :
    (rt.remote a).toInt = B q + 960 + x.1 + d ∧ inRange (S.cf q).heap (rt.remote a) = true := by
  obtain ⟨dyn, db, ds, hobj⟩ := J.objs
  have := u.inside
  have := u.start
  have := job_space J u.origin
  have hb : (BitVec.ofNat 64 (B q)).toInt = B q := ofNat_int (by omega)
  have hx : (BitVec.ofNat 64 (adr B q x d)).toInt = adr B q x d := ofNat_int (by unfold adr; omega)
  refine ⟨by rw [u.remote, hx]; unfold adr; omega, ?_⟩
  rw [(hobj q u.origin).2.1, u.remote]
  unfold inRange setupAttr
  dsimp only
  rw [hb, hx]
  unfold adr
  simp only [Bool.and_eq_true, decide_eq_true_eq]
  omega

/-- what the call of a routine is, exactly -/
theorem named_rma (J : Job S k Z B) {p : Nat} {rt : RRt} {fn : Fn} {isCtx : Bool} {a : RArgs} {tgt : Nat}
    (hok : (NAct.rma rt fn isCtx a tgt).Ok S k Z B s p) {g g' : G} {e : Ev} (h : (NAct.rma rt fn isCtx a tgt).Does S p g e g') :
    Step S g e g' ∧ inRange (S.cf p).heap (rt.remote a) = true ∧ e = if puts rt then
      .put p tgt rt.nbi none (rt.remote a)
        (pairs ((rt.remote a).toInt - B p + B tgt) (here rt a).toInt (count rt a) fn.elem (dstride rt a) (sstride rt a)) (g.arr p)
      else .get p tgt rt.nbi none (rt.remote a)
        (pairs (here rt a).toInt ((rt.remote a).toInt - B p + B tgt) (count rt a) fn.elem (dstride rt a) (sstride rt a)) (g.arr p) := by
  obtain ⟨cacheOn, gpu, mode, c, xs, ep, hc, rfl, hcall⟩ := h
  obtain ⟨hoff, x, d, hu⟩ := hok
  have hmode : mode = .abs → (S.cf p).dyn = true := by obtain ⟨_, _, _, h, _⟩ := hcall; exact h
  have u := hu gpu mode hmode
  obtain ⟨hs, ha, hadr⟩ := u.sym J hmode g
  obtain ⟨e1, e2⟩ := use_adr J u
  have et : (BitVec.ofNat 64 (B tgt) + BitVec.ofNat 64 (960 + x.1 + d)).toInt = (rt.remote a).toInt - B p + B tgt := by
    rw [hadr tgt u.target, e1]; unfold adr; omega
  have hv : isPut c.via = puts rt := by
    cases fn <;> cases rt <;> cases isCtx <;> simp only [Fn.fam, RRt.body, Option.some.injEq, reduceCtorEq] at hc <;> subst hc <;> rfl
  have hta : c.target.addr a = rt.remote a := by
    cases fn <;> cases rt <;> cases isCtx <;> simp only [Fn.fam, RRt.body, Option.some.injEq, reduceCtorEq] at hc <;> subst hc <;> rfl
  obtain ⟨hctx, hblk⟩ := (C88_routines rt fn isCtx).2 c hc
  have hnb : (!c.via.blocking) = rt.nbi := by rw [hblk, Bool.not_not]
  have hev : event c none a p tgt xs ep = if puts rt then .put p tgt rt.nbi none (rt.remote a) xs ep else .get p tgt rt.nbi none (rt.remote a) xs ep := by
    unfold event
    rw [hv, hta, hnb, ite_self]
  rw [hev]
  refine ⟨?_, e2, ?_⟩
  all_goals
    cases hp : puts rt with
    | true =>
      obtain ⟨st, ex⟩ := calls_put hp u.exist hcall hs ha u.limits
      rw [et] at ex
      rw [u.noctx] at st
      have hep : ep = g.arr p := by
        generalize hev : Ev.put p tgt rt.nbi none (rt.remote a) xs ep = e at st
        cases st <;> cases hev
        rfl
      subst hep
      first
        | (rw [if_pos rfl]; exact st)
        | (rw [if_pos rfl, if_pos rfl, ← ex])
    | false =>
      obtain ⟨st, ex⟩ := calls_get hp u.exist hcall hs ha u.limits
      rw [et] at ex
      rw [u.noctx] at st
      have hep : ep = g.arr p := by
        generalize hev : Ev.get p tgt rt.nbi none (rt.remote a) xs ep = e at st
        cases st <;> cases hev
        rfl
      subst hep
      first
        | (rw [if_neg (by decide)]; exact st)
        | (rw [if_neg (by decide), if_neg (by decide), ← ex])

/-- the object of an addition: as base and offset -/
theorem AUse.sym {x : Nat × Nat} {d q : Nat} {n : AName} (u : AUse S k Z B s x d q n) (J : Job S k Z B) {gpu : Bool} {mode : Mode}
    (hm : mode = .abs → (S.cf q).dyn = true) (g : G) :
    SymAddr (procs S g) S.npes q n.tgt (pathOf (S.cf q) (amoKind (n.rt.means n.cond n.value)) gpu mode)
      (ctxObj (g.pe q) (if n.isCtx then n.ctx else none)) (fun i => BitVec.ofNat 64 (B i)) (BitVec.ofNat 64 (960 + x.1 + d)) ∧
    n.dest = BitVec.ofNat 64 (B q) + BitVec.ofNat 64 (960 + x.1 + d) ∧ inRange (S.cf q).heap n.dest = true ∧
    (BitVec.ofNat 64 (B n.tgt) + BitVec.ofNat 64 (960 + x.1 + d)).toInt = n.dest.toInt - B q + B n.tgt := by
  obtain ⟨dyn, db, ds, hobj⟩ := J.objs
  have := u.inside
  have := u.fits
  have hsz : 0 < n.row.ty.sizeof := by cases n.row.ty <;> decide
  have := job_space J u.origin
  have := job_space J u.target
  have e : ∀ i, BitVec.ofNat 64 (B i) + BitVec.ofNat 64 (960 + x.1 + d) = BitVec.ofNat 64 (adr B i x d) := fun i => by
    rw [← BitVec.ofNat_add]; unfold adr; congr 1; omega
  have hno : (if n.isCtx then n.ctx else none) = none := by
    cases h : n.isCtx with
    | false => rfl
    | true => exact u.dflt h
  refine ⟨?_, by rw [u.dest, e], ?_, ?_⟩
  · rw [hno]
    refine block_sym J u.origin u.target g (by omega) (by omega) (fun h => hm ?_)
    unfold pathOf at h
    generalize (S.cf q).isDirect _ gpu = c at h
    cases c <;> cases h
    rfl
  · have hb : (BitVec.ofNat 64 (B q)).toInt = B q := ofNat_int (by omega)
    have hx : (BitVec.ofNat 64 (adr B q x d)).toInt = adr B q x d := ofNat_int (by unfold adr; omega)
    rw [(hobj q u.origin).2.1, u.dest]
    unfold inRange setupAttr
    dsimp only
    rw [hb, hx]
    unfold adr
    simp only [Bool.and_eq_true, decide_eq_true_eq]
    omega
  · rw [e, u.dest, ofNat_int (by unfold adr; omega), ofNat_int (by unfold adr; omega)]
    unfold adr
    omega

/-- what the call of an atomic addition is, exactly -/
theorem named_add (J : Job S k Z B) {p : Nat} {n : AName} (hok : (NAct.add n).Ok S k Z B s p) {g g' : G} {e : Ev}
    (h : (NAct.add n).Does S p g e g') :
    Step S g e g' ∧ inRange (S.cf p).heap n.dest = true ∧
    e = .amo p n.tgt none n.dest (n.dest.toInt - B p + B n.tgt) n.row.mpi (n.rt.means n.cond n.value) (g.arr p) := by
  obtain ⟨gpu, mode, c, op, r, h1, h2, h3, h4, h5, h6⟩ := h
  obtain ⟨x, d, u⟩ := hok
  obtain ⟨hs, hd, hin, ht⟩ := u.sym J (gpu := gpu) h3 g
  have hno : (if n.isCtx then n.ctx else none) = none := by
    cases h : n.isCtx with
    | false => rfl
    | true => exact u.dflt h
  rw [body_api h1] at h2
  cases h2
  rw [(body_out h1).1] at h4 h5
  rw [hd, symm_resolve hs] at h4
  cases h4
  refine ⟨h6, hin, ?_⟩
  rw [h5, hno, ht]

/-- a call by name is the action it means -/
theorem named_does (J : Job S k Z B) {p : Nat} {a : NAct} (hok : a.Ok S k Z B s p) {g g' : G} {e : Ev} (h : a.Does S p g e g') :
    Bsp.Does S p (a.act B p) e ∧ Step S g e g' := by
  cases a with
  | store y v => exact ⟨h.1, h.2⟩
  | quiet => exact ⟨Or.inl h.1, h.2⟩
  | fence => exact ⟨Or.inr h.1, h.2⟩
  | add n =>
    obtain ⟨st, hin, he⟩ := named_add J hok h
    obtain ⟨x, d, u⟩ := hok
    refine ⟨⟨none, n.dest, n.rt.means n.cond n.value, g.arr p, he, ?_, by rw [means_void, u.void]; rfl, Or.inr ⟨rfl, Or.inr (Or.inl hin)⟩⟩, st⟩
    rw [means_add]
    obtain ⟨v, hv⟩ := Option.ne_none_iff_exists'.1 u.adds
    rw [hv]
    rfl
  | rma rt fn isCtx a tgt =>
    obtain ⟨st, hin, he⟩ := named_rma J hok h
    refine ⟨?_, st⟩
    have hcov : BarCov (S.cf p) ((S.cf p).rma == .am) none (rt.remote a) := Or.inr ⟨rfl, Or.inr (Or.inl hin)⟩
    rw [he]
    unfold NAct.act
    dsimp only
    split
    · exact ⟨none, _, _, rfl, hcov⟩
    · exact ⟨none, _, _, rfl, fun _ => hcov⟩

/-- a PE's next call is that of its program working alone -/
theorem named_next (hm : NMeans S k Z B s D N M acts) {l : List Ev} {x : X} (r : XRun S D (N.prog B) (start (M 0)) l x) {p : Nat}
    (hf : Free S x.g p) : N.next p (x.g.arr p) (x.pos p) (x.g.mem p) = (acts (x.g.arr p) p)[x.pos p]? := by
  obtain ⟨K, h⟩ := inv_run hm.means (Nat.lt_of_le_of_lt (Nat.zero_le p) hf.1) r
  have hK := free_phase h hf
  rw [hK]
  have hl := h.len p hf.1 hK
  have hl' : x.pos p ≤ (acts K p).length := by rw [List.length_map] at hl; exact hl
  rw [← hm.calls K p hf.1 (x.pos p) hl']
  refine N.dep p K (x.pos p) _ _ fun a ha => ?_
  have hD := (hm.means K).looksIn p hf.1 _ hl a ha
  refine (read_ok hm.means h hf (b := (p, a)) hD ?_ ?_).2
  · intro q hq hne c hc hw
    exact (hm.means K).nolook hf.1 hq hne hc hw hl ha
  · intro j hj c hc hqb hlate hw
    exact (hm.means K).nolate hf.1 hj hl hqb hc hlate hw ha

theorem free_of_named {p : Nat} {a : NAct} {g g' : G} {e : Ev} (h : a.Does S p g e g') : Free S g p := by
  cases a with
  | store y v =>
    obtain ⟨rfl, st⟩ := h
    cases st with
    | store _ _ _ hf => exact hf
  | quiet =>
    obtain ⟨rfl, st⟩ := h
    cases st with
    | call _ _ _ hf _ _ _ _ => exact hf
  | fence =>
    obtain ⟨rfl, st⟩ := h
    cases st with
    | call _ _ _ hf _ _ _ _ => exact hf
  | add n =>
    obtain ⟨gpu, mode, c, op, r, h1, h2, h3, h4, rfl, st⟩ := h
    generalize r.toInt = y at st
    cases st with
    | amo _ _ _ _ _ _ _ _ _ _ hf _ _ _ _ _ _ => exact hf
    | amoRet _ _ _ _ _ _ _ _ _ _ hf _ _ _ _ _ _ => exact hf
  | rma rt fn isCtx a tgt =>
    obtain ⟨cacheOn, gpu, mode, c, xs, ep, hc, rfl, c', hc', st, _⟩ := h
    unfold event at st
    split at st
    · cases st with
      | put _ _ _ _ _ _ _ _ _ _ _ _ _ _ _ hf _ _ _ _ => exact hf
    · cases st with
      | get _ _ _ _ _ _ _ _ _ _ _ _ _ _ _ hf _ _ _ _ => exact hf

theorem named_step (J : Job S k Z B) (hm : NMeans S k Z B s D N M acts) {l : List Ev} {x y : X} {e : Ev}
    (r : XRun S D (N.prog B) (start (M 0)) l x) (h : NStep S D N x e y) : XStep S D (N.prog B) x e y := by
  cases h with
  | act p a hn hd =>
    have hf := free_of_named hd
    have hnx := named_next hm r hf
    rw [hn] at hnx
    have hok := hm.ok _ p hf.1 a (List.mem_of_getElem? hnx.symm)
    obtain ⟨h1, h2⟩ := named_does J hok hd
    refine .act p (a.act B p) ?_ h1 h2
    show (N.next _ _ _ _).map _ = _
    rw [hn]
    rfl
  | bar p hn st =>
    refine .bar p ?_ st
    show (N.next _ _ _ _).map _ = _
    rw [hn]
    rfl
  | other hb hw st => exact .other hb hw st

/-! ## C106 -/

/-- **C106 (partial)**: what the code does in an execution of the program is an execution of the program that moves the bytes the names of the
routines say; so all of C104 and C105 holds of it. -/
theorem C106_moves_partial (J : Job S k Z B) (hm : NMeans S k Z B s D N M acts) {l : List Ev} {x : X} (r : NRun S D N (start (M 0)) l x) :
    XRun S D (N.prog B) (start (M 0)) l x := by
  generalize hy : start (M 0) = y at r
  induction r with
  | nil => exact .nil _
  | snoc r st ih =>
    subst hy
    exact ih.snoc (named_step J hm ih st)

/-- **C106 (partial)**: whenever a PE can do something, its next call is the one it makes when the PEs work alone. -/
theorem C106_program_partial (J : Job S k Z B) (hm : NMeans S k Z B s D N M acts) {l : List Ev} {x : X} (r : NRun S D N (start (M 0)) l x)
    {p : Nat} (hf : Free S x.g p) : N.next p (x.g.arr p) (x.pos p) (x.g.mem p) = (acts (x.g.arr p) p)[x.pos p]? :=
  named_next hm (C106_moves_partial J hm r) hf

/-- **C106 (partial)**: when a PE comes out of a barrier it finds in every byte of every block (and of all else the program works on) that no
other PE writes in the phase that begins the value of the meaning. -/
theorem C106_barrier_partial (J : Job S k Z B) (hm : NMeans S k Z B s D N M acts) {l : List Ev} {x : X} (r : NRun S D N (start (M 0)) l x)
    {p : Nat} (hf : Free S x.g p) (h0 : x.pos p = 0) {b : Nat × Int} (hD : D b)
    (hc : ∀ q < S.npes, q ≠ p → ∀ a ∈ acts (x.g.arr p) q, ¬ (a.act B q).writes q b) : x.g.mem b.1 b.2 = M (x.g.arr p) b.1 b.2 := by
  refine C104_barrier_partial hm.means (C106_moves_partial J hm r) hf h0 hD fun q hq hne a ha => ?_
  obtain ⟨c, hc', rfl⟩ := List.mem_map.1 ha
  exact hc q hq hne c hc'

/-- **C106 (partial)**: when all PEs have come to barrier `j` and none has done anything since, all memory is that of the meaning. -/
theorem C106_phase_partial (J : Job S k Z B) (hm : NMeans S k Z B s D N M acts) {l : List Ev} {x : X} (r : NRun S D N (start (M 0)) l x)
    (hn : 0 < S.npes) {j : Nat} (hj : ∀ p < S.npes, x.g.arr p = j ∧ x.pos p = 0) {b : Nat × Int} (hD : D b) :
    NoWriter x.g b ∧ x.g.mem b.1 b.2 = M j b.1 b.2 :=
  C104_phase_partial hm.means (C106_moves_partial J hm r) hn hj hD

/-- **C106**: the library accepts the call: in every state, apart from what is in flight -/
theorem C106_accepted (J : Job S k Z B) {p : Nat} {rt : RRt} {fn : Fn} {isCtx : Bool} {a : RArgs} {tgt : Nat}
    (hok : (NAct.rma rt fn isCtx a tgt).Ok S k Z B s p) {g : G} (hr : Reach S g) (hf : Free S g p) :
    ∃ e g', (NAct.rma rt fn isCtx a tgt).Does S p (g.clear p) e g' := by
  obtain ⟨hoff, x, d, hu⟩ := hok
  have hmode : Mode.rel = .abs → (S.cf p).dyn = true := fun h => by cases h
  have u := hu true .rel hmode
  obtain ⟨hs, ha, hadr⟩ := u.sym J hmode (g.clear p)
  obtain ⟨s', e⟩ := C94_issue hr p (Or.inl (use_adr J u).2) (count rt a) u.target (kindOf rt) true
  obtain ⟨xs, h⟩ := C93_call (S := S) true hoff (isCtx := isCtx) (ctx := none) (g0 := g.clear p)
    ⟨hf.1, hf.2.1, Function.update_self ..⟩ hmode hs ha u.limits (by rw [u.noctx]; exact e) (done_nil (Function.update_self ..))
  obtain ⟨c, hc, _⟩ := id h
  exact ⟨event c none a p tgt xs _, _, true, true, .rel, c, xs, _, hc, rfl, h⟩

/-- **C107**: the library accepts the call of an atomic addition: in every state, apart from what is in flight -/
theorem C107_accepted (J : Job S k Z B) {p : Nat} {n : AName} (hok : (NAct.add n).Ok S k Z B s p) {g : G} (hr : Reach S g) (hf : Free S g p) :
    ∃ e g', (NAct.add n).Does S p (g.clear p) e g' := by
  obtain ⟨x, d, u⟩ := hok
  have hmode : Mode.rel = .abs → (S.cf p).dyn = true := fun h => by cases h
  obtain ⟨hs, hd, hin, ht⟩ := u.sym J (gpu := true) hmode (g.clear p)
  have hno : (if n.isCtx then n.ctx else none) = none := by
    cases h : n.isCtx with
    | false => rfl
    | true => exact u.dflt h
  obtain ⟨s', e⟩ := C94_issue hr p (Or.inl hin) 1 u.target (amoKind (n.rt.means n.cond n.value)) true
  obtain ⟨ev, g1, h, _⟩ := C97_call (S := S) (gpu := true) (mode := .rel) (n := n) u.exist u.row (p := p) (g0 := g.clear p)
    ⟨hf.1, hf.2.1, Function.update_self ..⟩ hmode hs hd (by rw [hno]; exact e) (done_nil (Function.update_self ..))
  exact ⟨ev, g1, true, .rel, h⟩

variable {n : Nat} {R : Inf S} {pos : Nat → Nat → Nat}

theorem NExec.run (E : NExec D N n R pos) (J : Job S k Z B) (hm : NMeans S k Z B s D N M acts) (hM : R.mem = M 0) (i : Nat) :
    ∃ l, XRun S D (N.prog B) (start (M 0)) l ⟨R.st i, pos i⟩ := by
  induction i with
  | zero =>
    have : (⟨R.st 0, pos 0⟩ : X) = start (M 0) := by rw [E.pos0, R.start, hM]; rfl
    rw [this]
    exact ⟨[], .nil _⟩
  | succ i ih =>
    obtain ⟨l, h⟩ := ih
    cases he : R.ev i with
    | none => rw [R.idle i he, E.idle i he]; exact ⟨l, h⟩
    | some e => exact ⟨_, h.snoc (named_step J hm h (E.step i e he))⟩

/-- up to any time it is an execution as in `C106_moves_partial` -/
theorem NExec.named (E : NExec D N n R pos) (i : Nat) : ∃ l, NRun S D N (start R.mem) l ⟨R.st i, pos i⟩ := by
  induction i with
  | zero =>
    have : (⟨R.st 0, pos 0⟩ : X) = start R.mem := by rw [E.pos0, R.start]; rfl
    rw [this]
    exact ⟨[], .nil _⟩
  | succ i ih =>
    obtain ⟨l, h⟩ := ih
    cases he : R.ev i with
    | none => rw [R.idle i he, E.idle i he]; exact ⟨l, h⟩
    | some e => exact ⟨_, h.snoc (E.step i e he)⟩

/-- an execution of the program by its calls is one of the program that moves bytes, and the library accepts all calls -/
theorem NExec.exec (E : NExec D N n R pos) (J : Job S k Z B) (hm : NMeans S k Z B s D N M acts) (hM : R.mem = M 0) :
    Exec D (N.prog B) n R pos := by
  have hnx : ∀ i p, Free S (R.st i) p → N.next p ((R.st i).arr p) (pos i p) ((R.st i).mem p) = (acts ((R.st i).arr p) p)[pos i p]? := by
    intro i p hf
    obtain ⟨l, r⟩ := E.run J hm hM i
    exact named_next hm r hf
  have hok : ∀ i p a, Free S (R.st i) p → N.next p ((R.st i).arr p) (pos i p) ((R.st i).mem p) = some a → a.Ok S k Z B s p := by
    intro i p a hf h
    rw [hnx i p hf] at h
    exact hm.ok _ p hf.1 a (List.mem_of_getElem? h)
  refine ⟨E.pos0, ?_, E.idle, ?_, ?_, ?_, ?_, ?_⟩
  · intro i e he
    obtain ⟨l, r⟩ := E.run J hm hM i
    exact named_step J hm r (E.step i e he)
  · intro i e p he ho
    rcases E.own i e p he ho with h | ⟨a, h1, h2, h3⟩
    · exact Or.inl h
    · refine Or.inr ⟨a.act B p, ?_, (named_does J (hok i p a (free_of_named h2) h1) h2).1, h3⟩
      show (N.next _ _ _ _).map _ = _
      rw [h1]
      rfl
  · intro i p hf hlt h
    have h := Option.map_eq_none_iff.1 h
    have hst := E.stands i p hf hlt
    rw [h] at hst
    exact hst
  · intro i p hf hlt h
    obtain ⟨a, h1, h2⟩ := Option.map_eq_some_iff.1 h
    have hst := E.stands i p hf hlt
    rw [h1] at hst
    cases a with
    | store y v => cases h2
    | quiet => exact Or.inl hst
    | fence => exact Or.inr hst
    | add n => cases h2
    | rma rt fn isCtx a tgt =>
      unfold NAct.act at h2
      dsimp only at h2
      split at h2 <;> cases h2
  · intro i p a hf hlt h hq
    obtain ⟨c, h1, rfl⟩ := Option.map_eq_some_iff.1 h
    have hst := E.stands i p hf hlt
    rw [h1] at hst
    have ho := hok i p c hf h1
    cases c with
    | quiet => exact absurd rfl hq
    | fence => exact absurd rfl hq
    | store y v =>
      exact ⟨.store p y v, _, hst, rfl, Step.store p y v ⟨hf.1, hf.2.1, Function.update_self ..⟩⟩
    | add n =>
      obtain ⟨e, g', h4⟩ := C107_accepted J ho (R.reach i) hf
      obtain ⟨h5, h6⟩ := named_does J ho h4
      exact ⟨e, g', hst e g' h4, h5, h6⟩
    | rma rt fn isCtx a tgt =>
      obtain ⟨e, g', h4⟩ := C106_accepted J ho (R.reach i) hf
      obtain ⟨h5, h6⟩ := named_does J ho h4
      exact ⟨e, g', hst e g' h4, h5, h6⟩
  · intro i p tgt a ty v hf h
    obtain ⟨c, h1, h2⟩ := Option.map_eq_some_iff.1 h
    cases c with
    | add m =>
      cases h2
      exact E.safe i p m hf h1
    | rma rt fn isCtx a tgt =>
      unfold NAct.act at h2
      dsimp only at h2
      split at h2 <;> cases h2
    | _ => cases h2

/-- **C106 (partial)**: in every fair execution all PEs get through all barriers of the program. -/
theorem C106_completes_partial (J : Job S k Z B) (hm : NMeans S k Z B s D N M acts) (hM : R.mem = M 0) (F : R.Fair) (E : NExec D N n R pos) :
    ∃ i, ∀ p < S.npes, n ≤ (R.st i).lv p :=
  C105_completes_partial hm.means hM F (E.exec J hm hM)

/-- **C106 (partial)**: if it writes nothing after its last barrier, then from some time on for good all blocks (and all else it works on) hold
what the program means. -/
theorem C106_result_partial (J : Job S k Z B) (hm : NMeans S k Z B s D N M acts) (hn : 0 < S.npes) (hM : R.mem = M 0) (F : R.Fair)
    (E : NExec D N n R pos) (hend : ∀ j, n ≤ j → ∀ p < S.npes, ∀ a ∈ acts j p, ∀ b, ¬ (a.act B p).writes p b) :
    ∃ i, ∀ j, i ≤ j → ∀ b, D b → NoWriter (R.st j) b ∧ (R.st j).mem b.1 b.2 = M n b.1 b.2 := by
  refine C105_result_partial hm.means hn hM F (E.exec J hm hM) fun j hj p hp a ha => ?_
  obtain ⟨c, hc, rfl⟩ := List.mem_map.1 ha
  exact hend j hj p hp c hc

end

end Verif.Bsp
