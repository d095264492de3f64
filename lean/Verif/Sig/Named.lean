import Verif.Sig.Fair
import Verif.Bsp.Exists
import Verif.Api.P2pRtProps
/-!
# C108: programs with flags, written with the routines of the API, on blocks of the symmetric heap

As `Bsp/Named.lean`: the programs call `shmem_long_put`, ..., `shmem_long_wait_until`, `shmem_fence` with addresses in blocks of the symmetric
heap.
-/
namespace Verif.Sig
open Verif.Sobj Verif.Rma Verif.Vis Verif.Api Verif.Flow
open Verif.Heap (heapSize trueSize Call)

/-! ## Specification -/

/-- What a program does next: a routine of the API (rma_typed.c.tpl L11-119, rma_sized.c.tpl L11-89, rma.c L9-52), a store to its own memory,
`shmem_quiet`, `shmem_fence` (order.c L9-27), `shmem_TYPENAME_wait_until` or a deprecated wait (p2p_typed.c.tpl L13-17, p2p.c L12-46). -/
inductive NAct where
  | rma (rt : RRt) (fn : Fn) (isCtx : Bool) (a : RArgs) (tgt : Nat)
  | store (a : Int) (v : BitVec 8)
  | quiet
  | fence
  | wait (rt : PRt) (row : Row) (ivar : BitVec 64) (cmp : Int) (v : Nat)

/-- a program: as `Prog` -/
structure NProg where
  next : Nat → Nat → IMem → Option NAct
  looks : Nat → Nat → Int → Prop
  dep : ∀ p i m m', (∀ a, looks p i a → m a = m' a) → next p i m = next p i m'

/-- one round of the loop of `OSHMPI_WAIT_UNTIL` by PE `p`, p2p_impl.h L41-53: address (looked up once, L41-46), read (`p2pRead`), comparison
(`comp_ret` is 0 from the rounds before): the step of the execution, and whether the loop ends -/
def Round (S : Sys) (p : Nat) (rt : PRt) (row : Row) (ivar : BitVec 64) (cmp : Int) (v : Nat) (g : G) (e : Ev) (g' : G) (ends : Prop) : Prop :=
  ∃ mode r m' x, (mode = .abs → (S.cf p).dyn = true) ∧ resolve (procs S g) (.direct mode) none p p ivar = .ok r ∧
    p2pRead row p r.toInt g.mem = .ok (m', x) ∧ e = .poll p r.toInt row.ty.sizeof x.toNat ∧ Step S g e g' ∧
    (ends ↔ P2p.comp row.ty.p2p x (rt.body cmp).2 (BitVec.ofNat _ v) 0 ≠ 0)

/-- the step of the execution that the call of PE `p` is: the code of the routine, any path the data may take; of a wait: its last round -/
def NAct.Does (S : Sys) (p : Nat) : NAct → G → Ev → G → Prop
  | .rma rt fn isCtx a tgt, g, e, g' => (Bsp.NAct.rma rt fn isCtx a tgt).Does S p g e g'
  | .store a v, g, e, g' => e = .store p a v ∧ Step S g e g'
  | .quiet, g, e, g' => e = .call p (.quiet none) ∧ Step S g e g'
  | .fence, g, e, g' => e = .call p (.fence none) ∧ Step S g e g'
  | .wait rt row ivar cmp v, g, e, g' => Round S p rt row ivar cmp v g e g' True

/-- a step of the call that does not end it: a round of a wait -/
def NAct.Tries (S : Sys) (p : Nat) : NAct → G → Ev → G → Prop
  | .rma _ _ _ _ _, _, _, _ => False
  | .store _ _, _, _, _ => False
  | .quiet, _, _, _ => False
  | .fence, _, _, _ => False
  | .wait rt row ivar cmp v, g, e, g' => Round S p rt row ivar cmp v g e g' False

/-- The arguments are right: as in `Bsp.NAct.Ok`; the flag of a wait is an object of the type in a block the PE holds. -/
def NAct.Ok (S : Sys) (k Z : Nat) (B : Nat → Nat) (s : Dl.St) (p : Nat) : NAct → Prop
  | .rma rt fn isCtx a tgt => (Bsp.NAct.rma rt fn isCtx a tgt).Ok S k Z B s p
  | .store _ _ => True
  | .quiet => True
  | .fence => True
  | .wait rt row ivar _ _ => rt.isTest = false ∧ row ∈ rt.rows ∧ ∃ x ∈ s.live, ∃ d, 960 + x.1 + x.2 ≤ heapSize k Z ∧ d + row.ty.sizeof ≤ x.2 ∧
      ivar = BitVec.ofNat 64 (adr B p x d)

/-- what the call means -/
def NAct.act (B : Nat → Nat) (p : Nat) : NAct → Act
  | .rma rt fn _ a tgt =>
    if puts rt then .put tgt rt.nbi (pairs ((rt.remote a).toInt - B p + B tgt) (here rt a).toInt (count rt a) fn.elem (dstride rt a) (sstride rt a))
    else .get tgt rt.nbi (pairs (here rt a).toInt ((rt.remote a).toInt - B p + B tgt) (count rt a) fn.elem (dstride rt a) (sstride rt a))
  | .store a v => .store a v
  | .quiet => .quiet
  | .fence => .quiet
  | .wait rt row ivar cmp v => .wait ivar.toInt row.ty.p2p (rt.body cmp).2 v

/-- the program as one that moves bytes -/
def NProg.prog (N : NProg) (B : Nat → Nat) : Prog where
  next p i m := (N.next p i m).map (NAct.act B p)
  looks := N.looks
  dep p i m m' h := by rw [N.dep p i m m' h]

/-- One step of an execution of program `N`: as `XStep`, by the code of the routines. -/
inductive NStep (S : Sys) (D : Nat × Int → Prop) (N : NProg) : X → Ev → X → Prop
  | act {x : X} {e : Ev} {g' : G} (p : Nat) (a : NAct) (hn : N.next p (x.pos p) (x.g.mem p) = some a) (hd : a.Does S p x.g e g') :
      NStep S D N x e ⟨g', Function.update x.pos p (x.pos p + 1)⟩
  | other {x : X} {e : Ev} {g' : G} (hw : ∀ b, D b → ¬ e.writes b) (s : Step S x.g e g') : NStep S D N x e ⟨g', x.pos⟩

/-- an execution of the program -/
inductive NRun (S : Sys) (D : Nat × Int → Prop) (N : NProg) : X → List Ev → X → Prop
  | nil (x : X) : NRun S D N x [] x
  | snoc {x y z : X} {l : List Ev} {e : Ev} (r : NRun S D N x l y) (s : NStep S D N y e z) : NRun S D N x (l ++ [e]) z

/-- The meaning of the program from memory `M`, all calls with right arguments -/
structure NMeans (S : Sys) (k Z : Nat) (B : Nat → Nat) (s : Dl.St) (D : Nat × Int → Prop) (N : NProg) (M : Mems) (acts : Nat → List NAct)
    (F : Mems) : Prop where
  means : Means S.npes D (N.prog B) M (fun p => (acts p).map (NAct.act B p)) F
  calls : ∀ p < S.npes, ∀ i ≤ (acts p).length, N.next p i (F p) = (acts p)[i]?
  ok : ∀ p < S.npes, ∀ a ∈ acts p, a.Ok S k Z B s p

/-- The execution `R` is one of program `N`: PEs do nothing but their program (`own`), and a PE that can go on stands at its next call (`stands`:
whichever step the call would be is what the PE is about to do). That the library accepts the calls is not assumed. -/
structure NExec {S : Sys} (D : Nat × Int → Prop) (N : NProg) (R : Inf S) (pos : Nat → Nat → Nat) : Prop where
  pos0 : pos 0 = fun _ => 0
  step : ∀ i e, R.ev i = some e → NStep S D N ⟨R.st i, pos i⟩ e ⟨R.st (i + 1), pos (i + 1)⟩
  idle : ∀ i, R.ev i = none → pos (i + 1) = pos i
  own : ∀ i e p, R.ev i = some e → e.own = some p → ∃ a : NAct, N.next p (pos i p) ((R.st i).mem p) = some a ∧
    ((a.Does S p (R.st i) e (R.st (i + 1)) ∧ pos (i + 1) p = pos i p + 1) ∨
      (a.Tries S p (R.st i) e (R.st (i + 1)) ∧ pos (i + 1) p = pos i p))
  stands : ∀ i p, Free S (R.st i) p →
    match N.next p (pos i p) ((R.st i).mem p) with
    | none => True
    | some .quiet => AtCall R i p (.quiet none)
    | some .fence => AtCall R i p (.fence none)
    | some (.store a v) => R.want i p (.store p a v)
    | some (.rma rt fn isCtx a tgt) => ∀ e g', (NAct.rma rt fn isCtx a tgt).Does S p ((R.st i).clear p) e g' → R.want i p e
    | some (.wait rt row ivar cmp v) => ∀ e g' ends, Round S p rt row ivar cmp v ((R.st i).clear p) e g' ends → R.want i p e

/-! ## Proof -/

section
variable {S : Sys} {k Z : Nat} {B : Nat → Nat} {s : Dl.St} {D : Nat × Int → Prop} {N : NProg} {M : Mems} {acts : Nat → List NAct} {F : Mems}

theorem flag_bytes (row : Row) : row.ty.p2p.bits / 8 = row.ty.sizeof := by
  show 8 * row.ty.sizeof / 8 = _
  omega

/-- the flag's address stands for itself -/
theorem flag_resolve (J : Job S k Z B) {p : Nat} (hp : p < S.npes) {x : Nat × Nat} {d n : Nat} (hin : 960 + x.1 + x.2 ≤ heapSize k Z)
    (hfit : d + n ≤ x.2) (hn : 0 < n) (g : G) {mode : Mode} (hmode : mode = .abs → (S.cf p).dyn = true) :
    resolve (procs S g) (.direct mode) none p p (BitVec.ofNat 64 (adr B p x d)) = .ok (BitVec.ofNat 64 (adr B p x d)) := by
  have hs := block_sym J hp hp g (o := 960 + x.1 + d) (by omega) (by omega) (path := .direct mode) (fun h => hmode (by cases h; rfl))
  have e : BitVec.ofNat 64 (B p) + BitVec.ofNat 64 (960 + x.1 + d) = BitVec.ofNat 64 (adr B p x d) := by
    rw [← BitVec.ofNat_add]; unfold adr; congr 1; omega
  have := symm_resolve hs
  rw [e] at this
  exact this

/-- what one round of a wait is, exactly -/
theorem round_is (J : Job S k Z B) {p : Nat} (hp : p < S.npes) {rt : PRt} {row : Row} {ivar : BitVec 64} {cmp : Int} {v : Nat}
    (hok : (NAct.wait rt row ivar cmp v).Ok S k Z B s p) {g g' : G} {e : Ev} {ends : Prop} (h : Round S p rt row ivar cmp v g e g' ends) :
    Step S g e g' ∧ e = .poll p ivar.toInt row.ty.sizeof (word (g.mem p) ivar.toInt row.ty.p2p) ∧
      (ends ↔ Passes row.ty.p2p (rt.body cmp).2 v (word (g.mem p) ivar.toInt row.ty.p2p)) := by
  obtain ⟨mode, r, m', x, h1, h2, h3, h4, h5, h6⟩ := h
  obtain ⟨_, hrow, y, hy, d, hin, hfit, hiv⟩ := hok
  have hsz : 0 < row.ty.sizeof := by cases row.ty <;> decide
  rw [hiv, flag_resolve J hp hin hfit hsz g h1, ← hiv] at h2
  cases h2
  rw [p2pRead_ok (p2p_row hrow).1] at h3
  cases h3
  have hw : (Api.wordAt (g.mem p) ivar.toInt row.ty.sizeof).toNat = word (g.mem p) ivar.toInt row.ty.p2p := by
    unfold Api.wordAt word Amo.word
    rw [flag_bytes, BitVec.toNat_ofNat, Nat.mod_eq_of_lt]
    · rfl
    have := Mem.load_lt (Vis.view (g.mem p) ivar.toInt) 0 row.ty.sizeof
    rw [Nat.pow_mul]
    exact this
  have hb : BitVec.ofNat row.ty.p2p.bits (word (g.mem p) ivar.toInt row.ty.p2p) = Api.wordAt (g.mem p) ivar.toInt row.ty.sizeof := by
    rw [← hw]
    show BitVec.ofNat (8 * row.ty.sizeof) (Api.wordAt (g.mem p) ivar.toInt row.ty.sizeof).toNat = _
    rw [BitVec.ofNat_toNat, BitVec.setWidth_eq]
  refine ⟨h5, by rw [h4, hw], ?_⟩
  unfold Passes
  rw [hb]
  exact h6

/-- the read of a wait is always possible -/
theorem round_made (J : Job S k Z B) {p : Nat} {rt : PRt} {row : Row} {ivar : BitVec 64} {cmp : Int} {v : Nat}
    (hok : (NAct.wait rt row ivar cmp v).Ok S k Z B s p) {g : G} (hf : Free S g p) :
    Round S p rt row ivar cmp v g (.poll p ivar.toInt row.ty.sizeof (word (g.mem p) ivar.toInt row.ty.p2p)) g
      (Passes row.ty.p2p (rt.body cmp).2 v (word (g.mem p) ivar.toInt row.ty.p2p)) := by
  obtain ⟨_, hrow, y, hy, d, hin, hfit, hiv⟩ := hok
  have hsz : 0 < row.ty.sizeof := by cases row.ty <;> decide
  have hres : resolve (procs S g) (.direct .rel) none p p ivar = .ok ivar := by
    rw [hiv]
    exact flag_resolve J hf.1 hin hfit hsz g (fun h => by cases h)
  have hw : (Api.wordAt (g.mem p) ivar.toInt row.ty.sizeof).toNat = word (g.mem p) ivar.toInt row.ty.p2p := by
    unfold Api.wordAt word Amo.word
    rw [flag_bytes, BitVec.toNat_ofNat, Nat.mod_eq_of_lt]
    · rfl
    have := Mem.load_lt (Vis.view (g.mem p) ivar.toInt) 0 row.ty.sizeof
    rw [Nat.pow_mul]
    exact this
  have hb : BitVec.ofNat row.ty.p2p.bits (word (g.mem p) ivar.toInt row.ty.p2p) = Api.wordAt (g.mem p) ivar.toInt row.ty.sizeof := by
    rw [← hw]
    show BitVec.ofNat (8 * row.ty.sizeof) (Api.wordAt (g.mem p) ivar.toInt row.ty.sizeof).toNat = _
    rw [BitVec.ofNat_toNat, BitVec.setWidth_eq]
  refine ⟨.rel, ivar, _, _, (fun h => by cases h), hres, p2pRead_ok (p2p_row hrow).1 _ _ _, by rw [hw], ?_, ?_⟩
  · have := Step.poll (S := S) (g := g) p ivar ivar row.ty.sizeof .rel hf (fun h => by cases h) hres
    unfold word
    rw [flag_bytes]
    exact this
  · unfold Passes
    rw [hb]

/-- a call by name is the action it means -/
theorem named_does (J : Job S k Z B) {p : Nat} {a : NAct} (hok : a.Ok S k Z B s p) {g g' : G} {e : Ev} (h : a.Does S p g e g') :
    Sig.Does p (a.act B p) e ∧ Step S g e g' := by
  cases a with
  | store y v => exact ⟨h.1, h.2⟩
  | quiet => exact ⟨Or.inl h.1, h.2⟩
  | fence => exact ⟨Or.inr h.1, h.2⟩
  | wait rt row ivar cmp v =>
    have hp : p < S.npes := by
      obtain ⟨_, _, _, _, _, _, _, rfl, st, _⟩ := h
      exact (own_free st (p := p) rfl).1
    obtain ⟨st, he, hi⟩ := round_is J hp hok h
    refine ⟨⟨_, ?_, hi.1 trivial⟩, st⟩
    rw [flag_bytes]
    exact he
  | rma rt fn isCtx a tgt =>
    obtain ⟨st, hin, he⟩ := Bsp.named_rma J hok h
    refine ⟨?_, st⟩
    rw [he]
    unfold NAct.act
    dsimp only
    split
    · exact ⟨none, _, _, rfl⟩
    · exact ⟨none, _, _, rfl⟩

theorem free_of_named {p : Nat} {a : NAct} {g g' : G} {e : Ev} (h : a.Does S p g e g') : Free S g p := by
  cases a with
  | store y v => exact own_free h.2 (by rw [h.1]; rfl)
  | quiet => exact own_free h.2 (by rw [h.1]; rfl)
  | fence => exact own_free h.2 (by rw [h.1]; rfl)
  | wait rt row ivar cmp v =>
    obtain ⟨_, _, _, _, _, _, _, rfl, st, _⟩ := h
    exact own_free st rfl
  | rma rt fn isCtx a tgt => exact Bsp.free_of_named (a := .rma rt fn isCtx a tgt) h

/-- a PE's next call is that of its meaning -/
theorem named_next (hm : NMeans S k Z B s D N M acts F) {l : List Ev} {x : X} (r : XRun S D (N.prog B) (start M) l x) {p : Nat}
    (hf : Free S x.g p) : N.next p (x.pos p) (x.g.mem p) = (acts p)[x.pos p]? := by
  have inv := inv_run hm.means r
  have hl := inv.len p hf.1
  have hl' : x.pos p ≤ (acts p).length := by rw [List.length_map] at hl; exact hl
  rw [← hm.calls p hf.1 (x.pos p) hl']
  refine N.dep p (x.pos p) _ _ fun a ha => ?_
  obtain ⟨hD, hk⟩ := hm.means.looks p hf.1 _ hl a ha
  exact (known_settled hm.means inv hk hf.1 (Nat.le_refl _) (Or.inr hf.2.2)).val

theorem named_step (J : Job S k Z B) (hm : NMeans S k Z B s D N M acts F) {l : List Ev} {x y : X} {e : Ev}
    (r : XRun S D (N.prog B) (start M) l x) (h : NStep S D N x e y) : XStep S D (N.prog B) x e y := by
  cases h with
  | act p a hn hd =>
    have hf := free_of_named hd
    have hnx := named_next hm r hf
    rw [hn] at hnx
    have hok := hm.ok p hf.1 a (List.mem_of_getElem? hnx.symm)
    obtain ⟨h1, h2⟩ := named_does J hok hd
    refine .act p (a.act B p) ?_ h1 h2
    show (N.next _ _ _).map _ = _
    rw [hn]
    rfl
  | other hw st => exact .other hw st

/-- **C108** (programs of the API): what the code does in an execution of the program is an execution of the program that moves the bytes the
names of the routines say. -/
theorem C108_moves_partial (J : Job S k Z B) (hm : NMeans S k Z B s D N M acts F) {l : List Ev} {x : X} (r : NRun S D N (start M) l x) :
    XRun S D (N.prog B) (start M) l x := by
  generalize hy : start M = y at r
  induction r with
  | nil => exact .nil _
  | snoc r st ih =>
    subst hy
    exact ih.snoc (named_step J hm ih st)

/-- **C108** (programs of the API): a PE that can go on makes the next call of its meaning. -/
theorem C108_calls_partial (J : Job S k Z B) (hm : NMeans S k Z B s D N M acts F) {l : List Ev} {x : X} (r : NRun S D N (start M) l x)
    {p : Nat} (hf : Free S x.g p) : N.next p (x.pos p) (x.g.mem p) = (acts p)[x.pos p]? :=
  named_next hm (C108_moves_partial J hm r) hf

variable {R : Inf S} {pos : Nat → Nat → Nat}

theorem NExec.run (E : NExec D N R pos) (J : Job S k Z B) (hm : NMeans S k Z B s D N M acts F) (hM : R.mem = M) (i : Nat) :
    ∃ l, XRun S D (N.prog B) (start M) l ⟨R.st i, pos i⟩ := by
  induction i with
  | zero =>
    have : (⟨R.st 0, pos 0⟩ : X) = start M := by rw [E.pos0, R.start, hM]; rfl
    rw [this]
    exact ⟨[], .nil _⟩
  | succ i ih =>
    obtain ⟨l, h⟩ := ih
    cases he : R.ev i with
    | none => rw [R.idle i he, E.idle i he]; exact ⟨l, h⟩
    | some e => exact ⟨_, h.snoc (named_step J hm h (E.step i e he))⟩

/-- up to any time it is an execution as in `C108_moves_partial` -/
theorem NExec.named (E : NExec D N R pos) (i : Nat) : ∃ l, NRun S D N (start R.mem) l ⟨R.st i, pos i⟩ := by
  induction i with
  | zero =>
    have : (⟨R.st 0, pos 0⟩ : X) = start R.mem := by rw [E.pos0, R.start]; rfl
    rw [this]
    exact ⟨[], .nil _⟩
  | succ i ih =>
    obtain ⟨l, h⟩ := ih
    cases he : R.ev i with
    | none => rw [R.idle i he, E.idle i he]; exact ⟨l, h⟩
    | some e => exact ⟨_, h.snoc (E.step i e he)⟩

/-- an execution of the program by its calls is one of the program that moves bytes, and the library accepts all calls -/
theorem NExec.exec (E : NExec D N R pos) (J : Job S k Z B) (hm : NMeans S k Z B s D N M acts F) (hM : R.mem = M) :
    Exec D (N.prog B) R pos := by
  have hnx : ∀ i p, Free S (R.st i) p → N.next p (pos i p) ((R.st i).mem p) = (acts p)[pos i p]? := by
    intro i p hf
    obtain ⟨l, r⟩ := E.run J hm hM i
    exact named_next hm r hf
  have hok : ∀ i p a, Free S (R.st i) p → N.next p (pos i p) ((R.st i).mem p) = some a → a.Ok S k Z B s p := by
    intro i p a hf h
    rw [hnx i p hf] at h
    exact hm.ok p hf.1 a (List.mem_of_getElem? h)
  refine ⟨E.pos0, ?_, E.idle, ?_, ?_, ?_⟩
  · intro i e he
    obtain ⟨l, r⟩ := E.run J hm hM i
    exact named_step J hm r (E.step i e he)
  · intro i e p he ho
    have hf := own_free (R.step i e he) ho
    obtain ⟨a, h1, h2⟩ := E.own i e p he ho
    have hk := hok i p a hf h1
    refine ⟨a.act B p, ?_, ?_⟩
    · show (N.next _ _ _).map _ = _
      rw [h1]
      rfl
    · rcases h2 with ⟨h2, h3⟩ | ⟨h2, h3⟩
      · exact Or.inl ⟨(named_does J hk h2).1, h3⟩
      · right
        cases a with
        | wait rt row ivar cmp v =>
          obtain ⟨_, he', hi⟩ := round_is J hf.1 hk h2
          refine ⟨_, _, _, _, _, rfl, ?_, fun h => hi.2 h, h3⟩
          rw [flag_bytes]
          exact he'
        | _ => exact (h2 : False).elim
  · intro i p hf h
    obtain ⟨a, h1, h2⟩ := Option.map_eq_some_iff.1 h
    have hst := E.stands i p hf
    rw [h1] at hst
    cases a with
    | store y v => cases h2
    | quiet => exact Or.inl hst
    | fence => exact Or.inr hst
    | wait rt row ivar cmp v => cases h2
    | rma rt fn isCtx a tgt =>
      unfold NAct.act at h2
      dsimp only at h2
      split at h2 <;> cases h2
  · intro i p a hf h hq
    obtain ⟨c, h1, rfl⟩ := Option.map_eq_some_iff.1 h
    have hst := E.stands i p hf
    rw [h1] at hst
    have ho := hok i p c hf h1
    have hfc : Free S ((R.st i).clear p) p := ⟨hf.1, hf.2.1, Function.update_self ..⟩
    cases c with
    | quiet => exact absurd rfl hq
    | fence => exact absurd rfl hq
    | store y v => exact ⟨.store p y v, _, hst, rfl, Step.store p y v hfc⟩
    | wait rt row ivar cmp v =>
      have hr := round_made J ho hfc
      obtain ⟨st, _⟩ := round_is J hf.1 ho hr
      refine ⟨_, _, hst _ _ _ hr, ⟨word (((R.st i).clear p).mem p) ivar.toInt row.ty.p2p, ?_⟩, st⟩
      rw [flag_bytes]
    | rma rt fn isCtx a tgt =>
      obtain ⟨e, g', h4⟩ := Bsp.C106_accepted J ho (R.reach i) hf
      obtain ⟨h5, h6⟩ := named_does J (a := .rma rt fn isCtx a tgt) ho h4
      exact ⟨e, g', hst e g' h4, does_calls h5, h6⟩

/-- **C108** (programs of the API): in every fair execution every PE gets to the end of its program, and if every PE has called quiet or fence
after its puts and non-blocking gets all blocks (and all else the program works on) hold for good what the program means. -/
theorem C108_named_partial (J : Job S k Z B) (hm : NMeans S k Z B s D N M acts F) (hM : R.mem = M) (Fa : R.Fair) (E : NExec D N R pos)
    {rank : Nat → Nat → Nat} (ho : Ordered S.npes (fun p => (acts p).map (NAct.act B p)) F rank) :
    ∃ i, ∀ j, i ≤ j → (∀ p < S.npes, pos j p = (acts p).length ∧ (R.st j).busy p = []) ∧
      ((∀ p < S.npes, ∀ (k : Nat) a, (acts p)[k]? = some a → (a.act B p).lateWrite → ∃ l, k < l ∧ ((acts p)[l]? = some .quiet ∨ (acts p)[l]? = some .fence)) →
        ∀ b, D b → (R.st j).mem b.1 b.2 = F b.1 b.2) := by
  obtain ⟨i, hi⟩ := C108_ends hm.means hM Fa (E.exec J hm hM) ho
  refine ⟨i, fun j hj => ?_⟩
  obtain ⟨h1, h2⟩ := hi j hj
  refine ⟨fun p hp => ?_, fun hq => h2 fun p hp k a ha hl => ?_⟩
  · have := h1 p hp
    rwa [List.length_map] at this
  · rw [List.getElem?_map] at ha
    obtain ⟨c, hc, rfl⟩ := Option.map_eq_some_iff.1 ha
    obtain ⟨l, hkl, hl2⟩ := hq p hp k c hc hl
    refine ⟨l, hkl, ?_, ?_⟩
    · rw [List.length_map]
      rcases hl2 with h | h <;> exact (List.getElem?_eq_some_iff.mp h).1
    · rw [List.getElem?_map]
      rcases hl2 with h | h <;> rw [h] <;> rfl

end

end Verif.Sig
