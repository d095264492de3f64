import Verif.Vis.Props
import Verif.Vis.Sum
/-!
# Programs that work in phases between barriers

Programs of all PEs, and the executions of `Vis` (all PEs, operations in flight with their data) that run such a program. The code is that
of `Vis`: order_impl.h L23-96, coll_impl.h L12-44, rma_impl.h L107-243, amo_impl.h L34-51 and L117-138, am_impl.h L22-79.
-/
namespace Verif.Bsp
open Verif.Sobj Verif.Rma Verif.Vis
open Verif.Amo (TyIdx)

/-- What a program does next on its PE: a put or a get routine (rma_impl.h L107-243; `xs` are the addresses of the bytes, destination first),
a store to its own memory, an atomic addition without result (`atomic_inc`, `atomic_add`: `v` is added to the word of type `ty` at address `a`
of `tgt`; amo_impl.h L34-51, L117-138), `shmem_quiet` or `shmem_fence` (order_impl.h L23-96). -/
inductive Act where
  | put (tgt : Nat) (nbi : Bool) (xs : List (Int × Int))
  | get (tgt : Nat) (nbi : Bool) (xs : List (Int × Int))
  | store (a : Int) (v : BitVec 8)
  | add (tgt : Nat) (a : Int) (ty : TyIdx) (v : Nat)
  | quiet
deriving DecidableEq

/-- A program: the action with number `i` since barrier `k` on PE `p`, given the PE's own memory (`none`: the PE calls
`shmem_barrier_all`); it looks only at the addresses `looks`. Local variables are part of the memory. -/
structure Prog where
  next : Nat → Nat → Nat → IMem → Option Act
  looks : Nat → Nat → Nat → Int → Prop
  dep : ∀ p k i m m', (∀ a, looks p k i a → m a = m' a) → next p k i m = next p k i m'

/-- the step of the execution that an action is: any context and symmetric address for which a barrier completes the operation (`BarCov`,
see C65; a blocking get is complete anyway) -/
def Does (S : Sys) (p : Nat) : Act → Ev → Prop
  | .put tgt nbi xs, e => ∃ ctx addr ep, e = .put p tgt nbi ctx addr xs ep ∧ BarCov (S.cf p) ((S.cf p).rma == .am) ctx addr
  | .get tgt nbi xs, e => ∃ ctx addr ep, e = .get p tgt nbi ctx addr xs ep ∧ (nbi = true → BarCov (S.cf p) ((S.cf p).rma == .am) ctx addr)
  | .store a v, e => e = .store p a v
  | .add tgt a ty v, e => ∃ ctx addr api ep, e = .amo p tgt ctx addr a ty api ep ∧ api.addend = some v ∧ returns api = false ∧
      BarCov (S.cf p) (!(S.cf p).amoDirect) ctx addr
  | .quiet, e => e = .call p (.quiet none) ∨ e = .call p (.fence none)

/-- an execution's state and how many actions each PE has done since its last barrier -/
structure X where
  g : G
  pos : Nat → Nat

/-- One step of an execution of program `P`. `D`: the bytes (PE, address) the program works on. Everything else that happens (operations being
performed, other atomics, locks, other calls) is arbitrary, but does not write to `D`. -/
inductive XStep (S : Sys) (D : Nat × Int → Prop) (P : Prog) : X → Ev → X → Prop
  | act {x : X} {e : Ev} {g' : G} (p : Nat) (a : Act) (hn : P.next p (x.g.arr p) (x.pos p) (x.g.mem p) = some a) (hd : Does S p a e)
      (s : Step S x.g e g') : XStep S D P x e ⟨g', Function.update x.pos p (x.pos p + 1)⟩
  | bar {x : X} {g' : G} (p : Nat) (hn : P.next p (x.g.arr p) (x.pos p) (x.g.mem p) = none) (s : Step S x.g (.enter p) g') :
      XStep S D P x (.enter p) ⟨g', Function.update x.pos p 0⟩
  | other {x : X} {e : Ev} {g' : G} (hb : ∀ p, e ≠ .enter p) (hw : ∀ b, D b → ¬ e.writes b) (s : Step S x.g e g') :
      XStep S D P x e ⟨g', x.pos⟩

/-- an execution of the program -/
inductive XRun (S : Sys) (D : Nat × Int → Prop) (P : Prog) : X → List Ev → X → Prop
  | nil (x : X) : XRun S D P x [] x
  | snoc {x y z : X} {l : List Ev} {e : Ev} (r : XRun S D P x l y) (s : XStep S D P y e z) : XRun S D P x (l ++ [e]) z

/-- start of the program with memory `m` -/
def start (m : Mems) : X := ⟨ginit m, fun _ => 0⟩

/-! ## What the program means -/

/-- the bytes an action of PE `p` writes (in the end) -/
def Act.writes (p : Nat) (b : Nat × Int) : Act → Prop
  | .put tgt _ xs => b.1 = tgt ∧ ∃ x ∈ xs, x.1 = b.2
  | .get _ _ xs => b.1 = p ∧ ∃ x ∈ xs, x.1 = b.2
  | .store a _ => b = (p, a)
  | .add tgt a ty _ => b.1 = tgt ∧ a ≤ b.2 ∧ b.2 < a + ty.bytes
  | .quiet => False

/-- the bytes an action of PE `p` reads -/
def Act.reads (p : Nat) (b : Nat × Int) : Act → Prop
  | .put _ _ xs => b.1 = p ∧ ∃ x ∈ xs, x.2 = b.2
  | .get tgt _ xs => b.1 = tgt ∧ ∃ x ∈ xs, x.2 = b.2
  | .store _ _ => False
  | .add _ _ _ _ => False
  | .quiet => False

/-- may the action write after the call has returned? (OpenSHMEM 1.4, 9.5, 9.7: every put, non-blocking gets, additions) -/
def Act.lateWrite : Act → Prop
  | .put _ _ _ => True
  | .get _ nbi _ => nbi = true
  | .store _ _ => False
  | .add _ _ _ _ => True
  | .quiet => False

/-- may it read after the call has returned? (non-blocking routines) -/
def Act.lateRead : Act → Prop
  | .put _ nbi _ => nbi = true
  | .get _ nbi _ => nbi = true
  | .store _ _ => False
  | .add _ _ _ _ => False
  | .quiet => False

/-- is it an addition? -/
def Act.isAdd : Act → Bool
  | .put _ _ _ => false
  | .get _ _ _ => false
  | .store _ _ => false
  | .add _ _ _ _ => true
  | .quiet => false

/-- no byte is written twice by one call, or both read and written (OpenSHMEM 1.4, 9.5: source and destination do not overlap) -/
def Act.Clean (p : Nat) (a : Act) : Prop :=
  (∀ b, a.writes p b → ¬ a.reads p b) ∧ match a with
    | .put _ _ xs => ∀ x ∈ xs, ∀ y ∈ xs, x.1 = y.1 → x = y
    | .get _ _ xs => ∀ x ∈ xs, ∀ y ∈ xs, x.1 = y.1 → x = y
    | .store _ _ => True
    | .add _ _ _ _ => True
    | .quiet => True

/-- the pair with a destination -/
def pick (xs : List (Int × Int)) (a : Int) : Option (Int × Int) := xs.find? (fun x => x.1 == a)

/-- the memory with `v` added to the word of type `ty` at `a` -/
def addTo (m : IMem) (a : Int) (ty : TyIdx) (v : Nat) : IMem :=
  fun y => if a ≤ y ∧ y < a + ty.bytes then (view m a).store 0 ty.bytes ((view m a).load 0 ty.bytes + v) (y - a).toNat else m y

/-- the action done at once -/
def Act.apply (p : Nat) (m : Mems) : Act → Mems
  | .put tgt _ xs => fun q a => if q = tgt then ((pick xs a).map fun x => m p x.2).getD (m q a) else m q a
  | .get tgt _ xs => fun q a => if q = p then ((pick xs a).map fun x => m tgt x.2).getD (m q a) else m q a
  | .store a v => fun q y => if q = p ∧ y = a then v else m q y
  | .add tgt a ty v => fun q y => if q = tgt then addTo (m q) a ty v y else m q y
  | .quiet => m

/-- the memory as PE `p` sees it after `i` of its own actions, as if it were alone -/
def alone (m : Mems) (p : Nat) (acts : List Act) (i : Nat) : Mems := (acts.take i).foldl (Act.apply p) m

/-- is there a quiet among the actions with numbers between `i` and `j`? -/
def QuietBetween (acts : List Act) (i j : Nat) : Prop := ∃ q, i < q ∧ q < j ∧ acts[q]? = some .quiet

/-- what an action adds to the word of type `ty` at `a` of PE `t` -/
def Act.addend (t : Nat) (a : Int) (ty : TyIdx) : Act → BitVec (8 * ty.bytes)
  | .put _ _ _ => 0
  | .get _ _ _ => 0
  | .store _ _ => 0
  | .add t' a' ty' v => if t' = t ∧ a' = a ∧ ty' = ty then BitVec.ofNat (8 * ty.bytes) v else 0
  | .quiet => 0

/-- what a list of actions adds -/
def addends (t : Nat) (a : Int) (ty : TyIdx) (l : List Act) : BitVec (8 * ty.bytes) := (l.map (Act.addend t a ty)).sum

/-- Phase `k` of the program from memory `m` to memory `m'`: what each of the `n` PEs does if it is alone, without races. Words to which PEs
add in the phase are counters: any number of PEs may add to them, nothing else is done with them until the next barrier. -/
structure Phase (n : Nat) (D : Nat × Int → Prop) (P : Prog) (k : Nat) (m : Mems) (acts : Nat → List Act) (m' : Mems) : Prop where
  /-- each PE's actions are those of the program as if it were alone -/
  follows : ∀ p < n, ∀ i ≤ (acts p).length, P.next p k i (alone m p (acts p) i p) = (acts p)[i]?
  /-- what a PE has written is there afterwards -/
  result : ∀ p < n, ∀ b, (∃ a ∈ acts p, a.isAdd = false ∧ a.writes p b) → m' b.1 b.2 = alone m p (acts p) (acts p).length b.1 b.2
  /-- all that was added to a word is there -/
  counts : ∀ p < n, ∀ t a ty v, .add t a ty v ∈ acts p →
    wordAt (m' t) a ty = wordAt (m t) a ty + ∑ q ∈ Finset.range n, addends t a ty (acts q)
  /-- the rest is as before -/
  rest : ∀ b, D b → (∀ p < n, ∀ a ∈ acts p, ¬ a.writes p b) → m' b.1 b.2 = m b.1 b.2
  /-- everything is about the bytes `D` -/
  inside : ∀ p < n, ∀ a ∈ acts p, ∀ b, a.writes p b ∨ a.reads p b → D b
  looksIn : ∀ p < n, ∀ i ≤ (acts p).length, ∀ a, P.looks p k i a → D (p, a)
  /-- no race between PEs: what one writes no other reads or writes -/
  race : ∀ p < n, ∀ q < n, p ≠ q → ∀ a ∈ acts p, a.isAdd = false → ∀ b, a.writes p b →
    (∀ c ∈ acts q, ¬ c.writes q b ∧ ¬ c.reads q b) ∧ (b.1 = q → ∀ i ≤ (acts q).length, ¬ P.looks q k i b.2)
  /-- no race on one PE: what may be written after a call returned is not touched, and what may still be read is not written, before the next
  quiet or barrier -/
  own : ∀ p < n, ∀ i j, i < j → j ≤ (acts p).length → ¬ QuietBetween (acts p) i j → ∀ a, (acts p)[i]? = some a → a.isAdd = false →
    (∀ b, a.lateWrite → a.writes p b → (∀ c, (acts p)[j]? = some c → ¬ c.writes p b ∧ ¬ c.reads p b) ∧ (b.1 = p → ¬ P.looks p k j b.2)) ∧
    (∀ b, a.lateRead → a.reads p b → ∀ c, (acts p)[j]? = some c → ¬ c.writes p b)
  /-- no race on counters: nobody does anything but add to them (types of the routines: amo_std_typed.c.tpl) -/
  words : ∀ p < n, ∀ t a ty v, .add t a ty v ∈ acts p → ty ∈ Amo.stdTypes ∧ ∀ b : Nat × Int, b.1 = t → a ≤ b.2 → b.2 < a + ty.bytes →
    (∀ q < n, ∀ c ∈ acts q, (c.writes q b ∨ c.reads q b) → ∃ v', c = .add t a ty v') ∧
    (t < n → ∀ i ≤ (acts t).length, ¬ P.looks t k i b.2)
  clean : ∀ p < n, ∀ a ∈ acts p, a.Clean p

/-- The meaning of the program from memory `M 0`, phase by phase, all without races. -/
def Means (n : Nat) (D : Nat × Int → Prop) (P : Prog) (M : Nat → Mems) (acts : Nat → Nat → List Act) : Prop :=
  ∀ k, Phase n D P k (M k) (acts k) (M (k + 1))

end Verif.Bsp
