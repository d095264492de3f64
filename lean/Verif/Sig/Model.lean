import Verif.Vis.Props
import Verif.P2p.Model
/-!
# Programs that synchronise with flags

Programs of all PEs that use no barriers but wait for flags which other PEs put (`shmem_wait_until`), and the executions of `Vis` (all PEs,
operations in flight with their data) that run such a program. The code is that of `Vis`: order_impl.h L23-96, rma_impl.h L107-243,
p2p_impl.h L33-57.
-/
namespace Verif.Sig
open Verif.Sobj Verif.Rma Verif.Vis
open Verif.P2p (CTy)

/-- What a program does next on its PE: a put or a get routine (rma_impl.h L107-243; `xs` are the addresses of the bytes, destination first),
a store to its own memory, `shmem_quiet` or `shmem_fence` (order_impl.h L23-96), `shmem_TYPE_wait_until(a, op, v)` (p2p_impl.h L33-57). -/
inductive Act where
  | put (tgt : Nat) (nbi : Bool) (xs : List (Int × Int))
  | get (tgt : Nat) (nbi : Bool) (xs : List (Int × Int))
  | store (a : Int) (v : BitVec 8)
  | quiet
  | wait (a : Int) (t : CTy) (op : Int) (v : Nat)

/-- A program: action number `i` of PE `p`, given the PE's own memory (`none`: the program has ended); it looks only at the addresses `looks`.
Local variables are part of the memory. -/
structure Prog where
  next : Nat → Nat → IMem → Option Act
  looks : Nat → Nat → Int → Prop
  dep : ∀ p i m m', (∀ a, looks p i a → m a = m' a) → next p i m = next p i m'

/-- the loop of `OSHMPI_WAIT_UNTIL` ends with a read that gave `r` (`OSHMPI_COMP`, p2p_impl.h L13-31, L52-53; `P2p.comp`) -/
def Passes (t : CTy) (op : Int) (v r : Nat) : Prop := P2p.comp t (BitVec.ofNat t.bits r) op (BitVec.ofNat t.bits v) 0 ≠ 0

/-- what a read of the variable at `a` gives (`MPI_Fetch_and_op(MPI_NO_OP)` of one element, p2p_impl.h L48-51) -/
def word (m : IMem) (a : Int) (t : CTy) : Nat := (view m a).load 0 (t.bits / 8)

/-- The step of the execution that an action is; of a wait: the read with which it ends. -/
def Does (p : Nat) : Act → Ev → Prop
  | .put tgt nbi xs, e => ∃ ctx addr ep, e = .put p tgt nbi ctx addr xs ep
  | .get tgt nbi xs, e => ∃ ctx addr ep, e = .get p tgt nbi ctx addr xs ep
  | .store a v, e => e = .store p a v
  | .quiet, e => e = .call p (.quiet none) ∨ e = .call p (.fence none)
  | .wait a t op v, e => ∃ r, e = .poll p a (t.bits / 8) r ∧ Passes t op v r

/-- an execution's state and how many actions each PE has done -/
structure X where
  g : G
  pos : Nat → Nat

/-- One step of an execution of program `P`. `D`: the bytes (PE, address) the program works on. Everything else that happens (operations being
performed, reads with which a wait does not end, atomics, locks, barriers, other calls) is arbitrary, but does not write to `D`. -/
inductive XStep (S : Sys) (D : Nat × Int → Prop) (P : Prog) : X → Ev → X → Prop
  | act {x : X} {e : Ev} {g' : G} (p : Nat) (a : Act) (hn : P.next p (x.pos p) (x.g.mem p) = some a) (hd : Does p a e)
      (s : Step S x.g e g') : XStep S D P x e ⟨g', Function.update x.pos p (x.pos p + 1)⟩
  | other {x : X} {e : Ev} {g' : G} (hw : ∀ b, D b → ¬ e.writes b) (s : Step S x.g e g') : XStep S D P x e ⟨g', x.pos⟩

/-- an execution of the program -/
inductive XRun (S : Sys) (D : Nat × Int → Prop) (P : Prog) : X → List Ev → X → Prop
  | nil (x : X) : XRun S D P x [] x
  | snoc {x y z : X} {l : List Ev} {e : Ev} (r : XRun S D P x l y) (s : XStep S D P y e z) : XRun S D P x (l ++ [e]) z

/-- start of the program with memory `m` -/
def start (m : Mems) : X := ⟨ginit m, fun _ => 0⟩

/-! ## What the program means -/

/-- the bytes an action of PE `p` writes (in the end) -/
def Act.writes (p : Nat) (b : Nat × Int) : Act → Prop
  | .put tgt _ xs => b.1 = tgt ∧ ∃ x ∈ xs, x.1 = b.2
  | .get _ _ xs => b.1 = p ∧ ∃ x ∈ xs, x.1 = b.2
  | .store a _ => b = (p, a)
  | .quiet => False
  | .wait _ _ _ _ => False

/-- the bytes an action of PE `p` copies from -/
def Act.reads (p : Nat) (b : Nat × Int) : Act → Prop
  | .put _ _ xs => b.1 = p ∧ ∃ x ∈ xs, x.2 = b.2
  | .get tgt _ xs => b.1 = tgt ∧ ∃ x ∈ xs, x.2 = b.2
  | .store _ _ => False
  | .quiet => False
  | .wait _ _ _ _ => False

/-- the bytes of the flag an action of PE `p` waits for -/
def Act.polls (p : Nat) (b : Nat × Int) : Act → Prop
  | .put _ _ _ => False
  | .get _ _ _ => False
  | .store _ _ => False
  | .quiet => False
  | .wait a t _ _ => b.1 = p ∧ a ≤ b.2 ∧ b.2 < a + (t.bits / 8 : Nat)

/-- may the action write after the call has returned? (OpenSHMEM 1.4, 9.5: every put, non-blocking gets) -/
def Act.lateWrite : Act → Prop
  | .put _ _ _ => True
  | .get _ nbi _ => nbi = true
  | .store _ _ => False
  | .quiet => False
  | .wait _ _ _ _ => False

/-- no byte is written twice by one call, or both read and written (OpenSHMEM 1.4, 9.5: source and destination do not overlap) -/
def Act.Clean (p : Nat) (a : Act) : Prop :=
  (∀ b, a.writes p b → ¬ a.reads p b) ∧ match a with
    | .put _ _ xs => ∀ x ∈ xs, ∀ y ∈ xs, x.1 = y.1 → x = y
    | .get _ _ xs => ∀ x ∈ xs, ∀ y ∈ xs, x.1 = y.1 → x = y
    | .store _ _ => True
    | .quiet => True
    | .wait _ _ _ _ => True

/-- what the action makes of the bytes it writes, in terms of the final values `F` -/
def Act.Gives (p : Nat) (F : Mems) : Act → Prop
  | .put tgt _ xs => ∀ x ∈ xs, F tgt x.1 = F p x.2
  | .get tgt _ xs => ∀ x ∈ xs, F p x.1 = F tgt x.2
  | .store a v => F p a = v
  | .quiet => True
  | .wait _ _ _ _ => True

/-- is there a quiet among the actions with numbers between `i` and `j`? -/
def QuietBetween (acts : List Act) (i j : Nat) : Prop := ∃ q, i < q ∧ q < j ∧ acts[q]? = some .quiet

/-- **The rules of OpenSHMEM for who may use a byte.** Before its action number `i` PE `p` may rely on byte `b`: nobody writes it; or `p` has
written it itself with a store or a blocking get; or with a put or a non-blocking get and a quiet (or fence) after it; or `p` has waited for
a flag that is false at the start, and every PE that writes to the flag could rely on `b` when it did. -/
inductive Known (n : Nat) (D : Nat × Int → Prop) (M : Mems) (acts : Nat → List Act) : Nat → Nat → Nat × Int → Prop
  | init {p i : Nat} {b : Nat × Int} (hD : D b) (h : ∀ q < n, ∀ a ∈ acts q, ¬ a.writes q b) : Known n D M acts p i b
  | own {p i : Nat} {b : Nat × Int} (k : Nat) (a : Act) (hk : k < i) (ha : (acts p)[k]? = some a) (hw : a.writes p b) (hl : ¬ a.lateWrite) :
      Known n D M acts p i b
  | quiet {p i : Nat} {b : Nat × Int} (k : Nat) (a : Act) (ha : (acts p)[k]? = some a) (hw : a.writes p b)
      (hq : QuietBetween (acts p) k i) : Known n D M acts p i b
  | wait {p i : Nat} {b : Nat × Int} (k : Nat) (a : Int) (t : CTy) (op : Int) (v : Nat) (hk : k < i)
      (ha : (acts p)[k]? = some (.wait a t op v)) (h0 : ¬ Passes t op v (word (M p) a t))
      (hb : ∀ q j c y, q < n → (acts q)[j]? = some c → a ≤ y → y < a + (t.bits / 8 : Nat) → c.writes q (p, y) → Known n D M acts q j b) :
      Known n D M acts p i b

/-- The meaning of the program from memory `M`: the actions of each of the `n` PEs, and the final value `F` of every byte. Every byte is written
at most once; nothing is read (copied from, looked at) that the PE may not rely on. -/
structure Means (n : Nat) (D : Nat × Int → Prop) (P : Prog) (M : Mems) (acts : Nat → List Act) (F : Mems) : Prop where
  /-- each PE's actions are those of the program when it sees final values -/
  follows : ∀ p < n, ∀ i ≤ (acts p).length, P.next p i (F p) = (acts p)[i]?
  /-- the final values -/
  gives : ∀ p < n, ∀ a ∈ acts p, a.Gives p F
  rest : ∀ b, D b → (∀ p < n, ∀ a ∈ acts p, ¬ a.writes p b) → F b.1 b.2 = M b.1 b.2
  /-- everything is about the bytes `D` -/
  inside : ∀ p < n, ∀ a ∈ acts p, ∀ b, a.writes p b ∨ a.polls p b → D b
  /-- every byte is written once -/
  single : ∀ p < n, ∀ q < n, ∀ (i j : Nat) (a c : Act) (b : Nat × Int), (acts p)[i]? = some a → (acts q)[j]? = some c → a.writes p b → c.writes q b → p = q ∧ i = j
  /-- what is read may be relied on -/
  reads : ∀ p < n, ∀ i a, (acts p)[i]? = some a → ∀ b, a.reads p b → D b ∧ Known n D M acts p i b
  looks : ∀ p < n, ∀ i ≤ (acts p).length, ∀ y, P.looks p i y → D (p, y) ∧ Known n D M acts p i (p, y)
  clean : ∀ p < n, ∀ a ∈ acts p, a.Clean p

end Verif.Sig
