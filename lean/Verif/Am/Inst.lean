import Verif.Am.Props
import Verif.Amo.Props
/-!
# The active-message system with the real handlers

The handlers of contiguous put/get (`/repo/src/internal/rma_am_impl.c`) and of the AMOs (`Verif.Amo`) plugged into the abstract
system, and the consequence users rely on: concurrent fetch-and-increment hands out distinct consecutive numbers (C23).
-/
namespace Verif.Am
open Verif.Amo

/-- requests that are answered -/
inductive Req where
  /-- `OSHMPI_am_get_pkt_t`: address and bytes -/
  | get (a n : Nat)
  /-- fetching AMO of the API -/
  | amo (dest : Nat) (ty : TyIdx) (api : Api)
deriving DecidableEq

/-- answers -/
inductive Ans where
  /-- bytes from index 0 on -/
  | data (m : Mem)
  /-- what the call returns; `abort`, `ub`, `hang`: it does not -/
  | val (v : Res Nat)

/-- effect of an AMO handler on a process that may have died -/
def amoStep (fp : Fp) (junk : Mem) (dest : Nat) (ty : TyIdx) (api : Api) : Res Mem → Res Mem × Ans
  | .ok m => match am fp junk m dest ty api with
    | .ok x => (.ok x.1, .val (.ok x.2))
    | .abort => (.abort, .val .abort)
    | .ub => (.ub, .val .ub)
    | .hang => (.hang, .val .hang)
  | .abort => (.abort, .val .abort)
  | .ub => (.ub, .val .ub)
  | .hang => (.hang, .val .hang)

/-- the handlers: `OSHMPI_rma_am_put_pkt_cb` rma_am_impl.c L11-22 (receives `bytes` into the target address),
`OSHMPI_rma_am_get_pkt_cb` L25-36, AMO handlers amo_am_impl.c L85-177 with the origin side (`Amo.am`). The memory is that of a
process that may have aborted. Addresses are already translated (C14). Strided puts and gets, whose handlers do the same with
a derived datatype, are left out of this instance (they are in the abstract system). -/
abbrev shm (fp : Fp) (junk : Mem) : Iface where
  σ := Res Mem
  D := Nat × Nat
  P := Mem
  Q := Req
  V := Ans
  U := Nat × TyIdx × Api
  write := fun d x r => r.bind fun m => .ok (m.copy d.1 x 0 d.2)
  read := fun q r => match q with
    | .get a n => (r, .data (match r with
      | .ok m => Mem.copy junk 0 m a n
      | .abort => junk
      | .ub => junk
      | .hang => junk))
    | .amo dest ty api => amoStep fp junk dest ty api r
  upd := fun u r => (amoStep fp junk u.1 u.2.1 u.2.2 r).1

variable {fp : Fp} {junk : Mem}

/-- a fetch-and-increment of the variable -/
def isFinc (A : Nat) (ty : TyIdx) (q : Req) : Bool := decide (q = .amo A ty .finc)

/-- the event neither kills the process nor changes the variable -/
def Leaves (A k : Nat) (e : Ev (shm fp junk)) : Prop :=
  ∀ m : Mem, ∃ m' : Mem, applyEv e (Res.ok m) = Res.ok m' ∧ ∀ x, A ≤ x → x < A + k → m' x = m x

/-- who got the numbers, in order -/
def winners (A : Nat) (ty : TyIdx) : List (Ev (shm fp junk)) → List (Nat × Nat)
  | [] => []
  | .am p t (.rd q) :: l => if isFinc A ty q then (p, t) :: winners A ty l else winners A ty l
  | .am _ _ (.put _ _) :: l => winners A ty l
  | .am _ _ (.upd _) :: l => winners A ty l
  | .am _ _ .flush :: l => winners A ty l
  | .am _ _ .term :: l => winners A ty l
  | .env _ :: l => winners A ty l

/-- numbers of a thread: the positions at which it won -/
def numbers (p t w : Nat) : Nat → List (Nat × Nat) → List Nat
  | _, [] => []
  | v, a :: l => if a = (p, t) then v % w :: numbers p t w (v + 1) l else numbers p t w (v + 1) l

theorem amoStep_finc {A : Nat} {ty : TyIdx} (hty : ty ∈ stdTypes) (hu : ty.kind = .uint ty.bytes) (m : Mem) :
    amoStep fp junk A ty .finc (.ok m) =
      (.ok (m.store A ty.bytes ((m.load A ty.bytes + 1) % 256 ^ ty.bytes)), .val (.ok (m.load A ty.bytes))) := by
  have h1 : am fp junk m A ty .finc =
      .ok (m.store A ty.bytes (mpiOp ty.bytes .sum (1 % 256 ^ ty.bytes) (m.load A ty.bytes)), m.load A ty.bytes) := by
    unfold am
    apply amFetch_ok fp junk m A hty (by decide)
    intro e
    rw [hu] at e
    cases e
  simp only [amoStep, h1, mpiOp]
  congr 3
  rw [Nat.add_mod, Nat.mod_mod, ← Nat.add_mod]

theorem filter_val {A : Nat} {ty : TyIdx} (hty : ty ∈ stdTypes) (hu : ty.kind = .uint ty.bytes) (p t : Nat) :
    ∀ (l : List (Ev (shm fp junk))) (m : Mem) (v : Nat), m.load A ty.bytes = v % 256 ^ ty.bytes →
      (∀ e ∈ l, (∃ a b, e = .am a b (.rd (.amo A ty .finc))) ∨
        (Leaves A ty.bytes e ∧ ∀ a b q, e = .am a b (.rd q) → isFinc A ty q = false)) →
      (∃ m' : Mem, replay (I := shm fp junk) (.ok m) l = .ok m' ∧
        m'.load A ty.bytes = (v + (winners A ty l).length) % 256 ^ ty.bytes) ∧
      (((seqRets p t (Res.ok m) l).filter (fun x => isFinc A ty x.1)).map (·.2)) =
        (numbers p t (256 ^ ty.bytes) v (winners A ty l)).map (fun n => Ans.val (.ok n)) := by
  intro l
  induction l with
  | nil => exact fun m v hv _ => ⟨⟨m, rfl, by simpa [winners] using hv⟩, rfl⟩
  | cons e l ih =>
    intro m v hv hl
    have hl' := fun e he => hl e (List.mem_cons_of_mem _ he)
    rcases hl e List.mem_cons_self with ⟨a, b, rfl⟩ | ⟨hq, hnf⟩
    · have hs := amoStep_finc (fp := fp) (junk := junk) (A := A) hty hu m
      have hm' : (m.store A ty.bytes ((m.load A ty.bytes + 1) % 256 ^ ty.bytes)).load A ty.bytes = (v + 1) % 256 ^ ty.bytes := by
        rw [Mem.load_store, Nat.mod_mod, hv, Nat.add_mod, Nat.mod_mod, ← Nat.add_mod]
      obtain ⟨⟨m', h1, h2⟩, h3⟩ := ih _ (v + 1) hm' hl'
      have hF : isFinc A ty (.amo A ty .finc) = true := by simp [isFinc]
      refine ⟨⟨m', ?_, ?_⟩, ?_⟩
      · show replay (I := shm fp junk) (amoStep fp junk A ty .finc (.ok m)).1 l = _
        rw [hs]; exact h1
      · simp only [winners, hF, if_true, List.length_cons]
        rw [h2]; congr 1; omega
      · simp only [winners, hF, if_true, numbers, seqRets, applyOp]
        rw [hs]
        by_cases e : a = p ∧ b = t
        · obtain ⟨rfl, rfl⟩ := e
          simp only [and_self, if_true, valOf, List.singleton_append]
          rw [List.filter_cons_of_pos (by exact hF)]
          simp only [List.map_cons]
          rw [h3, hs, hv]
        · rw [if_neg e, if_neg (by rw [Prod.mk.injEq]; exact e), List.nil_append]
          exact h3
    · obtain ⟨m1, hm1, hx⟩ := hq m
      have hv1 : m1.load A ty.bytes = v % 256 ^ ty.bytes := by rw [← hv]; exact Mem.load_congr hx
      obtain ⟨⟨m', h1, h2⟩, h3⟩ := ih m1 v hv1 hl'
      have hw : winners A ty (e :: l) = winners A ty l := by
        cases e with
        | env f => rfl
        | am a b o =>
          cases o with
          | rd q => simp only [winners, hnf a b q rfl, if_false, Bool.false_eq_true]
          | put d x => rfl
          | upd u => rfl
          | flush => rfl
          | term => rfl
      refine ⟨⟨m', ?_, by rw [hw]; exact h2⟩, ?_⟩
      · show replay (I := shm fp junk) (applyEv e (.ok m)) l = _
        rw [hm1]; exact h1
      · rw [hw, ← h3]
        cases e with
        | env f =>
          have hm1' : f (Res.ok m) = Res.ok m1 := hm1
          simp only [seqRets, hm1']
        | am a b o =>
          have hm1' : applyOp o (Res.ok m) = Res.ok m1 := hm1
          simp only [seqRets, hm1']
          split
          · rw [List.filter_append]
            cases o with
            | rd q =>
              simp only [valOf]
              rw [List.filter_cons_of_neg (by rw [hnf a b q rfl]; decide)]
              rfl
            | put d x => rfl
            | upd u => rfl
            | flush => rfl
            | term => rfl
          · rfl

/-- **C23**, fetch-and-increment — when a variable of an unsigned type is only changed by fetch-and-increments, issued by any
number of PEs and threads concurrently, they hand out consecutive numbers, each to exactly one caller: there is an order
`who` of the callers such that the `i`-th gets initial value + `i` (modulo the type's range); a thread outside the library has
been given exactly its numbers, and the variable holds initial value + number of calls applied. -/
theorem C23_fetch_inc {c : Cfg (shm fp junk)} {s : St (shm fp junk)} (h : Reach c s) {d A : Nat} {ty : TyIdx} (hty : ty ∈ stdTypes)
    (hu : ty.kind = .uint ty.bytes) {m0 : Mem} (hm0 : c.mem₀ d = .ok m0)
    (hl : ∀ e ∈ s.log d, (∃ a b, e = .am a b (.rd (.amo A ty .finc))) ∨
        (Leaves A ty.bytes e ∧ ∀ a b q, e = .am a b (.rd q) → isFinc A ty q = false)) :
    ∃ who : List (Nat × Nat),
      (∃ m, s.mem d = .ok m ∧ m.load A ty.bytes = (m0.load A ty.bytes + who.length) % 256 ^ ty.bytes) ∧
      ∀ p t, s.pc p t = .idle →
        (((s.rets p t d).filter (fun x => decide (x.1 = .amo A ty .finc))).map (·.2)) =
          (numbers p t (256 ^ ty.bytes) (m0.load A ty.bytes) who).map (fun n => Ans.val (.ok n)) := by
  refine ⟨winners A ty (s.log d), ?_, fun p t hpc => ?_⟩
  · rw [(inv_reach h).mem d, hm0]
    exact (filter_val hty hu 0 0 (s.log d) m0 _ (Nat.mod_eq_of_lt (Mem.load_lt _ _ _)).symm hl).1
  · have h2 := (filter_val hty hu p t (s.log d) m0 _ (Nat.mod_eq_of_lt (Mem.load_lt _ _ _)).symm hl).2
    obtain ⟨pend, hp, hp2⟩ := (inv_reach h).pend p t d
    rw [hpc] at hp2
    have : pend = [] := hp2.2.2
    rw [this, List.append_nil, hm0] at hp
    rw [← hp]
    exact h2

/-- numbers of one thread all differ as long as the counter has not wrapped around -/
theorem numbers_lt {p t w : Nat} : ∀ (l : List (Nat × Nat)) (v : Nat), v + l.length ≤ w →
    (numbers p t w v l).Pairwise (· < ·) ∧ ∀ n ∈ numbers p t w v l, v ≤ n := by
  intro l
  induction l with
  | nil => exact fun v _ => ⟨List.Pairwise.nil, fun n hn => by cases hn⟩
  | cons a l ih =>
    intro v hv
    simp only [List.length_cons] at hv
    obtain ⟨h1, h2⟩ := ih (v + 1) (by omega)
    simp only [numbers]
    split
    · rw [Nat.mod_eq_of_lt (by omega)]
      refine ⟨List.pairwise_cons.2 ⟨fun n hn => by have := h2 n hn; omega, h1⟩, fun n hn => ?_⟩
      rcases List.mem_cons.1 hn with rfl | hn
      · omega
      · have := h2 n hn; omega
    · exact ⟨h1, fun n hn => by have := h2 n hn; omega⟩

/-- and numbers of different threads differ as well -/
theorem numbers_disjoint {p t p' t' w : Nat} (hne : (p, t) ≠ (p', t')) : ∀ (l : List (Nat × Nat)) (v : Nat), v + l.length ≤ w →
    ∀ n, n ∈ numbers p t w v l → n ∉ numbers p' t' w v l := by
  intro l
  induction l with
  | nil => exact fun v _ n hn => by cases hn
  | cons a l ih =>
    intro v hv n hn hn'
    simp only [List.length_cons] at hv
    have hlt := fun x y => (numbers_lt (p := x) (t := y) (w := w) l (v + 1) (by omega)).2
    simp only [numbers] at hn hn'
    rw [Nat.mod_eq_of_lt (by omega : v < w)] at hn hn'
    split at hn
    · rename_i e1
      rw [if_neg (by rw [e1]; exact hne)] at hn'
      rcases List.mem_cons.1 hn with rfl | hn
      · have := hlt p' t' n hn'; omega
      · exact ih (v + 1) (by omega) n hn hn'
    · split at hn'
      · rcases List.mem_cons.1 hn' with rfl | hn'
        · have := hlt p t n hn; omega
        · exact ih (v + 1) (by omega) n hn hn'
      · exact ih (v + 1) (by omega) n hn hn'

/-- hypotheses of `C23_fetch_inc` met: three PEs, PEs 0 and 1 have fetch-incremented a 4-byte counter of PE 2 -/
def shmCfg : Cfg (shm ⟨fun _ a _ => a, fun _ _ _ => true⟩ (fun _ => 0)) := ⟨3, fun _ t => t < 1, true, 9000, fun _ => .ok (fun _ => 0)⟩

instance : ∀ p t, Decidable (shmCfg.thr p t) := fun _ t => inferInstanceAs (Decidable (t < 1))

def shmDemo : List (Mv (shm ⟨fun _ a _ => a, fun _ _ _ => true⟩ (fun _ => 0))) :=
  [.call 0 0 (.rd (.amo 8 .uint .finc) 2), .call 1 0 (.rd (.amo 8 .uint .finc) 2), .go 0 0, .go 1 0,
   .mat 2 1 0, .start 2 none, .act 2, .mat 2 0 0, .start 2 none, .act 2, .ack 0 0 2, .ack 1 0 2, .go 0 0, .go 1 0]

example : ∃ s, Reach shmCfg s ∧ s.log 2 = [.am 1 0 (.rd (.amo 8 .uint .finc)), .am 0 0 (.rd (.amo 8 .uint .finc))] ∧
    s.pc 0 0 = .idle ∧ s.pc 1 0 = .idle :=
  ⟨after shmCfg shmDemo rfl, after_reach _ _, rfl, rfl, rfl⟩
example : TyIdx.uint ∈ stdTypes ∧ TyIdx.uint.kind = .uint TyIdx.uint.bytes := by decide
example : numbers 0 0 (256 ^ 4) 0 [(1, 0), (0, 0)] = [1] ∧ numbers 1 0 (256 ^ 4) 0 [(1, 0), (0, 0)] = [0] := by decide

end Verif.Am
