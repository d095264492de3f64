import Verif.Lock.Multi
import Verif.Lock.WordsProps
/-!
# Property C90: progress with several locks
-/
namespace Verif.Lock

/-- C90, partial: if PEs inside calls are given steps, holders clear what they hold unless a call of theirs never returns,
and locks are set in increasing order, then every call on every lock returns, and `shmem_set_lock` returns with the lock.
For any number of PEs and locks and any use of the rest of memory.  Missing from the full claim: `Uniform` (see C89). -/
theorem C90_progress_partial {C : Cfg} (wf : C.WF) (un : C.Uniform) (R : WRun C) (sc : R.Scheduled) (rel : R.Releasing)
    (ord : R.Ordered) {l p : Nat} (hl : l < C.m) (hp : p < C.n) (i : Nat) :
    (R.InCall i l p → ∃ j, i ≤ j ∧ ¬ R.InCall j l p) ∧
    ((R.st i).pc l p = .setReset ∨ (R.st i).pc l p = .setSwap ∨ (∃ c, (R.st i).pc l p = .setLink c) ∨
      (R.st i).pc l p = .setSpin → ∃ j, i ≤ j ∧ (R.st j).pc l p = .held) := by
  have fair := proj_fair R wf un sc rel ord _ l hl rfl
  obtain ⟨h1, h2, h3⟩ := C03_progress_partial wf.max (proj R wf un l hl) fair hp i
  have h1' : (R.st i).pc l p = .setReset ∨ (R.st i).pc l p = .setSwap ∨ (∃ c, (R.st i).pc l p = .setLink c) ∨
      (R.st i).pc l p = .setSpin → ∃ j, i ≤ j ∧ (R.st j).pc l p = .held := h1
  refine ⟨?_, h1'⟩
  intro hin
  have out : ∀ {j}, ((R.st j).pc l p = .idle ∨ (R.st j).pc l p = .held) → ¬ R.InCall j l p := by
    intro j h hin
    unfold WRun.InCall at hin
    rcases h with h | h <;> (rw [h] at hin; cases hin)
  have a1 : (∃ j, i ≤ j ∧ (R.st j).pc l p = .held) → ∃ j, i ≤ j ∧ ¬ R.InCall j l p :=
    fun ⟨j, hj, h⟩ => ⟨j, hj, out (Or.inr h)⟩
  have a2 : (∃ j, i ≤ j ∧ (R.st j).pc l p = .idle) → ∃ j, i ≤ j ∧ ¬ R.InCall j l p :=
    fun ⟨j, hj, h⟩ => ⟨j, hj, out (Or.inl h)⟩
  unfold WRun.InCall at hin
  cases hc : (R.st i).pc l p with
  | idle => rw [hc] at hin; cases hin
  | held => rw [hc] at hin; cases hin
  | setReset => exact a1 (h1' (Or.inl hc))
  | setSwap => exact a1 (h1' (Or.inr (Or.inl hc)))
  | setLink c => exact a1 (h1' (Or.inr (Or.inr (Or.inl ⟨c, hc⟩))))
  | setSpin => exact a1 (h1' (Or.inr (Or.inr (Or.inr hc))))
  | clrCas => exact a2 (h2 (Or.inl hc))
  | clrSpin => exact a2 (h2 (Or.inr (Or.inl hc)))
  | clrReset c => exact a2 (h2 (Or.inr (Or.inr (Or.inl ⟨c, hc⟩))))
  | clrSignal c => exact a2 (h2 (Or.inr (Or.inr (Or.inr ⟨c, hc⟩))))
  | testCas =>
    obtain ⟨j, hj, h⟩ := h3 hc
    exact ⟨j, hj, out (Or.symm h)⟩

/-- C90, partial: `shmem_clear_lock` and `shmem_test_lock` return whatever the programs do with their locks, in whatever order
they set them and even if no holder ever clears anything: only the steps of PEs inside calls matter. -/
theorem C90_clear_test_partial {C : Cfg} (wf : C.WF) (un : C.Uniform) (R : WRun C) (sc : R.Scheduled) {l p : Nat}
    (hl : l < C.m) (hp : p < C.n) (i : Nat)
    (hi : (R.st i).pc l p = .clrCas ∨ (R.st i).pc l p = .clrSpin ∨ (∃ c, (R.st i).pc l p = .clrReset c) ∨
      (∃ c, (R.st i).pc l p = .clrSignal c) ∨ (R.st i).pc l p = .testCas) :
    ∃ j, i ≤ j ∧ ((R.st j).pc l p = .idle ∨ (R.st j).pc l p = .held) :=
  Live.wreturns (proj R wf un l hl) wf.max (proj_wfair R wf un sc l hl) hp i hi

/-! ## The order is needed -/

set_option synthInstance.maxSize 4000
set_option synthInstance.maxHeartbeats 200000

/-- The states of a system that follows a given sequence of actions. -/
def follow (C : Cfg) (f : Nat → Option (Nat × Nat × Act)) : Nat → WState
  | 0 => zeros
  | i + 1 => match f i with
    | none => follow C f i
    | some (l, p, a) => match wstep C (follow C f i) l p a with
      | none => follow C f i
      | some r => r.1

/-- A sequence of actions each of which can be taken when its turn comes is a run. -/
def WRun.ofActs (C : Cfg) (f : Nat → Option (Nat × Nat × Act))
    (h : ∀ i l p a, f i = some (l, p, a) → l < C.m ∧ p < C.n ∧ (wstep C (follow C f i) l p a).isSome = true) : WRun C where
  st := follow C f
  act := f
  start := zeros_init C
  next := by
    intro i
    cases hf : f i with
    | none =>
      left
      have e : follow C f (i+1) = follow C f i := by simp only [follow, hf]
      rw [e]
      exact ⟨rfl, rfl, fun _ _ _ _ => rfl⟩
    | some x =>
      obtain ⟨l, p, a⟩ := x
      obtain ⟨h1, h2, h3⟩ := h i l p a hf
      obtain ⟨r, hr⟩ := Option.isSome_iff_exists.1 h3
      right
      refine ⟨l, p, a, r.2, rfl, h1, h2, ?_⟩
      have e : follow C f (i+1) = r.1 := by simp only [follow, hf, hr]
      rw [e, hr]

/-- PE 0 takes lock 0 then asks for lock 1, PE 1 takes lock 1 then asks for lock 0. -/
def embrace : List (Nat × Nat × Act) :=
  [(0, 0, .callSet), (0, 0, .run), (0, 0, .run), (1, 1, .callSet), (1, 1, .run), (1, 1, .run),
   (1, 0, .callSet), (1, 0, .run), (1, 0, .run), (1, 0, .run), (0, 1, .callSet), (0, 1, .run), (0, 1, .run), (0, 1, .run)]

/-- ... and then both poll for ever. -/
def embraceActs (i : Nat) : Option (Nat × Nat × Act) :=
  if i < 14 then embrace[i]? else if i % 2 = 0 then some (1, 0, .run) else some (0, 1, .run)

/-- the state in which they are stuck -/
def stuck : WState := follow apart embraceActs 14

theorem stuck_poll : wstep apart stuck 1 0 .run = some (stuck, []) ∧ wstep apart stuck 0 1 .run = some (stuck, []) := by
  have d1 : apart.lastDisp 1 0 = .ok 0x88#64 := by decide +kernel
  have d2 : apart.lastDisp 0 1 = .ok 0x80#64 := by decide +kernel
  have p1 : stuck.pc 1 0 = .setSpin := by decide +kernel
  have p2 : stuck.pc 0 1 = .setSpin := by decide +kernel
  have z1 : ¬ SIGNAL (rd (stuck.mem 0) (apart.at_ 1 0 (nextDisp 0x88#64))) ≠ 0 := by decide +kernel
  have z2 : ¬ SIGNAL (rd (stuck.mem 1) (apart.at_ 0 1 (nextDisp 0x80#64))) ≠ 0 := by decide +kernel
  constructor
  · simp only [wstep, d1, p1]; rw [if_neg z1]
  · simp only [wstep, d2, p2]; rw [if_neg z2]

theorem embrace_stuck (k : Nat) : follow apart embraceActs (14 + k) = stuck := by
  induction k with
  | zero => rfl
  | succ k ih =>
    show follow apart embraceActs ((14 + k) + 1) = stuck
    have hlt : ¬ 14 + k < 14 := by omega
    by_cases hk : (14 + k) % 2 = 0
    · have hf : embraceActs (14 + k) = some (1, 0, .run) := by simp only [embraceActs, if_neg hlt, if_pos hk]
      simp only [follow, hf, ih, stuck_poll.1]
    · have hf : embraceActs (14 + k) = some (0, 1, .run) := by simp only [embraceActs, if_neg hlt, if_neg hk]
      simp only [follow, hf, ih, stuck_poll.2]

theorem embrace_ok : ∀ i l p a, embraceActs i = some (l, p, a) →
    l < apart.m ∧ p < apart.n ∧ (wstep apart (follow apart embraceActs i) l p a).isSome = true := by
  intro i l p a hf
  by_cases hi : i < 14
  · have chk : ∀ i, i < 14 → (match embraceActs i with
        | none => true
        | some (l, p, a) => decide (l < 2) && decide (p < 3) && (wstep apart (follow apart embraceActs i) l p a).isSome)
        = true := by decide +kernel
    have := chk i hi
    rw [hf] at this
    simp only [Bool.and_eq_true, decide_eq_true_eq] at this
    exact ⟨this.1.1, this.1.2, this.2⟩
  · obtain ⟨k, rfl⟩ : ∃ k, i = 14 + k := ⟨i - 14, by omega⟩
    rw [embrace_stuck]
    simp only [embraceActs, if_neg hi] at hf
    split at hf
    · simp only [Option.some.injEq, Prod.mk.injEq] at hf
      obtain ⟨rfl, rfl, rfl⟩ := hf
      exact ⟨by decide, by decide, by rw [stuck_poll.1]; rfl⟩
    · simp only [Option.some.injEq, Prod.mk.injEq] at hf
      obtain ⟨rfl, rfl, rfl⟩ := hf
      exact ⟨by decide, by decide, by rw [stuck_poll.2]; rfl⟩

/-- C90: the order is needed (this is a property of locks, not a fault of the library): two PEs that take two locks in opposite
orders, with every PE given its steps, can wait for ever. -/
theorem C90_order_needed : ∃ (C : Cfg) (R : WRun C), C.WF ∧ C.Uniform ∧ R.Scheduled ∧ R.Releasing ∧
    ∃ i, ∀ j, i ≤ j → R.InCall j 1 0 ∧ R.InCall j 0 1 := by
  let R : WRun apart := WRun.ofActs apart embraceActs embrace_ok
  have hst : ∀ j, 14 ≤ j → R.st j = stuck := by
    intro j hj
    obtain ⟨k, rfl⟩ : ∃ k, j = 14 + k := ⟨j - 14, by omega⟩
    exact embrace_stuck k
  have f1 : ∀ j, 14 ≤ j → R.InCall j 1 0 := by
    intro j hj
    show ((R.st j).pc 1 0).rest = false
    rw [hst j hj]; decide +kernel
  have f2 : ∀ j, 14 ≤ j → R.InCall j 0 1 := by
    intro j hj
    show ((R.st j).pc 0 1).rest = false
    rw [hst j hj]; decide +kernel
  refine ⟨apart, R, apart_wf, apart_uniform, ?_, ?_, 14, fun j hj => ⟨f1 j hj, f2 j hj⟩⟩
  · intro l p i hl hp hin
    have act1 : ∃ j, i ≤ j ∧ R.act j = some (1, 0, .run) := by
      refine ⟨2 * (i + 14), by omega, ?_⟩
      show embraceActs (2 * (i + 14)) = _
      simp only [embraceActs, if_neg (show ¬ 2 * (i + 14) < 14 by omega), if_pos (show 2 * (i + 14) % 2 = 0 by omega)]
    have act2 : ∃ j, i ≤ j ∧ R.act j = some (0, 1, .run) := by
      refine ⟨2 * (i + 14) + 1, by omega, ?_⟩
      show embraceActs (2 * (i + 14) + 1) = _
      simp only [embraceActs, if_neg (show ¬ 2 * (i + 14) + 1 < 14 by omega),
        if_neg (show ¬ (2 * (i + 14) + 1) % 2 = 0 by omega)]
    have chk : ∀ i, i < 15 → ∀ l, l < 2 → ∀ p, p < 3 → ((follow apart embraceActs i).pc l p).rest = false →
        (l = 1 ∧ p = 0) ∨ (l = 0 ∧ p = 1) ∨
          (i < 14 ∧ ∃ j, j < 14 ∧ i ≤ j ∧ embraceActs j = some (l, p, .run)) := by decide +kernel
    have hin' : ((follow apart embraceActs (min i 14)).pc l p).rest = false := by
      by_cases hi : i < 14
      · rw [Nat.min_eq_left (by omega)]; exact hin
      · rw [Nat.min_eq_right (by omega)]
        have : ((R.st i).pc l p).rest = false := hin
        rw [hst i (by omega)] at this; exact this
    rcases chk (min i 14) (by omega) l hl p hp hin' with ⟨rfl, rfl⟩ | ⟨rfl, rfl⟩ | ⟨hlt, j, _, hj, ha⟩
    · exact act1
    · exact act2
    · exact ⟨j, by omega, ha⟩
  · intro l p i hl hp hh
    right
    have chk : ∀ i, i < 15 → ∀ l, l < 2 → ∀ p, p < 3 → (follow apart embraceActs i).pc l p = .held → p = 0 ∨ p = 1 := by
      decide +kernel
    have hh' : (follow apart embraceActs (min i 14)).pc l p = .held := by
      by_cases hi : i < 14
      · rw [Nat.min_eq_left (by omega)]; exact hh
      · rw [Nat.min_eq_right (by omega)]
        have : (R.st i).pc l p = .held := hh
        rw [hst i (by omega)] at this; exact this
    rcases chk (min i 14) (by omega) l hl p hp hh' with rfl | rfl
    · exact ⟨1, i + 14, by decide, by omega, fun j' hj' => f1 j' (by omega)⟩
    · exact ⟨0, i + 14, by decide, by omega, fun j' hj' => f2 j' (by omega)⟩

/-! ## Non-vacuity -/

/-- PE 0 and PE 1 both take lock 0 then lock 1 (contended), and clear both; PE 2 tests lock 1 meanwhile. -/
def orderly : List (Nat × Nat × Act) :=
  [(0, 0, .callSet), (0, 0, .run), (0, 0, .run), (0, 1, .callSet), (0, 1, .run), (0, 1, .run), (0, 1, .run),
   (1, 0, .callSet), (1, 0, .run), (1, 0, .run), (1, 2, .callTest), (1, 2, .run), (0, 1, .run),
   (0, 0, .callClear), (0, 0, .run), (0, 0, .run), (0, 0, .run), (0, 0, .run), (0, 1, .run),
   (1, 1, .callSet), (1, 1, .run), (1, 1, .run), (1, 1, .run), (1, 0, .callClear), (1, 0, .run), (1, 0, .run), (1, 0, .run),
   (1, 0, .run), (1, 1, .run), (1, 1, .callClear), (1, 1, .run), (0, 1, .callClear), (0, 1, .run)]

def orderlyActs (i : Nat) : Option (Nat × Nat × Act) := orderly[i]?

theorem orderlyActs_none {i : Nat} (h : 33 ≤ i) : orderlyActs i = none := by
  unfold orderlyActs
  rw [List.getElem?_eq_none_iff]
  have : orderly.length = 33 := by decide
  omega

theorem orderly_end (k : Nat) : follow apart orderlyActs (33 + k) = follow apart orderlyActs 33 := by
  induction k with
  | zero => rfl
  | succ k ih =>
    show follow apart orderlyActs ((33 + k) + 1) = _
    simp only [follow, orderlyActs_none (show 33 ≤ 33 + k by omega)]
    exact ih

theorem orderly_ok : ∀ i l p a, orderlyActs i = some (l, p, a) →
    l < apart.m ∧ p < apart.n ∧ (wstep apart (follow apart orderlyActs i) l p a).isSome = true := by
  intro i l p a hf
  by_cases hi : i < 33
  · have chk : ∀ i, i < 33 → (match orderlyActs i with
        | none => true
        | some (l, p, a) => decide (l < 2) && decide (p < 3) && (wstep apart (follow apart orderlyActs i) l p a).isSome)
        = true := by decide +kernel
    have := chk i hi
    rw [hf] at this
    simp only [Bool.and_eq_true, decide_eq_true_eq] at this
    exact ⟨this.1.1, this.1.2, this.2⟩
  · rw [orderlyActs_none (by omega)] at hf; cases hf

/-- A run that meets all hypotheses of C90, in which PE 1 waits for lock 0 while PE 0 goes on to lock 1. -/
example : ∃ R : WRun apart, apart.WF ∧ apart.Uniform ∧ R.Scheduled ∧ R.Releasing ∧ R.Ordered ∧
    (R.st 7).pc 0 1 = .setSpin ∧ (R.st 10).pc 1 0 = .held ∧ (R.st 10).pc 0 0 = .held := by
  let R : WRun apart := WRun.ofActs apart orderlyActs orderly_ok
  have hst : ∀ j, 33 ≤ j → R.st j = follow apart orderlyActs 33 := by
    intro j hj
    obtain ⟨k, rfl⟩ : ∃ k, j = 33 + k := ⟨j - 33, by omega⟩
    exact orderly_end k
  have fin : ∀ l, l < 2 → ∀ p, p < 3 → (follow apart orderlyActs 33).pc l p = .idle := by decide +kernel
  refine ⟨R, apart_wf, apart_uniform, ?_, ?_, ?_, by decide +kernel, by decide +kernel, by decide +kernel⟩
  · intro l p i hl hp hin
    have hin' : ((R.st i).pc l p).rest = false := hin
    by_cases hi : i < 33
    · have chk : ∀ i, i < 33 → ∀ l, l < 2 → ∀ p, p < 3 → ((follow apart orderlyActs i).pc l p).rest = false →
          ∃ j, j < 33 ∧ i ≤ j ∧ orderlyActs j = some (l, p, .run) := by decide +kernel
      obtain ⟨j, _, h1, h2⟩ := chk i hi l hl p hp hin'
      exact ⟨j, h1, h2⟩
    · rw [hst i (by omega), fin l hl p hp] at hin'; cases hin'
  · intro l p i hl hp hh
    by_cases hi : i < 33
    · have chk : ∀ i, i < 33 → ∀ l, l < 2 → ∀ p, p < 3 → (follow apart orderlyActs i).pc l p = .held →
          ∃ j, j < 33 ∧ i ≤ j ∧ orderlyActs j = some (l, p, .callClear) := by decide +kernel
      obtain ⟨j, _, h1, h2⟩ := chk i hi l hl p hp hh
      exact Or.inl ⟨j, h1, h2⟩
    · rw [hst i (by omega), fin l hl p hp] at hh; cases hh
  · intro i l p ha k hk hh
    by_cases hi : i < 33
    · have chk : ∀ i, i < 33 → ∀ l, l < 2 → ∀ p, p < 3 → orderlyActs i = some (l, p, .callSet) →
          ∀ k, k < 2 → (follow apart orderlyActs i).pc k p = .held → k < l := by decide +kernel
      obtain ⟨hl, hp, _⟩ := orderly_ok i l p .callSet ha
      exact chk i hi l hl p hp ha k hk hh
    · have : orderlyActs i = some (l, p, .callSet) := ha
      rw [orderlyActs_none (by omega)] at this; cases this

end Verif.Lock
