import Mathlib.Data.List.Basic
import Mathlib.Logic.Function.Basic
/-!
# Operation tracking under concurrent threads

`/repo/src/internal/order_impl.h` L23-34 (`ctx_flush_impl`) and L67-96 (`OSHMPI_ctx_quiet`), and the issuing side
`MPI_Put` ... `OSHMPI_SET_OUTSTANDING_OP` (rma_impl.h L28-31, L49-52; amo_impl.h L23-31, L45-50, L66-71), cut at every
access to the shared flag and at every MPI call. Threads of one PE share the window slots (numbered 0, 1, ...); the
flags are atomic (oshmpi_util.h L219-261). The slots a quiet visits are a fixed list: spaces are not created or
destroyed meanwhile. The active-message flush that follows is in `Am`.
-/
namespace Verif.Order.Threads

/-- where a thread is -/
inductive Pc where
  /-- outside the library -/
  | idle
  /-- operation `id` handed to MPI on slot `i`, flag not yet stored -/
  | issued (i id : Nat)
  /-- in quiet, slots still to visit; about to load the flag of the first -/
  | visit (todo : List Nat)
  /-- about to call `MPI_Win_flush_all` on slot `i` (order_impl.h L27) -/
  | flush (i : Nat) (todo : List Nat)
  /-- flushed slot `i`, about to store 0 to its flag (order_impl.h L32) -/
  | reset (i : Nat) (todo : List Nat)
deriving DecidableEq, Repr

/-- Flags, outstanding operations (slot, id), threads; ghosts: number of operations issued so far, operations whose
call has returned, and for each thread those that had returned when its current quiet was called. -/
structure St where
  flag : Nat → Bool
  pend : List (Nat × Nat)
  pc : Nat → Pc
  next : Nat
  ret : List Nat
  snap : Nat → List Nat

/-- start -/
def init : St := ⟨fun _ => false, [], fun _ => .idle, 0, [], fun _ => []⟩

/-- atomic steps of thread `t`, and MPI completing an operation by itself -/
inductive Ev where
  | issue (t i : Nat)
  | setFlag (t : Nat)
  | quiet (t : Nat)
  | load (t : Nat)
  | flush (t : Nat)
  | reset (t : Nat)
  | ret (t : Nat)
  | complete (id : Nat)
deriving DecidableEq, Repr

/-- One step; `slots` = what a quiet visits, `tr` = built with operation tracking. `none` = not enabled. -/
def step (tr : Bool) (slots : List Nat) (s : St) : Ev → Option St
  -- MPI_Put / MPI_Accumulate / ... on the slot's window
  | .issue t i =>
    if s.pc t = .idle ∧ i ∈ slots then
      some { s with pend := s.pend ++ [(i, s.next)], next := s.next + 1, pc := Function.update s.pc t (.issued i s.next) }
    else none
  -- OSHMPI_SET_OUTSTANDING_OP (oshmpi_impl.h L822-829), then return to the user
  | .setFlag t =>
    match s.pc t with
    | .issued i id => some { s with
        flag := if tr then Function.update s.flag i true else s.flag
        pc := Function.update s.pc t .idle
        ret := s.ret ++ [id] }
    | .idle => none
    | .visit _ => none
    | .flush _ _ => none
    | .reset _ _ => none
  -- OSHMPI_ctx_quiet called
  | .quiet t =>
    if s.pc t = .idle then
      some { s with pc := Function.update s.pc t (.visit slots), snap := Function.update s.snap t s.ret }
    else none
  -- CHECK_FLAG, order_impl.h L25 (L14 without tracking)
  | .load t =>
    match s.pc t with
    | .visit (i :: todo) =>
      if tr = false ∨ s.flag i = true then some { s with pc := Function.update s.pc t (.flush i todo) }
      else some { s with pc := Function.update s.pc t (.visit todo) }
    | .visit [] => none
    | .idle => none
    | .issued _ _ => none
    | .flush _ _ => none
    | .reset _ _ => none
  -- MPI_Win_flush_all + MPI_Win_sync, order_impl.h L27-31
  | .flush t =>
    match s.pc t with
    | .flush i todo => some { s with
        pend := s.pend.filter (fun p => p.1 != i)
        pc := Function.update s.pc t (.reset i todo) }
    | .visit _ => none
    | .idle => none
    | .issued _ _ => none
    | .reset _ _ => none
  -- RESET_FLAG, order_impl.h L32
  | .reset t =>
    match s.pc t with
    | .reset i todo => some { s with
        flag := if tr then Function.update s.flag i false else s.flag
        pc := Function.update s.pc t (.visit todo) }
    | .visit _ => none
    | .idle => none
    | .issued _ _ => none
    | .flush _ _ => none
  -- the loop over the slots ends
  | .ret t => if s.pc t = .visit [] then some { s with pc := Function.update s.pc t .idle } else none
  | .complete id => some { s with pend := s.pend.filter (fun p => p.2 != id) }

/-- executions whose steps satisfy `ok` -/
inductive Reach (tr : Bool) (slots : List Nat) (ok : St → Ev → Prop) : St → Prop
  | init : Reach tr slots ok init
  | step {s s'} (e : Ev) (h : Reach tr slots ok s) (o : ok s e) (hs : step tr slots s e = some s') :
      Reach tr slots ok s'

/-- a fixed sequence of steps, for concrete executions -/
def run (tr : Bool) (slots : List Nat) (s : St) : List Ev → Option St
  | [] => some s
  | e :: es => (step tr slots s e).bind (fun s' => run tr slots s' es)

theorem reach_run {tr : Bool} {slots : List Nat} {s s' : St} {es : List Ev}
    (h : Reach tr slots (fun _ _ => True) s) (hr : run tr slots s es = some s') :
    Reach tr slots (fun _ _ => True) s' := by
  induction es generalizing s with
  | nil => cases hr; exact h
  | cons e es ih =>
    simp only [run] at hr
    cases hs : step tr slots s e with
    | none => rw [hs] at hr; cases hr
    | some s1 => rw [hs] at hr; exact ih (Reach.step e h trivial hs) hr

/-- slots thread `t`'s quiet has still to complete -/
def rest : Pc → Option (List Nat)
  | .visit todo => some todo
  | .flush i todo => some (i :: todo)
  | .reset _ todo => some todo
  | .idle => none
  | .issued _ _ => none

/-- invariant without tracking, and with tracking under the side condition -/
structure Inv (tr : Bool) (slots : List Nat) (s : St) : Prop where
  lt : ∀ p ∈ s.pend, p.2 < s.next
  slot : ∀ p ∈ s.pend, p.1 ∈ slots
  retLt : ∀ id ∈ s.ret, id < s.next
  issuedLt : ∀ t i id, s.pc t = .issued i id → id < s.next ∧ id ∉ s.ret
  issuedNe : ∀ t t' i i' id, s.pc t = .issued i id → s.pc t' = .issued i' id → t = t'
  snap : ∀ t, ∀ id ∈ s.snap t, id ∈ s.ret
  /-- what a quiet has passed is complete -/
  quiet : ∀ t l, rest (s.pc t) = some l → ∀ p ∈ s.pend, p.2 ∈ s.snap t → p.1 ∈ l
  /-- with tracking: an outstanding operation has its slot's flag set, or its call has not returned -/
  flag : tr = true → ∀ p ∈ s.pend, s.flag p.1 = true ∨ ∃ t, s.pc t = .issued p.1 p.2
  /-- with tracking: between a flush and the reset of the flag nothing is outstanding -/
  reset : tr = true → ∀ t i l, s.pc t = .reset i l → ∀ p ∈ s.pend, p.1 ≠ i

/-- side condition with tracking: no operation is handed to MPI on a slot while another thread is between the flush
and the flag reset of that slot -/
def noOverlap (s : St) : Ev → Prop
  | .issue _ i => ∀ t l, s.pc t ≠ .reset i l
  | .setFlag _ => True
  | .quiet _ => True
  | .load _ => True
  | .flush _ => True
  | .reset _ => True
  | .ret _ => True
  | .complete _ => True

theorem inv_init (tr : Bool) (slots : List Nat) : Inv tr slots init := by
  refine ⟨?_, ?_, ?_, ?_, ?_, ?_, ?_, ?_, ?_⟩ <;> simp [init]

theorem upd {α : Type} (f : Nat → α) (t u : Nat) (v : α) :
    (u = t ∧ Function.update f t v u = v) ∨ (u ≠ t ∧ Function.update f t v u = f u) := by
  by_cases h : u = t
  · subst h; exact Or.inl ⟨rfl, Function.update_self ..⟩
  · exact Or.inr ⟨h, Function.update_of_ne h ..⟩

theorem step_inv {tr : Bool} {slots : List Nat} {s s' : St} {e : Ev} (hi : Inv tr slots s)
    (ho : tr = true → noOverlap s e) (h : step tr slots s e = some s') : Inv tr slots s' := by
  cases e with
  | issue t i =>
    simp only [step] at h
    split at h
    · rename_i ht
      obtain ⟨ht, hsl⟩ := ht
      cases h
      refine ⟨?_, ?_, ?_, ?_, ?_, hi.snap, ?_, ?_, ?_⟩
      · intro p hp
        rcases List.mem_append.mp hp with hp | hp
        · have := hi.lt p hp; show p.2 < s.next + 1; omega
        · rw [List.mem_singleton] at hp; subst hp; exact Nat.lt_succ_self _
      · intro p hp
        rcases List.mem_append.mp hp with hp | hp
        · exact hi.slot p hp
        · rw [List.mem_singleton] at hp; subst hp; exact hsl
      · intro id hid
        have := hi.retLt id hid
        show id < s.next + 1; omega
      · intro u j id hu
        rcases upd s.pc t u (.issued i s.next) with ⟨_, h⟩ | ⟨_, h⟩
        · simp only [h] at hu; cases hu
          exact ⟨Nat.lt_succ_self _, fun hm => absurd (hi.retLt _ hm) (Nat.lt_irrefl _)⟩
        · simp only [h] at hu
          have := hi.issuedLt u j id hu
          exact ⟨Nat.lt_succ_of_lt this.1, this.2⟩
      · intro u u' j j' id hu hu'
        rcases upd s.pc t u (.issued i s.next) with ⟨e1, h1⟩ | ⟨_, h1⟩ <;>
        rcases upd s.pc t u' (.issued i s.next) with ⟨e2, h2⟩ | ⟨_, h2⟩ <;> simp only [h1, h2] at hu hu'
        · rw [e1, e2]
        · cases hu; exact absurd (hi.issuedLt u' j' _ hu').1 (Nat.lt_irrefl _)
        · cases hu'; exact absurd (hi.issuedLt u j _ hu).1 (Nat.lt_irrefl _)
        · exact hi.issuedNe u u' j j' id hu hu'
      · intro u l hl p hp hs
        rcases upd s.pc t u (.issued i s.next) with ⟨_, h⟩ | ⟨_, h⟩
        · simp only [h] at hl; cases hl
        · simp only [h] at hl
          rcases List.mem_append.mp hp with hp | hp
          · exact hi.quiet u l hl p hp hs
          · rw [List.mem_singleton] at hp; subst hp
            exact absurd (hi.retLt _ (hi.snap u _ hs)) (Nat.lt_irrefl _)
      · intro htr p hp
        rcases List.mem_append.mp hp with hp | hp
        · rcases hi.flag htr p hp with h | ⟨u, hu⟩
          · exact Or.inl h
          · refine Or.inr ⟨u, ?_⟩
            rcases upd s.pc t u (.issued i s.next) with ⟨e1, h⟩ | ⟨_, h⟩
            · rw [e1, ht] at hu; cases hu
            · simp only [h]; exact hu
        · rw [List.mem_singleton] at hp; subst hp
          exact Or.inr ⟨t, by simp⟩
      · intro htr u j l hu p hp
        rcases upd s.pc t u (.issued i s.next) with ⟨_, h⟩ | ⟨_, h⟩
        · simp only [h] at hu; cases hu
        · simp only [h] at hu
          rcases List.mem_append.mp hp with hp | hp
          · exact hi.reset htr u j l hu p hp
          · rw [List.mem_singleton] at hp; subst hp
            rintro rfl
            exact ho htr u l hu
    · cases h
  | setFlag t =>
    simp only [step] at h
    split at h
    · rename_i i id ht
      cases h
      have hne : ∀ u j, u ≠ t → s.pc u ≠ .issued j id := fun u j hn hu => hn (hi.issuedNe u t j i id hu ht)
      refine ⟨hi.lt, hi.slot, ?_, ?_, ?_, ?_, ?_, ?_, ?_⟩
      · intro x hx
        rcases List.mem_append.mp hx with hx | hx
        · exact hi.retLt x hx
        · rw [List.mem_singleton] at hx; subst hx; exact (hi.issuedLt t i x ht).1
      · intro u j x hu
        rcases upd s.pc t u .idle with ⟨_, h⟩ | ⟨hn, h⟩
        · simp only [h] at hu; cases hu
        · simp only [h] at hu
          refine ⟨(hi.issuedLt u j x hu).1, fun hx => ?_⟩
          rcases List.mem_append.mp hx with hx | hx
          · exact (hi.issuedLt u j x hu).2 hx
          · rw [List.mem_singleton] at hx; subst hx; exact hne u j hn hu
      · intro u u' j j' x hu hu'
        rcases upd s.pc t u .idle with ⟨_, h⟩ | ⟨_, h⟩
        · simp only [h] at hu; cases hu
        · rcases upd s.pc t u' .idle with ⟨_, h'⟩ | ⟨_, h'⟩
          · simp only [h'] at hu'; cases hu'
          · simp only [h, h'] at hu hu'
            exact hi.issuedNe u u' j j' x hu hu'
      · intro u x hx
        exact List.mem_append_left _ (hi.snap u x hx)
      · intro u l hl p hp hs
        rcases upd s.pc t u .idle with ⟨_, h⟩ | ⟨_, h⟩
        · simp only [h] at hl; cases hl
        · simp only [h] at hl
          exact hi.quiet u l hl p hp hs
      · intro htr p hp
        simp only [htr, if_true]
        by_cases hpi : p.1 = i
        · left; rw [hpi, Function.update_self]
        · rw [Function.update_of_ne hpi]
          rcases hi.flag htr p hp with h | ⟨u, hu⟩
          · exact Or.inl h
          · refine Or.inr ⟨u, ?_⟩
            rcases upd s.pc t u .idle with ⟨e1, h⟩ | ⟨_, h⟩
            · rw [e1, ht] at hu; cases hu; exact absurd rfl hpi
            · simp only [h]; exact hu
      · intro htr u j l hu p hp
        rcases upd s.pc t u .idle with ⟨_, h⟩ | ⟨_, h⟩
        · simp only [h] at hu; cases hu
        · simp only [h] at hu
          exact hi.reset htr u j l hu p hp
    · cases h
    · cases h
    · cases h
    · cases h
  | quiet t =>
    simp only [step] at h
    split at h
    · rename_i ht
      cases h
      refine ⟨hi.lt, hi.slot, hi.retLt, ?_, ?_, ?_, ?_, ?_, ?_⟩
      · intro u j x hu
        rcases upd s.pc t u (.visit slots) with ⟨_, h⟩ | ⟨hn, h⟩
        · simp only [h] at hu; cases hu
        · simp only [h] at hu; exact hi.issuedLt u j x hu
      · intro u u' j j' x hu hu'
        rcases upd s.pc t u (.visit slots) with ⟨_, h⟩ | ⟨_, h⟩
        · simp only [h] at hu; cases hu
        · rcases upd s.pc t u' (.visit slots) with ⟨_, h'⟩ | ⟨_, h'⟩
          · simp only [h'] at hu'; cases hu'
          · simp only [h, h'] at hu hu'
            exact hi.issuedNe u u' j j' x hu hu'
      · intro u x hx
        rcases upd s.snap t u s.ret with ⟨_, h⟩ | ⟨_, h⟩ <;> simp only [h] at hx
        · exact hx
        · exact hi.snap u x hx
      · intro u l hl p hp hs
        rcases upd s.pc t u (.visit slots) with ⟨_, h⟩ | ⟨hn, h⟩
        · simp only [h, rest, Option.some.injEq] at hl
          rw [← hl]; exact hi.slot p hp
        · simp only [h] at hl
          simp only [Function.update_of_ne hn] at hs
          exact hi.quiet u l hl p hp hs
      · intro htr p hp
        rcases hi.flag htr p hp with h | ⟨u, hu⟩
        · exact Or.inl h
        · refine Or.inr ⟨u, ?_⟩
          rcases upd s.pc t u (.visit slots) with ⟨e1, h⟩ | ⟨_, h⟩
          · rw [e1, ht] at hu; cases hu
          · simp only [h]; exact hu
      · intro htr u j l hu p hp
        rcases upd s.pc t u (.visit slots) with ⟨_, h⟩ | ⟨_, h⟩
        · simp only [h] at hu; cases hu
        · simp only [h] at hu
          exact hi.reset htr u j l hu p hp
    · cases h
  | load t =>
    simp only [step] at h
    split at h
    · rename_i i todo ht
      have gen : ∀ v : Pc, (∀ j x, v ≠ .issued j x) → (∀ j l, v ≠ .reset j l) →
          (∀ l, rest v = some l → ∀ p ∈ s.pend, p.2 ∈ s.snap t → p.1 ∈ l) →
          Inv tr slots { s with pc := Function.update s.pc t v } := by
        intro v hv1 hv2 hv3
        refine ⟨hi.lt, hi.slot, hi.retLt, ?_, ?_, hi.snap, ?_, ?_, ?_⟩
        · intro u j x hu
          rcases upd s.pc t u v with ⟨_, h⟩ | ⟨hn, h⟩
          · simp only [h] at hu; exact absurd hu (hv1 j x)
          · simp only [h] at hu; exact hi.issuedLt u j x hu
        · intro u u' j j' x hu hu'
          rcases upd s.pc t u v with ⟨_, h⟩ | ⟨_, h⟩
          · simp only [h] at hu; exact absurd hu (hv1 j x)
          · rcases upd s.pc t u' v with ⟨_, h'⟩ | ⟨_, h'⟩
            · simp only [h'] at hu'; exact absurd hu' (hv1 j' x)
            · simp only [h, h'] at hu hu'
              exact hi.issuedNe u u' j j' x hu hu'
        · intro u l hl p hp hs
          rcases upd s.pc t u v with ⟨e1, h⟩ | ⟨hn, h⟩
          · simp only [h] at hl
            subst e1
            exact hv3 l hl p hp hs
          · simp only [h] at hl
            exact hi.quiet u l hl p hp hs
        · intro htr p hp
          rcases hi.flag htr p hp with h | ⟨u, hu⟩
          · exact Or.inl h
          · refine Or.inr ⟨u, ?_⟩
            rcases upd s.pc t u v with ⟨e1, h⟩ | ⟨_, h⟩
            · rw [e1, ht] at hu; cases hu
            · simp only [h]; exact hu
        · intro htr u j l hu p hp
          rcases upd s.pc t u v with ⟨_, h⟩ | ⟨_, h⟩
          · simp only [h] at hu; exact absurd hu (hv2 j l)
          · simp only [h] at hu
            exact hi.reset htr u j l hu p hp
      have hq := hi.quiet t (i :: todo) (by rw [ht]; rfl)
      split at h
      · cases h
        refine gen _ (by simp) (by simp) ?_
        intro l hl p hp hs
        simp only [rest, Option.some.injEq] at hl
        subst hl
        exact hq p hp hs
      · rename_i hc
        cases h
        refine gen _ (by simp) (by simp) ?_
        intro l hl p hp hs
        simp only [rest, Option.some.injEq] at hl
        subst hl
        rcases List.mem_cons.mp (hq p hp hs) with h1 | h1
        · exfalso
          have htr : tr = true := by
            cases htr : tr with
            | true => rfl
            | false => exact absurd (Or.inl htr) hc
          rcases hi.flag htr p hp with h2 | ⟨u, hu⟩
          · rw [h1] at h2; exact hc (Or.inr h2)
          · exact (hi.issuedLt u _ _ hu).2 (hi.snap t _ hs)
        · exact h1
    · cases h
    · cases h
    · cases h
    · cases h
    · cases h
  | flush t =>
    simp only [step] at h
    split at h
    · rename_i i todo ht
      cases h
      have hm : ∀ p ∈ s.pend.filter (fun p => p.1 != i), p ∈ s.pend ∧ p.1 ≠ i := by
        intro p hp
        obtain ⟨a, b⟩ := List.mem_filter.mp hp
        exact ⟨a, by simpa using b⟩
      refine ⟨fun p hp => hi.lt p (hm p hp).1, fun p hp => hi.slot p (hm p hp).1, hi.retLt, ?_, ?_, hi.snap, ?_, ?_, ?_⟩
      · intro u j x hu
        rcases upd s.pc t u (.reset i todo) with ⟨_, h⟩ | ⟨hn, h⟩
        · simp only [h] at hu; cases hu
        · simp only [h] at hu; exact hi.issuedLt u j x hu
      · intro u u' j j' x hu hu'
        rcases upd s.pc t u (.reset i todo) with ⟨_, h⟩ | ⟨_, h⟩
        · simp only [h] at hu; cases hu
        · rcases upd s.pc t u' (.reset i todo) with ⟨_, h'⟩ | ⟨_, h'⟩
          · simp only [h'] at hu'; cases hu'
          · simp only [h, h'] at hu hu'
            exact hi.issuedNe u u' j j' x hu hu'
      · intro u l hl p hp hs
        rcases upd s.pc t u (.reset i todo) with ⟨e1, h⟩ | ⟨hn, h⟩
        · simp only [h, rest, Option.some.injEq] at hl
          subst hl; subst e1
          rcases List.mem_cons.mp (hi.quiet u (i :: todo) (by rw [ht]; rfl) p (hm p hp).1 hs) with h1 | h1
          · exact absurd h1 (hm p hp).2
          · exact h1
        · simp only [h] at hl
          exact hi.quiet u l hl p (hm p hp).1 hs
      · intro htr p hp
        rcases hi.flag htr p (hm p hp).1 with h | ⟨u, hu⟩
        · exact Or.inl h
        · refine Or.inr ⟨u, ?_⟩
          rcases upd s.pc t u (.reset i todo) with ⟨e1, h⟩ | ⟨_, h⟩
          · rw [e1, ht] at hu; cases hu
          · simp only [h]; exact hu
      · intro htr u j l hu p hp
        rcases upd s.pc t u (.reset i todo) with ⟨_, h⟩ | ⟨_, h⟩
        · simp only [h] at hu; cases hu; exact (hm p hp).2
        · simp only [h] at hu
          exact hi.reset htr u j l hu p (hm p hp).1
    · cases h
    · cases h
    · cases h
    · cases h
  | reset t =>
    simp only [step] at h
    split at h
    · rename_i i todo ht
      cases h
      refine ⟨hi.lt, hi.slot, hi.retLt, ?_, ?_, hi.snap, ?_, ?_, ?_⟩
      · intro u j x hu
        rcases upd s.pc t u (.visit todo) with ⟨_, h⟩ | ⟨hn, h⟩
        · simp only [h] at hu; cases hu
        · simp only [h] at hu; exact hi.issuedLt u j x hu
      · intro u u' j j' x hu hu'
        rcases upd s.pc t u (.visit todo) with ⟨_, h⟩ | ⟨_, h⟩
        · simp only [h] at hu; cases hu
        · rcases upd s.pc t u' (.visit todo) with ⟨_, h'⟩ | ⟨_, h'⟩
          · simp only [h'] at hu'; cases hu'
          · simp only [h, h'] at hu hu'
            exact hi.issuedNe u u' j j' x hu hu'
      · intro u l hl p hp hs
        rcases upd s.pc t u (.visit todo) with ⟨e1, h⟩ | ⟨hn, h⟩
        · simp only [h, rest, Option.some.injEq] at hl
          subst hl; subst e1
          exact hi.quiet u todo (by rw [ht]; rfl) p hp hs
        · simp only [h] at hl
          exact hi.quiet u l hl p hp hs
      · intro htr p hp
        simp only [htr, if_true]
        rw [Function.update_of_ne (hi.reset htr t i todo ht p hp)]
        rcases hi.flag htr p hp with h | ⟨u, hu⟩
        · exact Or.inl h
        · refine Or.inr ⟨u, ?_⟩
          rcases upd s.pc t u (.visit todo) with ⟨e1, h⟩ | ⟨_, h⟩
          · rw [e1, ht] at hu; cases hu
          · simp only [h]; exact hu
      · intro htr u j l hu p hp
        rcases upd s.pc t u (.visit todo) with ⟨_, h⟩ | ⟨_, h⟩
        · simp only [h] at hu; cases hu
        · simp only [h] at hu
          exact hi.reset htr u j l hu p hp
    · cases h
    · cases h
    · cases h
    · cases h
  | ret t =>
    simp only [step] at h
    split at h
    · rename_i ht
      cases h
      refine ⟨hi.lt, hi.slot, hi.retLt, ?_, ?_, hi.snap, ?_, ?_, ?_⟩
      · intro u j x hu
        rcases upd s.pc t u .idle with ⟨_, h⟩ | ⟨hn, h⟩
        · simp only [h] at hu; cases hu
        · simp only [h] at hu; exact hi.issuedLt u j x hu
      · intro u u' j j' x hu hu'
        rcases upd s.pc t u .idle with ⟨_, h⟩ | ⟨_, h⟩
        · simp only [h] at hu; cases hu
        · rcases upd s.pc t u' .idle with ⟨_, h'⟩ | ⟨_, h'⟩
          · simp only [h'] at hu'; cases hu'
          · simp only [h, h'] at hu hu'
            exact hi.issuedNe u u' j j' x hu hu'
      · intro u l hl p hp hs
        rcases upd s.pc t u .idle with ⟨e1, h⟩ | ⟨hn, h⟩
        · simp only [h] at hl; cases hl
        · simp only [h] at hl
          exact hi.quiet u l hl p hp hs
      · intro htr p hp
        rcases hi.flag htr p hp with h | ⟨u, hu⟩
        · exact Or.inl h
        · refine Or.inr ⟨u, ?_⟩
          rcases upd s.pc t u .idle with ⟨e1, h⟩ | ⟨_, h⟩
          · rw [e1, ht] at hu; cases hu
          · simp only [h]; exact hu
      · intro htr u j l hu p hp
        rcases upd s.pc t u .idle with ⟨_, h⟩ | ⟨_, h⟩
        · simp only [h] at hu; cases hu
        · simp only [h] at hu
          exact hi.reset htr u j l hu p hp
    · cases h
  | complete id =>
    cases h
    have hm : ∀ p ∈ s.pend.filter (fun p => p.2 != id), p ∈ s.pend := fun p hp => (List.mem_filter.mp hp).1
    exact ⟨fun p hp => hi.lt p (hm p hp), fun p hp => hi.slot p (hm p hp), hi.retLt, hi.issuedLt, hi.issuedNe, hi.snap,
      fun t l hl p hp => hi.quiet t l hl p (hm p hp), fun htr p hp => hi.flag htr p (hm p hp),
      fun htr t i l ht p hp => hi.reset htr t i l ht p (hm p hp)⟩

theorem inv_reach {tr : Bool} {slots : List Nat} {ok : St → Ev → Prop} (hok : tr = true → ∀ s e, ok s e → noOverlap s e)
    {s : St} (h : Reach tr slots ok s) : Inv tr slots s := by
  induction h with
  | init => exact inv_init tr slots
  | step e _ o hs ih => exact step_inv ih (fun ht => hok ht _ _ o) hs

/-- **C32, operation tracking disabled**: in every interleaving of any number of threads, when a quiet of thread `t`
returns (the step `ret t`), nothing whose call had returned when that quiet was called is outstanding, whichever
thread issued it. -/
theorem C32_untracked {slots : List Nat} {s s' : St} (h : Reach false slots (fun _ _ => True) s) {t : Nat}
    (hs : step false slots s (.ret t) = some s') : ∀ p ∈ s'.pend, p.2 ∉ s.snap t := by
  have hi := inv_reach (ok := fun _ _ => True) (fun ht => by cases ht) h
  simp only [step] at hs
  split at hs
  · rename_i ht
    cases hs
    intro p hp hm
    have := hi.quiet t [] (by rw [ht]; rfl) p hp hm
    cases this
  · cases hs

/-- **C32, operation tracking enabled, partial**: the same, provided no operation is handed to MPI on a window while
another thread is between the flush and the flag reset on that window. Missing: without that proviso the code is
wrong (`C32_tracked_fails`). -/
theorem C32_tracked_partial {slots : List Nat} {s s' : St} (h : Reach true slots noOverlap s) {t : Nat}
    (hs : step true slots s (.ret t) = some s') : ∀ p ∈ s'.pend, p.2 ∉ s.snap t := by
  have hi := inv_reach (ok := noOverlap) (fun _ _ _ o => o) h
  simp only [step] at hs
  split at hs
  · rename_i ht
    cases hs
    intro p hp hm
    have := hi.quiet t [] (by rw [ht]; rfl) p hp hm
    cases this
  · cases hs

/-- calls of different threads do not overlap (`SHMEM_THREAD_SERIALIZED` and below) -/
def serial (s : St) : Ev → Prop
  | .issue t _ => ∀ u, u ≠ t → s.pc u = .idle
  | .quiet t => ∀ u, u ≠ t → s.pc u = .idle
  | .setFlag _ => True
  | .load _ => True
  | .flush _ => True
  | .reset _ => True
  | .ret _ => True
  | .complete _ => True

/-- Up to thread level SERIALIZED quiet is correct with tracking: calls that do not overlap satisfy the proviso. -/
theorem C32_serialized {slots : List Nat} {s s' : St} (h : Reach true slots serial s) {t : Nat}
    (hs : step true slots s (.ret t) = some s') : ∀ p ∈ s'.pend, p.2 ∉ s.snap t := by
  have h' : Reach true slots noOverlap s := by
    clear hs
    induction h with
    | init => exact Reach.init
    | @step s0 s1 e h o hs ih =>
      refine Reach.step e ih ?_ hs
      cases e with
      | issue t i =>
        intro u l hu
        simp only [step] at hs
        split at hs
        · rename_i ht
          by_cases e1 : u = t
          · rw [e1, ht.1] at hu; cases hu
          · rw [o u e1] at hu; cases hu
        · cases hs
      | setFlag t => trivial
      | quiet t => trivial
      | load t => trivial
      | flush t => trivial
      | reset t => trivial
      | ret t => trivial
      | complete id => trivial
  exact C32_tracked_partial h' hs

/-- Thread 1 quiets; between its flush and its flag reset thread 2 puts and returns; thread 2 then quiets. -/
def race : List Ev :=
  [.issue 1 0, .setFlag 1, .quiet 1, .load 1, .flush 1, .issue 2 0, .setFlag 2, .reset 1, .quiet 2, .load 2]

/-- **The code violates C32 with operation tracking at thread level MULTIPLE**: thread 2's own put, whose call had
returned, is still outstanding when thread 2's quiet returns: thread 1's reset wiped the flag. -/
theorem C32_tracked_fails : ∃ s s', Reach true [0] (fun _ _ => True) s ∧ step true [0] s (.ret 2) = some s' ∧
    (0, 1) ∈ s'.pend ∧ 1 ∈ s.snap 2 := by
  exact ⟨_, _, reach_run Reach.init (es := race) rfl, rfl, by decide, by decide⟩

/-- the same schedule without tracking is fine, and non-vacuous: thread 2's quiet visits and completes the put -/
example : ∃ s s', Reach false [0] (fun _ _ => True) s ∧ step false [0] s (.ret 2) = some s' ∧ 1 ∈ s.snap 2 ∧
    (0, 1) ∉ s'.pend := by
  refine ⟨_, _, reach_run Reach.init (es := race ++ [.flush 2, .reset 2]) rfl, rfl, by decide, by decide⟩

/-- two threads, tracking, an operation issued after thread 1's quiet is over -/
example : ∃ s s', Reach true [0] noOverlap s ∧ step true [0] s (.ret 2) = some s' ∧ 1 ∈ s.snap 2 ∧ s'.pend = [] := by
  have hr : Reach true [0] noOverlap _ :=
    Reach.step (.reset 2) (Reach.step (.flush 2) (Reach.step (.load 2) (Reach.step (.quiet 2)
      (Reach.step (.setFlag 2) (Reach.step (.issue 2 0) (Reach.step (.setFlag 1) (Reach.step (.issue 1 0) Reach.init
        (fun t l h => by cases h) rfl) trivial rfl) (fun t l h => by
      have : Function.update (Function.update init.pc 1 (.issued 0 0)) 1 .idle t = .reset 0 l := h
      rcases upd (Function.update init.pc 1 (.issued 0 0)) 1 t .idle with ⟨_, e⟩ | ⟨h1, e⟩
      · rw [e] at this; cases this
      · rw [e, Function.update_of_ne h1] at this; cases this) rfl) trivial rfl) trivial rfl) trivial rfl) trivial rfl)
      trivial rfl
  exact ⟨_, _, hr, rfl, by decide, by decide⟩

end Verif.Order.Threads
