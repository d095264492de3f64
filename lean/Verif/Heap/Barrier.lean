import Mathlib.Data.Finset.Max
import Mathlib.Data.Fintype.Basic
/-!
# Barriers of the memory-management calls (C52)

`/repo/src/internal/mem_impl.c` L10-95 and `/repo/src/shmem/mem.c` L52-67. The calls are collective: every PE makes the same
calls with the same arguments, in the same order (OpenSHMEM 1.5, section 9.3), and does what it wants in between.
`OSHMPI_barrier_all` (coll_impl.h) is `MPI_Barrier` on the world communicator, of which the model assumes only what the MPI
standard says: the `i`-th barrier of a PE ends only after every PE has begun its `i`-th barrier.
-/
namespace Verif.Heap.Bar

/-- calls; `null`: the pointer argument is NULL -/
inductive Api where
  | malloc (size : Nat)
  | calloc (count size : Nat)
  | align (al size : Nat)
  | realloc (null : Bool) (size : Nat)
  | free
deriving DecidableEq, Repr

/-- what a PE does -/
inductive Item where
  /-- between calls: arbitrary accesses to all blocks it holds -/
  | user
  | enter (k : Nat)
  /-- allocation in the PE's own heap, in call `k` -/
  | alloc (k : Nat)
  /-- the block is returned to the PE's own heap -/
  | dealloc (k : Nat)
  /-- `mspace_realloc`: the block may move, its old place is free -/
  | resize (k : Nat)
  | arrive
  | leave
  | ret (k : Nat)
deriving DecidableEq, Repr

/-- bodies of the calls -/
def body (k : Nat) : Api → List Item
  | .malloc size => if size = 0 then [] else [.alloc k, .arrive, .leave]              -- mem_impl.c L14-24
  | .calloc count size => if count = 0 ∨ size = 0 then [] else [.alloc k, .arrive, .leave]  -- shmem/mem.c L59-64, mem_impl.c L84-94
  | .align _ _ => [.alloc k, .arrive, .leave]                                          -- mem_impl.c L71-77
  | .realloc null size => if size = 0 ∧ null = true then [] else [.resize k, .arrive, .leave]  -- mem_impl.c L55-64
  | .free => [.arrive, .leave, .dealloc k]                                             -- mem_impl.c L30-48

/-- one call and what follows it -/
def call (k : Nat) (a : Api) : List Item := [.user, .enter k] ++ body k a ++ [.ret k]

/-- the program of every PE -/
def prog : Nat → List Api → List Item
  | _, [] => [.user]
  | k, a :: as => call k a ++ prog (k + 1) as

/-- barriers begun -/
def arr (l : List Item) : Nat := l.count .arrive

/-- One step of PE `p`; `pc q` = number of items PE `q` has done. -/
def Enabled {P : Type} (pr : List Item) (pc : P → Nat) (p : P) : Prop :=
  ∃ it, pr[pc p]? = some it ∧ (it = .leave → ∀ q, arr (pr.take (pc p)) ≤ arr (pr.take (pc q)))

/-- executions -/
inductive Reach {P : Type} [DecidableEq P] (pr : List Item) : (P → Nat) → Prop
  | init : Reach pr (fun _ => 0)
  | step {pc : P → Nat} (p : P) : Reach pr pc → Enabled pr pc p → Reach pr (fun q => if q = p then pc q + 1 else pc q)

variable {P : Type} [DecidableEq P]

theorem arr_mono {pr : List Item} {i j : Nat} (h : i ≤ j) : arr (pr.take i) ≤ arr (pr.take j) := by
  unfold arr
  have : pr.take i = (pr.take j).take i := by rw [List.take_take, Nat.min_eq_left h]
  rw [this]
  exact (List.take_sublist _ _).count_le _

theorem arrived {pr : List Item} {pc : P → Nat} (r : Reach pr pc) : ∀ p i, i < pc p → pr[i]? = some .leave →
    ∀ q, arr (pr.take i) ≤ arr (pr.take (pc q)) := by
  induction r with
  | init => intro p i h; exact absurd h (Nat.not_lt_zero _)
  | @step pc a r e ih =>
    intro p i hi hl q
    have grow : ∀ q, pc q ≤ (if q = a then pc q + 1 else pc q) := fun q => by split <;> omega
    have old : i < pc p → arr (pr.take i) ≤ arr (pr.take (if q = a then pc q + 1 else pc q)) := fun h =>
      (ih p i h hl q).trans (arr_mono (grow q))
    by_cases hp : p = a
    · subst hp
      simp only [if_true] at hi
      by_cases h : i < pc p
      · exact old h
      · obtain ⟨it, h1, h2⟩ := e
        have : i = pc p := by omega
        subst this
        rw [h1] at hl
        injection hl with hl
        exact (h2 hl q).trans (arr_mono (grow q))
    · simp only [if_neg hp] at hi
      exact old hi

/-- The core: once a PE is past a barrier, every PE has done everything before its own part of it. -/
theorem past_barrier {pr A B : List Item} {pc : P → Nat} (hpr : pr = A ++ .arrive :: .leave :: B) (r : Reach pr pc) {p q : P}
    (h : A.length + 1 < pc p) : A.length < pc q := by
  have := arrived r p (A.length + 1) h (by rw [hpr]; simp [List.getElem?_append_right]) q
  by_contra hc
  have h1 := arr_mono (pr := pr) (show pc q ≤ A.length by omega)
  have h2 : arr (pr.take A.length) = arr A := by rw [hpr]; simp [arr]
  have h3 : arr (pr.take (A.length + 1)) = arr A + 1 := by
    rw [hpr, List.take_append]
    simp [arr, List.take_of_length_le, List.count_append]
  omega

/-- all items carry the number of their call -/
def num : Item → Option Nat
  | .user => none
  | .arrive => none
  | .leave => none
  | .enter k => some k
  | .alloc k => some k
  | .dealloc k => some k
  | .resize k => some k
  | .ret k => some k

/-- call at position `k` allocates -/
def Allocates : Api → Prop
  | .malloc size => size ≠ 0
  | .calloc count size => count ≠ 0 ∧ size ≠ 0
  | .align _ _ => True
  | .realloc _ _ => False
  | .free => False

theorem body_alloc {k : Nat} {a : Api} (h : Allocates a) : body k a = [.alloc k, .arrive, .leave] := by
  cases a with
  | malloc size => simp only [Allocates] at h; simp [body, h]
  | calloc c s => simp only [Allocates] at h; simp [body, h]
  | align al s => rfl
  | realloc n s => exact absurd h id
  | free => exact absurd h id

theorem prog_num {as : List Api} : ∀ {j : Nat} {it : Item} {n : Nat}, it ∈ prog j as → num it = some n → j ≤ n ∧ n < j + as.length := by
  induction as with
  | nil => intro j it n h e; simp [prog] at h; subst h; simp [num] at e
  | cons a as ih =>
    intro j it n h e
    simp only [prog, List.mem_append] at h
    rcases h with h | h
    · have : n = j := by
        simp only [call, List.mem_append, List.mem_cons, List.not_mem_nil, or_false] at h
        rcases h with ((rfl | rfl) | h) | rfl
        · simp [num] at e
        · simpa [num] using e.symm
        · cases a <;> simp only [body] at h <;> first
            | (split at h <;> first
                | (simp at h; rcases h with rfl | rfl | rfl <;> simp [num] at e <;> exact e.symm)
                | simp at h)
            | (simp at h; rcases h with rfl | rfl | rfl <;> simp [num] at e <;> exact e.symm)
        · simpa [num] using e.symm
      subst this
      simp
    · have := ih h e
      simp only [List.length_cons]
      omega

theorem call_num {k n : Nat} {a : Api} {it : Item} (h : it ∈ call k a) (e : num it = some n) : n = k := by
  have : it ∈ prog k [a] := by simp [prog, h]
  have := prog_num this e
  simp at this
  omega

/-- the program around call `k`; items before it belong to earlier calls -/
theorem prog_split {as : List Api} : ∀ {j k : Nat} {a : Api}, as[k]? = some a → ∃ A B, prog j as = A ++ call (j + k) a ++ B ∧
    ∀ it ∈ A, ∀ n, num it = some n → n < j + k := by
  induction as with
  | nil => intro j k a h; simp at h
  | cons b as ih =>
    intro j k a h
    cases k with
    | zero =>
      simp only [List.getElem?_cons_zero, Option.some.injEq] at h
      subst h
      exact ⟨[], prog (j + 1) as, by simp [prog], by simp⟩
    | succ k =>
      simp only [List.getElem?_cons_succ] at h
      obtain ⟨A, B, e, hA⟩ := ih (j := j + 1) h
      refine ⟨call j b ++ A, B, ?_, ?_⟩
      · simp only [prog, e, List.append_assoc]
        rw [show j + 1 + k = j + (k + 1) by omega]
      · intro it hit n hn
        rcases List.mem_append.1 hit with h1 | h1
        · have := call_num h1 hn
          omega
        · have := hA it h1 n hn
          omega

/-- item `it` has been done by PE `p` -/
def Did (as : List Api) (pc : P → Nat) (p : P) (it : Item) : Prop := it ∈ (prog 0 as).take (pc p)

/-- an item that is not in the first part has been done: the PE is past that part -/
theorem did_past {as : List Api} {pc : P → Nat} {p : P} {it : Item} {L R : List Item} (h : Did as pc p it) (e : prog 0 as = L ++ R)
    (hn : it ∉ L) : L.length < pc p := by
  by_contra hc
  unfold Did at h
  rw [e, List.take_append_of_le_length (by omega)] at h
  exact hn (List.mem_of_mem_take h)

theorem past_did {as : List Api} {pc : P → Nat} {p : P} {it : Item} {L R : List Item} (e : prog 0 as = L ++ R) (h : L.length ≤ pc p)
    (hn : it ∈ L) : Did as pc p it := by
  unfold Did
  rw [e, List.take_append]
  rw [List.take_of_length_le h]
  exact List.mem_append_left _ hn

/-- **C52.** When an allocation call returns on one PE, the memory is allocated on every PE. -/
theorem C52_alloc {as : List Api} {pc : P → Nat} {k : Nat} {a : Api} (r : Reach (prog 0 as) pc) (ha : as[k]? = some a) (hal : Allocates a)
    {p : P} (hp : Did as pc p (.ret k)) (q : P) : Did as pc q (.alloc k) := by
  obtain ⟨A, B, e, hA⟩ := prog_split (j := 0) ha
  simp only [Nat.zero_add] at e hA
  have e1 : prog 0 as = (A ++ [.user, .enter k, .alloc k]) ++ .arrive :: .leave :: (.ret k :: B) := by
    rw [e]; simp [call, body_alloc hal]
  have h1 := did_past (L := A ++ [.user, .enter k, .alloc k, .arrive, .leave]) (R := .ret k :: B) hp (by rw [e1]; simp) (by
    simp only [List.mem_append, List.mem_cons, List.not_mem_nil, or_false, not_or]
    exact ⟨fun h => absurd (hA _ h k rfl) (by omega), by simp, by simp, by simp, by simp, by simp⟩)
  have h2 := past_barrier (q := q) e1 r (p := p) (by simp at h1 ⊢; omega)
  exact past_did e1 (by omega) (by simp)

/-- **C52.** A PE returns a block to its heap, and so can reuse the memory, only after every PE has entered the same
`shmem_free`: none is still using the block. -/
theorem C52_free {as : List Api} {pc : P → Nat} {k : Nat} (r : Reach (prog 0 as) pc) (ha : as[k]? = some .free)
    {p : P} (hp : Did as pc p (.dealloc k)) (q : P) : Did as pc q (.enter k) := by
  obtain ⟨A, B, e, hA⟩ := prog_split (j := 0) ha
  simp only [Nat.zero_add] at e hA
  have e1 : prog 0 as = (A ++ [.user, .enter k]) ++ .arrive :: .leave :: (.dealloc k :: .ret k :: B) := by
    rw [e]; simp [call, body]
  have h1 := did_past (L := A ++ [.user, .enter k, .arrive, .leave]) (R := .dealloc k :: .ret k :: B) hp (by rw [e1]; simp) (by
    simp only [List.mem_append, List.mem_cons, List.not_mem_nil, or_false, not_or]
    exact ⟨fun h => absurd (hA _ h k rfl) (by omega), by simp, by simp, by simp, by simp⟩)
  have h2 := past_barrier (q := q) e1 r (p := p) (by simp at h1 ⊢; omega)
  exact past_did e1 (by omega) (by simp)

/-- **C52.** Any later call of a PE, and so any later allocation that may reuse the memory, comes after every PE has entered
the `shmem_free`. -/
theorem C52_reuse {as : List Api} {pc : P → Nat} {k m : Nat} (r : Reach (prog 0 as) pc) (ha : as[k]? = some .free) (hm : k < m)
    {p : P} (hp : Did as pc p (.enter m)) (q : P) : Did as pc q (.enter k) := by
  obtain ⟨A, B, e, hA⟩ := prog_split (j := 0) ha
  simp only [Nat.zero_add] at e hA
  have e1 : prog 0 as = (A ++ [.user, .enter k]) ++ .arrive :: .leave :: (.dealloc k :: .ret k :: B) := by
    rw [e]; simp [call, body]
  have h1 := did_past (L := A ++ [.user, .enter k, .arrive, .leave]) (R := .dealloc k :: .ret k :: B) hp (by rw [e1]; simp) (by
    simp only [List.mem_append, List.mem_cons, List.not_mem_nil, or_false, not_or]
    exact ⟨fun h => absurd (hA _ h m rfl) (by omega), by simp, by simp; omega, by simp, by simp⟩)
  have h2 := past_barrier (q := q) e1 r (p := p) (by simp at h1 ⊢; omega)
  exact past_did e1 (by omega) (by simp)

/-- **C52.** `shmem_malloc(0)` and `shmem_calloc` with a zero argument do nothing: no allocation, no barrier. Every other
allocation and every free has exactly one barrier. -/
theorem C52_zero (k : Nat) (a : Api) : arr (body k a) = match a with
    | .malloc size => if size = 0 then 0 else 1
    | .calloc count size => if count * size = 0 then 0 else 1
    | .align _ _ => 1
    | .realloc null size => if null = true ∧ size = 0 then 0 else 1
    | .free => 1 := by
  cases a with
  | malloc s => simp only [body]; split <;> simp [arr]
  | calloc c s => simp only [body, Nat.mul_eq_zero]; split <;> simp [arr]
  | align al s => simp [body, arr]
  | realloc n s => simp only [body, and_comm (a := n = true)]; split <;> simp [arr]
  | free => simp [body, arr]

/-- a PE in the middle of the calls can always go on, or waits for one that can -/
theorem C52_progress {as : List Api} [Fintype P] {pc : P → Nat} (p : P) (hp : pc p < (prog 0 as).length) :
    ∃ q, Enabled (prog 0 as) pc q := by
  obtain ⟨q, -, hq⟩ := Finset.exists_min_image Finset.univ pc ⟨p, Finset.mem_univ p⟩
  have hlt : pc q < (prog 0 as).length := lt_of_le_of_lt (hq p (Finset.mem_univ p)) hp
  exact ⟨q, (prog 0 as)[pc q], by simp [hlt], fun _ z => arr_mono (hq z (Finset.mem_univ z))⟩

/-- **C52 fails for `shmem_realloc`**: it has no barrier on entry, so a PE may give up the old block while another has not
even entered the call and still uses it. -/
theorem C52_realloc_fails : ∃ (as : List Api) (pc : Bool → Nat), Reach (prog 0 as) pc ∧ as[1]? = some (.realloc false 100) ∧
    Did as pc true (.resize 1) ∧ ¬Did as pc false (.enter 1) := by
  let as : List Api := [.malloc 8, .realloc false 100]
  have st : ∀ (pc pc' : Bool → Nat) (p : Bool), Reach (prog 0 as) pc → Enabled (prog 0 as) pc p →
      (∀ q, pc' q = if q = p then pc q + 1 else pc q) → Reach (prog 0 as) pc' := by
    intro pc pc' p h1 h2 h3
    have : pc' = fun q => if q = p then pc q + 1 else pc q := funext h3
    rw [this]
    exact Reach.step p h1 h2
  have en : ∀ (a b : Nat) (p : Bool) (it : Item), (prog 0 as)[bif p then a else b]? = some it →
      (it = .leave → arr ((prog 0 as).take (bif p then a else b)) ≤ arr ((prog 0 as).take a) ∧
        arr ((prog 0 as).take (bif p then a else b)) ≤ arr ((prog 0 as).take b)) → Enabled (prog 0 as) (fun q => bif q then a else b) p := by
    intro a b p it h1 h2
    exact ⟨it, h1, fun hl q => by cases q; exact (h2 hl).2; exact (h2 hl).1⟩
  have r0 : Reach (prog 0 as) (fun q : Bool => bif q then 0 else 0) := by
    have : (fun q : Bool => bif q then 0 else 0) = fun _ => 0 := by funext q; cases q <;> rfl
    rw [this]; exact Reach.init
  have t1 : ∀ a b, Reach (prog 0 as) (fun q : Bool => bif q then a else b) → ∀ it, (prog 0 as)[a]? = some it →
      (it = .leave → arr ((prog 0 as).take a) ≤ arr ((prog 0 as).take b)) → Reach (prog 0 as) (fun q : Bool => bif q then a + 1 else b) := by
    intro a b r it h1 h2
    exact st _ _ true r (en a b true it h1 (fun hl => ⟨le_refl _, h2 hl⟩)) (fun q => by cases q <;> rfl)
  have t2 : ∀ a b, Reach (prog 0 as) (fun q : Bool => bif q then a else b) → ∀ it, (prog 0 as)[b]? = some it →
      (it = .leave → arr ((prog 0 as).take b) ≤ arr ((prog 0 as).take a)) → Reach (prog 0 as) (fun q : Bool => bif q then a else b + 1) := by
    intro a b r it h1 h2
    exact st _ _ false r (en a b false it h1 (fun hl => ⟨h2 hl, le_refl _⟩)) (fun q => by cases q <;> rfl)
  have r := t1 3 0 (t1 2 0 (t1 1 0 (t1 0 0 r0 .user rfl (by decide)) (.enter 0) rfl (by decide)) (.alloc 0) rfl (by decide)) .arrive rfl (by decide)
  have r := t2 4 3 (t2 4 2 (t2 4 1 (t2 4 0 r .user rfl (by decide)) (.enter 0) rfl (by decide)) (.alloc 0) rfl (by decide)) .arrive rfl (by decide)
  have r := t1 5 4 (t1 4 4 r .leave rfl (by decide)) (.ret 0) rfl (by decide)
  have r := t2 6 5 (t2 6 4 r .leave rfl (by decide)) (.ret 0) rfl (by decide)
  have r := t1 8 6 (t1 7 6 (t1 6 6 r .user rfl (by decide)) (.enter 1) rfl (by decide)) (.resize 1) rfl (by decide)
  exact ⟨as, _, r, rfl, by unfold Did; decide, by unfold Did; decide⟩

/-- **C52 (partial) for `shmem_realloc`**: it ends with a barrier; when it returns, every PE has done its part. -/
theorem C52_realloc_partial {as : List Api} {pc : P → Nat} {k s : Nat} {nl : Bool} (r : Reach (prog 0 as) pc)
    (ha : as[k]? = some (.realloc nl s)) (hs : ¬(s = 0 ∧ nl = true)) {p : P} (hp : Did as pc p (.ret k)) (q : P) : Did as pc q (.resize k) := by
  obtain ⟨A, B, e, hA⟩ := prog_split (j := 0) ha
  simp only [Nat.zero_add] at e hA
  have e1 : prog 0 as = (A ++ [.user, .enter k, .resize k]) ++ .arrive :: .leave :: (.ret k :: B) := by
    rw [e]
    simp only [call, body]
    rw [if_neg hs]
    simp
  have h1 := did_past (L := A ++ [.user, .enter k, .resize k, .arrive, .leave]) (R := .ret k :: B) hp (by rw [e1]; simp) (by
    simp only [List.mem_append, List.mem_cons, List.not_mem_nil, or_false, not_or]
    exact ⟨fun h => absurd (hA _ h k rfl) (by omega), by simp, by simp, by simp, by simp, by simp⟩)
  have h2 := past_barrier (q := q) e1 r (p := p) (by simp at h1 ⊢; omega)
  exact past_did e1 (by omega) (by simp)

/-- non-vacuous: a state in which a PE has returned from an allocation exists -/
example : ∃ pc : Unit → Nat, Reach (prog 0 [.malloc 8, .free]) pc ∧ Did [.malloc 8, .free] pc () (.dealloc 1) := by
  have st : ∀ n, Reach (P := Unit) (prog 0 [.malloc 8, .free]) (fun _ => n) → n < 12 → Reach (prog 0 [.malloc 8, .free]) (fun _ : Unit => n + 1) := by
    intro n r hn
    have := Reach.step (P := Unit) () r (by
      have h : n < (prog 0 [.malloc 8, .free]).length := by simp [prog, call, body]; omega
      exact ⟨(prog 0 [.malloc 8, .free])[n], by simp [h], fun _ _ => le_refl _⟩)
    simpa using this
  have r : Reach (P := Unit) (prog 0 [.malloc 8, .free]) (fun _ => 11) := by
    have : ∀ n, n ≤ 11 → Reach (P := Unit) (prog 0 [.malloc 8, .free]) (fun _ => n) := by
      intro n
      induction n with
      | zero => intro _; exact Reach.init
      | succ n ih => intro h; exact st n (ih (by omega)) (by omega)
    exact this 11 (le_refl _)
  exact ⟨_, r, by unfold Did; decide⟩

end Verif.Heap.Bar
