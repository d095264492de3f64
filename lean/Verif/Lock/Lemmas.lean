import Verif.Lock.Spec
/-!
# Invariant of the distributed lock

`Inv s q`: the PEs engaged with the lock form a queue `q` (oldest first) and the shared words describe it.
-/
namespace Verif.Lock

@[simp] theorem upd_same {α} (f : Nat → α) (p v) : upd f p v p = v := by simp [upd]
theorem upd_ne {α} (f : Nat → α) {p x} (v) (h : x ≠ p) : upd f p v x = f x := by simp [upd, h]
theorem upd_apply {α} (f : Nat → α) (p x v) : upd f p v x = if x = p then v else f x := rfl

/-! ## Bit lemmas -/

theorem nextMask_bit (i : Nat) (hi : i < 32) : NEXT_MASK.getLsbD i = decide (i < 31) := by
  revert i; decide
theorem sigMask_bit (i : Nat) (hi : i < 32) : SIGNAL_MASK.getLsbD i = decide (i = 31) := by
  revert i; decide

theorem NEXT_bit (a : BitVec 32) (i : Nat) (hi : i < 32) :
    (NEXT a).getLsbD i = (a.getLsbD i && decide (i < 31)) := by
  simp [NEXT, nextMask_bit i hi]
theorem SIGNAL_bit (a : BitVec 32) (i : Nat) (hi : i < 32) :
    (SIGNAL a).getLsbD i = (a.getLsbD i && decide (i = 31)) := by
  simp [SIGNAL, sigMask_bit i hi]

theorem SIGNAL_ne_zero_iff (a : BitVec 32) : SIGNAL a ≠ 0 ↔ a.getLsbD 31 = true := by
  constructor
  · intro h
    by_cases hc : a.getLsbD 31 = true
    · exact hc
    · exfalso; apply h
      apply BitVec.eq_of_getLsbD_eq
      intro i hi
      rw [SIGNAL_bit a i hi]
      by_cases h31 : i = 31
      · subst h31; simp at hc ⊢; simp [hc]
      · simp [h31]
  · intro h hz
    have := SIGNAL_bit a 31 (by omega)
    rw [hz, h] at this; exact absurd this (by decide)

theorem NEXT_zero : NEXT 0 = 0 := by decide
theorem SIGNAL_zero : SIGNAL 0 = 0 := by decide

theorem NEXT_or (a b : BitVec 32) : NEXT (a ||| b) = NEXT a ||| NEXT b := by
  apply BitVec.eq_of_getLsbD_eq; intro i hi
  simp [NEXT_bit _ _ hi]
  cases a.getLsbD i <;> cases b.getLsbD i <;> simp
theorem SIGNAL_or (a b : BitVec 32) : SIGNAL (a ||| b) = SIGNAL a ||| SIGNAL b := by
  apply BitVec.eq_of_getLsbD_eq; intro i hi
  simp [SIGNAL_bit _ _ hi]
  cases a.getLsbD i <;> cases b.getLsbD i <;> simp

theorem NEXT_SIGNAL_MASK : NEXT SIGNAL_MASK = 0 := by decide
theorem SIGNAL_SIGNAL_MASK : SIGNAL SIGNAL_MASK ≠ 0 := by decide

theorem myid_toNat {p : Nat} (hp : p < INT_MAX) : (myid p).toNat = p + 1 := by
  unfold INT_MAX at hp
  simp [myid, BitVec.toNat_ofNat]; omega

theorem myid_ne_zero {p : Nat} (hp : p < INT_MAX) : myid p ≠ 0 := by
  intro h; have := myid_toNat hp; rw [h] at this; simp at this

theorem myid_inj {p r : Nat} (hp : p < INT_MAX) (hr : r < INT_MAX) (h : myid p = myid r) : p = r := by
  have h1 := myid_toNat hp; have h2 := myid_toNat hr; rw [h] at h1; omega

theorem myid_high {p : Nat} (hp : p < INT_MAX) : (myid p).getLsbD 31 = false := by
  have h := myid_toNat hp
  unfold INT_MAX at hp
  rw [BitVec.getLsbD, h]
  apply Nat.testBit_lt_two_pow
  omega

theorem NEXT_myid {p : Nat} (hp : p < INT_MAX) : NEXT (myid p) = myid p := by
  apply BitVec.eq_of_getLsbD_eq; intro i hi
  rw [NEXT_bit _ _ hi]
  by_cases h : i < 31
  · simp [h]
  · have : i = 31 := by omega
    subst this; rw [myid_high hp]; rfl

theorem SIGNAL_myid {p : Nat} (hp : p < INT_MAX) : SIGNAL (myid p) = 0 := by
  by_cases h : SIGNAL (myid p) = 0
  · exact h
  · rw [← ne_eq, SIGNAL_ne_zero_iff, myid_high hp] at h; simp at h

theorem rank_myid {p : Nat} (hp : p < INT_MAX) : rank (myid p) = p := by
  have h := myid_toNat hp
  unfold rank
  rw [BitVec.toNat_sub_of_le]
  · rw [h]; rfl
  · show (1#32).toNat ≤ _
    rw [h]; simp

/-- After BOR of the successor's id into a word whose successor bits are clear. -/
theorem NEXT_or_myid {a : BitVec 32} {p : Nat} (hp : p < INT_MAX) (ha : NEXT a = 0) :
    NEXT (a ||| myid p) = myid p := by
  rw [NEXT_or, ha, NEXT_myid hp]; simp
theorem SIGNAL_or_myid {a : BitVec 32} {p : Nat} (hp : p < INT_MAX) :
    SIGNAL (a ||| myid p) = SIGNAL a := by
  rw [SIGNAL_or, SIGNAL_myid hp]; simp
theorem NEXT_or_signal (a : BitVec 32) : NEXT (a ||| SIGNAL_MASK) = NEXT a := by
  rw [NEXT_or, NEXT_SIGNAL_MASK]; simp
theorem SIGNAL_or_signal (a : BitVec 32) : SIGNAL (a ||| SIGNAL_MASK) ≠ 0 := by
  rw [SIGNAL_ne_zero_iff]; simp [sigMask_bit 31 (by omega)]

/-! ## Adjacency in a list -/

/-- `b` comes right after `a` in `q`. -/
def Adj : List Nat → Nat → Nat → Prop
  | [], _, _ => False
  | x :: t, a, b => (a = x ∧ t.head? = some b) ∨ Adj t a b

theorem Adj.left_mem {q : List Nat} {a b} (h : Adj q a b) : a ∈ q := by
  induction q with
  | nil => exact h.elim
  | cons x t ih => rcases h with ⟨rfl, _⟩ | h; · simp
                   · exact List.mem_cons_of_mem _ (ih h)
theorem Adj.right_mem_tail {q : List Nat} {a b} (h : Adj q a b) : b ∈ q.tail := by
  induction q with
  | nil => exact h.elim
  | cons x t ih =>
    rcases h with ⟨rfl, h⟩ | h
    · exact List.mem_of_mem_head? h
    · exact List.mem_of_mem_tail (ih h)
theorem Adj.right_mem {q : List Nat} {a b} (h : Adj q a b) : b ∈ q := List.mem_of_mem_tail h.right_mem_tail

theorem Adj.ne {q : List Nat} {a b} (hn : q.Nodup) (h : Adj q a b) : a ≠ b := by
  induction q with
  | nil => exact h.elim
  | cons x t ih =>
    rw [List.nodup_cons] at hn
    rcases h with ⟨rfl, h⟩ | h
    · rintro rfl; exact hn.1 (List.mem_of_mem_head? h)
    · exact ih hn.2 h

theorem adj_append {q : List Nat} {p a b} :
    Adj (q ++ [p]) a b ↔ Adj q a b ∨ (q.getLast? = some a ∧ b = p) := by
  induction q with
  | nil => simp [Adj]
  | cons x t ih =>
    cases t with
    | nil => simp [Adj]; constructor <;> (rintro ⟨h1, h2⟩; exact ⟨h1.symm, h2.symm⟩)
    | cons y u =>
      have e1 : Adj (x :: y :: u ++ [p]) a b ↔ (a = x ∧ some y = some b) ∨ Adj (y :: u ++ [p]) a b := Iff.rfl
      have e2 : Adj (x :: y :: u) a b ↔ (a = x ∧ some y = some b) ∨ Adj (y :: u) a b := Iff.rfl
      rw [e1, e2, ih, List.getLast?_cons_cons]; exact or_assoc.symm

theorem Adj.right_unique {q : List Nat} (hn : q.Nodup) {a b c} (h : Adj q a b) (h' : Adj q a c) : b = c := by
  induction q with
  | nil => exact h.elim
  | cons x t ih =>
    rw [List.nodup_cons] at hn
    rcases h with ⟨rfl, h⟩ | h <;> rcases h' with ⟨e, h'⟩ | h'
    · simpa [h] using h'
    · exact absurd h'.left_mem hn.1
    · subst e; exact absurd h.left_mem hn.1
    · exact ih hn.2 h h'

theorem Adj.left_unique {q : List Nat} (hn : q.Nodup) {a b c} (h : Adj q a c) (h' : Adj q b c) : a = b := by
  induction q with
  | nil => exact h.elim
  | cons x t ih =>
    rw [List.nodup_cons] at hn
    have tl : ∀ {a}, Adj t a c → t.head? = some c → False := by
      intro a h1 h2
      cases t with
      | nil => exact h1.elim
      | cons y u =>
        simp at h2; subst h2
        have := (List.nodup_cons.1 hn.2).1
        exact this h1.right_mem_tail
    rcases h with ⟨rfl, h⟩ | h <;> rcases h' with ⟨e, h'⟩ | h'
    · exact e.symm
    · exact (tl h' h).elim
    · exact (tl h h').elim
    · exact ih hn.2 h h'

/-- a non-head member has a predecessor -/
theorem exists_pred {q : List Nat} {b} (hb : b ∈ q) (hh : q.head? ≠ some b) : ∃ a, Adj q a b := by
  induction q with
  | nil => simp at hb
  | cons x t ih =>
    simp at hh
    have hbt : b ∈ t := by simpa [Ne.symm hh] using hb
    by_cases h : t.head? = some b
    · exact ⟨x, Or.inl ⟨rfl, h⟩⟩
    · obtain ⟨a, ha⟩ := ih hbt h; exact ⟨a, Or.inr ha⟩

/-- a non-last member has a successor -/
theorem exists_succ {q : List Nat} {a} (ha : a ∈ q) (hl : q.getLast? ≠ some a) : ∃ b, Adj q a b := by
  induction q with
  | nil => simp at ha
  | cons x t ih =>
    cases t with
    | nil => simp at hl ha; exact absurd ha.symm hl
    | cons y u =>
      by_cases h : a = x
      · exact ⟨y, Or.inl ⟨h, rfl⟩⟩
      · have : a ∈ y :: u := by simpa [h] using ha
        rw [List.getLast?_cons_cons] at hl
        obtain ⟨b, hb⟩ := ih this hl; exact ⟨b, Or.inr hb⟩

theorem adj_not_last {q : List Nat} (hn : q.Nodup) {a b} (h : Adj q a b) : q.getLast? ≠ some a := by
  induction q with
  | nil => exact h.elim
  | cons x t ih =>
    rw [List.nodup_cons] at hn
    cases t with
    | nil => rcases h with ⟨_, h⟩ | h; · simp at h
             · exact h.elim
    | cons y u =>
      rw [List.getLast?_cons_cons]
      rcases h with ⟨rfl, h⟩ | h
      · intro hc; exact hn.1 (List.mem_of_mem_getLast? hc)
      · exact ih hn.2 h

theorem adj_not_head {q : List Nat} (hn : q.Nodup) {a b} (h : Adj q a b) : q.head? ≠ some b := by
  cases q with
  | nil => exact h.elim
  | cons x t =>
    simp only [List.head?_cons, ne_eq, Option.some.injEq]
    rintro rfl
    exact (List.nodup_cons.1 hn).1 h.right_mem_tail

/-! ## The invariant -/

/-- PEs that have a request recorded at the root and have not finished handing the lock on. -/
def PC.engaged : PC → Bool
  | .setLink _ => true
  | .setSpin => true
  | .held => true
  | .clrCas => true
  | .clrSpin => true
  | .clrReset _ => true
  | .clrSignal _ => true
  | .idle => false
  | .setReset => false
  | .setSwap => false
  | .testCas => false

/-- A PE that is inside `clear_lock` after finding somebody queued behind it. -/
def PC.passing : PC → Bool
  | .clrSpin => true
  | .clrReset _ => true
  | .clrSignal _ => true
  | .setLink _ => false
  | .setSpin => false
  | .held => false
  | .clrCas => false
  | .idle => false
  | .setReset => false
  | .setSwap => false
  | .testCas => false

/-- What adjacency of `a`, `b` in the queue means for the words and program counters. -/
def LinkOK (s : State) (a b : Nat) : Prop :=
  (s.pc b = .setLink (myid a) ∧ NEXT (s.next a) = 0 ∧ (∀ i, s.pc a ≠ .clrReset i) ∧ (∀ i, s.pc a ≠ .clrSignal i))
  ∨ (s.pc b = .setSpin ∧ NEXT (s.next a) = myid b ∧ (∀ i, s.pc a = .clrReset i → i = myid b) ∧
      (∀ i, s.pc a ≠ .clrSignal i))
  ∨ (s.pc b = .setSpin ∧ s.pc a = .clrSignal (myid b) ∧ NEXT (s.next a) = 0)

structure Inv (n : Nat) (s : State) (q : List Nat) : Prop where
  bound : ∀ p ∈ q, p < n
  nodup : q.Nodup
  mem : ∀ p, p ∈ q ↔ (s.pc p).engaged = true
  last : s.last = match q.getLast? with | none => 0 | some p => myid p
  link : ∀ a b, Adj q a b → LinkOK s a b ∧ SIGNAL (s.next b) = 0
  tail : ∀ a, q.getLast? = some a → NEXT (s.next a) = 0 ∧ (s.pc a).passing = false
  head : ∀ h, q.head? = some h → (∀ i, s.pc h ≠ .setLink i) ∧ (s.pc h = .setSpin → SIGNAL (s.next h) ≠ 0)
  out : ∀ p, p ∉ q → NEXT (s.next p) = 0
  swap : ∀ p, s.pc p = .setSwap → s.next p = 0

theorem inv_init (n : Nat) : Inv n init [] := by
  refine ⟨by simp, by simp, ?_, by simp [init], fun _ _ h => h.elim, by simp, by simp, ?_, ?_⟩
  · intro p; simp [init, PC.engaged]
  · intro p _; simp only [init]; exact NEXT_zero
  · intro p h; simp [init] at h

end Verif.Lock
