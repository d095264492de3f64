import Verif.Lock.Sim
/-! # Progress of the distributed lock: infinite runs and ranking functions -/
namespace Verif.Lock

/-- An infinite run of `n` PEs: at each instant nothing happens or one PE performs one access. -/
structure Run (n : Nat) where
  st : Nat → State
  act : Nat → Option (Nat × Act)
  start : st 0 = init
  next : ∀ i, (act i = none ∧ st (i+1) = st i) ∨
    ∃ p a ev, act i = some (p, a) ∧ p < n ∧ step (st i) p a = some (st (i+1), ev)

/-- Weak fairness: a PE is not left forever in the middle of a call, or holding the lock without calling
`shmem_clear_lock`, without being given a step. -/
def Run.Fair {n : Nat} (R : Run n) : Prop :=
  ∀ p, p < n → ∀ i, ∃ j, i ≤ j ∧
    ((R.st j).pc p = .idle ∨ R.act j = some (p, .run) ∨ R.act j = some (p, .callClear))

namespace Live

variable {n : Nat} (R : Run n)

/-- Ghost queue along a run. -/
def gq : Nat → List Nat
  | 0 => []
  | i + 1 => match R.act i with
    | none => gq i
    | some (p, a) => qstep (R.st i) p a (gq i)

theorem gq_inv (hn : n ≤ INT_MAX) (i : Nat) : Inv n (R.st i) (gq R i) := by
  induction i with
  | zero => rw [R.start]; exact inv_init n
  | succ i ih =>
    rcases R.next i with ⟨h1, h2⟩ | ⟨p, a, ev, h1, hp, hs⟩
    · simp only [gq, h1, h2]; exact ih
    · simp only [gq, h1]; exact (sim_step hn ih hp hs).1

/-- A step of another PE does not move `p`. -/
theorem step_pc_other {s s' : State} {p r : Nat} {a : Act} {ev} (hs : step s r a = some (s', ev)) (h : p ≠ r) :
    s'.pc p = s.pc p := by
  cases a with
  | callSet =>
    simp only [step] at hs; split at hs <;> simp at hs
    obtain ⟨rfl, _⟩ := hs; exact upd_ne _ _ h
  | callTest =>
    simp only [step] at hs; split at hs <;> simp at hs
    obtain ⟨rfl, _⟩ := hs; exact upd_ne _ _ h
  | callClear =>
    simp only [step] at hs; split at hs <;> simp at hs
    obtain ⟨rfl, _⟩ := hs; exact upd_ne _ _ h
  | run =>
    cases hpc : s.pc r with
    | idle => simp [step, hpc] at hs
    | held => simp [step, hpc] at hs
    | setReset => simp [step, hpc] at hs; obtain ⟨rfl, _⟩ := hs; exact upd_ne _ _ h
    | setLink i => simp [step, hpc] at hs; obtain ⟨rfl, _⟩ := hs; exact upd_ne _ _ h
    | clrReset i => simp [step, hpc] at hs; obtain ⟨rfl, _⟩ := hs; exact upd_ne _ _ h
    | clrSignal i => simp [step, hpc] at hs; obtain ⟨rfl, _⟩ := hs; exact upd_ne _ _ h
    | setSwap =>
      simp only [step, hpc] at hs
      split at hs <;> (simp at hs; obtain ⟨rfl, _⟩ := hs; exact upd_ne _ _ h)
    | setSpin =>
      simp only [step, hpc] at hs
      split at hs <;> simp at hs
      · obtain ⟨rfl, _⟩ := hs; exact upd_ne _ _ h
      · obtain ⟨rfl, _⟩ := hs; rfl
    | clrCas =>
      simp only [step, hpc] at hs
      split at hs <;> (simp at hs; obtain ⟨rfl, _⟩ := hs; exact upd_ne _ _ h)
    | clrSpin =>
      simp only [step, hpc] at hs
      split at hs <;> simp at hs
      · obtain ⟨rfl, _⟩ := hs; exact upd_ne _ _ h
      · obtain ⟨rfl, _⟩ := hs; rfl
    | testCas =>
      simp only [step, hpc] at hs
      split at hs <;> (simp at hs; obtain ⟨rfl, _⟩ := hs; exact upd_ne _ _ h)

/-- Generic progress rule. -/
theorem progress (fair : R.Fair) (P G : Nat → Prop) (μ d : Nat → Nat)
    (h : ∀ i, P i → d i < n ∧ (R.st i).pc (d i) ≠ .idle ∧
      (G (i+1) ∨ (P (i+1) ∧ (μ (i+1) < μ i ∨
        (μ (i+1) = μ i ∧ d (i+1) = d i ∧ R.act i ≠ some (d i, .run) ∧ R.act i ≠ some (d i, .callClear))))))
    (i : Nat) (hi : P i) : ∃ j, i ≤ j ∧ G j := by
  induction hm : μ i using Nat.strongRecOn generalizing i with
  | _ m ih =>
    obtain ⟨hd, _, _⟩ := h i hi
    obtain ⟨j, hij, hj⟩ := fair (d i) hd i
    -- walk from i to j
    have key : ∀ k, (∃ j', i ≤ j' ∧ G j') ∨ (P (i + k) ∧ μ (i+k) = m ∧ d (i+k) = d i ∧
        ∀ l, l < k → R.act (i+l) ≠ some (d i, .run) ∧ R.act (i+l) ≠ some (d i, .callClear)) := by
      intro k
      induction k with
      | zero => right; exact ⟨hi, hm, rfl, by simp⟩
      | succ k ihk =>
        rcases ihk with ihk | ⟨hP, hμ, hdk, hl⟩
        · exact Or.inl ihk
        · obtain ⟨_, _, hstep⟩ := h (i+k) hP
          rcases hstep with hG | ⟨hP', hlt | ⟨he, hde, ha, hb⟩⟩
          · left; exact ⟨i+k+1, by omega, hG⟩
          · left
            obtain ⟨j', hj', hG⟩ := ih _ (by omega) (i+k+1) hP' rfl
            exact ⟨j', by omega, hG⟩
          · right
            refine ⟨hP', by rw [← hμ]; exact he, by rw [← hdk]; exact hde, ?_⟩
            intro l hlk
            by_cases hlk' : l < k
            · exact hl l hlk'
            · have : l = k := by omega
              subst this; rw [hdk] at ha hb; exact ⟨ha, hb⟩
    rcases key (j - i + 1) with h1 | ⟨_, _, _, hl⟩
    · exact h1
    · have e : i + (j - i) = j := by omega
      have hlj := hl (j - i) (by omega)
      rw [e] at hlj
      rcases key (j - i) with h1 | ⟨hP, _, hdj, _⟩
      · exact h1
      · rw [e] at hP hdj
        have hni := (h j hP).2.1
        rw [hdj] at hni
        rcases hj with hj | hj | hj
        · exact absurd hj hni
        · exact absurd hj hlj.1
        · exact absurd hj hlj.2

/-- One-move phase: a PE in program point `c` moves on to something in `C` at its next move. -/
theorem one_move (fair : R.Fair) {p : Nat} (hp : p < n) (c : PC) (hc : c ≠ .idle) (hch : c ≠ .held)
    (G : Nat → Prop)
    (hG : ∀ i, (R.st i).pc p = c → R.act i = some (p, .run) → G (i+1))
    (i : Nat) (hi : (R.st i).pc p = c) : ∃ j, i ≤ j ∧ G j := by
  apply progress R fair (fun i => (R.st i).pc p = c) G (fun _ => 0) (fun _ => p) ?_ i hi
  intro i hi
  refine ⟨hp, by simp only [hi]; exact hc, ?_⟩
  rcases R.next i with ⟨h1, h2⟩ | ⟨r, a, ev, h1, hr, hs⟩
  · right; refine ⟨by simp only [h2]; exact hi, Or.inr ⟨rfl, rfl, by simp [h1], by simp [h1]⟩⟩
  · by_cases hrp : r = p
    · subst hrp
      cases a with
      | run => exact Or.inl (hG i hi h1)
      | callSet => simp only [step, hi, hc] at hs; simp at hs
      | callTest => simp only [step, hi, hc] at hs; simp at hs
      | callClear => simp only [step, hi, hch] at hs; simp at hs
    · right
      refine ⟨by simp only [step_pc_other hs (Ne.symm hrp)]; exact hi, Or.inr ⟨rfl, rfl, ?_, ?_⟩⟩
      · rw [h1]; simp [hrp]
      · rw [h1]; simp [hrp]

/-! ## Ranking of the queue -/

def headW : PC → Nat
  | .setSpin => 7
  | .held => 6
  | .clrCas => 5
  | .clrSpin => 4
  | .clrReset _ => 3
  | .clrSignal _ => 2
  | .idle => 0
  | .setReset => 0
  | .setSwap => 0
  | .setLink _ => 0
  | .testCas => 0

def secW : PC → Nat
  | .setLink _ => 1
  | .setSpin => 0
  | .held => 0
  | .clrCas => 0
  | .clrSpin => 0
  | .clrReset _ => 0
  | .clrSignal _ => 0
  | .idle => 0
  | .setReset => 0
  | .setSwap => 0
  | .testCas => 0

theorem headW_le (c : PC) : headW c ≤ 7 := by cases c <;> simp [headW]
theorem secW_le (c : PC) : secW c ≤ 1 := by cases c <;> simp [secW]

/-- position of `p` -/
def idx (p : Nat) : List Nat → Nat
  | [] => 0
  | x :: t => if x = p then 0 else idx p t + 1

theorem idx_append {p r : Nat} {q : List Nat} (h : p ∈ q) : idx p (q ++ [r]) = idx p q := by
  induction q with
  | nil => simp at h
  | cons x t ih =>
    simp only [List.cons_append, idx]
    split
    · rfl
    · rw [ih]; rename_i hx; simpa [Ne.symm hx] using h

def mu (s : State) (p : Nat) (q : List Nat) : Nat :=
  match q with
  | [] => 0
  | [_] => 0
  | h :: b :: t => if h = p then 0 else 20 * idx p (h :: b :: t) + headW (s.pc h) + secW (s.pc b)

def dd (s : State) (q : List Nat) : Nat :=
  match q with
  | [] => 0
  | [h] => h
  | h :: b :: _ => if s.pc h = .clrSpin ∧ secW (s.pc b) = 1 then b else h

theorem mu_tail_lt {s s' : State} {p h b : Nat} {t : List Nat} (hp : h ≠ p) :
    mu s' p (b :: t) < 20 * idx p (h :: b :: t) + headW (s.pc h) + secW (s.pc b) := by
  have e : idx p (h :: b :: t) = idx p (b :: t) + 1 := by simp [idx, hp]
  rw [e]
  cases t with
  | nil => simp only [mu]; omega
  | cons c u =>
    simp only [mu]
    split
    · omega
    · have := headW_le (s'.pc b); have := secW_le (s'.pc c); omega

/-- The queue seen by a waiter `p` after one step. -/
theorem waiter_step (hn : n ≤ INT_MAX) {s s' : State} {q : List Nat} (h : Inv n s q) {p r : Nat} {a : Act} {ev}
    (hp : s.pc p = .setSpin) (hr : r < n) (hs : step s r a = some (s', ev)) :
    s'.pc p = .held ∨ (s'.pc p = .setSpin ∧
      (mu s' p (qstep s r a q) < mu s p q ∨
       (mu s' p (qstep s r a q) = mu s p q ∧ dd s' (qstep s r a q) = dd s q ∧
         (some (r, a) ≠ some (dd s q, Act.run) ∧ some (r, a) ≠ some (dd s q, Act.callClear))))) := by
  have hm : p ∈ q := (h.mem p).2 (by simp [hp, PC.engaged])
  by_cases hrp : r = p
  · -- own step: a poll
    subst hrp
    cases a with
    | callSet => simp [step, hp] at hs
    | callTest => simp [step, hp] at hs
    | callClear => simp [step, hp] at hs
    | run =>
      simp only [step, hp] at hs
      split at hs
      · simp at hs; obtain ⟨rfl, _⟩ := hs; left; simp
      · rename_i hsig
        simp at hs; obtain ⟨rfl, _⟩ := hs
        right
        refine ⟨hp, Or.inr ⟨by simp [qstep, hp], by simp [qstep, hp], ?_⟩⟩
        have hne : dd s q ≠ r := by
          cases q with
          | nil => simp at hm
          | cons y t =>
            have hyr : y ≠ r := by
              rintro rfl; exact hsig ((h.head y rfl).2 hp)
            cases t with
            | nil => simpa [dd] using hyr
            | cons b u =>
              simp only [dd]; split
              · rename_i hc
                rintro rfl; rw [hp] at hc; simp [secW] at hc
              · exact hyr
        simp [Ne.symm hne]
  · right
    have hpc' : s'.pc p = .setSpin := by rw [step_pc_other hs (Ne.symm hrp)]; exact hp
    refine ⟨hpc', ?_⟩
    cases q with
    | nil => simp at hm
    | cons y t =>
      by_cases hyp : y = p
      · -- p is the head: nothing others do changes the rank
        subst hyp
        have hq' : ∃ u, qstep s r a (y :: t) = y :: u := by
          cases a with
          | callSet => exact ⟨t, rfl⟩
          | callTest => exact ⟨t, rfl⟩
          | callClear => exact ⟨t, rfl⟩
          | run =>
            cases hpc : s.pc r with
            | setSwap => exact ⟨t ++ [r], by simp [qstep, hpc]⟩
            | testCas => simp only [qstep, hpc]; split; exact ⟨t ++ [r], rfl⟩; exact ⟨t, rfl⟩
            | clrCas =>
              have := h.is_head (p := r) (by simp [hpc, PC.engaged]) (by simp [hpc]) (by simp [hpc])
              simp at this; exact absurd this.symm hrp
            | clrSignal i =>
              have := h.is_head (p := r) (by simp [hpc, PC.engaged]) (by simp [hpc]) (by simp [hpc])
              simp at this; exact absurd this.symm hrp
            | idle => exact ⟨t, by simp [qstep, hpc]⟩
            | setReset => exact ⟨t, by simp [qstep, hpc]⟩
            | setLink i => exact ⟨t, by simp [qstep, hpc]⟩
            | setSpin => exact ⟨t, by simp [qstep, hpc]⟩
            | held => exact ⟨t, by simp [qstep, hpc]⟩
            | clrSpin => exact ⟨t, by simp [qstep, hpc]⟩
            | clrReset i => exact ⟨t, by simp [qstep, hpc]⟩
        obtain ⟨u, hu⟩ := hq'
        rw [hu]
        right
        have m0 : ∀ (s : State) (u : List Nat), mu s y (y :: u) = 0 := by
          intro s u; cases u <;> simp [mu]
        have d0 : ∀ (s : State) (u : List Nat), s.pc y = .setSpin → dd s (y :: u) = y := by
          intro s u hy; cases u <;> simp [dd, hy]
        rw [m0, m0, d0 _ _ hpc', d0 _ _ hp]
        simp [hrp]
      · cases t with
        | nil => simp at hm; exact absurd hm.symm hyp
        | cons b t =>
          have hnd := List.nodup_cons.1 h.nodup
          have hby : b ≠ y := by rintro rfl; simp at hnd
          have hadj : Adj (y :: b :: t) y b := Or.inl ⟨rfl, rfl⟩
          have hlink := (h.link y b hadj)
          have hbpc : (s.pc b = .setSpin ∧ secW (s.pc b) = 0) ∨ (s.pc b = .setLink (myid y) ∧ secW (s.pc b) = 1) := by
            rcases hlink.1 with h' | h' | h'
            · right; exact ⟨h'.1, by simp [h'.1, secW]⟩
            · left; exact ⟨h'.1, by simp [h'.1, secW]⟩
            · left; exact ⟨h'.1, by simp [h'.1, secW]⟩
          have hmu : ∀ s : State, mu s p (y :: b :: t) =
              20 * idx p (y :: b :: t) + headW (s.pc y) + secW (s.pc b) := by
            intro s; simp only [mu, if_neg hyp]
          by_cases hry : r = y
          · subst hry
            have hb' : s'.pc b = s.pc b := step_pc_other hs hby
            -- the head moves
            cases a with
            | callSet =>
              simp only [step] at hs; split at hs
              · rename_i hi; have := (h.mem r).1 (by simp); simp [hi, PC.engaged] at this
              · simp at hs
            | callTest =>
              simp only [step] at hs; split at hs
              · rename_i hi; have := (h.mem r).1 (by simp); simp [hi, PC.engaged] at this
              · simp at hs
            | callClear =>
              left
              simp only [step] at hs; split at hs
              · rename_i hi
                simp at hs; obtain ⟨rfl, _⟩ := hs
                simp only [qstep]; rw [hmu, hmu]
                rw [hb']; simp [hi, headW]
              · simp at hs
            | run =>
              cases hpc : s.pc r with
              | idle => simp [step, hpc] at hs
              | held => simp [step, hpc] at hs
              | setReset => have := (h.mem r).1 (by simp); simp [hpc, PC.engaged] at this
              | setSwap => have := (h.mem r).1 (by simp); simp [hpc, PC.engaged] at this
              | testCas => have := (h.mem r).1 (by simp); simp [hpc, PC.engaged] at this
              | setLink i => exact absurd hpc ((h.head r rfl).1 i)
              | setSpin =>
                left
                have hsig := (h.head r rfl).2 hpc
                simp only [step, hpc, if_pos hsig] at hs
                simp at hs; obtain ⟨rfl, _⟩ := hs
                simp only [qstep, hpc]; rw [hmu, hmu, hb']; simp [hpc, headW]
              | clrCas =>
                left
                have hl : s.last ≠ myid r := by
                  intro hc
                  have := (h.leave hn hr hpc hc).1
                  simp at this
                simp only [step, hpc] at hs
                rw [if_pos hl] at hs
                simp at hs; obtain ⟨rfl, _⟩ := hs
                simp only [qstep, hpc, if_neg hl]; rw [hmu, hmu, hb']; simp [hpc, headW]
              | clrSpin =>
                by_cases hz : NEXT (s.next r) ≠ 0
                · left
                  simp only [step, hpc, if_pos hz] at hs
                  simp at hs; obtain ⟨rfl, _⟩ := hs
                  simp only [qstep, hpc]; rw [hmu, hmu, hb']; simp [hpc, headW]
                · right
                  simp only [step, hpc, if_neg hz] at hs
                  simp at hs; obtain ⟨rfl, _⟩ := hs
                  simp only [qstep, hpc, true_and]
                  have hsec : secW (s.pc b) = 1 := by
                    rcases hlink.1 with h' | h' | h'
                    · simp [h'.1, secW]
                    · exfalso; apply hz; rw [h'.2.1]
                      have := h.bound b (by simp)
                      exact myid_ne_zero (by omega)
                    · rw [hpc] at h'; simp at h'
                  have : dd s (r :: b :: t) = b := by simp [dd, hpc, hsec]
                  rw [this]; simp [Ne.symm hby]
              | clrReset i =>
                left
                simp only [step, hpc] at hs
                simp at hs; obtain ⟨rfl, _⟩ := hs
                simp only [qstep, hpc]; rw [hmu, hmu, hb']; simp [hpc, headW]
              | clrSignal i =>
                left
                simp only [qstep, hpc, List.tail_cons]
                rw [hmu]; exact mu_tail_lt hyp
          · by_cases hrb : r = b
            · subst hrb
              have hy' : s'.pc y = s.pc y := step_pc_other hs (Ne.symm hby)
              rcases hbpc with ⟨hb, hb1⟩ | ⟨hb, hb1⟩
              · -- second spins without a signal
                cases a with
                | callSet => simp [step, hb] at hs
                | callTest => simp [step, hb] at hs
                | callClear => simp [step, hb] at hs
                | run =>
                  have hz : ¬ SIGNAL (s.next r) ≠ 0 := by rw [hlink.2]; simp
                  simp only [step, hb, if_neg hz] at hs
                  simp at hs; obtain ⟨rfl, _⟩ := hs
                  right
                  simp only [qstep, hb, true_and]
                  have : dd s (y :: r :: t) = y := by simp [dd, hb1]
                  rw [this]; simp [hby]
              · cases a with
                | callSet => simp [step, hb] at hs
                | callTest => simp [step, hb] at hs
                | callClear => simp [step, hb] at hs
                | run =>
                  left
                  simp only [step, hb] at hs
                  simp at hs; obtain ⟨rfl, _⟩ := hs
                  simp only [qstep, hb]; rw [hmu, hmu, hy', hb1]; simp [secW]
            · -- somebody further back or outside
              have hy' : s'.pc y = s.pc y := step_pc_other hs (Ne.symm hry)
              have hb' : s'.pc b = s.pc b := step_pc_other hs (Ne.symm hrb)
              have hq' : ∃ u, qstep s r a (y :: b :: t) = y :: b :: u ∧ idx p (y :: b :: u) = idx p (y :: b :: t) := by
                cases a with
                | callSet => exact ⟨t, rfl, rfl⟩
                | callTest => exact ⟨t, rfl, rfl⟩
                | callClear => exact ⟨t, rfl, rfl⟩
                | run =>
                  cases hpc : s.pc r with
                  | setSwap => exact ⟨t ++ [r], by simp [qstep, hpc], idx_append hm⟩
                  | testCas =>
                    simp only [qstep, hpc]; split
                    · exact ⟨t ++ [r], rfl, idx_append hm⟩
                    · exact ⟨t, rfl, rfl⟩
                  | clrCas =>
                    have := h.is_head (p := r) (by simp [hpc, PC.engaged]) (by simp [hpc]) (by simp [hpc])
                    simp at this; exact absurd this.symm hry
                  | clrSignal i =>
                    have := h.is_head (p := r) (by simp [hpc, PC.engaged]) (by simp [hpc]) (by simp [hpc])
                    simp at this; exact absurd this.symm hry
                  | idle => exact ⟨t, by simp [qstep, hpc], rfl⟩
                  | setReset => exact ⟨t, by simp [qstep, hpc], rfl⟩
                  | setLink i => exact ⟨t, by simp [qstep, hpc], rfl⟩
                  | setSpin => exact ⟨t, by simp [qstep, hpc], rfl⟩
                  | held => exact ⟨t, by simp [qstep, hpc], rfl⟩
                  | clrSpin => exact ⟨t, by simp [qstep, hpc], rfl⟩
                  | clrReset i => exact ⟨t, by simp [qstep, hpc], rfl⟩
              obtain ⟨u, hu, hidx⟩ := hq'
              right
              rw [hu]
              have e1 : mu s' p (y :: b :: u) = mu s p (y :: b :: t) := by
                simp only [mu, if_neg hyp, hy', hb', hidx]
              have e2 : dd s' (y :: b :: u) = dd s (y :: b :: t) := by simp only [dd, hy', hb']
              refine ⟨e1, e2, ?_⟩
              have : dd s (y :: b :: t) ≠ r := by
                simp only [dd]; split
                · exact Ne.symm hrb
                · exact Ne.symm hry
              simp [Ne.symm this]

/-- The designated PE is engaged. -/
theorem dd_engaged {s : State} {q : List Nat} (h : Inv n s q) (hq : q ≠ []) :
    dd s q < n ∧ s.pc (dd s q) ≠ .idle := by
  have hmem : dd s q ∈ q := by
    cases q with
    | nil => exact absurd rfl hq
    | cons y t =>
      cases t with
      | nil => simp [dd]
      | cons b u => simp only [dd]; split <;> simp
  refine ⟨h.bound _ hmem, ?_⟩
  intro hi
  have := (h.mem _).1 hmem
  rw [hi] at this; simp [PC.engaged] at this

theorem spin_to_held (hn : n ≤ INT_MAX) (fair : R.Fair) {p : Nat} (i : Nat)
    (hi : (R.st i).pc p = .setSpin) : ∃ j, i ≤ j ∧ (R.st j).pc p = .held := by
  apply progress R fair (fun i => (R.st i).pc p = .setSpin) (fun i => (R.st i).pc p = .held)
    (fun i => mu (R.st i) p (gq R i)) (fun i => dd (R.st i) (gq R i)) ?_ i hi
  intro i hi
  have hinv := gq_inv R hn i
  have hm : p ∈ gq R i := (hinv.mem p).2 (by simp [hi, PC.engaged])
  obtain ⟨hd1, hd2⟩ := dd_engaged hinv (List.ne_nil_of_mem hm)
  refine ⟨hd1, hd2, ?_⟩
  rcases R.next i with ⟨h1, h2⟩ | ⟨r, a, ev, h1, hr, hs⟩
  · right
    simp only [h2, gq, h1]
    exact ⟨hi, Or.inr (by simp)⟩
  · have := waiter_step hn hinv hi hr hs
    simp only [gq, h1]
    exact this

theorem link_to_held (hn : n ≤ INT_MAX) (fair : R.Fair) {p : Nat} (hp : p < n) (i : Nat) {c}
    (hi : (R.st i).pc p = .setLink c) : ∃ j, i ≤ j ∧ (R.st j).pc p = .held := by
  obtain ⟨j, hij, hj⟩ := one_move R fair hp (.setLink c) (by simp) (by simp)
    (fun j => (R.st j).pc p = .setSpin) (by
    intro i hi ha
    rcases R.next i with ⟨h1, _⟩ | ⟨r, a, ev, h1, hr, hs⟩
    · rw [ha] at h1; simp at h1
    · rw [ha] at h1; simp at h1; obtain ⟨rfl, rfl⟩ := h1
      simp only [step, hi] at hs; simp at hs; rw [← hs.1]; simp) i hi
  · obtain ⟨k, hjk, hk⟩ := spin_to_held R hn fair j hj
    exact ⟨k, by omega, hk⟩

theorem swap_to_held (hn : n ≤ INT_MAX) (fair : R.Fair) {p : Nat} (hp : p < n) (i : Nat)
    (hi : (R.st i).pc p = .setSwap) : ∃ j, i ≤ j ∧ (R.st j).pc p = .held := by
  obtain ⟨j, hij, hj⟩ := one_move R fair hp .setSwap (by simp) (by simp)
    (fun j => (R.st j).pc p = .held ∨ ∃ c, (R.st j).pc p = .setLink c) (by
    intro i hi ha
    rcases R.next i with ⟨h1, _⟩ | ⟨r, a, ev, h1, hr, hs⟩
    · rw [ha] at h1; simp at h1
    · rw [ha] at h1; simp at h1; obtain ⟨rfl, rfl⟩ := h1
      simp only [step, hi] at hs
      split at hs <;> simp at hs
      · right; exact ⟨(R.st i).last, by rw [← hs.1]; simp⟩
      · left; rw [← hs.1]; simp) i hi
  rcases hj with hj | ⟨c, hj⟩
  · exact ⟨j, hij, hj⟩
  · obtain ⟨k, hjk, hk⟩ := link_to_held R hn fair hp j hj
    exact ⟨k, by omega, hk⟩

theorem reset_to_held (hn : n ≤ INT_MAX) (fair : R.Fair) {p : Nat} (hp : p < n) (i : Nat)
    (hi : (R.st i).pc p = .setReset) : ∃ j, i ≤ j ∧ (R.st j).pc p = .held := by
  obtain ⟨j, hij, hj⟩ := one_move R fair hp .setReset (by simp) (by simp)
    (fun j => (R.st j).pc p = .setSwap) (by
    intro i hi ha
    rcases R.next i with ⟨h1, _⟩ | ⟨r, a, ev, h1, hr, hs⟩
    · rw [ha] at h1; simp at h1
    · rw [ha] at h1; simp at h1; obtain ⟨rfl, rfl⟩ := h1
      simp only [step, hi] at hs; simp at hs; rw [← hs.1]; simp) i hi
  obtain ⟨k, hjk, hk⟩ := swap_to_held R hn fair hp j hj
  exact ⟨k, by omega, hk⟩

theorem test_returns (fair : R.Fair) {p : Nat} (hp : p < n) (i : Nat)
    (hi : (R.st i).pc p = .testCas) :
    ∃ j, i ≤ j ∧ ((R.st j).pc p = .held ∨ (R.st j).pc p = .idle) := by
  refine one_move R fair hp .testCas (by simp) (by simp)
    (fun j => (R.st j).pc p = .held ∨ (R.st j).pc p = .idle) (by
    intro i hi ha
    rcases R.next i with ⟨h1, _⟩ | ⟨r, a, ev, h1, hr, hs⟩
    · rw [ha] at h1; simp at h1
    · rw [ha] at h1; simp at h1; obtain ⟨rfl, rfl⟩ := h1
      simp only [step, hi] at hs
      split at hs <;> simp at hs
      · left; rw [← hs.1]; simp
      · right; rw [← hs.1]; simp) i hi

/-! ## Progress of `clear_lock` -/

/-- Rank of a PE in the polling loop of `clear_lock`: has the successor linked itself yet? -/
def mu2 (s : State) (q : List Nat) : Nat :=
  match q with
  | [] => 0
  | [_] => 0
  | _ :: b :: _ => secW (s.pc b)

theorem clrSpin_step (hn : n ≤ INT_MAX) {s s' : State} {q : List Nat} (h : Inv n s q) {p r : Nat} {a : Act} {ev}
    (hp : s.pc p = .clrSpin) (hs : step s r a = some (s', ev)) :
    (∃ i, s'.pc p = .clrReset i) ∨ (s'.pc p = .clrSpin ∧
      (mu2 s' (qstep s r a q) < mu2 s q ∨
       (mu2 s' (qstep s r a q) = mu2 s q ∧ dd s' (qstep s r a q) = dd s q ∧
         (some (r, a) ≠ some (dd s q, Act.run) ∧ some (r, a) ≠ some (dd s q, Act.callClear))))) := by
  have hh : q.head? = some p := h.is_head (by simp [hp, PC.engaged]) (by simp [hp]) (by simp [hp])
  obtain ⟨b, hb⟩ := h.passing_succ (p := p) (by simp [hp, PC.passing])
  obtain ⟨u, rfl⟩ := head_cons hh
  have hnd := List.nodup_cons.1 h.nodup
  obtain ⟨t, rfl⟩ : ∃ t, u = b :: t := by
    rcases hb with ⟨_, hb⟩ | hb
    · exact head_cons hb
    · exact absurd hb.left_mem hnd.1
  have hbp : b ≠ p := by rintro rfl; simp at hnd
  have hlink := h.link p b hb
  by_cases hrp : r = p
  · subst hrp
    cases a with
    | callSet => simp [step, hp] at hs
    | callTest => simp [step, hp] at hs
    | callClear => simp [step, hp] at hs
    | run =>
      by_cases hz : NEXT (s.next r) ≠ 0
      · simp only [step, hp, if_pos hz] at hs
        simp at hs; obtain ⟨rfl, _⟩ := hs
        left; exact ⟨NEXT (s.next r), by simp⟩
      · right
        simp only [step, hp, if_neg hz] at hs
        simp at hs; obtain ⟨rfl, _⟩ := hs
        refine ⟨hp, ?_⟩
        right
        simp only [qstep, hp, true_and]
        have hsec : secW (s.pc b) = 1 := by
          rcases hlink.1 with h' | h' | h'
          · simp [h'.1, secW]
          · exfalso; apply hz; rw [h'.2.1]
            have := h.bound b (by simp)
            exact myid_ne_zero (by omega)
          · rw [hp] at h'; simp at h'
        have : dd s (r :: b :: t) = b := by simp [dd, hp, hsec]
        rw [this]; simp [Ne.symm hbp]
  · right
    have hpc' : s'.pc p = .clrSpin := by rw [step_pc_other hs (Ne.symm hrp)]; exact hp
    refine ⟨hpc', ?_⟩
    have hq' : ∃ u, qstep s r a (p :: b :: t) = p :: b :: u := by
      cases a with
      | callSet => exact ⟨t, rfl⟩
      | callTest => exact ⟨t, rfl⟩
      | callClear => exact ⟨t, rfl⟩
      | run =>
        cases hpc : s.pc r with
        | setSwap => exact ⟨t ++ [r], by simp [qstep, hpc]⟩
        | testCas => simp only [qstep, hpc]; split; exact ⟨t ++ [r], rfl⟩; exact ⟨t, rfl⟩
        | clrCas =>
          have := h.is_head (p := r) (by simp [hpc, PC.engaged]) (by simp [hpc]) (by simp [hpc])
          simp at this; exact absurd this.symm hrp
        | clrSignal i =>
          have := h.is_head (p := r) (by simp [hpc, PC.engaged]) (by simp [hpc]) (by simp [hpc])
          simp at this; exact absurd this.symm hrp
        | idle => exact ⟨t, by simp [qstep, hpc]⟩
        | setReset => exact ⟨t, by simp [qstep, hpc]⟩
        | setLink i => exact ⟨t, by simp [qstep, hpc]⟩
        | setSpin => exact ⟨t, by simp [qstep, hpc]⟩
        | held => exact ⟨t, by simp [qstep, hpc]⟩
        | clrSpin => exact ⟨t, by simp [qstep, hpc]⟩
        | clrReset i => exact ⟨t, by simp [qstep, hpc]⟩
    obtain ⟨u, hu⟩ := hq'
    rw [hu]
    by_cases hrb : r = b
    · subst hrb
      rcases hlink.1 with h' | h' | h'
      · have hb' := h'.1
        cases a with
        | callSet => simp [step, hb'] at hs
        | callTest => simp [step, hb'] at hs
        | callClear => simp [step, hb'] at hs
        | run =>
          left
          simp only [step, hb'] at hs
          simp at hs; obtain ⟨rfl, _⟩ := hs
          simp [mu2, hb', secW]
      · have hb' := h'.1
        cases a with
        | callSet => simp [step, hb'] at hs
        | callTest => simp [step, hb'] at hs
        | callClear => simp [step, hb'] at hs
        | run =>
          have hz : ¬ SIGNAL (s.next r) ≠ 0 := by rw [hlink.2]; simp
          simp only [step, hb', if_neg hz] at hs
          simp at hs; obtain ⟨rfl, _⟩ := hs
          right
          have : dd s (p :: r :: t) = p := by simp [dd, hb', secW]
          rw [this]; simp [mu2, hrp]; simp [dd, hb', secW]
      · rw [hp] at h'; simp at h'
    · have hb' : s'.pc b = s.pc b := step_pc_other hs (Ne.symm hrb)
      right
      refine ⟨by simp only [mu2, hb'], by simp only [dd, hpc', hp, hb'], ?_⟩
      have : dd s (p :: b :: t) ≠ r := by
        simp only [dd]; split
        · exact Ne.symm hrb
        · exact Ne.symm hrp
      simp [Ne.symm this]

theorem signal_to_idle (fair : R.Fair) {p : Nat} (hp : p < n) (i : Nat) {c}
    (hi : (R.st i).pc p = .clrSignal c) : ∃ j, i ≤ j ∧ (R.st j).pc p = .idle :=
  one_move R fair hp (.clrSignal c) (by simp) (by simp)
    (fun j => (R.st j).pc p = .idle) (by
    intro i hi ha
    rcases R.next i with ⟨h1, _⟩ | ⟨r, a, ev, h1, hr, hs⟩
    · rw [ha] at h1; simp at h1
    · rw [ha] at h1; simp at h1; obtain ⟨rfl, rfl⟩ := h1
      simp only [step, hi] at hs; simp at hs; rw [← hs.1]; simp) i hi

theorem clrReset_to_idle (fair : R.Fair) {p : Nat} (hp : p < n) (i : Nat) {c}
    (hi : (R.st i).pc p = .clrReset c) : ∃ j, i ≤ j ∧ (R.st j).pc p = .idle := by
  obtain ⟨j, hij, hj⟩ := one_move R fair hp (.clrReset c) (by simp) (by simp)
    (fun j => (R.st j).pc p = .clrSignal c) (by
    intro i hi ha
    rcases R.next i with ⟨h1, _⟩ | ⟨r, a, ev, h1, hr, hs⟩
    · rw [ha] at h1; simp at h1
    · rw [ha] at h1; simp at h1; obtain ⟨rfl, rfl⟩ := h1
      simp only [step, hi] at hs; simp at hs; rw [← hs.1]; simp) i hi
  obtain ⟨k, hjk, hk⟩ := signal_to_idle R fair hp j hj
  exact ⟨k, by omega, hk⟩

theorem clrSpin_to_idle (hn : n ≤ INT_MAX) (fair : R.Fair) {p : Nat} (hp : p < n) (i : Nat)
    (hi : (R.st i).pc p = .clrSpin) : ∃ j, i ≤ j ∧ (R.st j).pc p = .idle := by
  have : ∃ j, i ≤ j ∧ ∃ c, (R.st j).pc p = .clrReset c := by
    apply progress R fair (fun i => (R.st i).pc p = .clrSpin) (fun i => ∃ c, (R.st i).pc p = .clrReset c)
      (fun i => mu2 (R.st i) (gq R i)) (fun i => dd (R.st i) (gq R i)) ?_ i hi
    intro i hi
    have hinv := gq_inv R hn i
    have hm : p ∈ gq R i := (hinv.mem p).2 (by simp [hi, PC.engaged])
    obtain ⟨hd1, hd2⟩ := dd_engaged hinv (List.ne_nil_of_mem hm)
    refine ⟨hd1, hd2, ?_⟩
    rcases R.next i with ⟨h1, h2⟩ | ⟨r, a, ev, h1, hr, hs⟩
    · right
      simp only [h2, gq, h1]
      exact ⟨hi, Or.inr (by simp)⟩
    · have := clrSpin_step hn hinv hi hs
      simp only [gq, h1]
      exact this
  obtain ⟨j, hij, c, hj⟩ := this
  obtain ⟨k, hjk, hk⟩ := clrReset_to_idle R fair hp j hj
  exact ⟨k, by omega, hk⟩

theorem clrCas_to_idle (hn : n ≤ INT_MAX) (fair : R.Fair) {p : Nat} (hp : p < n) (i : Nat)
    (hi : (R.st i).pc p = .clrCas) : ∃ j, i ≤ j ∧ (R.st j).pc p = .idle := by
  obtain ⟨j, hij, hj⟩ := one_move R fair hp .clrCas (by simp) (by simp)
    (fun j => (R.st j).pc p = .idle ∨ (R.st j).pc p = .clrSpin) (by
    intro i hi ha
    rcases R.next i with ⟨h1, _⟩ | ⟨r, a, ev, h1, hr, hs⟩
    · rw [ha] at h1; simp at h1
    · rw [ha] at h1; simp at h1; obtain ⟨rfl, rfl⟩ := h1
      simp only [step, hi] at hs
      split at hs <;> simp at hs
      · right; rw [← hs.1]; simp
      · left; rw [← hs.1]; simp) i hi
  rcases hj with hj | hj
  · exact ⟨j, hij, hj⟩
  · obtain ⟨k, hjk, hk⟩ := clrSpin_to_idle R hn fair hp j hj
    exact ⟨k, by omega, hk⟩

end Live
end Verif.Lock
