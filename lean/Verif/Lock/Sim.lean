import Verif.Lock.Inv
/-! # Every step preserves the invariant and is simulated by the abstract FIFO lock -/
namespace Verif.Lock

variable {n : Nat} {s s' : State} {q : List Nat} {p : Nat}

/-- The abstract lock state described by a concrete state and its queue. -/
def absOf (s : State) : List Nat → Abs
  | [] => Abs.free
  | h :: t => { holder := if s.pc h = .held then some h else none,
                waiting := if s.pc h = .setSpin then h :: t else t }

theorem head_cons (hh : q.head? = some p) : ∃ t, q = p :: t := by
  cases q with
  | nil => simp at hh
  | cons y t => simp at hh; subst hh; exact ⟨t, rfl⟩

/-- A change at a PE outside the queue is invisible. -/
theorem absOf_congr {s s' : State} (h : ∀ x ∈ q, s'.pc x = s.pc x) : absOf s' q = absOf s q := by
  cases q with
  | nil => rfl
  | cons y t => have := h y (by simp); simp [absOf, this]

theorem absOf_enqueue (h : Inv n s q) (hne : (s.pc p).engaged = false) {s' : State}
    (hpc : s'.pc = upd s.pc p (if s.last = 0 then .held else .setLink s.last)) (hn : n ≤ INT_MAX) :
    (if s.last = 0 then Abs.run (absOf s q) [.request p, .acquire p] else Abs.run (absOf s q) [.request p])
      = some (absOf s' (q ++ [p])) := by
  have hq : p ∉ q := by rw [h.mem]; simp [hne]
  cases q with
  | nil =>
    have h0 : s.last = 0 := by simpa using h.last
    simp [absOf, Abs.run, Abs.step, Abs.free, hpc, h0]
  | cons y t =>
    have h0 : s.last ≠ 0 := by
      rw [h.last]
      cases hg : (y :: t).getLast? with
      | none => simp at hg
      | some x =>
        have := h.bound x (List.mem_of_mem_getLast? hg)
        exact myid_ne_zero (by omega)
    have hyp : y ≠ p := by rintro rfl; simp at hq
    rw [if_neg h0]
    simp only [absOf, Abs.run, Abs.step, hpc, upd_ne _ _ hyp, List.cons_append, Option.bind_some]
    congr 2
    by_cases hy : s.pc y = .setSpin <;> simp [hy]

theorem sim_step (hn : n ≤ INT_MAX) (h : Inv n s q) (hp : p < n) {a : Act} {ev : List Ev}
    (hs : step s p a = some (s', ev)) :
    Inv n s' (qstep s p a q) ∧ Abs.run (absOf s q) ev = some (absOf s' (qstep s p a q)) := by
  cases a with
  | callSet =>
    simp only [step] at hs
    split at hs
    case isFalse => simp at hs
    case isTrue hi =>
    simp only [Option.some.injEq, Prod.mk.injEq] at hs; obtain ⟨rfl, rfl⟩ := hs
    have hq : p ∉ q := by rw [h.mem]; simp [hi, PC.engaged]
    refine ⟨h.pc_change _ (by simp [hi, PC.engaged]) (by simp [PC.passing]) (by simp) (by simp)
      (not_adj_of_not_mem hq) (by simp) (by simp) (by simp [hi]) (by simp), ?_⟩
    simp only [Abs.run, qstep]; rw [absOf_congr]
    intro x hx; exact (upd_ne _ _ (fun e : x = p => hq (e ▸ hx))).symm
  | callTest =>
    simp only [step] at hs
    split at hs
    case isFalse => simp at hs
    case isTrue hi =>
    simp only [Option.some.injEq, Prod.mk.injEq] at hs; obtain ⟨rfl, rfl⟩ := hs
    have hq : p ∉ q := by rw [h.mem]; simp [hi, PC.engaged]
    refine ⟨h.pc_change _ (by simp [hi, PC.engaged]) (by simp [PC.passing]) (by simp) (by simp)
      (not_adj_of_not_mem hq) (by simp) (by simp) (by simp [hi]) (by simp), ?_⟩
    simp only [Abs.run, qstep]; rw [absOf_congr]
    intro x hx; exact (upd_ne _ _ (fun e : x = p => hq (e ▸ hx))).symm
  | callClear =>
    simp only [step] at hs
    split at hs
    case isFalse => simp at hs
    case isTrue hi =>
    simp only [Option.some.injEq, Prod.mk.injEq] at hs; obtain ⟨rfl, rfl⟩ := hs
    have hh : q.head? = some p := h.is_head (by simp [hi, PC.engaged]) (by simp [hi]) (by simp [hi])
    refine ⟨h.pc_change _ (by simp [hi, PC.engaged]) (by simp [PC.passing]) (by simp) (by simp)
      (fun a ha => adj_not_head h.nodup ha hh) (by simp) (by simp) (by simp [hi]) (by simp), ?_⟩
    obtain ⟨t, rfl⟩ := head_cons hh
    simp [Abs.run, Abs.step, qstep, absOf, hi]
  | run =>
    cases hpc : s.pc p with
    | idle => simp [step, hpc] at hs
    | held => simp [step, hpc] at hs
    | setReset =>
      simp only [step, hpc, Option.some.injEq, Prod.mk.injEq] at hs; obtain ⟨rfl, rfl⟩ := hs
      have hq : p ∉ q := by rw [h.mem]; simp [hpc, PC.engaged]
      simp only [qstep, hpc]
      refine ⟨?_, by
        simp only [Abs.run]; rw [absOf_congr]
        intro x hx; exact (upd_ne _ _ (fun e : x = p => hq (e ▸ hx))).symm⟩
      constructor
      · exact h.bound
      · exact h.nodup
      · intro x; by_cases hx : x = p
        · subst hx; rw [h.mem]; simp [hpc, PC.engaged]
        · simp [upd_ne _ _ hx, h.mem]
      · exact h.last
      · intro x b hxb
        have hb : b ≠ p := by rintro rfl; exact hq hxb.right_mem
        have hx : x ≠ p := by rintro rfl; exact hq hxb.left_mem
        simpa only [LinkOK, upd_ne _ _ hb, upd_ne _ _ hx] using h.link x b hxb
      · intro x hx
        have hxp : x ≠ p := by rintro rfl; exact hq (List.mem_of_mem_getLast? hx)
        simpa only [upd_ne _ _ hxp] using h.tail x hx
      · intro x hx
        have hxp : x ≠ p := by rintro rfl; exact hq (List.mem_of_mem_head? hx)
        simpa only [upd_ne _ _ hxp] using h.head x hx
      · intro x hx
        by_cases hxp : x = p
        · subst hxp; simp only [upd_same]; exact NEXT_zero
        · simpa only [upd_ne _ _ hxp] using h.out x hx
      · intro x hx
        by_cases hxp : x = p
        · subst hxp; simp only [upd_same]
        · simp only [upd_ne _ _ hxp] at hx ⊢; exact h.swap x hx
    | setSwap =>
      have hne : (s.pc p).engaged = false := by simp [hpc, PC.engaged]
      have hen := h.enqueue hn hp hne (fun _ => by rw [h.swap p hpc]; exact SIGNAL_zero)
      simp only [qstep, hpc]
      by_cases h0 : s.last = 0
      · have hab := absOf_enqueue h hne (s' := { s with last := myid p, pc := upd s.pc p .held })
          (by simp only [h0, if_true]) hn
        rw [if_pos h0] at hab hen
        simp only [step, hpc, h0, ne_eq, not_true_eq_false, if_false, Option.some.injEq, Prod.mk.injEq] at hs
        obtain ⟨rfl, rfl⟩ := hs
        exact ⟨hen, hab⟩
      · have hab := absOf_enqueue h hne (s' := { s with last := myid p, pc := upd s.pc p (.setLink s.last) })
          (by simp only [h0, if_false]) hn
        rw [if_neg h0] at hab hen
        simp only [step, hpc, h0, ne_eq, not_false_eq_true, if_true, Option.some.injEq, Prod.mk.injEq] at hs
        obtain ⟨rfl, rfl⟩ := hs
        exact ⟨hen, hab⟩
    | setLink i =>
      simp only [step, hpc, Option.some.injEq, Prod.mk.injEq] at hs; obtain ⟨rfl, rfl⟩ := hs
      simp only [qstep, hpc]
      refine ⟨h.linkStep hn hp hpc, ?_⟩
      have hh : q.head? ≠ some p := fun hh => (h.head p hh).1 i hpc
      cases q with
      | nil => rfl
      | cons y t =>
        have hyp : y ≠ p := by rintro rfl; simp at hh
        simp [Abs.run, absOf, upd_ne _ _ hyp]
    | setSpin =>
      simp only [qstep, hpc]
      by_cases hsig : SIGNAL (s.next p) ≠ 0
      · simp only [step, hpc, if_pos hsig, Option.some.injEq, Prod.mk.injEq] at hs
        obtain ⟨rfl, rfl⟩ := hs
        have hh := h.spin_head hpc hsig
        refine ⟨h.pc_change _ (by simp [hpc, PC.engaged]) (by simp [PC.passing]) (by simp) (by simp)
          (fun a ha => adj_not_head h.nodup ha hh) (by simp) (by simp) (by simp [hpc]) (by simp), ?_⟩
        obtain ⟨t, rfl⟩ := head_cons hh
        simp [Abs.run, Abs.step, absOf, hpc]
      · simp only [step, hpc, if_neg hsig, Option.some.injEq, Prod.mk.injEq] at hs
        obtain ⟨rfl, rfl⟩ := hs
        exact ⟨h, rfl⟩
    | clrCas =>
      simp only [qstep, hpc]
      have hh : q.head? = some p := h.is_head (by simp [hpc, PC.engaged]) (by simp [hpc]) (by simp [hpc])
      by_cases h0 : s.last = myid p
      · simp only [step, hpc, h0, ne_eq, not_true_eq_false, if_false, if_true, Option.some.injEq,
          Prod.mk.injEq] at hs
        obtain ⟨rfl, rfl⟩ := hs
        obtain ⟨rfl, hi⟩ := h.leave hn hp hpc h0
        simp only [h0, if_true, List.tail_cons]
        refine ⟨hi, ?_⟩
        simp [Abs.run, Abs.step, absOf, hpc, Abs.free]
      · simp only [step, hpc, h0, ne_eq, not_false_eq_true, if_true, if_false, Option.some.injEq,
          Prod.mk.injEq] at hs
        obtain ⟨rfl, rfl⟩ := hs
        simp only [h0, if_false]
        have hl : q.getLast? ≠ some p := by
          intro hc; apply h0; rw [h.last, hc]
        constructor
        · constructor
          · exact h.bound
          · exact h.nodup
          · intro x; by_cases hx : x = p
            · subst hx; rw [h.mem]; simp [hpc, PC.engaged]
            · simp [upd_ne _ _ hx, h.mem]
          · exact h.last
          · intro x b hxb
            have hb : b ≠ p := by rintro rfl; exact adj_not_head h.nodup hxb hh
            have hl' := h.link x b hxb
            refine ⟨?_, hl'.2⟩
            by_cases hx : x = p
            · subst hx
              simp only [LinkOK, upd_ne _ _ hb, upd_same]
              rcases hl'.1 with h' | h' | h'
              · exact Or.inl ⟨h'.1, h'.2.1, by simp, by simp⟩
              · exact Or.inr (Or.inl ⟨h'.1, h'.2.1, by simp, by simp⟩)
              · rw [hpc] at h'; simp at h'
            · simpa only [LinkOK, upd_ne _ _ hb, upd_ne _ _ hx] using hl'.1
          · intro x hx
            have hxp : x ≠ p := by rintro rfl; exact hl hx
            simpa only [upd_ne _ _ hxp] using h.tail x hx
          · intro x hx
            rw [hh] at hx; simp at hx; subst hx; simp
          · exact h.out
          · intro x hx
            have hxp : x ≠ p := by rintro rfl; simp at hx
            simp only [upd_ne _ _ hxp] at hx; exact h.swap x hx
        · obtain ⟨t, rfl⟩ := head_cons hh
          simp [Abs.run, absOf, hpc]
    | clrSpin =>
      simp only [qstep, hpc]
      by_cases hz : NEXT (s.next p) ≠ 0
      · simp only [step, hpc, if_pos hz, Option.some.injEq, Prod.mk.injEq] at hs
        obtain ⟨rfl, rfl⟩ := hs
        have hh : q.head? = some p := h.is_head (by simp [hpc, PC.engaged]) (by simp [hpc]) (by simp [hpc])
        refine ⟨h.pc_change _ (by simp [hpc, PC.engaged]) (by simp [hpc, PC.passing]) (by simp) (by simp)
          (fun a ha => adj_not_head h.nodup ha hh) (by simp) ?_ (by simp [hpc]) (by simp), ?_⟩
        · intro i hi b hb
          simp at hi; subst hi
          rcases (h.link p b hb).1 with h' | h' | h'
          · exact absurd h'.2.1 hz
          · exact ⟨h'.1, h'.2.1⟩
          · rw [hpc] at h'; simp at h'
        · obtain ⟨t, rfl⟩ := head_cons hh
          simp [Abs.run, absOf, hpc]
      · simp only [step, hpc, if_neg hz, Option.some.injEq, Prod.mk.injEq] at hs
        obtain ⟨rfl, rfl⟩ := hs
        exact ⟨h, rfl⟩
    | clrReset i =>
      simp only [step, hpc, Option.some.injEq, Prod.mk.injEq] at hs; obtain ⟨rfl, rfl⟩ := hs
      simp only [qstep, hpc]
      refine ⟨h.resetStep hn hp hpc, ?_⟩
      have hh : q.head? = some p := h.is_head (by simp [hpc, PC.engaged]) (by simp [hpc]) (by simp [hpc])
      obtain ⟨t, rfl⟩ := head_cons hh
      simp [Abs.run, absOf, hpc]
    | clrSignal i =>
      simp only [step, hpc, Option.some.injEq, Prod.mk.injEq] at hs; obtain ⟨rfl, rfl⟩ := hs
      simp only [qstep, hpc]
      obtain ⟨b, t, rfl, rfl, hb, hi⟩ := h.signalStep hn hp hpc
      simp only [List.tail_cons]
      refine ⟨hi, ?_⟩
      have hbp : b ≠ p := by rintro rfl; rw [hb] at hpc; simp at hpc
      simp [Abs.run, Abs.step, absOf, hpc, hb, upd_ne _ _ hbp]
    | testCas =>
      have hne : (s.pc p).engaged = false := by simp [hpc, PC.engaged]
      simp only [qstep, hpc]
      by_cases h0 : s.last = 0
      · have hen := h.enqueue hn hp hne (fun h' => absurd h0 h')
        have hab := absOf_enqueue h hne (s' := { s with last := myid p, pc := upd s.pc p .held })
          (by simp only [h0, if_true]) hn
        rw [if_pos h0] at hab hen
        simp only [step, hpc, h0, if_true, Option.some.injEq, Prod.mk.injEq] at hs
        obtain ⟨rfl, rfl⟩ := hs
        simp only [h0, if_true]
        exact ⟨hen, hab⟩
      · simp only [step, hpc, h0, if_false, Option.some.injEq, Prod.mk.injEq] at hs
        obtain ⟨rfl, rfl⟩ := hs
        simp only [h0, if_false]
        have hq : p ∉ q := by rw [h.mem]; simp [hpc, PC.engaged]
        refine ⟨h.pc_change _ (by simp [hpc, PC.engaged]) (by simp [PC.passing]) (by simp) (by simp)
          (not_adj_of_not_mem hq) (by simp) (by simp) (by simp [hpc]) (by simp), ?_⟩
        have : absOf { s with pc := upd s.pc p .idle } q = absOf s q :=
          absOf_congr (fun x hx => upd_ne _ _ (by rintro rfl; exact hq hx))
        simp only [Abs.run, Abs.step, Option.bind_some, this]

theorem Abs.run_append (a : Abs) (t u : List Ev) :
    Abs.run a (t ++ u) = (Abs.run a t).bind (fun b => Abs.run b u) := by
  induction t generalizing a with
  | nil => simp [Abs.run]
  | cons e es ih =>
    simp only [List.cons_append, Abs.run]
    cases a.step e with
    | none => rfl
    | some b => simp [ih]

theorem exec_inv (hn : n ≤ INT_MAX) {tr : List Ev} (he : Exec n s tr) :
    ∃ q, Inv n s q ∧ Abs.run Abs.free tr = some (absOf s q) := by
  induction he with
  | init => exact ⟨[], inv_init n, rfl⟩
  | @step s s' tr ev p a _ hp hs ih =>
    obtain ⟨q, hi, hr⟩ := ih
    obtain ⟨h1, h2⟩ := sim_step hn hi hp hs
    exact ⟨_, h1, by rw [Abs.run_append, hr]; exact h2⟩

end Verif.Lock
