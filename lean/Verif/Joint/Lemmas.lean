import Verif.Joint.Model
import Verif.Vis.Lemmas
/-!
# Lemmas about collective calls in executions
-/
namespace Verif.Joint
open Verif.Rma Verif.Vis

/-! ## Steps as steps of `Vis` -/

/-- no step of another PE moves a PE that can make a call -/
theorem free_step {S : Sys} {g g' : G} {e : Ev} (h : Step S g e g') {p : Nat} (hc : caller e ≠ some p) (hf : Free S g p) : Free S g' p := by
  obtain ⟨h0, h1, h2⟩ := hf
  cases h with
  | put q tgt nbi ctx addr src n gpu mode oc tc oty tty xs s' hf hm e hx d =>
    have hq : p ≠ q := fun hq => hc (by rw [hq]; rfl)
    exact ⟨h0, h1, by simp only [after, upd_at, if_neg hq]; exact h2⟩
  | get q tgt nbi ctx addr src n gpu mode oc tc oty tty xs s' hf hm e hx d =>
    have hq : p ≠ q := fun hq => hc (by rw [hq]; rfl)
    exact ⟨h0, h1, by simp only [after, upd_at, if_neg hq]; exact h2⟩
  | amo q tgt ctx addr r ty api gpu mode s' hf hm ht hk e hr d =>
    have hq : p ≠ q := fun hq => hc (by rw [hq]; rfl)
    exact ⟨h0, h1, by simp only [after, upd_at, if_neg hq]; exact h2⟩
  | amoRet q tgt ctx addr r ty api gpu mode s' hf hm ht hk e hr d =>
    have hq : p ≠ q := fun hq => hc (by rw [hq]; rfl)
    exact ⟨h0, h1, by simp only [afterRet, after, upd_at, if_neg hq]; exact h2⟩
  | store q a v hf => exact ⟨h0, h1, h2⟩
  | poll q addr r n mode hf hm hr => exact ⟨h0, h1, h2⟩
  | touch q ws hf => exact ⟨h0, h1, h2⟩
  | call q op s' hf l hop e d =>
    have hq : p ≠ q := fun hq => hc (by rw [hq]; rfl)
    exact ⟨h0, h1, by simp only [after, upd_at, if_neg hq]; exact h2⟩
  | enter q s' hf e d =>
    have hq : p ≠ q := fun hq => hc (by rw [hq]; rfl)
    exact ⟨h0, by simp only [after, upd_at, if_neg hq]; exact h1, by simp only [after, upd_at, if_neg hq]; exact h2⟩
  | leave q hp h0' ha =>
    have hq : p ≠ q := fun hq => hc (by rw [hq]; rfl)
    exact ⟨h0, by simp only [upd_at, if_neg hq]; exact h1, h2⟩
  | perform q l1 l2 pd t1 t2 a m' hq hl e => exact ⟨h0, h1, h2⟩
  | performBusy q t1 t2 a m' hq hl e =>
    have hq : p ≠ q := by
      rintro rfl
      rw [h2] at hl
      cases t1 <;> cases hl
    exact ⟨h0, h1, by simp only [upd_at, if_neg hq]; exact h2⟩
  | fin q done hq d => exact ⟨h0, h1, h2⟩

/-- what holds in every state: a PE in a collective call could make a call; calls are numbered; nothing has been read for calls not yet made -/
structure Inv (S : Sys) (x : X) : Prop where
  free : ∀ p, x.loc p ≠ none → Free S x.g p
  num : ∀ p i, x.loc p = some i → i.2 < x.cnt i.1 p
  cap : ∀ i p b, x.cap i p b ≠ none → i.2 < x.cnt i.1 p

theorem inv_init (S : Sys) (m : Mems) : Inv S (xinit m) :=
  ⟨fun _ h => absurd rfl h, fun _ _ h => (by cases h), fun _ _ _ h => absurd rfl h⟩

theorem cnt_mono {x : X} {c p : Nat} (c' q : Nat) :
    x.cnt c' q ≤ Function.update x.cnt c (Function.update (x.cnt c) p (x.cnt c p + 1)) c' q := by
  by_cases h : c' = c
  · subst h
    rw [Function.update_self]
    by_cases h' : q = p
    · subst h'; rw [Function.update_self]; omega
    · rw [Function.update_of_ne h']
  · rw [Function.update_of_ne h]

theorem inv_step {S : Sys} {prog : Nat → Nat → Op} {x x' : X} {e : XEv} (h : XStep S prog x e x') (hi : Inv S x) : Inv S x' := by
  cases h with
  | vis e g' h hp =>
    exact ⟨fun p hl => free_step h (fun hc => hl (hp p hc)) (hi.free p hl), hi.num, hi.cap⟩
  | enter p c hf hl =>
    refine ⟨fun q hq => ?_, fun q i hq => ?_, fun i q b hq => lt_of_lt_of_le (hi.cap i q b hq) (cnt_mono _ _)⟩
    · by_cases h : q = p
      · subst h; exact hf
      · simp only [Function.update_of_ne h] at hq
        exact hi.free q hq
    · by_cases h : q = p
      · subst h
        simp only [Function.update_self] at hq
        cases hq
        simp only [Function.update_self]
        omega
      · simp only [Function.update_of_ne h] at hq
        exact lt_of_lt_of_le (hi.num q i hq) (cnt_mono _ _)
  | read p i B hl =>
    refine ⟨hi.free, hi.num, fun j q b hq => ?_⟩
    by_cases h : j = i
    · subst h
      simp only [Function.update_self, grab] at hq
      split at hq
      · rename_i h
        rw [h.1]
        exact hi.num p j hl
      · exact hi.cap j q b hq
    · simp only [Function.update_of_ne h] at hq
      exact hi.cap j q b hq
  | scratch p i a v hl hw hr => exact ⟨hi.free, hi.num, hi.cap⟩
  | deliver p i a v hl hw hr hv => exact ⟨hi.free, hi.num, hi.cap⟩
  | leave p i hl hr hw =>
    refine ⟨fun q hq => ?_, fun q j hq => ?_, hi.cap⟩
    · by_cases h : q = p
      · subst h; simp only [Function.update_self] at hq; exact absurd rfl hq
      · simp only [Function.update_of_ne h] at hq
        exact hi.free q hq
    · by_cases h : q = p
      · subst h; simp only [Function.update_self] at hq; cases hq
      · simp only [Function.update_of_ne h] at hq
        exact hi.num q j hq

theorem XExec.inv {S : Sys} {prog : Nat → Nat → Op} {N : Nat} {st : Nat → X} {ev : Nat → XEv} (x : XExec S prog N st ev) {k : Nat}
    (hk : k ≤ N) : Inv S (st k) := by
  induction k with
  | zero =>
    obtain ⟨m, e⟩ := x.init
    rw [e]; exact inv_init S m
  | succ k ih => exact inv_step (x.step k (by omega)) (ih (by omega))

/-- a step as steps of `Vis` -/
theorem run_step {S : Sys} {prog : Nat → Nat → Op} {x x' : X} {e : XEv} (h : XStep S prog x e x') (hi : Inv S x) : Run S x.g e.ev x'.g := by
  cases h with
  | vis e g' h hp => exact .cons h (.nil _)
  | enter p c hf hl => exact .nil _
  | read p i B hl => exact .nil _
  | scratch p i a v hl hw hr => exact .cons (.store p a v (hi.free p (by rw [hl]; simp))) (.nil _)
  | deliver p i a v hl hw hr hv => exact .cons (.store p a v (hi.free p (by rw [hl]; simp))) (.nil _)
  | leave p i hl hr hw => exact .nil _

/-- the events of `Vis` from step `k` on, `n` steps -/
def evs (ev : Nat → XEv) (k : Nat) : Nat → List Ev
  | 0 => []
  | n + 1 => evs ev k n ++ (ev (k + n)).ev

theorem mem_evs {ev : Nat → XEv} {k n : Nat} {e : Ev} (h : e ∈ evs ev k n) : ∃ j, k ≤ j ∧ j < k + n ∧ e ∈ (ev j).ev := by
  induction n with
  | zero => cases h
  | succ n ih =>
    rcases List.mem_append.mp h with h | h
    · obtain ⟨j, h1, h2, h3⟩ := ih h
      exact ⟨j, h1, by omega, h3⟩
    · exact ⟨k + n, by omega, by omega, h⟩

/-- a stretch of an execution as an execution of `Vis` -/
theorem XExec.run {S : Sys} {prog : Nat → Nat → Op} {N : Nat} {st : Nat → X} {ev : Nat → XEv} (x : XExec S prog N st ev) {k n : Nat}
    (hk : k + n ≤ N) : Run S (st k).g (evs ev k n) (st (k + n)).g := by
  induction n with
  | zero => exact .nil _
  | succ n ih => exact run_append (ih (by omega)) (run_step (x.step (k + n) (by omega)) (x.inv (by omega)))

theorem XExec.reach {S : Sys} {prog : Nat → Nat → Op} {N : Nat} {st : Nat → X} {ev : Nat → XEv} (x : XExec S prog N st ev) {k : Nat}
    (hk : k ≤ N) : Reach S (st k).g := by
  obtain ⟨m, e⟩ := x.init
  refine ⟨m, evs ev 0 k, ?_⟩
  have := x.run (k := 0) (n := k) (by omega)
  rw [e, Nat.zero_add] at this
  exact this

/-! ## What is read -/

/-- byte `(q, b)` is not written by puts, gets, AMOs and stores while `q` is in call `i`, which it made in step `e` -/
def Stable (N : Nat) (st : Nat → X) (ev : Nat → XEv) (i : Nat × Nat) (q e : Nat) (b : Int) : Prop :=
  NoWriter (st e).g (q, b) ∧ ∀ k w, e < k → k < N → (st k).loc q = some i → ev k = .vis w → ¬ w.writes (q, b)

theorem setByte_ne {m : Mems} {p q : Nat} {a b : Int} {v : BitVec 8} (h : ¬ (q = p ∧ b = a)) : setByte m p a v q b = m q b := by
  unfold setByte
  by_cases h1 : q = p
  · subst h1
    rw [Function.update_self, Function.update_of_ne (fun h2 => h ⟨rfl, h2⟩)]
  · rw [Function.update_of_ne h1]

theorem setByte_self (m : Mems) (p : Nat) (a : Int) (v : BitVec 8) : setByte m p a v p a = v := by
  unfold setByte
  rw [Function.update_self, Function.update_self]

/-- state of a stable byte of PE `q` after it has entered call `i`: it has been read, or it is as it was -/
def Read (v0 : BitVec 8) (i : Nat × Nat) (q : Nat) (b : Int) (x : X) : Prop :=
  x.cap i q b = some v0 ∨ (x.cap i q b = none ∧ x.loc q = some i ∧ x.g.mem q b = v0 ∧ NoWriter x.g (q, b))

theorem read_step {S : Sys} {prog : Nat → Nat → Op} {x x' : X} {e : XEv} (h : XStep S prog x e x') {v0 : BitVec 8}
    {i : Nat × Nat} {q : Nat} {b : Int} (hr : Read v0 i q b x) (hs : x.loc q = some i → ∀ w, e = .vis w → ¬ w.writes (q, b)) :
    Read v0 i q b x' := by
  cases h with
  | vis e g' h hp =>
    rcases hr with hr | ⟨h1, h2, h3, h4⟩
    · exact .inl hr
    · obtain ⟨h5, h6⟩ := noWriter_step h h4 (hs h2 e rfl)
      exact .inr ⟨h1, h2, h6.trans h3, h5⟩
  | enter p c hf hl =>
    rcases hr with hr | ⟨h1, h2, h3, h4⟩
    · exact .inl hr
    · refine .inr ⟨h1, ?_, h3, h4⟩
      have : q ≠ p := by rintro rfl; rw [hl] at h2; cases h2
      simp only [Function.update_of_ne this]
      exact h2
  | read p j B hl =>
    by_cases hj : i = j
    · subst hj
      rcases hr with hr | ⟨h1, h2, h3, h4⟩
      · left
        simp only [Function.update_self, grab]
        rw [if_neg]
        · exact hr
        · rintro ⟨rfl, -, h⟩; rw [hr] at h; cases h
      · by_cases hg : q = p ∧ B b = true ∧ x.cap i p b = none
        · left
          simp only [Function.update_self, grab]
          rw [if_pos hg, ← hg.1, h3]
        · right
          simp only [Function.update_self, grab]
          rw [if_neg hg]
          exact ⟨h1, h2, h3, h4⟩
    · rcases hr with hr | ⟨h1, h2, h3, h4⟩
      · left; simp only [Function.update_of_ne hj]; exact hr
      · right; simp only [Function.update_of_ne hj]; exact ⟨h1, h2, h3, h4⟩
  | scratch p j a v hl hw hc =>
    rcases hr with hr | ⟨h1, h2, h3, h4⟩
    · exact .inl hr
    · have hne : ¬ (q = p ∧ b = a) := by
        rintro ⟨rfl, rfl⟩
        rw [hl] at h2; cases h2
        exact hc h1
      exact .inr ⟨h1, h2, (setByte_ne hne).trans h3, h4⟩
  | deliver p j a v hl hw hc hv =>
    rcases hr with hr | ⟨h1, h2, h3, h4⟩
    · exact .inl hr
    · have hne : ¬ (q = p ∧ b = a) := by
        rintro ⟨rfl, rfl⟩
        rw [hl] at h2; cases h2
        exact hc h1
      exact .inr ⟨h1, h2, (setByte_ne hne).trans h3, h4⟩
  | leave p j hl hc hw =>
    rcases hr with hr | ⟨h1, h2, h3, h4⟩
    · exact .inl hr
    · have hne : q ≠ p := by
        rintro rfl
        rw [hl] at h2; cases h2
        exact hc b h1
      refine .inr ⟨h1, ?_, h3, h4⟩
      simp only [Function.update_of_ne hne]
      exact h2

/-- entering a call -/
theorem enter_step {S : Sys} {prog : Nat → Nat → Op} {x x' : X} {p : Nat} {i : Nat × Nat} (h : XStep S prog x (.enter p i) x') :
    i.2 = x.cnt i.1 p ∧ x.loc p = none ∧ x'.g = x.g ∧ x'.cap = x.cap ∧ x'.loc p = some i ∧ x'.fin p = (fun _ => False) := by
  cases h with
  | enter p c hf hl => exact ⟨rfl, hl, rfl, rfl, Function.update_self .., Function.update_self ..⟩

theorem XExec.read {S : Sys} {prog : Nat → Nat → Op} {N : Nat} {st : Nat → X} {ev : Nat → XEv} (x : XExec S prog N st ev) {i : Nat × Nat}
    {q e : Nat} (he : e < N) (hev : ev e = .enter q i) {b : Int} (hs : Stable N st ev i q e b) {k : Nat} (hk : e < k) (hkN : k ≤ N) :
    Read ((st e).g.mem q b) i q b (st k) := by
  induction k with
  | zero => omega
  | succ k ih =>
    rcases Nat.lt_or_ge e k with h | h
    · exact read_step (x.step k (by omega)) (ih h (by omega)) (fun hl w hw => hs.2 k w h (by omega) hl hw)
    · obtain rfl : e = k := by omega
      have st1 := x.step e he
      rw [hev] at st1
      obtain ⟨h1, h2, h3, h4, h5, -⟩ := enter_step st1
      right
      have hc : (st e).cap i q b = none := by
        by_contra hc
        have := (x.inv (by omega : e ≤ N)).cap i q b hc
        omega
      rw [h3, h4]
      exact ⟨hc, h5, rfl, hs.1⟩

/-! ## What is written -/

theorem cap_mono {S : Sys} {prog : Nat → Nat → Op} {x x' : X} {e : XEv} (h : XStep S prog x e x') {i : Nat × Nat} {q : Nat} {b : Int}
    {v : BitVec 8} (hc : x.cap i q b = some v) : x'.cap i q b = some v := by
  cases h with
  | vis e g' h hp => exact hc
  | enter p c hf hl => exact hc
  | read p j B hl =>
    by_cases hj : i = j
    · subst hj
      simp only [Function.update_self, grab]
      rw [if_neg]
      · exact hc
      · rintro ⟨rfl, -, h⟩; rw [hc] at h; cases h
    · simp only [Function.update_of_ne hj]; exact hc
  | scratch p j a v hl hw hc' => exact hc
  | deliver p j a v hl hw hc' hv => exact hc
  | leave p j hl hc' hw => exact hc

theorem XExec.cap_mono {S : Sys} {prog : Nat → Nat → Op} {N : Nat} {st : Nat → X} {ev : Nat → XEv} (x : XExec S prog N st ev)
    {i : Nat × Nat} {q : Nat} {b : Int} {v : BitVec 8} {k l : Nat} (hk : k ≤ l) (hl : l ≤ N) (hc : (st k).cap i q b = some v) :
    (st l).cap i q b = some v := by
  induction l with
  | zero => obtain rfl : k = 0 := by omega
            exact hc
  | succ l ih =>
    rcases Nat.lt_or_ge l k with h | h
    · obtain rfl : k = l + 1 := by omega
      exact hc
    · exact Joint.cap_mono (x.step l (by omega)) (ih h (by omega))

/-- the result byte `a` is as what has been read says -/
def Result (o : Op) (p : Nat) (a : Int) (cap : Nat → Int → Option (BitVec 8)) (v : BitVec 8) : Prop :=
  ∀ m, Agrees cap m → ∃ m', o p m = .ok m' ∧ m' p a = v

theorem result_mono {S : Sys} {prog : Nat → Nat → Op} {x x' : X} {e : XEv} (h : XStep S prog x e x') {i : Nat × Nat} {o : Op} {p : Nat} {a : Int}
    {v : BitVec 8} (hr : Result o p a (x.cap i) v) : Result o p a (x'.cap i) v :=
  fun m hm => hr m (fun q b w hw => hm q b w (cap_mono h hw))

/-- a byte of PE `p`, which is in call `i` -/
structure Written (o : Op) (v0 : BitVec 8) (i : Nat × Nat) (p : Nat) (a : Int) (x : X) : Prop where
  loc : x.loc p = some i
  quiet : NoWriter x.g (p, a)
  keep : ¬ o.Changes p a → x.g.mem p a = v0
  fin : x.fin p a → Result o p a (x.cap i) (x.g.mem p a)

theorem written_step {S : Sys} {prog : Nat → Nat → Op} {x x' : X} {e : XEv} (h : XStep S prog x e x') {v0 : BitVec 8}
    {i : Nat × Nat} {p : Nat} {a : Int} (hr : Written (prog i.1 i.2) v0 i p a x) (hs : ∀ w, e = .vis w → ¬ w.writes (p, a))
    (hl' : e ≠ .leave p i) : Written (prog i.1 i.2) v0 i p a x' := by
  have hmono := h
  cases h with
  | vis e g' h hp =>
    obtain ⟨h5, h6⟩ := noWriter_step h hr.quiet (hs e rfl)
    simp only at h6
    exact ⟨hr.loc, h5, fun hc => h6.trans (hr.keep hc), fun hf => by
      show Result _ _ _ _ (g'.mem p a)
      rw [h6]; exact hr.fin hf⟩
  | enter q c hf hl =>
    have : p ≠ q := by rintro rfl; have := hr.loc; rw [hl] at this; cases this
    exact ⟨by simp only [Function.update_of_ne this]; exact hr.loc, hr.quiet, hr.keep, by
      simp only [Function.update_of_ne this]; exact hr.fin⟩
  | read q j B hl => exact ⟨hr.loc, hr.quiet, hr.keep, fun hf => result_mono hmono (hr.fin hf)⟩
  | scratch q j b v hl hw hc =>
    by_cases hne : p = q ∧ a = b
    · obtain ⟨rfl, rfl⟩ := hne
      have := hr.loc; rw [hl] at this; cases this
      exact ⟨hr.loc, hr.quiet, fun h => absurd hw h, by simp only [Function.update_self, false_imp_iff]⟩
    · refine ⟨hr.loc, hr.quiet, fun h => (setByte_ne hne).trans (hr.keep h), ?_⟩
      simp only [setByte_ne hne]
      intro hf
      apply hr.fin
      by_cases hq : p = q
      · subst hq
        rw [Function.update_self, Function.update_of_ne (fun h => hne ⟨rfl, h⟩)] at hf
        exact hf
      · rw [Function.update_of_ne hq] at hf
        exact hf
  | deliver q j b v hl hw hc hv =>
    by_cases hne : p = q ∧ a = b
    · obtain ⟨rfl, rfl⟩ := hne
      have := hr.loc; rw [hl] at this; cases this
      refine ⟨hr.loc, hr.quiet, fun h => absurd hw h, fun _ => ?_⟩
      simp only [setByte_self]
      exact hv
    · refine ⟨hr.loc, hr.quiet, fun h => (setByte_ne hne).trans (hr.keep h), ?_⟩
      simp only [setByte_ne hne]
      intro hf
      apply hr.fin
      by_cases hq : p = q
      · subst hq
        rw [Function.update_self, Function.update_of_ne (fun h => hne ⟨rfl, h⟩)] at hf
        exact hf
      · rw [Function.update_of_ne hq] at hf
        exact hf
  | leave q j hl hc hw =>
    have : p ≠ q := by
      rintro rfl
      have := hr.loc; rw [hl] at this; cases this
      exact hl' rfl
    exact ⟨by simp only [Function.update_of_ne this]; exact hr.loc, hr.quiet, hr.keep, hr.fin⟩

/-- call `i` of PE `p` from step `e` to step `t` -/
structure Span (N : Nat) (ev : Nat → XEv) (i : Nat × Nat) (p e t : Nat) : Prop where
  lt : e < t
  le : t < N
  enter : ev e = .enter p i
  leave : ev t = .leave p i

theorem XExec.cnt_le {S : Sys} {prog : Nat → Nat → Op} {N : Nat} {st : Nat → X} {ev : Nat → XEv} (x : XExec S prog N st ev) {k l : Nat}
    (hk : k ≤ l) (hl : l ≤ N) (c p : Nat) : (st k).cnt c p ≤ (st l).cnt c p := by
  induction l with
  | zero => obtain rfl : k = 0 := by omega
            exact le_refl _
  | succ l ih =>
    rcases Nat.lt_or_ge l k with h | h
    · obtain rfl : k = l + 1 := by omega
      exact le_refl _
    · refine (ih h (by omega)).trans ?_
      have s := x.step l (by omega)
      generalize st (l + 1) = y at s
      generalize st l = z at s
      generalize ev l = w at s
      cases s with
      | enter q c hf hl => exact cnt_mono _ _
      | vis e g' h hp => exact le_refl _
      | read p i B hl => exact le_refl _
      | scratch p i a v hl hw hr => exact le_refl _
      | deliver p i a v hl hw hr hv => exact le_refl _
      | leave p i hl hr hw => exact le_refl _

/-- a PE is in its call between entering and leaving, and leaves it once -/
theorem XExec.inside {S : Sys} {prog : Nat → Nat → Op} {N : Nat} {st : Nat → X} {ev : Nat → XEv} (x : XExec S prog N st ev) {i : Nat × Nat}
    {p e t : Nat} (h : Span N ev i p e t) {k : Nat} (hk : e < k) (hkt : k ≤ t) : (st k).loc p = some i := by
  -- entering twice is impossible, so going back from `t` the PE is in the call until `e`
  have hback : ∀ n, n ≤ t → e < t - n → (st (t - n)).loc p = some i := by
    intro n
    induction n with
    | zero =>
      intro _ _
      have s := x.step t h.le
      rw [h.leave] at s
      rw [Nat.sub_zero]
      generalize st (t + 1) = y at s
      cases s with
      | leave p i hl hr hw => exact hl
    | succ n ih =>
      intro hn hen
      have h1 := ih (by omega) (by omega)
      have s := x.step (t - (n + 1)) (by have := h.le; omega)
      have e1 : t - (n + 1) + 1 = t - n := by omega
      rw [e1] at s
      generalize hx : st (t - n) = x1 at s h1
      have hcnt : (st (e + 1)).cnt i.1 p ≤ (st (t - (n + 1))).cnt i.1 p := x.cnt_le (by omega) (by have := h.le; omega) _ _
      have hn1 : i.2 < (st (e + 1)).cnt i.1 p := by
        have s := x.step e (by have := h.lt; have := h.le; omega)
        rw [h.enter] at s
        exact (inv_step s (x.inv (by have := h.lt; have := h.le; omega))).num p i (enter_step s).2.2.2.2.1
      generalize st (t - (n + 1)) = x0 at s hcnt ⊢
      generalize ev (t - (n + 1)) = w at s
      cases s with
      | vis e g' h hp => exact h1
      | enter q c hf hl =>
        by_cases hq : p = q
        · subst hq
          simp only [Function.update_self, Option.some.injEq] at h1
          subst h1
          simp only at hcnt hn1
          omega
        · simp only [Function.update_of_ne hq] at h1
          exact h1
      | read p i B hl => exact h1
      | scratch p i a v hl hw hr => exact h1
      | deliver p i a v hl hw hr hv => exact h1
      | leave q j hl hr hw =>
        by_cases hq : p = q
        · subst hq
          simp only [Function.update_self] at h1
          cases h1
        · simp only [Function.update_of_ne hq] at h1
          exact h1
  have := hback (t - k) (by omega) (by omega)
  rwa [show t - (t - k) = k by omega] at this

theorem XExec.written {S : Sys} {prog : Nat → Nat → Op} {N : Nat} {st : Nat → X} {ev : Nat → XEv} (x : XExec S prog N st ev) {i : Nat × Nat}
    {p e t : Nat} (h : Span N ev i p e t) {a : Int} (hs : Stable N st ev i p e a) {k : Nat} (hk : e < k) (hkt : k ≤ t) :
    Written (prog i.1 i.2) ((st e).g.mem p a) i p a (st k) := by
  induction k with
  | zero => omega
  | succ k ih =>
    rcases Nat.lt_or_ge e k with h1 | h1
    · have hN := h.le
      refine written_step (x.step k (by omega)) (ih h1 (by omega)) (fun w hw => hs.2 k w h1 (by omega) (x.inside h h1 (by omega)) hw) ?_
      intro hev
      have s := x.step k (by omega)
      rw [hev] at s
      have := x.inside h (k := k + 1) (by omega) hkt
      generalize st (k + 1) = y at s this
      cases s with
      | leave p i hl hr hw => simp only [Function.update_self] at this; cases this
    · obtain rfl : e = k := by omega
      have st1 := x.step e (by have := h.lt; have := h.le; omega)
      rw [h.enter] at st1
      obtain ⟨-, -, h3, -, h5, h6⟩ := enter_step st1
      refine ⟨h5, ?_, ?_, ?_⟩
      · rw [h3]; exact hs.1
      · intro _; rw [h3]
      · rw [h6]; exact False.elim

end Verif.Joint
