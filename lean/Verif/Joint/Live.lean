import Verif.Joint.Props
/-!
# C99: a collective call that all members make can complete
-/
namespace Verif.Joint
open Verif.Rma Verif.Vis

/-- a finite execution with its events -/
inductive XRun (S : Sys) (prog : Nat → Nat → Op) : X → List XEv → X → Prop
  | nil (x : X) : XRun S prog x [] x
  | cons {x x1 x2 : X} {e : XEv} {l : List XEv} (s : XStep S prog x e x1) (r : XRun S prog x1 l x2) : XRun S prog x (e :: l) x2

theorem XRun.append {S : Sys} {prog : Nat → Nat → Op} {x x1 x2 : X} {l l' : List XEv} (h : XRun S prog x l x1) (h' : XRun S prog x1 l' x2) :
    XRun S prog x (l ++ l') x2 := by
  induction h with
  | nil x => exact h'
  | cons s r ih => exact .cons s (ih h')

/-- an execution followed by more steps -/
theorem XExec.extend {S : Sys} {prog : Nat → Nat → Op} {N : Nat} {st : Nat → X} {ev : Nat → XEv} (x : XExec S prog N st ev) {l : List XEv} {x' : X}
    (h : XRun S prog (st N) l x') : ∃ st' ev', XExec S prog (N + l.length) st' ev' ∧ (∀ k ≤ N, st' k = st k) ∧ (∀ k < N, ev' k = ev k) ∧
      st' (N + l.length) = x' ∧ ∀ e ∈ l, ∃ k, N ≤ k ∧ k < N + l.length ∧ ev' k = e := by
  generalize hy : st N = y at h
  induction h generalizing N st ev with
  | nil z => exact ⟨st, ev, x, fun _ _ => rfl, fun _ _ => rfl, hy, fun e he => (by cases he)⟩
  | @cons z z1 z2 e l s r ih =>
    subst hy
    have x1 : XExec S prog (N + 1) (Function.update st (N + 1) z1) (Function.update ev N e) := by
      refine ⟨?_, fun k hk => ?_⟩
      · rw [Function.update_of_ne (by omega)]; exact x.init
      · rcases Nat.lt_or_ge k N with h | h
        · rw [Function.update_of_ne (by omega), Function.update_of_ne (by omega), Function.update_of_ne (by omega)]
          exact x.step k h
        · obtain rfl : k = N := by omega
          rw [Function.update_of_ne (by omega), Function.update_self, Function.update_self]
          exact s
    obtain ⟨st', ev', h1, h2, h3, h4, h5⟩ := ih x1 (Function.update_self ..)
    have e1 : N + (e :: l).length = N + 1 + l.length := by rw [List.length_cons]; omega
    refine ⟨st', ev', by rw [e1]; exact h1, fun k hk => ?_, fun k hk => ?_, by rw [e1]; exact h4, fun w hw => ?_⟩
    · rw [h2 k (by omega), Function.update_of_ne (by omega)]
    · rw [h3 k (by omega), Function.update_of_ne (by omega)]
    · rcases List.mem_cons.mp hw with rfl | hw
      · exact ⟨N, le_rfl, by omega, by rw [h3 N (by omega), Function.update_self]⟩
      · obtain ⟨k, k1, k2, k3⟩ := h5 w hw
        exact ⟨k, by omega, by omega, k3⟩

/-- PE `p` is in call `i` -/
def In (i : Nat × Nat) (x : X) (p : Nat) : Prop := x.loc p = some i

/-- PE `p` can make call `i`: it is not inside a call, and it is its turn -/
def Before (S : Sys) (i : Nat × Nat) (x : X) (p : Nat) : Prop := Free S x.g p ∧ x.loc p = none ∧ x.cnt i.1 p = i.2

/-- PE `p` has made call `i` and returned from it -/
def Left (i : Nat × Nat) (x : X) (p : Nat) : Prop := x.loc p ≠ some i ∧ i.2 < x.cnt i.1 p

/-- what has been read of the members that have returned -/
theorem left_read {S : Sys} {prog : Nat → Nat → Op} {N : Nat} {st : Nat → X} {ev : Nat → XEv} (x : XExec S prog N st ev) {k : Nat} (hk : k ≤ N)
    {i : Nat × Nat} {p : Nat} (h : Left i (st k) p) (b : Int) : (st k).cap i p b ≠ none := by
  induction k with
  | zero =>
    obtain ⟨m, e⟩ := x.init
    rw [e] at h
    exact absurd h.2 (by simp [xinit])
  | succ k ih =>
    have s := x.step k (by omega)
    by_cases h1 : Left i (st k) p
    · have := ih (by omega) h1
      intro hn
      cases hc : (st k).cap i p b with
      | none => exact this hc
      | some v => rw [cap_mono s hc] at hn; cases hn
    · generalize st (k + 1) = y at s h
      generalize st k = z at s h1
      generalize ev k = w at s
      obtain ⟨hl, hc⟩ := h
      cases s with
      | vis e g' h' hp => exact absurd ⟨hl, hc⟩ h1
      | enter q c hf hl' =>
        exfalso
        by_cases hq : p = q
        · subst hq
          refine h1 ⟨by rw [hl']; simp, ?_⟩
          by_cases hci : i.1 = c
          · subst hci
            simp only [Function.update_self] at hl hc
            have : i.2 ≠ z.cnt i.1 p := fun h => hl (by rw [← h])
            omega
          · simp only [Function.update_of_ne hci] at hc; exact hc
        · refine h1 ⟨?_, ?_⟩
          · simp only [Function.update_of_ne hq] at hl; exact hl
          · by_cases hci : i.1 = c
            · subst hci
              simp only [Function.update_self, Function.update_of_ne hq] at hc; exact hc
            · simp only [Function.update_of_ne hci] at hc; exact hc
      | read q j B hl' => exact absurd ⟨hl, hc⟩ h1
      | scratch q j b v hl' hw hr => exact absurd ⟨hl, hc⟩ h1
      | deliver q j b v hl' hw hr hv => exact absurd ⟨hl, hc⟩ h1
      | leave q j hl' hr hw =>
        by_cases hq : p = q ∧ i = j
        · obtain ⟨rfl, rfl⟩ := hq
          exact hr b
        · exfalso
          refine h1 ⟨?_, hc⟩
          intro h2
          by_cases hp : p = q
          · subst hp
            rw [hl'] at h2
            cases h2
            exact hq ⟨rfl, rfl⟩
          · exact hl (by simp only [Function.update_of_ne hp]; exact h2)

/-- the members that are not yet in the call enter it -/
theorem enter_all {S : Sys} {prog : Nat → Nat → Op} {i : Nat × Nat} (ms : List Nat) {x : X} (h : ∀ p ∈ ms, Before S i x p ∨ In i x p ∨ Left i x p) :
    ∃ l x', XRun S prog x l x' ∧ x'.g = x.g ∧ x'.cap = x.cap ∧ (∀ p ∈ ms, (Before S i x p ∨ In i x p) → In i x' p) ∧
      (∀ p, In i x p → In i x' p) ∧ ∀ p, x.loc p ≠ none → x'.loc p = x.loc p := by
  induction ms generalizing x with
  | nil => exact ⟨[], x, .nil x, rfl, rfl, fun p hp => (by cases hp), fun p hp => hp, fun p _ => rfl⟩
  | cons q ms ih =>
    by_cases hq : Before S i x q
    · obtain ⟨hf, hl, hc⟩ := hq
      have s := XStep.enter (S := S) (prog := prog) (x := x) q i.1 hf hl
      rw [hc] at s
      generalize hx1 : ({ x with
        cnt := Function.update x.cnt i.1 (Function.update (x.cnt i.1) q (i.2 + 1))
        loc := Function.update x.loc q (some (i.1, i.2))
        fin := Function.update x.fin q (fun _ => False) } : X) = x1 at s
      have hg : x1.g = x.g := by rw [← hx1]
      have hlq : x1.loc q = some i := by rw [← hx1]; exact Function.update_self ..
      have hlo : ∀ p, p ≠ q → x1.loc p = x.loc p := fun p hp => by rw [← hx1]; exact Function.update_of_ne hp ..
      have hco : ∀ p, p ≠ q → x1.cnt i.1 p = x.cnt i.1 p := fun p hp => by
        rw [← hx1]
        show Function.update x.cnt i.1 (Function.update (x.cnt i.1) q (i.2 + 1)) i.1 p = _
        rw [Function.update_self, Function.update_of_ne hp]
      obtain ⟨l, x', r, e1, e2, e3, e4, e5⟩ := ih (x := x1) (fun p hp => by
        by_cases hpq : p = q
        · subst hpq; exact .inr (.inl hlq)
        · rcases h p (List.mem_cons_of_mem _ hp) with ⟨h1, h2, h3⟩ | h1 | ⟨h1, h2⟩
          · exact .inl ⟨by rw [hg]; exact h1, by rw [hlo p hpq]; exact h2, by rw [hco p hpq]; exact h3⟩
          · exact .inr (.inl (by unfold In; rw [hlo p hpq]; exact h1))
          · exact .inr (.inr ⟨by rw [hlo p hpq]; exact h1, by rw [hco p hpq]; exact h2⟩))
      refine ⟨_, x', .cons s r, e1.trans hg, e2.trans (by rw [← hx1]), fun p hp hb => ?_, fun p hp => ?_, fun p hp => ?_⟩
      · by_cases hpq : p = q
        · subst hpq; exact e4 p hlq
        · rcases List.mem_cons.mp hp with rfl | hp
          · exact absurd rfl hpq
          · refine e3 p hp ?_
            rcases hb with ⟨h1, h2, h3⟩ | h1
            · exact .inl ⟨by rw [hg]; exact h1, by rw [hlo p hpq]; exact h2, by rw [hco p hpq]; exact h3⟩
            · exact .inr (by unfold In; rw [hlo p hpq]; exact h1)
      · by_cases hpq : p = q
        · subst hpq; exact e4 p hlq
        · exact e4 p (by unfold In; rw [hlo p hpq]; exact hp)
      · have hpq : p ≠ q := by rintro rfl; exact hp hl
        rw [e5 p (by rw [hlo p hpq]; exact hp), hlo p hpq]
    · obtain ⟨l, x', r, e1, e2, e3, e4, e5⟩ := ih (x := x) (fun p hp => h p (List.mem_cons_of_mem _ hp))
      refine ⟨l, x', r, e1, e2, fun p hp hb => ?_, e4, e5⟩
      rcases List.mem_cons.mp hp with rfl | hp
      · exact e4 p (hb.resolve_left hq)
      · exact e3 p hp hb

/-- everything is read -/
theorem read_all {S : Sys} {prog : Nat → Nat → Op} {i : Nat × Nat} (ms : List Nat) {x : X} (h : ∀ p ∈ ms, In i x p ∨ ∀ b, x.cap i p b ≠ none) :
    ∃ l x', XRun S prog x l x' ∧ x'.g = x.g ∧ x'.loc = x.loc ∧ (∀ p ∈ ms, ∀ b, x'.cap i p b ≠ none) ∧
      (∀ p b, x.cap i p b ≠ none → x'.cap i p b ≠ none) := by
  induction ms generalizing x with
  | nil => exact ⟨[], x, .nil x, rfl, rfl, fun p hp => (by cases hp), fun p b h => h⟩
  | cons q ms ih =>
    have hmono : ∀ {x' : X} {e : XEv}, XStep S prog x e x' → ∀ p b, x.cap i p b ≠ none → x'.cap i p b ≠ none := by
      intro x' e s p b hp hn
      cases hc : x.cap i p b with
      | none => exact hp hc
      | some v => rw [cap_mono s hc] at hn; cases hn
    rcases h q (List.mem_cons_self ..) with hq | hq
    · have s := XStep.read (S := S) (prog := prog) (x := x) q i (fun _ => true) hq
      have hm := hmono s
      generalize hx1 : ({ x with cap := Function.update x.cap i (grab x i q (fun _ => true)) } : X) = x1 at s hm
      have hq1 : ∀ b, x1.cap i q b ≠ none := by
        intro b
        rw [← hx1]
        show Function.update x.cap i (grab x i q (fun _ => true)) i q b ≠ none
        rw [Function.update_self]
        unfold grab
        split
        · simp
        · rename_i hn
          exact fun hc => hn ⟨rfl, rfl, hc⟩
      obtain ⟨l, x', r, e1, e2, e3, e4⟩ := ih (x := x1) (fun p hp => by
        rcases h p (List.mem_cons_of_mem _ hp) with h1 | h1
        · exact .inl (by unfold In; rw [← hx1]; exact h1)
        · exact .inr (fun b => hm p b (h1 b)))
      refine ⟨_, x', .cons s r, e1.trans (by rw [← hx1]), e2.trans (by rw [← hx1]), fun p hp b => ?_, fun p b hp => e4 p b (hm p b hp)⟩
      rcases List.mem_cons.mp hp with rfl | hp
      · exact e4 p b (hq1 b)
      · exact e3 p hp b
    · obtain ⟨l, x', r, e1, e2, e3, e4⟩ := ih (x := x) (fun p hp => h p (List.mem_cons_of_mem _ hp))
      refine ⟨l, x', r, e1, e2, fun p hp b => ?_, e4⟩
      rcases List.mem_cons.mp hp with rfl | hp
      · exact e4 p b (hq b)
      · exact e3 p hp b

/-- the results of one member are written -/
theorem deliver_all {S : Sys} {prog : Nat → Nat → Op} {i : Nat × Nat} {p : Nat} (as : List Int) {x : X} (hl : In i x p)
    (hr : ∀ b, x.cap i p b ≠ none) (hv : ∀ a, ∃ v, Result (prog i.1 i.2) p a (x.cap i) v) :
    ∃ l x', XRun S prog x l x' ∧ x'.loc = x.loc ∧ x'.cap = x.cap ∧ (∀ a ∈ as, Op.Changes (prog i.1 i.2) p a → x'.fin p a) ∧
      (∀ a, x.fin p a → x'.fin p a) ∧ ∀ q, q ≠ p → x'.fin q = x.fin q := by
  induction as generalizing x with
  | nil => exact ⟨[], x, .nil x, rfl, rfl, fun p hp => (by cases hp), fun a h => h, fun q _ => rfl⟩
  | cons a as ih =>
    by_cases hc : Op.Changes (prog i.1 i.2) p a
    · obtain ⟨v, hv'⟩ := hv a
      have s := XStep.deliver (S := S) (prog := prog) (x := x) p i a v hl hc (hr a) hv'
      generalize hx1 : ({ x with
        g := { x.g with mem := setByte x.g.mem p a v }
        fin := Function.update x.fin p (Function.update (x.fin p) a True) } : X) = x1 at s
      obtain ⟨l, x', r, e1, e2, e3, e4, e5⟩ := ih (x := x1) (by rw [← hx1]; exact hl) (by rw [← hx1]; exact hr) (by rw [← hx1]; exact hv)
      have hfa : x1.fin p a := by
        rw [← hx1]
        show Function.update x.fin p (Function.update (x.fin p) a True) p a
        rw [Function.update_self, Function.update_self]; trivial
      refine ⟨_, x', .cons s r, e1.trans (by rw [← hx1]), e2.trans (by rw [← hx1]), fun b hb hbc => ?_, fun b hb => ?_, fun q hq => ?_⟩
      · rcases List.mem_cons.mp hb with rfl | hb
        · exact e4 _ hfa
        · exact e3 b hb hbc
      · apply e4
        by_cases hba : b = a
        · subst hba; exact hfa
        · rw [← hx1]
          show Function.update x.fin p (Function.update (x.fin p) a True) p b
          rw [Function.update_self, Function.update_of_ne hba]; exact hb
      · rw [e5 q hq, ← hx1]
        exact Function.update_of_ne hq ..
    · obtain ⟨l, x', r, e1, e2, e3, e4, e5⟩ := ih (x := x) hl hr hv
      refine ⟨l, x', r, e1, e2, fun b hb hbc => ?_, e4, e5⟩
      rcases List.mem_cons.mp hb with rfl | hb
      · exact absurd hbc hc
      · exact e3 b hb hbc

/-- the members return one after the other -/
theorem leave_all {S : Sys} {prog : Nat → Nat → Op} {i : Nat × Nat} (ms : List Nat) (as : Nat → List Int)
    (has : ∀ p ∈ ms, ∀ a, Op.Changes (prog i.1 i.2) p a → a ∈ as p) {x : X}
    (h : ∀ p ∈ ms, In i x p → (∀ b, x.cap i p b ≠ none) ∧ ∀ a, ∃ v, Result (prog i.1 i.2) p a (x.cap i) v) :
    ∃ l x', XRun S prog x l x' ∧ (∀ p ∈ ms, In i x p → .leave p i ∈ l) ∧ (∀ p ∈ ms, ¬ In i x' p) ∧
      ∀ p, ¬ In i x p → x'.loc p = x.loc p := by
  induction ms generalizing x with
  | nil => exact ⟨[], x, .nil x, fun p hp => (by cases hp), fun p hp => (by cases hp), fun p _ => rfl⟩
  | cons q ms ih =>
    by_cases hq : In i x q
    · obtain ⟨hr, hv⟩ := h q (List.mem_cons_self ..) hq
      obtain ⟨l, x1, r, e1, e2, e3, -, -⟩ := deliver_all (S := S) (as q) hq hr hv
      have s := XStep.leave (S := S) (prog := prog) (x := x1) q i (by rw [e1]; exact hq) (by rw [e2]; exact hr)
        (fun a ha => e3 a (has q (List.mem_cons_self ..) a ha) ha)
      generalize hx2 : ({ x1 with loc := Function.update x1.loc q none } : X) = x2 at s
      have hlo : ∀ p, p ≠ q → x2.loc p = x.loc p := fun p hp => by
        rw [← hx2, ← e1]; exact Function.update_of_ne hp ..
      have hlq : x2.loc q = none := by rw [← hx2]; exact Function.update_self ..
      have hnq : ¬ In i x2 q := by unfold In; rw [hlq]; simp
      obtain ⟨l', x', r', f1, f2, f3⟩ := ih (fun p hp => has p (List.mem_cons_of_mem _ hp)) (x := x2) (fun p hp hin => by
        have hpq : p ≠ q := by rintro rfl; exact hnq hin
        have : x2.cap = x.cap := by rw [← hx2]; exact e2
        rw [this]
        exact h p (List.mem_cons_of_mem _ hp) (by unfold In at hin ⊢; rw [← hlo p hpq]; exact hin))
      refine ⟨_, x', r.append (.cons s r'), fun p hp hin => ?_, fun p hp => ?_, fun p hp => ?_⟩
      · by_cases hpq : p = q
        · subst hpq
          exact List.mem_append.mpr (.inr (List.mem_cons_self ..))
        · rcases List.mem_cons.mp hp with rfl | hp
          · exact absurd rfl hpq
          · exact List.mem_append.mpr (.inr (List.mem_cons_of_mem _ (f1 p hp (by unfold In at hin ⊢; rw [hlo p hpq]; exact hin))))
      · rcases List.mem_cons.mp hp with rfl | hp
        · unfold In
          rw [f3 _ hnq, hlq]; simp
        · exact f2 p hp
      · have hpq : p ≠ q := by rintro rfl; exact hp hq
        rw [f3 p (by unfold In at hp ⊢; rw [hlo p hpq]; exact hp), hlo p hpq]
    · obtain ⟨l, x', r, f1, f2, f3⟩ := ih (fun p hp => has p (List.mem_cons_of_mem _ hp)) (x := x) (fun p hp hin => h p (List.mem_cons_of_mem _ hp) hin)
      refine ⟨l, x', r, fun p hp hin => ?_, fun p hp => ?_, f3⟩
      · rcases List.mem_cons.mp hp with rfl | hp
        · exact absurd hin hq
        · exact f1 p hp hin
      · rcases List.mem_cons.mp hp with rfl | hp
        · unfold In
          rw [f3 _ hq]; exact hq
        · exact f2 p hp

/-- **C99** No deadlock: in every state of every execution in which each member of a collective call has made it, is in it, or can make it next, the
call can be completed by steps of the members' calls alone: all members return. `hl`: the result of a member is determined by the members'
memories; `hc`: it has finitely many bytes. -/
theorem C99_completes {S : Sys} {prog : Nat → Nat → Op} {N : Nat} {st : Nat → X} {ev : Nat → XEv} (x : XExec S prog N st ev) {i : Nat × Nat}
    {ms : List Nat} (hms : ∀ p ∈ ms, Before S i (st N) p ∨ In i (st N) p ∨ Left i (st N) p)
    (hl : ∀ p ∈ ms, ∀ m1 m2 : Mems, (∀ q ∈ ms, m1 q = m2 q) → ∃ m1' m2', prog i.1 i.2 p m1 = .ok m1' ∧ prog i.1 i.2 p m2 = .ok m2' ∧ m1' p = m2' p)
    (as : Nat → List Int) (hc : ∀ p ∈ ms, ∀ a, Op.Changes (prog i.1 i.2) p a → a ∈ as p) :
    ∃ N' st' ev', XExec S prog N' st' ev' ∧ N ≤ N' ∧ (∀ k ≤ N, st' k = st k) ∧ (∀ k < N, ev' k = ev k) ∧
      (∀ p ∈ ms, ¬ In i (st' N') p) ∧ ∀ p ∈ ms, (Before S i (st N) p ∨ In i (st N) p) → ∃ t, N ≤ t ∧ t < N' ∧ ev' t = .leave p i := by
  obtain ⟨l1, x1, r1, -, a2, a3, -, -⟩ := enter_all (prog := prog) ms hms
  have hleft : ∀ p ∈ ms, In i x1 p ∨ ∀ b, x1.cap i p b ≠ none := by
    intro p hp
    rcases hms p hp with h | h | h
    · exact .inl (a3 p hp (.inl h))
    · exact .inl (a3 p hp (.inr h))
    · exact .inr (fun b => by rw [a2]; exact left_read x le_rfl h b)
  obtain ⟨l2, x2, r2, -, b2, b3, -⟩ := read_all (S := S) (prog := prog) ms hleft
  have hres : ∀ p ∈ ms, ∀ a, ∃ v, Result (prog i.1 i.2) p a (x2.cap i) v := by
    intro p hp a
    obtain ⟨m1', -, h1, -, -⟩ := hl p hp (fun q b => (x2.cap i q b).getD 0) (fun q b => (x2.cap i q b).getD 0) (fun _ _ => rfl)
    refine ⟨m1' p a, fun m hm => ?_⟩
    obtain ⟨n1, n2, g1, g2, g3⟩ := hl p hp (fun q b => (x2.cap i q b).getD 0) m (fun q hq => by
      funext b
      cases hcb : x2.cap i q b with
      | none => exact absurd hcb (b3 q hq b)
      | some v => rw [hm q b v hcb]; rfl)
    rw [h1] at g1; cases g1
    exact ⟨n2, g2, by rw [← g3]⟩
  obtain ⟨l3, x3, r3, c1, c2, -⟩ := leave_all (S := S) ms as hc (x := x2) (fun p hp _ => ⟨b3 p hp, hres p hp⟩)
  obtain ⟨st', ev', h1, h2, h3, h4, h5⟩ := x.extend (r1.append (r2.append r3))
  refine ⟨_, st', ev', h1, by omega, h2, h3, by rw [h4]; exact c2, fun p hp hin => ?_⟩
  refine h5 _ (List.mem_append.mpr (.inr (List.mem_append.mpr (.inr (c1 p hp ?_)))))
  unfold In
  rw [b2]
  exact a3 p hp hin

open Verif.Coll Verif.Api in
/-- **C99** A broadcast on any team that all members call can complete. Missing: counts of 2^31 and more. -/
theorem C99_broadcast_completes_partial {S : Sys} {prog : Nat → Nat → Op} {N : Nat} {st : Nat → X} {ev : Nat → XEv} (x : XExec S prog N st ev)
    {i : Nat × Nat} {fn : CFn} (hf : fn.Exists) {cts n me : Nat} (hme : me < n) {hs : List Team.Split}
    {hd : Nat → Team.Handle} {o : Team.Obj} (h : Team.Holds n me hs o) (ht : OnTeam cts n hs hd o.comm) {root rp : Nat}
    (hroot : o.comm[root]? = some rp) (src dst : Nat → Int) {len : Nat} (hc : len < 2 ^ 31)
    (ha : overlap (src rp) (dst rp) (len * fn.elem) = false)
    (hprog : prog i.1 i.2 = fun me => broadcastT fn cts n hd me root src dst len)
    (hms : ∀ p ∈ o.comm, Before S i (st N) p ∨ In i (st N) p ∨ Left i (st N) p) :
    ∃ N' st' ev', XExec S prog N' st' ev' ∧ N ≤ N' ∧ (∀ k ≤ N, st' k = st k) ∧ (∀ k < N, ev' k = ev k) ∧
      (∀ p ∈ o.comm, ¬ In i (st' N') p) ∧ ∀ p ∈ o.comm, (Before S i (st N) p ∨ In i (st N) p) → ∃ t, N ≤ t ∧ t < N' ∧ ev' t = .leave p i := by
  have spec : ∀ p ∈ o.comm, ∀ m, ∃ m', prog i.1 i.2 p m = .ok m' ∧
      ((∀ x < len * fn.elem, m' p (dst p + (x : Int)) = m rp (src rp + (x : Int))) ∧
      (∀ y, (y < dst p ∨ dst p + ((len * fn.elem : Nat) : Int) ≤ y) → m' p y = m p y)) := by
    intro p hp m
    obtain ⟨hpn, o', hh', ho'⟩ := member hme h hp
    obtain ⟨m', h1, h2, h3, -⟩ := C81_broadcast_partial hf hpn hh' (by rw [ho']; exact ht) (by rw [ho']; exact hroot) src dst hc ha m
    rw [hprog]
    exact ⟨m', h1, fun x hx => h2 p (by rw [ho']; exact hp) x hx, fun y hy => h3 p (by rw [ho']; exact hp) y hy⟩
  refine C99_completes x hms (fun p hp m1 m2 heq => ?_) (fun p => (List.range (len * fn.elem)).map (fun y : Nat => dst p + (y : Int))) (fun p hp a hch => ?_)
  · obtain ⟨m1', e1, f1, g1⟩ := spec p hp m1
    obtain ⟨m2', e2, f2, g2⟩ := spec p hp m2
    refine ⟨m1', m2', e1, e2, ?_⟩
    funext y
    by_cases hy : y < dst p ∨ dst p + ((len * fn.elem : Nat) : Int) ≤ y
    · rw [g1 y hy, g2 y hy, heq p hp]
    · obtain ⟨z, rfl⟩ : ∃ z : Nat, y = dst p + (z : Int) := ⟨(y - dst p).toNat, by omega⟩
      rw [f1 z (by omega), f2 z (by omega), heq rp (List.mem_of_getElem? hroot)]
  · obtain ⟨m, m', e, hne⟩ := hch
    obtain ⟨m2, e2, -, g2⟩ := spec p hp m
    rw [e] at e2; cases e2
    by_cases hy : a < dst p ∨ dst p + ((len * fn.elem : Nat) : Int) ≤ a
    · exact absurd (g2 a hy) hne
    · have hz : (a - dst p).toNat < len * fn.elem := by omega
      have hz' : dst p + (((a - dst p).toNat : Nat) : Int) = a := by omega
      exact List.mem_map.mpr ⟨(a - dst p).toNat, List.mem_range.mpr hz, hz'⟩

end Verif.Joint
