import Verif.Bsp.Props
import Verif.Vis.FairProps
import Verif.Flow.BlocksEx
/-!
# C105: programs without races that work in phases get through all of them, and end as they mean

`C104` says what holds if a program gets somewhere. Here: infinite fair executions (`Inf.Fair`, C102).
-/
namespace Verif.Bsp
open Verif.Sobj Verif.Rma Verif.Vis

/-- The execution `R` is one of program `P`, which calls `N` barriers; `pos i p`: how many actions PE `p` has done since its last barrier.
PEs do nothing but their program (`own`), additions to signed words by handlers do not overflow (`safe`, undefined in C, C24: none are made); a PE that can go on stands at its next action (`stands`), which the library accepts (`accepts`:
apart from what is in flight; C93 gives this for calls of the routines on symmetric addresses within their limits). -/
structure Exec {S : Sys} (D : Nat × Int → Prop) (P : Prog) (N : Nat) (R : Inf S) (pos : Nat → Nat → Nat) : Prop where
  pos0 : pos 0 = fun _ => 0
  step : ∀ i e, R.ev i = some e → XStep S D P ⟨R.st i, pos i⟩ e ⟨R.st (i + 1), pos (i + 1)⟩
  idle : ∀ i, R.ev i = none → pos (i + 1) = pos i
  own : ∀ i e p, R.ev i = some e → e.own = some p → e = .enter p ∨
    ∃ a, P.next p ((R.st i).arr p) (pos i p) ((R.st i).mem p) = some a ∧ Does S p a e ∧ pos (i + 1) p = pos i p + 1
  bars : ∀ i p, Free S (R.st i) p → (R.st i).arr p < N → P.next p ((R.st i).arr p) (pos i p) ((R.st i).mem p) = none → AtBarrier R i p
  quiets : ∀ i p, Free S (R.st i) p → (R.st i).arr p < N → P.next p ((R.st i).arr p) (pos i p) ((R.st i).mem p) = some .quiet →
    AtCall R i p (.quiet none) ∨ AtCall R i p (.fence none)
  accepts : ∀ i p a, Free S (R.st i) p → (R.st i).arr p < N → P.next p ((R.st i).arr p) (pos i p) ((R.st i).mem p) = some a → a ≠ .quiet →
    ∃ e g', R.want i p e ∧ Does S p a e ∧ Step S ((R.st i).clear p) e g'
  safe : ∀ i p tgt a ty v, Free S (R.st i) p → P.next p ((R.st i).arr p) (pos i p) ((R.st i).mem p) = some (.add tgt a ty v) →
    (S.cf p).amoDirect = true ∨ ty.kind ≠ .sint ty.bytes

section
variable {S : Sys} {D : Nat × Int → Prop} {P : Prog} {N : Nat} {R : Inf S} {pos : Nat → Nat → Nat}

theorem Exec.run (E : Exec D P N R pos) (i : Nat) : ∃ l, XRun S D P (start R.mem) l ⟨R.st i, pos i⟩ := by
  induction i with
  | zero =>
    have : (⟨R.st 0, pos 0⟩ : X) = start R.mem := by rw [E.pos0, R.start]; rfl
    rw [this]
    exact ⟨[], .nil _⟩
  | succ i ih =>
    obtain ⟨l, h⟩ := ih
    cases he : R.ev i with
    | none => rw [R.idle i he, E.idle i he]; exact ⟨l, h⟩
    | some e => exact ⟨_, h.snoc (E.step i e he)⟩

theorem does_own {p : Nat} {a : Act} {e : Ev} (h : Does S p a e) : e.own = some p := by
  cases a with
  | put tgt nbi xs => obtain ⟨_, _, _, rfl, _⟩ := h; rfl
  | get tgt nbi xs => obtain ⟨_, _, _, rfl, _⟩ := h; rfl
  | store a v => cases h; rfl
  | add tgt a ty v => obtain ⟨_, _, _, _, rfl, _⟩ := h; rfl
  | quiet => rcases h with rfl | rfl <;> rfl

theorem does_plain {p : Nat} {a : Act} {e : Ev} (h : Does S p a e) (hq : a ≠ .quiet) : e.plain = true := by
  cases a with
  | put tgt nbi xs => obtain ⟨_, _, _, rfl, _⟩ := h; rfl
  | get tgt nbi xs => obtain ⟨_, _, _, rfl, _⟩ := h; rfl
  | store a v => cases h; rfl
  | add tgt a ty v => obtain ⟨_, _, _, _, rfl, _⟩ := h; rfl
  | quiet => exact absurd rfl hq

theorem does_safe {p : Nat} {a : Act} {e : Ev} (h : Does S p a e)
    (hs : ∀ tgt w ty v, a = .add tgt w ty v → (S.cf p).amoDirect = true ∨ ty.kind ≠ .sint ty.bytes) : e.Safe S := by
  cases a with
  | put tgt nbi xs => obtain ⟨_, _, _, rfl, _⟩ := h; exact trivial
  | get tgt nbi xs => obtain ⟨_, _, _, rfl, _⟩ := h; exact trivial
  | store a v => cases h; exact trivial
  | add tgt a ty v =>
    obtain ⟨_, _, _, _, rfl, _⟩ := h
    rcases hs tgt a ty v rfl with h | h
    · exact Or.inl h
    · exact Or.inr (Or.inl h)
  | quiet => rcases h with rfl | rfl <;> exact trivial

/-- a PE that makes a call is in no other -/
theorem own_free {g g' : G} {e : Ev} {p : Nat} (st : Step S g e g') (ho : e.own = some p) : Free S g p := by
  cases st with
  | put p tgt nbi ctx addr src n gpu mode oc tc oty tty xs s' hf hm e hx d => cases ho; exact hf
  | get p tgt nbi ctx addr src n gpu mode oc tc oty tty xs s' hf hm e hx d => cases ho; exact hf
  | amo p tgt ctx addr r ty api gpu mode s' hf hm ht hk e hr d => cases ho; exact hf
  | amoRet p tgt ctx addr r ty api gpu mode s' hf hm ht hk e hr d => cases ho; exact hf
  | store p a v hf => cases ho; exact hf
  | poll p addr r n mode hf hm hr => cases ho; exact hf
  | touch p ws hf => cases ho; exact hf
  | call p op s' hf l _ e d => cases ho; exact hf
  | enter p s' hf e d => cases ho; exact hf
  | leave p hp h1 ha => cases ho
  | perform q l1 l2 pd t1 t2 a m' hq hl e => cases ho
  | performBusy q t1 t2 a m' hq hl e => cases ho
  | fin q done hq d => cases ho

theorem Exec.isSafe (E : Exec D P N R pos) : R.Safe := by
  intro i e he
  cases ho : e.own with
  | none => cases e <;> first | exact trivial | cases ho
  | some p =>
    rcases E.own i e p he ho with rfl | ⟨a, hn, hd, _⟩
    · exact trivial
    · exact does_safe hd (fun tgt w ty v ha => E.safe i p tgt w ty v (own_free (R.step i e he) ho) (by rw [hn, ha]))

/-- no action, no progress in the program -/
theorem Exec.pos1 (E : Exec D P N R pos) {j p : Nat} (h : R.Mute j p) : pos (j + 1) p = pos j p := by
  cases he : R.ev j with
  | none => rw [E.idle j he]
  | some e =>
    have s := E.step j e he
    have hne := h e he
    generalize hx : (⟨R.st j, pos j⟩ : X) = x at s
    generalize hy : (⟨R.st (j + 1), pos (j + 1)⟩ : X) = y at s
    have ep : x.pos = pos j := by rw [← hx]
    have eq : y.pos = pos (j + 1) := by rw [← hy]
    rw [← ep, ← eq]
    cases s with
    | act q a hn hd s =>
      refine Function.update_of_ne (fun e => ?_) _ _
      subst e
      exact hne (does_own hd)
    | bar q hn s =>
      refine Function.update_of_ne (fun e => ?_) _ _
      subst e
      exact hne rfl
    | other hb hw s => rfl

theorem Exec.posn (E : Exec D P N R pos) {i p : Nat} (n : Nat) (h : ∀ j, i ≤ j → j < i + n → R.Mute j p) : pos (i + n) p = pos i p := by
  induction n with
  | zero => rfl
  | succ n ih =>
    rw [← ih (fun j h1 h2 => h j h1 (by omega))]
    exact E.pos1 (h (i + n) (by omega) (by omega))

/-- a step creates no spaces, unless it is a call that does -/
theorem nospaces_step {g g' : G} {e : Ev} (st : Step S g e g') (hc : ∀ p op, e = .call p op → op = .quiet none ∨ op = .fence none)
    (ih : ∀ p, (g.pe p).spaces = []) : ∀ p, (g'.pe p).spaces = [] := by
  have key : ∀ {p : Nat} {s' : Order.St}, s'.spaces = [] → ∀ q, (Function.update g.pe p s' q).spaces = [] := by
    intro p s' h1 q
    rw [upd_at]
    split
    · exact h1
    · exact ih q
  cases st with
  | put p tgt nbi ctx addr src n gpu mode oc tc oty tty xs s' hf hm e hx d => exact key (Flow.nospaces_issue e (ih p))
  | get p tgt nbi ctx addr src n gpu mode oc tc oty tty xs s' hf hm e hx d => exact key (Flow.nospaces_issue e (ih p))
  | amo p tgt ctx addr r ty api gpu mode s' hf hm ht hk e hr d => exact key (Flow.nospaces_issue e (ih p))
  | amoRet p tgt ctx addr r ty api gpu mode s' hf hm ht hk e hr d => exact key (Flow.nospaces_issue e (ih p))
  | store p a v hf => exact ih
  | poll p addr r n mode hf hm hr => exact ih
  | touch p ws hf => exact ih
  | call p op s' hf l _ e d =>
    refine key ?_
    have hop := hc p op rfl
    rcases hop with rfl | rfl
    · simp only [Order.step, Order.quiet] at e
      cases hf : Order.flushLocs (S.cf p) (g.pe p) (Order.quietLocs (S.cf p) (g.pe p)) with
      | ok s1 => rw [hf] at e; cases e; exact Flow.nospaces_am (Flow.nospaces_flushLocs hf (ih p))
      | abort => rw [hf] at e; cases e
      | ub => rw [hf] at e; cases e
      | hang => rw [hf] at e; cases e
    · exact Flow.nospaces_fence e (ih p)
  | enter p s' hf e d =>
    refine key ?_
    have hwf : ∀ {s s' : Order.St} {loc : Order.Loc}, Order.winFlush s loc = .ok s' → s.spaces = [] → s'.spaces = [] := by
      intro s s' loc e h
      unfold Order.winFlush at e
      split at e
      · cases e
      · cases e; exact h
    unfold Order.barrierLocal at e
    have h2 : ∀ r : Res Order.St, (r.bind fun s2 => .ok { Order.amFlush (S.cf p) s2 (List.range S.npes) with
        ep := (Order.amFlush (S.cf p) s2 (List.range S.npes)).ep + 1 }) = .ok s' → (∀ s2, r = .ok s2 → s2.spaces = []) → s'.spaces = [] := by
      intro r e h
      cases r with
      | ok s2 => rw [Res.bind_ok] at e; cases e; exact Flow.nospaces_am (h s2 rfl)
      | abort => cases e
      | ub => cases e
      | hang => cases e
    refine h2 _ e fun s2 e2 => ?_
    split at e2
    · exact hwf e2 (ih p)
    · cases e3 : Order.winFlush (g.pe p) .heap with
      | ok s1 => rw [e3, Res.bind_ok] at e2; exact hwf e2 (hwf e3 (ih p))
      | abort => rw [e3] at e2; cases e2
      | ub => rw [e3] at e2; cases e2
      | hang => rw [e3] at e2; cases e2
  | leave p hp h1 ha => exact ih
  | perform q l1 l2 pd t1 t2 a m' hq hl e => exact ih
  | performBusy q t1 t2 a m' hq hl e => exact ih
  | fin q done hq d => exact key (ih q)

theorem does_call {p : Nat} {a : Act} {q : Nat} {op : Order.Op} (hd : Does S p a (.call q op)) : op = .quiet none ∨ op = .fence none := by
  cases a with
  | put tgt nbi xs => obtain ⟨_, _, _, h, _⟩ := hd; cases h
  | get tgt nbi xs => obtain ⟨_, _, _, h, _⟩ := hd; cases h
  | store a v => cases hd
  | add tgt a ty v => obtain ⟨_, _, _, _, h, _⟩ := hd; cases h
  | quiet => rcases hd with h | h <;> cases h; exacts [Or.inl rfl, Or.inr rfl]

/-- the PEs have no spaces -/
theorem Exec.nospaces (E : Exec D P N R pos) (i : Nat) : ∀ p, ((R.st i).pe p).spaces = [] := by
  induction i with
  | zero => rw [R.start]; exact fun _ => rfl
  | succ i ih =>
    cases he : R.ev i with
    | none => rw [R.idle i he]; exact ih
    | some e =>
      refine nospaces_step (R.step i e he) (fun p op h => ?_) ih
      subst h
      rcases E.own i _ p he rfl with h | ⟨a, _, hd, _⟩
      · cases h
      · exact does_call hd

/-- In a phase a PE comes to the barrier at its end. -/
theorem Exec.reaches {M : Nat → Mems} {acts : Nat → Nat → List Act} (hm : Means S.npes D P M acts) (hM : R.mem = M 0) (F : R.Fair)
    (E : Exec D P N R pos) {p : Nat} (hp : p < S.npes) : ∀ n i, (R.st i).arr p < N → (R.st i).arr p = (R.st i).lv p →
      (acts ((R.st i).arr p) p).length - pos i p ≤ n →
      ∃ j, i ≤ j ∧ ((R.st i).arr p < (R.st j).arr p ∨ (AtBarrier R j p ∧ (R.st j).arr p = (R.st j).lv p)) := by
  have hlv : ∀ i, (R.st i).lv p ≤ (R.st i).arr p := fun i => (gi_reach (R.reach i)).lv p hp p hp
  have hrun : ∀ i, ∃ l, XRun S D P (start (M 0)) l ⟨R.st i, pos i⟩ := fun i => hM ▸ E.run i
  have hnext : ∀ i, Free S (R.st i) p → P.next p ((R.st i).arr p) (pos i p) ((R.st i).mem p) = (acts ((R.st i).arr p) p)[pos i p]? := by
    intro i hf
    obtain ⟨l, r⟩ := hrun i
    exact C104_program_partial hm r hf
  intro n
  induction n with
  | zero =>
    intro i hN hb hn
    obtain ⟨i', hi, hbz⟩ := C102_blocking F E.isSafe hp i
    refine ⟨i', hi, ?_⟩
    have h1 := R.arr_mono' (p := p) hi
    have h2 := R.lv_mono' (p := p) hi
    have h3 := hlv i'
    by_cases hlt : (R.st i).arr p < (R.st i').arr p
    · exact Or.inl hlt
    · have hf : Free S (R.st i') p := ⟨hp, by omega, hbz⟩
      refine Or.inr ⟨E.bars i' p hf (by omega) ?_, hf.2.1⟩
      rw [hnext i' hf]
      have harr : (R.st i').arr p = (R.st i).arr p := by omega
      rw [harr]
      refine List.getElem?_eq_none ?_
      -- no actions are left, and the program's position is not behind
      by_contra hc
      have hne : pos i' p < (acts ((R.st i).arr p) p).length := by omega
      obtain ⟨m, rfl⟩ := Nat.exists_eq_add_of_le hi
      -- the position never goes down within a phase
      have hmono : ∀ m, (R.st (i + m)).arr p = (R.st i).arr p → pos i p ≤ pos (i + m) p := by
        intro m
        induction m with
        | zero => intro _; exact Nat.le_refl _
        | succ m ih =>
          intro ha
          have g1 := R.arr_mono' (p := p) (show i ≤ i + m by omega)
          have g2 := R.arr_mono' (p := p) (show i + m ≤ i + (m + 1) by omega)
          have ih := ih (by omega)
          by_cases hmu : R.Mute (i + m) p
          · rw [show i + (m + 1) = i + m + 1 from rfl, E.pos1 hmu]; exact ih
          · unfold Inf.Mute at hmu
            push Not at hmu
            obtain ⟨e, he, ho⟩ := hmu
            rcases E.own _ e p he ho with rfl | ⟨a, _, _, h4⟩
            · have := enter_arr (R.step _ _ he)
              rw [show i + (m + 1) = i + m + 1 from rfl] at ha
              omega
            · rw [show i + (m + 1) = i + m + 1 from rfl, h4]; omega
      have := hmono m harr
      omega
  | succ n ih =>
    intro i hN hb hn
    obtain ⟨i', hi, hbz⟩ := C102_blocking F E.isSafe hp i
    have h1 := R.arr_mono' (p := p) hi
    have h2 := R.lv_mono' (p := p) hi
    have h3 := hlv i'
    by_cases hlt : (R.st i).arr p < (R.st i').arr p
    · exact ⟨i', hi, Or.inl hlt⟩
    · have hf : Free S (R.st i') p := ⟨hp, by omega, hbz⟩
      have harr : (R.st i').arr p = (R.st i).arr p := by omega
      have hmono : ∀ m, (R.st (i + m)).arr p = (R.st i).arr p → pos i p ≤ pos (i + m) p := by
        intro m
        induction m with
        | zero => intro _; exact Nat.le_refl _
        | succ m ih =>
          intro ha
          have g1 := R.arr_mono' (p := p) (show i ≤ i + m by omega)
          have g2 := R.arr_mono' (p := p) (show i + m ≤ i + (m + 1) by omega)
          have ih := ih (by omega)
          by_cases hmu : R.Mute (i + m) p
          · rw [show i + (m + 1) = i + m + 1 from rfl, E.pos1 hmu]; exact ih
          · unfold Inf.Mute at hmu
            push Not at hmu
            obtain ⟨e, he, ho⟩ := hmu
            rcases E.own _ e p he ho with rfl | ⟨a, _, _, h4⟩
            · have := enter_arr (R.step _ _ he)
              rw [show i + (m + 1) = i + m + 1 from rfl] at ha
              omega
            · rw [show i + (m + 1) = i + m + 1 from rfl, h4]; omega
      have hpos : pos i p ≤ pos i' p := by
        obtain ⟨m, rfl⟩ := Nat.exists_eq_add_of_le hi
        exact hmono m harr
      cases hnx : P.next p ((R.st i').arr p) (pos i' p) ((R.st i').mem p) with
      | none => exact ⟨i', hi, Or.inr ⟨E.bars i' p hf (by omega) hnx, hf.2.1⟩⟩
      | some a =>
        have hlen : pos i' p < (acts ((R.st i).arr p) p).length := by
          rw [hnext i' hf, harr] at hnx
          exact (List.getElem?_eq_some_iff.mp hnx).1
        -- it does something
        obtain ⟨j, e, hj, he, ho⟩ : ∃ j e, i' ≤ j ∧ R.ev j = some e ∧ e.own = some p := by
          by_cases hq : a = .quiet
          · subst hq
            have hsp : ∀ x ∈ ((R.st i').pe p).spaces, x.att = true ∨
                (x.nctx = 0 ∧ ((S.cf p).dyn = true ∨ ((S.cf p).tracking = true ∧ x.dflt.flag = false))) := by
              rw [E.nospaces i' p]; intro x hx; cases hx
            rcases E.quiets i' p hf (by omega) hnx with hw | hw
            · obtain ⟨j, hj, he⟩ := C102_quiet_partial F E.isSafe hp hw (Or.inl rfl) hf.2.1 hsp
              exact ⟨j, _, hj, he, rfl⟩
            · obtain ⟨j, hj, he⟩ := C102_quiet_partial F E.isSafe hp hw (Or.inr rfl) hf.2.1 hsp
              exact ⟨j, _, hj, he, rfl⟩
          · obtain ⟨j, e, hj, he, ho, _⟩ := C102_issue F E.isSafe hp (i := i') (by
              intro j hj hmu
              obtain ⟨m, rfl⟩ := Nat.exists_eq_add_of_le hj
              have hr := (R.rest m (fun k h1 h2 => hmu k h1 h2)).1
              have hf' : Free S (R.st (i' + m)) p := by
                refine ⟨hp, R.outside m (fun k h1 h2 => hmu k h1 h2) hf.2.1, ?_⟩
                cases hz : (R.st (i' + m)).busy p with
                | nil => rfl
                | cons b t =>
                  have := hr.busy b (by rw [hz]; exact List.mem_cons_self)
                  rw [hbz] at this
                  cases this
              have hn' : P.next p ((R.st (i' + m)).arr p) (pos (i' + m) p) ((R.st (i' + m)).mem p) = some a := by
                rw [hnext _ hf', hr.arr, E.posn m (fun k h1 h2 => hmu k h1 h2), ← hnext i' hf]
                exact hnx
              obtain ⟨e, g', c1, c2, c3⟩ := E.accepts (i' + m) p a hf' (by rw [hr.arr]; omega) hn' hq
              exact ⟨e, g', c1, does_own c2, does_plain c2 hq, c3⟩)
            exact ⟨j, e, hj, he, ho⟩
        by_cases hlt2 : (R.st i).arr p < (R.st (j + 1)).arr p
        · exact ⟨j + 1, by omega, Or.inl hlt2⟩
        · have g1 := R.arr_mono' (p := p) (show i ≤ j + 1 by omega)
          have g2 := R.arr_mono' (p := p) (show i ≤ j by omega)
          have g3 := R.arr_mono' (p := p) (show j ≤ j + 1 by omega)
          have g4 := R.lv_mono' (p := p) (show i ≤ j + 1 by omega)
          have g5 := hlv (j + 1)
          have hpj : pos i p ≤ pos j p := by
            obtain ⟨m, rfl⟩ := Nat.exists_eq_add_of_le (show i ≤ j by omega)
            exact hmono m (by omega)
          rcases E.own j e p he ho with rfl | ⟨b, _, _, h4⟩
          · have := enter_arr (R.step _ _ he)
            omega
          · have harr' : (R.st (j + 1)).arr p = (R.st i).arr p := by omega
            obtain ⟨k, hk, hr⟩ := ih (j + 1) (by omega) (by omega) (by rw [harr', h4]; omega)
            refine ⟨k, by omega, ?_⟩
            rw [harr'] at hr
            exact hr

/-- **C105 (partial)**: in every fair execution all PEs get through all `N` barriers. -/
theorem C105_completes_partial {M : Nat → Mems} {acts : Nat → Nat → List Act} (hm : Means S.npes D P M acts) (hM : R.mem = M 0) (F : R.Fair)
    (E : Exec D P N R pos) : ∃ i, ∀ p < S.npes, N ≤ (R.st i).lv p :=
  C102_barrier F E.isSafe fun _ hp i h1 h2 => E.reaches hm hM F hp _ i h1 h2 (Nat.le_refl _)

/-- **C105 (partial)**: if the program writes nothing after its last barrier, the memory it works on is that of its meaning from some time on for
good. -/
theorem C105_result_partial {M : Nat → Mems} {acts : Nat → Nat → List Act} (hm : Means S.npes D P M acts) (hn : 0 < S.npes) (hM : R.mem = M 0)
    (F : R.Fair) (E : Exec D P N R pos) (hend : ∀ k, N ≤ k → ∀ p < S.npes, ∀ a ∈ acts k p, ∀ b, ¬ a.writes p b) :
    ∃ i, ∀ j, i ≤ j → ∀ b, D b → NoWriter (R.st j) b ∧ (R.st j).mem b.1 b.2 = M N b.1 b.2 := by
  obtain ⟨i, hi⟩ := C105_completes_partial hm hM F E
  refine ⟨i, fun j hj b hD => ?_⟩
  obtain ⟨l, r⟩ := E.run j
  rw [hM] at r
  obtain ⟨K, h⟩ := inv_run hm hn r
  have hNK : N ≤ K := by
    obtain ⟨p, hp, e⟩ := h.min
    have h1 := hi p hp
    have h2 := R.lv_mono' (p := p) hj
    have h3 := (gi_reach (R.reach j)).lv p hp p hp
    dsimp only at e
    omega
  have hsame : ∀ d, M (N + d) b.1 b.2 = M N b.1 b.2 := by
    intro d
    induction d with
    | zero => rfl
    | succ d ih => rw [← ih]; exact (hm (N + d)).rest b hD fun p hp a ha => hend _ (by omega) p hp a ha b
  obtain ⟨d, rfl⟩ := Nat.exists_eq_add_of_le hNK
  have hcn : ¬ InCounter S.npes (acts (N + d)) b := by
    rintro ⟨t, w, ty, ⟨p, hp, v, hv⟩, h1⟩
    exact hend _ hNK p hp _ hv b h1
  obtain ⟨v, hv, hb⟩ := h.byte b hD hcn
  have hval : v = M (N + d) b.1 b.2 := by
    rcases hv with ⟨p, hp, ⟨k, a, _, ha, hw⟩, _⟩ | ⟨_, e⟩
    · exact absurd hw (hend _ hNK p hp a (List.mem_of_getElem? ha) b)
    · exact e
  rcases hb with ⟨h1, h2⟩ | ⟨p, k, a, own, src, Fl⟩
  · exact ⟨h1, by rw [← hsame d, ← hval]; exact h2⟩
  · exact absurd Fl.hw (hend _ hNK p Fl.hp a (List.mem_of_getElem? Fl.ha) b)

end

end Verif.Bsp
