import Verif.Sig.Props
import Verif.Bsp.Fair
/-!
# C108: programs that synchronise with flags get to their end

Infinite fair executions (`Inf.Fair`, C102).
-/
namespace Verif.Sig
open Verif.Sobj Verif.Rma Verif.Vis
open Verif.P2p (CTy)

/-- the calls an action may be: as `Does`, but any read of a wait -/
def Calls (p : Nat) : Act → Ev → Prop
  | .put tgt nbi xs, e => ∃ ctx addr ep, e = .put p tgt nbi ctx addr xs ep
  | .get tgt nbi xs, e => ∃ ctx addr ep, e = .get p tgt nbi ctx addr xs ep
  | .store a v, e => e = .store p a v
  | .quiet, e => e = .call p (.quiet none) ∨ e = .call p (.fence none)
  | .wait a t _ _, e => ∃ r, e = .poll p a (t.bits / 8) r

/-- The execution `R` is one of program `P`; `pos i p`: how many actions PE `p` has done. PEs do nothing but their program (`own`): an action, or
a read with which a wait does not end. A PE that can go on stands at its next action (`quiets`), which the library accepts (`accepts`: apart
from what is in flight; C93 gives this for calls of the routines on symmetric addresses within their limits). -/
structure Exec {S : Sys} (D : Nat × Int → Prop) (P : Prog) (R : Inf S) (pos : Nat → Nat → Nat) : Prop where
  pos0 : pos 0 = fun _ => 0
  step : ∀ i e, R.ev i = some e → XStep S D P ⟨R.st i, pos i⟩ e ⟨R.st (i + 1), pos (i + 1)⟩
  idle : ∀ i, R.ev i = none → pos (i + 1) = pos i
  own : ∀ i e p, R.ev i = some e → e.own = some p → ∃ a, P.next p (pos i p) ((R.st i).mem p) = some a ∧
    ((Does p a e ∧ pos (i + 1) p = pos i p + 1) ∨
      ∃ w t op v r, a = .wait w t op v ∧ e = .poll p w (t.bits / 8) r ∧ ¬ Passes t op v r ∧ pos (i + 1) p = pos i p)
  quiets : ∀ i p, Free S (R.st i) p → P.next p (pos i p) ((R.st i).mem p) = some .quiet → AtCall R i p (.quiet none) ∨ AtCall R i p (.fence none)
  accepts : ∀ i p a, Free S (R.st i) p → P.next p (pos i p) ((R.st i).mem p) = some a → a ≠ .quiet →
    ∃ e g', R.want i p e ∧ Calls p a e ∧ Step S ((R.st i).clear p) e g'

/-- No PEs wait for each other in a circle: the actions have ranks that grow along each PE's program, a wait's flag has the value waited for in
the end, and whoever writes to the flag calls quiet (or fence) afterwards, with an action of lower rank than the wait. -/
structure Ordered (n : Nat) (acts : Nat → List Act) (F : Mems) (rank : Nat → Nat → Nat) : Prop where
  up : ∀ p < n, ∀ i, rank p i < rank p (i + 1)
  comes : ∀ p < n, ∀ (k : Nat) (a : Int) (t : CTy) (op : Int) (v : Nat), (acts p)[k]? = some (Act.wait a t op v) → Passes t op v (word (F p) a t)
  before : ∀ p < n, ∀ (k : Nat) (a : Int) (t : CTy) (op : Int) (v : Nat), (acts p)[k]? = some (Act.wait a t op v) → ∀ q < n, ∀ (j : Nat) (c : Act) y, (acts q)[j]? = some c → a ≤ y →
    y < a + (t.bits / 8 : Nat) → c.writes q (p, y) → ∃ l, j < l ∧ (acts q)[l]? = some .quiet ∧ rank q l < rank p k

section
variable {S : Sys} {D : Nat × Int → Prop} {P : Prog} {M : Mems} {acts : Nat → List Act} {F : Mems} {R : Inf S} {pos : Nat → Nat → Nat}

theorem does_own {p : Nat} {a : Act} {e : Ev} (h : Does p a e) : e.own = some p := by
  cases a with
  | put tgt nbi xs => obtain ⟨_, _, _, rfl⟩ := h; rfl
  | get tgt nbi xs => obtain ⟨_, _, _, rfl⟩ := h; rfl
  | store a v => cases h; rfl
  | quiet => rcases h with rfl | rfl <;> rfl
  | wait a t op v => obtain ⟨_, rfl, _⟩ := h; rfl

theorem calls_own {p : Nat} {a : Act} {e : Ev} (h : Calls p a e) : e.own = some p := by
  cases a with
  | put tgt nbi xs => obtain ⟨_, _, _, rfl⟩ := h; rfl
  | get tgt nbi xs => obtain ⟨_, _, _, rfl⟩ := h; rfl
  | store a v => cases h; rfl
  | quiet => rcases h with rfl | rfl <;> rfl
  | wait a t op v => obtain ⟨_, rfl⟩ := h; rfl

theorem calls_plain {p : Nat} {a : Act} {e : Ev} (h : Calls p a e) (hq : a ≠ .quiet) : e.plain = true := by
  cases a with
  | put tgt nbi xs => obtain ⟨_, _, _, rfl⟩ := h; rfl
  | get tgt nbi xs => obtain ⟨_, _, _, rfl⟩ := h; rfl
  | store a v => cases h; rfl
  | quiet => exact absurd rfl hq
  | wait a t op v => obtain ⟨_, rfl⟩ := h; rfl

theorem does_calls {p : Nat} {a : Act} {e : Ev} (h : Does p a e) : Calls p a e := by
  cases a with
  | wait a t op v => obtain ⟨r, h, _⟩ := h; exact ⟨r, h⟩
  | _ => exact h

theorem calls_safe {p : Nat} {a : Act} {e : Ev} (h : Calls p a e) : e.Safe S := by
  cases a with
  | put tgt nbi xs => obtain ⟨_, _, _, rfl⟩ := h; exact trivial
  | get tgt nbi xs => obtain ⟨_, _, _, rfl⟩ := h; exact trivial
  | store a v => cases h; exact trivial
  | quiet => rcases h with rfl | rfl <;> exact trivial
  | wait a t op v => obtain ⟨_, rfl⟩ := h; exact trivial

theorem calls_call {p : Nat} {a : Act} {q : Nat} {op : Order.Op} (hd : Calls p a (.call q op)) : op = .quiet none ∨ op = .fence none := by
  cases a with
  | put tgt nbi xs => obtain ⟨_, _, _, h⟩ := hd; cases h
  | get tgt nbi xs => obtain ⟨_, _, _, h⟩ := hd; cases h
  | store a v => cases hd
  | quiet => rcases hd with h | h <;> cases h; exacts [Or.inl rfl, Or.inr rfl]
  | wait a t op v => obtain ⟨_, h⟩ := hd; cases h

theorem Exec.run (E : Exec D P R pos) (i : Nat) : ∃ l, XRun S D P (start R.mem) l ⟨R.st i, pos i⟩ := by
  induction i with
  | zero =>
    have : (⟨R.st 0, pos 0⟩ : X) = start R.mem := by rw [E.pos0, R.start]; rfl
    rw [this]
    exact ⟨[], .nil _⟩
  | succ i ih =>
    obtain ⟨l, h⟩ := ih
    cases he : R.ev i with
    | none => rw [R.idle i he, E.idle i he]; exact ⟨l, h⟩
    | some e => exact ⟨_, h.snoc (E.step i e he)⟩

theorem Exec.calls (E : Exec D P R pos) {i : Nat} {e : Ev} {p : Nat} (he : R.ev i = some e) (ho : e.own = some p) : ∃ a, Calls p a e := by
  obtain ⟨a, _, ⟨h, _⟩ | ⟨w, t, op, v, r, rfl, rfl, _⟩⟩ := E.own i e p he ho
  · exact ⟨a, does_calls h⟩
  · exact ⟨.wait w t op v, r, rfl⟩

theorem Exec.isSafe (E : Exec D P R pos) : R.Safe := by
  intro i e he
  cases ho : e.own with
  | none => cases e <;> first | exact trivial | cases ho
  | some p =>
    obtain ⟨a, h⟩ := E.calls he ho
    exact calls_safe h

/-- the position never goes down, and only the PE's own actions move it -/
theorem Exec.pos1 (E : Exec D P R pos) (j p : Nat) : pos j p ≤ pos (j + 1) p ∧ (R.Mute j p → pos (j + 1) p = pos j p) := by
  cases he : R.ev j with
  | none => rw [E.idle j he]; exact ⟨Nat.le_refl _, fun _ => rfl⟩
  | some e =>
    have s := E.step j e he
    generalize hx : (⟨R.st j, pos j⟩ : X) = x at s
    generalize hy : (⟨R.st (j + 1), pos (j + 1)⟩ : X) = y at s
    have ep : x.pos = pos j := by rw [← hx]
    have eq : y.pos = pos (j + 1) := by rw [← hy]
    rw [← ep, ← eq]
    cases s with
    | act q a hn hd s =>
      dsimp only
      rw [upd_at]
      split
      · rename_i e1
        subst e1
        exact ⟨by omega, fun hmu => absurd (does_own hd) (hmu e he)⟩
      · exact ⟨Nat.le_refl _, fun _ => rfl⟩
    | other hw s => exact ⟨Nat.le_refl _, fun _ => rfl⟩

theorem Exec.mono (E : Exec D P R pos) (p : Nat) {i j : Nat} (h : i ≤ j) : pos i p ≤ pos j p := by
  obtain ⟨n, rfl⟩ := Nat.exists_eq_add_of_le h
  clear h
  induction n with
  | zero => exact Nat.le_refl _
  | succ n ih => exact ih.trans (E.pos1 (i + n) p).1

theorem Exec.posn (E : Exec D P R pos) {i p : Nat} (n : Nat) (h : ∀ j, i ≤ j → j < i + n → R.Mute j p) : pos (i + n) p = pos i p := by
  induction n with
  | zero => rfl
  | succ n ih =>
    rw [← ih (fun j h1 h2 => h j h1 (by omega))]
    exact (E.pos1 (i + n) p).2 (h (i + n) (by omega) (by omega))

/-- the PEs have no spaces, and are in no barrier -/
theorem Exec.nospaces (E : Exec D P R pos) (i : Nat) : (∀ p, ((R.st i).pe p).spaces = []) ∧ ∀ p, (R.st i).arr p = 0 := by
  induction i with
  | zero => rw [R.start]; exact ⟨fun _ => rfl, fun _ => rfl⟩
  | succ i ih =>
    cases he : R.ev i with
    | none => rw [R.idle i he]; exact ih
    | some e =>
      refine ⟨Bsp.nospaces_step (R.step i e he) (fun p op h => ?_) ih.1, ?_⟩
      · subst h
        obtain ⟨a, h⟩ := E.calls he rfl
        exact calls_call h
      · rw [Bsp.arr_step (R.step i e he)]
        · exact ih.2
        · rintro p rfl
          obtain ⟨a, h⟩ := E.calls (p := p) he rfl
          cases a with
          | put tgt nbi xs => obtain ⟨_, _, _, h⟩ := h; cases h
          | get tgt nbi xs => obtain ⟨_, _, _, h⟩ := h; cases h
          | store a v => cases h
          | quiet => rcases h with h | h <;> cases h
          | wait a t op v => obtain ⟨_, h⟩ := h; cases h

theorem Exec.outside (E : Exec D P R pos) {p : Nat} (hp : p < S.npes) (i : Nat) : (R.st i).arr p = (R.st i).lv p := by
  have h1 := (gi_reach (R.reach i)).lv p hp p hp
  have h2 := (E.nospaces i).2 p
  omega

/-- a byte of an action that a quiet has followed -/
theorem quiet_settled (hm : Means S.npes D P M acts F) {x : X} (h : Inv S D M acts F x) {q j l : Nat} {c : Act} {b : Nat × Int} (hq : q < S.npes)
    (hc : (acts q)[j]? = some c) (hw : c.writes q b) (hj : j < l) (hl : (acts q)[l]? = some .quiet) (hp : l < x.pos q) :
    Settled S.npes acts F x b := by
  rcases h.byte b (hm.inside q hq c (List.mem_of_getElem? hc) b (Or.inl hw)) with ⟨h1, _⟩ | h1 | ⟨q', j', c', own, src, f⟩
  · exact absurd ⟨q, hq, j, c, by omega, hc, hw⟩ h1
  · exact h1
  · obtain ⟨rfl, rfl⟩ := hm.single q hq q' f.hp j j' c c' b hc f.ha hw f.hw
    exact absurd ⟨l, hj, hp, hl⟩ f.oquiet

/-- finitely many things that happen for good have all happened some time -/
theorem eventually_all {Q : Nat → Nat → Prop} (n : Nat) (h : ∀ y < n, ∃ i, ∀ j, i ≤ j → Q y j) : ∃ i, ∀ j, i ≤ j → ∀ y < n, Q y j := by
  induction n with
  | zero => exact ⟨0, fun _ _ y hy => by omega⟩
  | succ n ih =>
    obtain ⟨i1, h1⟩ := ih fun y hy => h y (by omega)
    obtain ⟨i2, h2⟩ := h n (by omega)
    refine ⟨max i1 i2, fun j hj y hy => ?_⟩
    rcases Nat.lt_succ_iff_lt_or_eq.mp hy with h3 | h3
    · exact h1 j (by omega) y h3
    · rw [h3]; exact h2 j (by omega)

/-- a PE that has something to do calls it -/
theorem Exec.acts_some (hm : Means S.npes D P M acts F) (hM : R.mem = M) (Fa : R.Fair) (E : Exec D P R pos) {p : Nat} (hp : p < S.npes) (i : Nat)
    {a : Act} (ha : (acts p)[pos i p]? = some a) : ∃ j e, i ≤ j ∧ R.ev j = some e ∧ e.own = some p := by
  have hrun : ∀ i, ∃ l, XRun S D P (start M) l ⟨R.st i, pos i⟩ := fun i => hM ▸ E.run i
  have hnext : ∀ i, Free S (R.st i) p → P.next p (pos i p) ((R.st i).mem p) = (acts p)[pos i p]? := by
    intro i hf
    obtain ⟨l, r⟩ := hrun i
    exact C108_program hm r hf
  by_contra hno
  push Not at hno
  have hmu : ∀ j, i ≤ j → R.Mute j p := fun j hj e he => hno j e hj he
  obtain ⟨i', hi, hbz⟩ := C102_blocking Fa E.isSafe hp i
  have hf : Free S (R.st i') p := ⟨hp, E.outside hp i', hbz⟩
  have hpos : ∀ j, i ≤ j → pos j p = pos i p := by
    intro j hj
    obtain ⟨m, rfl⟩ := Nat.exists_eq_add_of_le hj
    exact E.posn m fun k h1 _ => hmu k h1
  have hnx : P.next p (pos i' p) ((R.st i').mem p) = some a := by rw [hnext i' hf, hpos i' hi, ha]
  by_cases hq : a = .quiet
  · subst hq
    have hsp : ∀ x ∈ ((R.st i').pe p).spaces, x.att = true ∨
        (x.nctx = 0 ∧ ((S.cf p).dyn = true ∨ ((S.cf p).tracking = true ∧ x.dflt.flag = false))) := by
      rw [(E.nospaces i').1 p]; intro x hx; cases hx
    rcases E.quiets i' p hf hnx with hw | hw
    · obtain ⟨j, hj, he⟩ := C102_quiet_partial Fa E.isSafe hp hw (Or.inl rfl) hf.2.1 hsp
      exact hmu j (by omega) _ he rfl
    · obtain ⟨j, hj, he⟩ := C102_quiet_partial Fa E.isSafe hp hw (Or.inr rfl) hf.2.1 hsp
      exact hmu j (by omega) _ he rfl
  · obtain ⟨j, e, hj, he, ho, _⟩ := C102_issue Fa E.isSafe hp (i := i') (by
      intro j hj _
      obtain ⟨m, rfl⟩ := Nat.exists_eq_add_of_le hj
      have hr := (R.rest (i := i') m (fun k h1 h2 => hmu k (by omega))).1
      have hf' : Free S (R.st (i' + m)) p := by
        refine ⟨hp, E.outside hp _, ?_⟩
        cases hz : (R.st (i' + m)).busy p with
        | nil => rfl
        | cons b t =>
          have := hr.busy b (by rw [hz]; exact List.mem_cons_self)
          rw [hbz] at this
          cases this
      have hn' : P.next p (pos (i' + m) p) ((R.st (i' + m)).mem p) = some a := by rw [hnext _ hf', hpos _ (by omega), ha]
      obtain ⟨e, g', c1, c2, c3⟩ := E.accepts (i' + m) p a hf' hn' hq
      exact ⟨e, g', c1, calls_own c2, calls_plain c2 hq, c3⟩)
    exact hmu j (by omega) e he ho

/-- the library's events of a PE happen when it can go on -/
theorem Exec.own_next (hm : Means S.npes D P M acts F) (hM : R.mem = M) (E : Exec D P R pos) {j p : Nat} {e : Ev} (he : R.ev j = some e)
    (ho : e.own = some p) : Free S (R.st j) p ∧ P.next p (pos j p) ((R.st j).mem p) = (acts p)[pos j p]? := by
  have hf : Free S (R.st j) p := own_free (R.step j e he) ho
  obtain ⟨l, r⟩ := E.run j
  rw [hM] at r
  exact ⟨hf, C108_program hm r hf⟩

/-- the flag of a wait gets its final value for good -/
theorem Exec.flag (hm : Means S.npes D P M acts F) (hM : R.mem = M) (E : Exec D P R pos) {p k : Nat} (hp : p < S.npes) {a : Int} {t : CTy} {op : Int}
    {v : Nat} (hk : (acts p)[k]? = some (.wait a t op v))
    (hb : ∀ q < S.npes, ∀ (j : Nat) (c : Act) y, (acts q)[j]? = some c → a ≤ y → y < a + (t.bits / 8 : Nat) → c.writes q (p, y) →
      ∃ l, j < l ∧ (acts q)[l]? = some .quiet ∧ ∃ i, l < pos i q) :
    ∃ i, ∀ j, i ≤ j → word ((R.st j).mem p) a t = word (F p) a t := by
  have inv : ∀ i, Inv S D M acts F ⟨R.st i, pos i⟩ := by
    intro i
    obtain ⟨l, r⟩ := E.run i
    rw [hM] at r
    exact inv_run hm r
  have key : ∀ y < t.bits / 8, ∃ i, ∀ j, i ≤ j → (R.st j).mem p (a + (y : Nat)) = F p (a + (y : Nat)) := by
    intro y hy
    have hD : D (p, a + (y : Nat)) := hm.inside p hp _ (List.mem_of_getElem? hk) _ (Or.inr ⟨rfl, by simp, by simp; omega⟩)
    by_cases hw : ∃ q < S.npes, ∃ (j : Nat) (c : Act), (acts q)[j]? = some c ∧ c.writes q (p, a + (y : Nat))
    · obtain ⟨q, hq, j, c, hc, hcw⟩ := hw
      obtain ⟨l, h1, h2, i, h3⟩ := hb q hq j c _ hc (by omega) (by omega) hcw
      refine ⟨i, fun i' hi' => ?_⟩
      exact (quiet_settled hm (inv i') hq hc hcw h1 h2 (by have := E.mono q hi'; dsimp only; omega)).val
    · have hn : ∀ q < S.npes, ∀ c ∈ acts q, ¬ c.writes q (p, a + (y : Nat)) := by
        intro q hq c hc h
        obtain ⟨j, hj⟩ := List.getElem?_of_mem hc
        exact hw ⟨q, hq, j, c, hj, h⟩
      refine ⟨0, fun i' _ => ?_⟩
      rcases (inv i').byte _ hD with ⟨h1, h2, h3⟩ | h1 | ⟨q, j, c, own, src, f⟩
      · exact h3.trans (hm.rest _ hD hn).symm
      · exact h1.val
      · exact absurd f.hw (hn q f.hp c (List.mem_of_getElem? f.ha))
  obtain ⟨i, hi⟩ := eventually_all (Q := fun y j => (R.st j).mem p (a + (y : Nat)) = F p (a + (y : Nat))) _ key
  refine ⟨i, fun j hj => word_congr fun y h1 h2 => ?_⟩
  have := hi j hj (y - a).toNat (by omega)
  rwa [show a + (((y - a).toNat : Nat) : Int) = y by omega] at this

/-- every action is done some time -/
theorem Exec.passes (hm : Means S.npes D P M acts F) (hM : R.mem = M) (Fa : R.Fair) (E : Exec D P R pos) {rank : Nat → Nat → Nat}
    (ho : Ordered S.npes acts F rank) (r : Nat) : ∀ p k, p < S.npes → k < (acts p).length → rank p k = r → ∃ i, k < pos i p := by
  induction r using Nat.strong_induction_on with
  | _ r ih =>
    intro p k hp hk hr
    have h0 : ∃ i, k ≤ pos i p := by
      cases k with
      | zero => exact ⟨0, Nat.zero_le _⟩
      | succ k =>
        have := ho.up p hp k
        exact ih (rank p k) (by omega) p k hp (by omega) rfl
    obtain ⟨i0, h0⟩ := h0
    obtain ⟨a, ha⟩ : ∃ a, (acts p)[k]? = some a := ⟨_, List.getElem?_eq_getElem hk⟩
    have main : ∃ i1, ∀ j, i1 ≤ j → ∀ w t op v, a = .wait w t op v → word ((R.st j).mem p) w t = word (F p) w t := by
      cases a with
      | wait w t op v =>
        obtain ⟨i1, h1⟩ := E.flag hm hM hp ha (by
          intro q hq j c y hc hy1 hy2 hw
          obtain ⟨l, l1, l2, l3⟩ := ho.before p hp k w t op v ha q hq j c y hc hy1 hy2 hw
          obtain ⟨i, hi⟩ := ih _ (by omega) q l hq (List.getElem?_eq_some_iff.mp l2).1 rfl
          exact ⟨l, l1, l2, i, hi⟩)
        refine ⟨i1, fun j hj w' t' op' v' e => ?_⟩
        cases e
        exact h1 j hj
      | _ => exact ⟨0, fun _ _ _ _ _ _ e => by cases e⟩
    obtain ⟨i1, h1⟩ := main
    by_contra hno
    push Not at hno
    have hpos : ∀ j, i0 ≤ j → pos j p = k := fun j hj => by
      have := E.mono p hj
      have := hno j
      omega
    obtain ⟨j, e, hj, he, hoo⟩ := E.acts_some hm hM Fa hp (max i0 i1) (a := a) (by rw [hpos _ (by omega)]; exact ha)
    obtain ⟨hf, hn⟩ := E.own_next hm hM he hoo
    rw [hpos j (by omega), ha] at hn
    obtain ⟨a', h3, h4⟩ := E.own j e p he hoo
    rw [hpos j (by omega), hn] at h3
    cases h3
    rcases h4 with ⟨_, h4⟩ | ⟨w, t, op, v, r', rfl, rfl, h5, _⟩
    · rw [hpos _ (by omega), hpos _ (by omega)] at h4
      omega
    · have s := R.step j _ he
      refine h5 ?_
      have hr' : r' = word ((R.st j).mem p) w t := by
        generalize hg : R.st (j + 1) = g' at s
        generalize hw : w = w' at s
        clear hg
        cases s with
        | poll p addr r n mode hf hm hr => rfl
      rw [hr', h1 j (by omega) w t op v rfl]
      exact ho.comes p hp k w t op v ha

/-- **C108** (the program gets to its end): in every fair execution all PEs get to the end of their programs, and from then on have done
with them; and if every PE has called quiet after its puts and non-blocking gets, all memory has its final value from then on. -/
theorem C108_ends (hm : Means S.npes D P M acts F) (hM : R.mem = M) (Fa : R.Fair) (E : Exec D P R pos) {rank : Nat → Nat → Nat}
    (ho : Ordered S.npes acts F rank) :
    ∃ i, ∀ j, i ≤ j → (∀ p < S.npes, pos j p = (acts p).length ∧ (R.st j).busy p = []) ∧
      ((∀ p < S.npes, ∀ k a, (acts p)[k]? = some a → a.lateWrite → QuietBetween (acts p) k (acts p).length) →
        ∀ b, D b → (R.st j).mem b.1 b.2 = F b.1 b.2) := by
  have inv : ∀ i, Inv S D M acts F ⟨R.st i, pos i⟩ := by
    intro i
    obtain ⟨l, r⟩ := E.run i
    rw [hM] at r
    exact inv_run hm r
  have one : ∀ p < S.npes, ∃ i, ∀ j, i ≤ j → pos j p = (acts p).length ∧ (R.st j).busy p = [] := by
    intro p hp
    have h0 : ∃ i, (acts p).length ≤ pos i p := by
      rcases Nat.eq_zero_or_pos (acts p).length with h | h
      · exact ⟨0, by omega⟩
      · obtain ⟨i, hi⟩ := E.passes hm hM Fa ho _ p ((acts p).length - 1) hp (by omega) rfl
        exact ⟨i, by omega⟩
    obtain ⟨i0, h0⟩ := h0
    have hpos : ∀ j, i0 ≤ j → pos j p = (acts p).length := fun j hj => by
      have h1 := E.mono p hj
      have h2 : pos j p ≤ (acts p).length := (inv j).len p hp
      omega
    have hmu : ∀ j, i0 ≤ j → R.Mute j p := by
      intro j hj e he hoo
      obtain ⟨_, hn⟩ := E.own_next hm hM he hoo
      obtain ⟨a, h3, _⟩ := E.own j e p he hoo
      rw [hn, hpos j hj, List.getElem?_eq_none (Nat.le_refl _)] at h3
      cases h3
    obtain ⟨i1, h1, h2⟩ := C102_blocking Fa E.isSafe hp i0
    refine ⟨i1, fun j hj => ⟨hpos j (by omega), ?_⟩⟩
    obtain ⟨m, rfl⟩ := Nat.exists_eq_add_of_le hj
    have hr := (R.rest (i := i1) m (fun k h1 h2 => hmu k (by omega))).1
    cases hz : (R.st (i1 + m)).busy p with
    | nil => rfl
    | cons b t =>
      have := hr.busy b (by rw [hz]; exact List.mem_cons_self)
      rw [h2] at this
      cases this
  obtain ⟨i, hi⟩ := eventually_all (Q := fun p j => pos j p = (acts p).length ∧ (R.st j).busy p = []) _ one
  refine ⟨i, fun j hj => ⟨hi j hj, fun hq b hb => ?_⟩⟩
  obtain ⟨l, r⟩ := E.run j
  rw [hM] at r
  exact (C108_result hm r (hi j hj) hq hb).1

end

end Verif.Sig
